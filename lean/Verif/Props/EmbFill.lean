import Verif.Proofs.EmbFill
import Verif.Props.Embedded
/-!
C109: MaxPefBucket and how full the buckets of an embedded map get (the counterpart of C99).  Neighbours `n :: c` of the bucket list
`st.blist` (largest boundary first, the root `[]` closes the top) are a bucket `c` and the next boundary.
-/
set_option maxRecDepth 100000
set_option autoImplicit false
namespace SLM.Emb
open Spec (PMap Ans)

/-- The keys in the array of bucket `c`. -/
def keysIn (st : St) (c : Path) : List Slot :=
  match st.pools c with
  | some P => P.used
  | none => []

/-- The upper end of the hashes of the bucket below `n`. -/
def topOf (st : St) (n : Path) : Nat := if n = [] then 2 ^ 64 else (st.mem n).rev.toNat

/-- The full property: no bucket holds more than MaxPefBucket keys. -/
def C109_statement (H : HashFns) (mp : Nat) (ops : List Op) : Prop :=
  ∀ A B n c, (run H (initSt mp) ops).1.blist = A ++ n :: c :: B → (keysIn (run H (initSt mp) ops).1 c).length ≤ mp

theorem below_max {k : U64} (h : k ≠ maxU64) : rev64 k < maxU64 := by
  have h2 : rev64 k ≠ maxU64 := by
    intro hx
    apply h
    rw [← rev64_rev64 k, hx]
    decide
  have h3 : (maxU64 : U64).toNat = 2 ^ 64 - 1 := by decide
  rw [BitVec.lt_def, h3]
  have := (rev64 k).isLt
  have : (rev64 k).toNat ≠ 2 ^ 64 - 1 := fun hx => h2 (BitVec.eq_of_toNat_eq (by rw [hx, h3]))
  omega

/-- C109 as far as it goes: a bucket that holds more than MaxPefBucket keys has all of them in the lower half of its range, or it holds
one too many and all of them in the upper half. -/
theorem C109_partial {H : HashFns} {mp : Nat} {ops : List Op} (h : Clean H mp ops) (hc : NoCrash H mp ops)
    (hmax : ∀ op ∈ ops, ∀ k c, setHash H op = some (k, c) → k ≠ maxU64)
    {A B : List Path} {n c : Path} (hb : (run H (initSt mp) ops).1.blist = A ++ n :: c :: B) :
    let st := (run H (initSt mp) ops).1
    (keysIn st c).length ≤ mp ∨ (∀ x ∈ keysIn st c, 2 * x.rev.toNat < (st.mem c).rev.toNat + topOf st n) ∨
      ((keysIn st c).length = mp + 1 ∧ ∀ x ∈ keysIn st c, (st.mem c).rev.toNat + topOf st n ≤ 2 * x.rev.toNat) := by
  obtain ⟨⟨gl, g⟩, hm, _⟩ := h.rel hc
  have hF := run_full (H := H) (K := hashes H ops) h.one h.kok ops (initSt mp) _ _ (init_rel H _ mp h.one) rfl (initE_full mp h.one) h.plain
    (fun op ho kc hk => mem_hashes.2 ⟨op, ho, hk⟩) (fun op ho kc hk => below_max (hmax op ho kc.1 kc.2 hk)) hc
  intro st
  change RelE H _ st gl _ at g
  change Full st at hF
  change st.maxPer = mp at hm
  change st.blist = _ at hb
  have ha : Adj st.blist n c := by rw [hb]; exact adj_of_decomp (hb ▸ g.ei.desc)
  have hcn := g.ei.adj_ne ha
  have hlo : (st.mem c).rev.toNat = bval c := g.ei.bi.rev_toNat (g.ei.sub c ha.2.1) hcn
  have hhi : topOf st n = bval n := by
    unfold topOf
    split
    · rename_i e; subst e; rw [bval_nil]
    · rename_i e; exact g.ei.bi.rev_toNat (g.ei.sub n ha.1) e
  obtain ⟨P, xs, z, g1, g2, g3⟩ := g.ei.content n c ha
  have hk : keysIn st c = xs := by unfold keysIn; rw [g1]; exact g2.used
  rw [hk, hlo, hhi]
  by_cases hl : xs.length ≤ mp
  · exact Or.inl hl
  · obtain ⟨_, h2⟩ := (hF n c ha P g1).2 (by rw [g2.len, hm]; omega)
    obtain ⟨k, hw⟩ := g.ei.width n c ha
    have hmid := hw.mid
    have hw1 := hw.1
    have he : 2 * (2 ^ k / 2) = 2 ^ k := by
      have := hw.2.2.1
      obtain ⟨j, rfl⟩ : ∃ j, k = j + 1 := ⟨k - 1, by omega⟩
      rw [pow_succ]; omega
    rw [g2.used] at h2
    rcases h2 with h2 | ⟨h2, h3⟩
    · right; left
      intro x hx
      have := h2 x hx
      omega
    · right; right
      refine ⟨by rw [g2.len, hm] at h2; exact_mod_cast h2, ?_⟩
      intro x hx
      have := h3 x hx
      omega

/-- Bit 4 of the primary hash is clear in everything the operation addresses. -/
def lowOp (H : HashFns) : Op → Prop
  | .set key _ => ∀ k c, keyToHash H key = some (k, c) → k.getLsbD 4 = false
  | .get key => ∀ k c, keyToHash H key = some (k, c) → k.getLsbD 4 = false
  | .loadItem key => ∀ k c, keyToHash H key = some (k, c) → k.getLsbD 4 = false
  | .getByHash k _ => k.getLsbD 4 = false
  | .loadItemByHash k _ => k.getLsbD 4 = false
  | _ => True

theorem lowR_of {k : U64} (h : k.getLsbD 4 = false) : LowR (rev64 k) := by
  unfold LowR
  have hb : (rev64 k).getLsbD 59 = false := by
    simp only [rev64, BitVec.getLsbD_reverse, BitVec.getMsbD_eq_getLsbD]
    simpa using h
  have ht : (rev64 k).toNat.testBit 59 = false := by rw [BitVec.testBit_toNat]; exact hb
  rw [Nat.testBit_eq_decide_div_mod_eq] at ht
  simp only [decide_eq_false_iff_not] at ht
  omega

theorem opLow_of {H : HashFns} {op : Op} (h : lowOp H op) : OpLow H op := by
  cases op with
  | set key v => exact fun kc hk => lowR_of (h kc.1 kc.2 hk)
  | get key => exact fun kc hk => lowR_of (h kc.1 kc.2 hk)
  | loadItem key => exact fun kc hk => lowR_of (h kc.1 kc.2 hk)
  | getByHash k c => exact lowR_of h
  | loadItemByHash k c => exact lowR_of h
  | _ => trivial

/-- C109 fails without bound: while no hash has bit 4 set nothing crashes and no bucket is ever divided, however many keys are stored. -/
theorem C109_refuted {H : HashFns} {mp : Nat} {ops : List Op} (h : Clean H mp ops) (hl : ∀ op ∈ ops, lowOp H op) :
    NoCrash H mp ops ∧ (run H (initSt mp) ops).1.blist = (initSt mp).blist := by
  have := run_low (H := H) (K := hashes H ops) h.kok (by
      intro kc hk
      obtain ⟨op, ho, ho'⟩ := mem_hashes.1 hk
      exact setHash_low (opLow_of (hl op ho)) ho') ops (initSt mp) _ _ (init_rel H _ mp h.one) rfl rfl h.plain
    (fun op ho kc hk => mem_hashes.2 ⟨op, ho, hk⟩) (fun op ho => opLow_of (hl op ho))
  exact ⟨this.2, this.1⟩

theorem top_of_mod {k : U64} {j : Nat} (h : k.toNat % 16 = j) :
    (rev64 k).toNat / 2 ^ 60 = (rev64 (BitVec.ofNat 64 j)).toNat / 2 ^ 60 := by
  apply Nat.eq_of_testBit_eq
  intro i
  rw [Nat.testBit_div_two_pow, Nat.testBit_div_two_pow, BitVec.testBit_toNat, BitVec.testBit_toNat]
  by_cases hi : i < 4
  · simp only [rev64, BitVec.getLsbD_reverse, BitVec.getMsbD_eq_getLsbD]
    have h63 : 64 - 1 - (i + 60) = 3 - i := by omega
    rw [h63]
    have h1 : k.getLsbD (3 - i) = (BitVec.ofNat 64 j).getLsbD (3 - i) := by
      rw [BitVec.getLsbD_ofNat, ← h, ← BitVec.testBit_toNat]
      have : (16 : Nat) = 2 ^ 4 := rfl
      rw [this, Nat.testBit_mod_two_pow]
      simp only [show 3 - i < 4 by omega, show 3 - i < 64 by omega, decide_true, Bool.true_and]
    rw [h1]
  · rw [BitVec.getLsbD_of_ge _ _ (by omega), BitVec.getLsbD_of_ge _ _ (by omega)]

/-- If moreover the lowest four hash bits of all stored keys agree, one bucket holds all of them. -/
theorem C109_refuted_all {H : HashFns} {mp : Nat} {ops : List Op} (h : Clean H mp ops) (hl : ∀ op ∈ ops, lowOp H op)
    {j : Nat} (hj : ∀ op ∈ ops, ∀ k c, setHash H op = some (k, c) → k.toNat % 16 = j) :
    ∃ c ∈ (initSt mp).blist, ((keysIn (run H (initSt mp) ops).1 c).length : Int) = (run H (initSt mp) ops).1.len := by
  obtain ⟨hc, hbl⟩ := C109_refuted h hl
  obtain ⟨⟨gl, g⟩, hm, _⟩ := h.rel hc
  obtain ⟨st, hst⟩ : ∃ st, st = (run H (initSt mp) ops).1 := ⟨_, rfl⟩
  rw [← hst] at g hbl hm ⊢
  obtain ⟨t, ht⟩ : ∃ t, t = (rev64 (BitVec.ofNat 64 j)).toNat / 2 ^ 60 := ⟨_, rfl⟩
  have ht16 : t < 16 := by have := (rev64 (BitVec.ofNat 64 j)).isLt; omega
  have htop := g.ei.tops t ht16
  refine ⟨[t], by rw [← hbl]; exact htop, ?_⟩
  obtain ⟨n, ha⟩ := adj_next g.ei.desc g.ei.head htop (by simp)
  obtain ⟨P, xs, z, g1, g2, g3⟩ := g.ei.content n [t] ha
  have hk : keysIn st [t] = xs := by unfold keysIn; rw [g1]; exact g2.used
  rw [hk]
  have hin : ∀ x, Stored st x → x ∈ xs := by
    intro x hx
    have hK := g.mem x hx
    obtain ⟨op, ho, ho'⟩ := mem_hashes.1 hK
    have hmod := top_of_mod (hj op ho _ _ ho')
    rw [rev64_rev64, ← ht] at hmod
    obtain ⟨q, Q, hQ, hs⟩ := hx
    obtain ⟨hq, hqn⟩ := g.ei.pool q (by rw [hQ]; rfl)
    obtain ⟨n', ha'⟩ := adj_next g.ei.desc g.ei.head hq hqn
    obtain ⟨P', xs', z', g1', g2', g3'⟩ := g.ei.content n' q ha'
    rw [hQ] at g1'; injection g1' with g1'; subst g1'
    rw [g2'.used] at hs
    have hr := g3' x hs
    have ha0 := ha'
    rw [hbl] at ha0
    obtain ⟨t', e1, e2⟩ := init_adj ha0
    have htt : t' = t := by
      rw [← hmod]
      rw [e1, e2] at hr
      omega
    have hqt : q = [t] := bval_inj g.ei.desc hq htop (by rw [e1, bval_top, htt])
    subst hqt
    rw [hQ] at g1; injection g1 with g1; subst g1
    rw [← g2.used, g2'.used]; exact hs
  obtain ⟨L, l1, l2, l3⟩ := g.cnt
  rw [l3]
  have hp : L.Perm (xs.map (·.rev)) := by
    rw [List.perm_ext_iff_of_nodup l1 (by
      rw [List.Nodup, List.pairwise_map]
      exact g2.sorted.imp (fun {a b} h hc => by rw [hc] at h; exact BitVec.lt_irrefl _ h))]
    intro r
    rw [l2, List.mem_map]
    constructor
    · rintro ⟨x, x1, x2⟩; exact ⟨x, hin x x1, x2⟩
    · rintro ⟨x, x1, x2⟩; exact ⟨x, ⟨[t], P, g1, by rw [g2.used]; exact x1⟩, x2⟩
  rw [hp.length_eq, List.length_map]

/-! ### applied -/

/-- Eight keys in the lower half of the lowest bucket; two lookups. -/
def lowOps : List Op :=
  (List.range 8).map (fun i => .set (.str (key8 (BitVec.ofNat 64 (i * 2 ^ 40 + 1)))) (exV i)) ++
  [.get (.str (key8 1)), .get (.str (key8 0x0100000000000000)), .len]

theorem lowOps_clean : Clean hR 2 lowOps := cleanB_sound (by decide +kernel)

/-- Executable form of `lowOp`. -/
def lowB (H : HashFns) : Op → Bool
  | .set key _ => (keyToHash H key).all (fun kc => !kc.1.getLsbD 4)
  | .get key => (keyToHash H key).all (fun kc => !kc.1.getLsbD 4)
  | .loadItem key => (keyToHash H key).all (fun kc => !kc.1.getLsbD 4)
  | .getByHash k _ => !k.getLsbD 4
  | .loadItemByHash k _ => !k.getLsbD 4
  | _ => true

theorem lowB_sound {H : HashFns} {op : Op} (h : lowB H op = true) : lowOp H op := by
  cases op with
  | set key v => intro k c hk; simpa [lowB, hk] using h
  | get key => intro k c hk; simpa [lowB, hk] using h
  | loadItem key => intro k c hk; simpa [lowB, hk] using h
  | getByHash k c => simpa [lowB, lowOp] using h
  | loadItemByHash k c => simpa [lowB, lowOp] using h
  | _ => trivial

theorem lowOps_low : ∀ op ∈ lowOps, lowOp hR op := by
  intro op ho
  have h : lowOps.all (lowB hR) = true := by decide +kernel
  exact lowB_sound (List.all_eq_true.1 h op ho)

example : NoCrash hR 2 lowOps ∧ (run hR (initSt 2) lowOps).1.blist = (initSt 2).blist := C109_refuted lowOps_clean lowOps_low

/-- Limit 2, eight keys, all in one bucket. -/
theorem C109_refuted_applies : ((keysIn (run hR (initSt 2) lowOps).1 [0]).length == 8 &&
    decide ((run hR (initSt 2) lowOps).2.getLast? = some (.num 8))) = true := by
  decide +kernel

theorem C109_refuted_statement : ¬ C109_statement hR 2 lowOps := by
  intro h
  have hb : (run hR (initSt 2) lowOps).1.blist = (initSt 2).blist := (C109_refuted lowOps_clean lowOps_low).2
  have h0 : (initSt 2).blist = (initSt 2).blist.take 15 ++ [1] :: [0] :: [] := by decide +kernel
  have := h _ _ _ _ (hb.trans h0)
  have h8 := C109_refuted_applies
  simp only [Bool.and_eq_true, beq_iff_eq] at h8
  omega

/-- `C109_partial` on a history that divides a bucket. -/
theorem C109_partial_applies : ((run hR (initSt 3) exOps).1.blist.length == 18) = true := by
  decide +kernel

example {A B : List Path} {n c : Path} (hb : (run hR (initSt 3) exOps).1.blist = A ++ n :: c :: B) :=
  C109_partial exClean exNoCrash (by
    intro op ho k c hk
    have h : (hashes hR exOps).all (fun kc => decide (kc.1 ≠ maxU64)) = true := by decide +kernel
    have := List.all_eq_true.1 h (k, c) (mem_hashes.2 ⟨op, ho, hk⟩)
    simpa using this) hb

/-! ### C26 -/

/-- The hash pair an operation looks up. -/
def lookHash (H : HashFns) : Op → Option (U64 × U64)
  | .set key _ => keyToHash H key
  | .get key => keyToHash H key
  | .loadItem key => keyToHash H key
  | .getByHash k c => some (k, c)
  | .loadItemByHash k c => some (k, c)
  | _ => none

/-- C26, exactly: after a clean history without a crash, an operation on the hash `k` does not come back if and only if the bucket of `k` holds more
than MaxPefBucket keys and `k` is in the upper half of that bucket's range. -/
theorem C26_exact_partial {H : HashFns} {mp : Nat} {ops : List Op} {op : Op} (h : Clean H mp (ops ++ [op])) (hc : NoCrash H mp ops)
    (hmax : ∀ o ∈ ops, ∀ k c, setHash H o = some (k, c) → k ≠ maxU64) {k cc : U64} (hk : lookHash H op = some (k, cc)) :
    let st := (run H (initSt mp) ops).1
    (∃ e, (step H st op).2 = .crash e) ↔ ∃ A B n c, st.blist = A ++ n :: c :: B ∧
      (st.mem c).rev.toNat ≤ (rev64 k).toNat ∧ (rev64 k).toNat < topOf st n ∧ mp < (keysIn st c).length ∧
      (st.mem c).rev.toNat + topOf st n ≤ 2 * (rev64 k).toNat := by
  obtain ⟨⟨gl, s, g⟩, hm⟩ := h.last hc
  have hF := run_full (H := H) (K := hashes H (ops ++ [op])) h.one h.kok ops (initSt mp) _ _ (init_rel H _ mp h.one) rfl (initE_full mp h.one)
    (fun o ho => h.plain o (by simp [ho])) (fun o ho kc hk => mem_hashes.2 ⟨o, by simp [ho], hk⟩)
    (fun o ho kc hk => below_max (hmax o ho kc.1 kc.2 hk)) hc
  intro st
  change RelE H _ st gl s at g
  change Full st at hF
  change st.maxPer = mp at hm
  have hiff : (∃ e, (step H st op).2 = .crash e) ↔ find st k cc = none := by
    constructor
    · rintro ⟨e, he⟩
      by_contra hf
      cases op with
      | set key v =>
        cases key with
        | str str =>
          have hkk : (H.mem str, H.xx str) = (k, cc) := by simpa [lookHash, keyToHash] using hk
          injection hkk with k1 k2; subst k1; subst k2
          exact g.set_comes_back (by rw [hm]; exact h.kok) (mem_hashes.2 ⟨_, List.mem_append_right _ (List.mem_singleton.2 rfl), rfl⟩) v hf e he
        | _ => exact absurd (h.plain _ (List.mem_append_right _ (List.mem_singleton.2 rfl))) (by simp [Plain])
      | get key =>
        have hkk : keyToHash H key = some (k, cc) := hk
        simp only [step, opGet, hkk, opGetByHash] at he
        split at he
        · rename_i h0; exact hf h0
        · cases he
        · cases he
      | loadItem key =>
        have hkk : keyToHash H key = some (k, cc) := hk
        simp only [step, opLoadItem, hkk, opLoadItemByHash] at he
        split at he
        · rename_i h0; exact hf h0
        · cases he
        · cases he
      | getByHash k' c' =>
        have hkk : (k', c') = (k, cc) := by simpa [lookHash] using hk
        injection hkk with k1 k2; subst k1; subst k2
        simp only [step, opGetByHash] at he
        split at he
        · rename_i h0; exact hf h0
        · cases he
        · cases he
      | loadItemByHash k' c' =>
        have hkk : (k', c') = (k, cc) := by simpa [lookHash] using hk
        injection hkk with k1 k2; subst k1; subst k2
        simp only [step, opLoadItemByHash] at he
        split at he
        · rename_i h0; exact hf h0
        · cases he
        · cases he
      | storeItem _ _ _ => cases hk
      | delete _ => cases hk
      | purge _ => cases hk
      | len => cases hk
    · intro hf
      refine ⟨.stackOverflow, ?_⟩
      cases op with
      | set key v =>
        have hkk : keyToHash H key = some (k, cc) := hk
        simp only [step, opSet, hkk, hf]
      | get key =>
        have hkk : keyToHash H key = some (k, cc) := hk
        simp only [step, opGet, hkk, opGetByHash, hf]
      | loadItem key =>
        have hkk : keyToHash H key = some (k, cc) := hk
        simp only [step, opLoadItem, hkk, opLoadItemByHash, hf]
      | getByHash k' c' =>
        have hkk : (k', c') = (k, cc) := by simpa [lookHash] using hk
        injection hkk with k1 k2; subst k1; subst k2
        simp only [step, opGetByHash, hf]
      | loadItemByHash k' c' =>
        have hkk : (k', c') = (k, cc) := by simpa [lookHash] using hk
        injection hkk with k1 k2; subst k1; subst k2
        simp only [step, opLoadItemByHash, hf]
      | storeItem _ _ _ => cases hk
      | delete _ => cases hk
      | purge _ => cases hk
      | len => cases hk
  rw [hiff, find_none_iff g.ei hF]
  have hview : ∀ n c, Adj st.blist n c → (st.mem c).rev.toNat = bval c ∧ topOf st n = bval n ∧ 2 * midOf n c = bval c + bval n ∧
      ∃ P, st.pools c = some P ∧ P.len = (keysIn st c).length := by
    intro n c ha
    refine ⟨g.ei.bi.rev_toNat (g.ei.sub c ha.2.1) (g.ei.adj_ne ha), ?_, ?_, ?_⟩
    · unfold topOf
      split
      · rename_i e; subst e; rw [bval_nil]
      · rename_i e; exact g.ei.bi.rev_toNat (g.ei.sub n ha.1) e
    · obtain ⟨j, hw⟩ := g.ei.width n c ha
      have hw1 := hw.1
      have : 2 * (2 ^ j / 2) = 2 ^ j := by
        have := hw.2.2.1
        obtain ⟨i, rfl⟩ : ∃ i, j = i + 1 := ⟨j - 1, by omega⟩
        rw [pow_succ]; omega
      rw [hw.mid]; omega
    · obtain ⟨P, xs, z, g1, g2, g3⟩ := g.ei.content n c ha
      refine ⟨P, g1, ?_⟩
      unfold keysIn
      rw [g1]
      simp only
      rw [g2.used, g2.len]
  constructor
  · rintro ⟨n, c, P, ha, h1, h2, hP, hl, hmid⟩
    obtain ⟨v1, v2, v3, P', v4, v5⟩ := hview n c ha
    rw [hP] at v4; injection v4 with v4; subst v4
    obtain ⟨A, B, hbl⟩ := adj_decomp g.ei.desc ha
    refine ⟨A, B, n, c, hbl, by omega, by omega, ?_, by omega⟩
    rw [hm] at hl; omega
  · rintro ⟨A, B, n, c, hbl, h1, h2, hl, hmid⟩
    have ha : Adj st.blist n c := by rw [hbl]; exact adj_of_decomp (hbl ▸ g.ei.desc)
    obtain ⟨v1, v2, v3, P, v4, v5⟩ := hview n c ha
    exact ⟨n, c, P, ha, by omega, by omega, v4, by rw [hm]; omega, by omega⟩

/-- Three low keys with limit 2, then a key in the upper half: the bucket is over the limit and the lookup does not come back. -/
theorem C26_exact_applies : (cleanB hR 2 (lowOps ++ [.get (.str (key8 0x0800000000000000))]) &&
    decide ((run hR (initSt 2) (lowOps ++ [.get (.str (key8 0x0800000000000000))])).2.getLast? = some (.crash .stackOverflow))) = true := by
  decide +kernel

end SLM.Emb
