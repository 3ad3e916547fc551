import Verif.Proofs.EmbDel3
/-! Steps and runs of embedded mode with deletions. -/
set_option linter.unusedSimpArgs false
set_option autoImplicit false
set_option maxRecDepth 20000
namespace SLM.Emb
open Spec (PMap Ans)
variable {bl gl : List Path} {n c b : Path} {m : Path → Bkt} {st : St} {H : HashFns} {K : List (U64 × U64)} {s : PMap}

theorem lastActive_spec (arr : List Slot) : ∀ n t, lastActive arr n = some t → t < n := by
  intro n
  induction n with
  | zero => intro t h; cases h
  | succ n ih =>
    intro t h
    simp only [lastActive] at h
    split at h
    · have := ih t h; omega
    · injection h with h; omega

theorem CP.findFree {p : Pool} {us : List Slot} {z : Nat} (h : CP p us z) {r : U64} {i : Nat}
    (hf : p.findFree r (lastActive p.arr p.len.toNat) = some i) :
    ∃ hi : i < us.length, (us[i]).deleted = true ∧ (∀ j, (hj : j ≤ i) → (us[j]'(by omega)).rev ≤ r) := by
  have hl : p.len.toNat = us.length := by rw [h.len]; simp
  unfold Pool.findFree at hf
  cases ht : lastActive p.arr p.len.toNat with
  | none => rw [ht] at hf; cases hf
  | some t =>
    rw [ht] at hf
    simp only at hf
    have htl := lastActive_spec _ _ _ ht
    rw [hl] at htl
    obtain ⟨f, hfd⟩ : ∃ f : Nat → Bool, f = fun i => decide (r < (p.slot i).rev) := ⟨_, rfl⟩
    have hfi : ∀ i, (hi : i < us.length) → f i = decide (r < (us[i]).rev) := by
      intro i hi; rw [hfd]; simp only; rw [h.slot hi]
    obtain ⟨_, a2, a3, _⟩ := goSearch_spec f t 0 t (by omega) (by omega) (by
      intro x y _ hxy hy hx
      rw [hfi x (by omega)] at hx
      rw [hfi y (by omega)]
      simp only [decide_eq_true_eq] at hx ⊢
      rcases Nat.eq_or_lt_of_le hxy with hc | hc
      · subst hc; exact hx
      · have := h.mono (j := y) (by omega) hc; bv_omega)
    rw [← hfd] at hf
    generalize goSearch f t 0 t = idx at *
    split at hf
    · cases hf
    · rename_i hc
      split at hf
      · rename_i hd
        injection hf with hf
        subst hf
        have hi : idx - 1 < us.length := by omega
        refine ⟨hi, by rw [h.slot hi] at hd; exact hd, ?_⟩
        intro j hj
        have := a3 j (by omega) (by omega)
        rw [hfi j (by omega)] at this
        simp only [decide_eq_false_iff_not] at this
        bv_omega
      · cases hf

/-- What the positive theorems about deletions ask of one call.  Delete: the key does not stand first in its bucket's array.
Purge: it does not stand first unless it is the bucket's only key, and if it stands last the slot before it is not deleted.
Set of a key that is not there: its bucket's array has no deleted slot, or the deleted slot that will be used again stands at
the right place, the bucket is not over-full, and the slot's old value does not get in the way.  Everything else is free,
except StoreItem and keys that are no strings. -/
def gentle (H : HashFns) (st : St) : Op → Bool
  | .set (.str str) v =>
    match find st (H.mem str) (H.xx str) with
    | some (_, P, none) => P.arr.all (fun x => !x.deleted) ||
      (match P.findFree (rev64 (H.mem str)) (lastActive P.arr P.len.toNat) with
        | none => false
        | some i => decide ((i : Int) + 1 < P.len → rev64 (H.mem str) < (P.slot (i + 1)).rev) && decide (P.len ≤ st.maxPer) &&
          (match setValue .sample (P.slot i).val v with
            | .ok (nv, _) => decide (nv = v)
            | .error _ => false))
    | _ => true
  | .set _ _ => false
  | .storeItem _ _ _ => false
  | .delete key =>
    match keyToHash H key with
    | none => true
    | some (k, c) => match find st k c with
      | some (_, _, some i) => decide (0 < i)
      | _ => true
  | .purge key =>
    match keyToHash H key with
    | none => true
    | some (k, c) => match find st k c with
      | some (_, P, some i) => (decide (0 < i) || decide (P.len = 1)) &&
        decide ((i : Int) = P.len - 1 → 0 < i → (P.slot (i - 1)).deleted = false)
      | _ => true
  | _ => true

def gentleRun (H : HashFns) (st : St) : List Op → Bool
  | [] => true
  | op :: ops => gentle H st op && gentleRun H (step H st op).1 ops

/-- `Set` of a string key. -/
theorem RelD.set (h : RelD H K st gl s) (hK : KOK st.maxPer K) {str : List (BitVec 8)} (hmem : (H.mem str, H.xx str) ∈ K) (v : IVal)
    (hg : gentle H st (.set (.str str) v) = true) :
    ((opSet H st (.str str) v).2 = .crash .stackOverflow ∧ gl ≠ st.blist) ∨
    ((∃ gl', RelD H K (opSet H st (.str str) v).1 gl' (s.step H (.set (.str str) v)).1 ∧
        (Few st.maxPer K → gl' = gl ∧ (opSet H st (.str str) v).1.blist = st.blist)) ∧
      (opSet H st (.str str) v).1.maxPer = st.maxPer ∧
      ansE (opSet H st (.str str) v).2 = some (s.step H (.set (.str str) v)).2) := by
  unfold opSet
  simp only [PMap.step, keyToHash]
  simp only [gentle] at hg
  rcases h.find (H.mem str) (H.xx str) with ⟨h0, hg⟩ | ⟨b, n, P, us, z, f, ⟨i, hi, h1, e1, e2, e3, h2⟩ | ⟨h1, h2, hno⟩⟩
  · left; rw [h0]; exact ⟨rfl, hg⟩
  · right
    rw [h1, h2]
    simp only [Emb.update, PMap.overwrite, h.fn, f.cp.slot hi]
    have hu := h.update f hi e1 e2 e3
    have hself : ∀ w, (us[i]).val = w → RelD H K (Emb.setSlot st b P i { us[i] with val := w }) gl s := by
      intro w hw
      have hslot : Emb.setSlot st b P i { us[i] with val := w } = st := by
        have : ({ us[i] with val := w } : Slot) = us[i] := by rw [← hw]
        rw [this]
        unfold Emb.setSlot
        have hset : P.arr.set i us[i] = P.arr := by
          have hc := f.cp.cap
          have e := f.cp.slot hi
          unfold Pool.slot at e
          rw [List.getD_eq_getElem?_getD, List.getElem?_eq_getElem (by omega)] at e
          simp only [Option.getD_some] at e
          rw [← e, List.set_getElem_self]
        rw [hset]
        have : upool st.pools b P = st.pools := by
          funext q
          unfold upool
          split
          · subst_vars; exact f.pool.symm
          · rfl
        show ({ st with pools := upool st.pools b P } : St) = st
        rw [this]
      rw [hslot]; exact h
    cases v with
    | none =>
      simp only [setValue]
      refine ⟨⟨gl, hself _ rfl, fun _ => ⟨rfl, rfl⟩⟩, rfl, rfl⟩
    | some v =>
      cases ho : (us[i]).val with
      | none =>
        simp only [setValue]
        exact ⟨⟨gl, hu _, fun _ => ⟨rfl, rfl⟩⟩, rfl, rfl⟩
      | some o =>
        simp only [setValue]
        by_cases ht : o.ty = v.ty
        · simp only [ht, if_true]
          exact ⟨⟨gl, hu _, fun _ => ⟨rfl, rfl⟩⟩, rfl, rfl⟩
        · simp only [ht, if_false]
          exact ⟨⟨gl, h, fun _ => ⟨by trivial, by trivial⟩⟩, by trivial, by trivial⟩
  · right
    rw [h1] at hg ⊢
    rw [h2]
    simp only [Bool.or_eq_true] at hg
    rcases hg with hg | hg
    · have hlive : ∀ x ∈ P.arr, x.deleted = false := by
        intro x hx
        have := List.all_eq_true.1 hg x hx
        simpa using this
      obtain ⟨q, i, st', gl', g1, g2, g3, g4, g5, g6⟩ := h.insert hK hmem f hno hlive v
      simp only [g1, g2]
      have hsv : setValue .sample ({} : Slot).val v = .ok (v, v.isSome) := by
        cases v <;> rfl
      have hc : claim {} (rev64 (H.mem str)) (H.xx str) = { rev := rev64 (H.mem str), conflict := H.xx str } := by
        simp [claim]
      simp only [hc, hsv]
      have hsv' : setValue .sample (none : IVal) v = .ok (v, v.isSome) := hsv
      simp only [hsv', g3, finish]
      exact ⟨⟨gl', g5, g6⟩, g4, rfl⟩
    · cases hff : P.findFree (rev64 (H.mem str)) (lastActive P.arr P.len.toNat) with
      | none => rw [hff] at hg; cases hg
      | some i =>
        rw [hff] at hg
        simp only [Bool.and_eq_true, decide_eq_true_eq] at hg
        obtain ⟨⟨hg1, hg2⟩, hg3⟩ := hg
        obtain ⟨hi, hd, hlo⟩ := f.cp.findFree hff
        have hhi : (hj : i + 1 < us.length) → rev64 (H.mem str) < (us[i + 1]).rev := by
          intro hj
          have := hg1 (by rw [f.cp.len]; omega)
          rwa [f.cp.slot hj] at this
        obtain ⟨st', r1, r2, r3, r4⟩ := h.reuse hK hmem f hno hi hlo hhi hd v hg2
        have hne : P.len ≠ 0 := by rw [f.cp.len]; omega
        have hcap := f.cp.cap
        rw [f.cp.slot hi] at hg3
        have hgs : Pool.getSlot 2 P (rev64 (H.mem str)) =
            .ok ({ P with arr := P.arr.set i { us[i] with rev := 0, conflict := 0, deleted := false } }, i) := by
          rw [Pool.getSlot]
          simp only
          rw [if_neg hne, hff]
          simp only
          rw [f.cp.slot hi]
        have hsl : ({ P with arr := P.arr.set i { us[i] with rev := 0, conflict := 0, deleted := false } } : Pool).slot i =
            { us[i] with rev := 0, conflict := 0, deleted := false } := by
          unfold Pool.slot
          simp only
          rw [List.getD_eq_getElem?_getD, List.getElem?_set_self (by omega)]
          rfl
        simp only [hgs, hsl]
        have hc : claim { us[i] with rev := 0, conflict := 0, deleted := false } (rev64 (H.mem str)) (H.xx str) =
            { us[i] with rev := rev64 (H.mem str), conflict := H.xx str, deleted := false } := by simp [claim]
        simp only [hc]
        cases hsv : setValue .sample (us[i]).val v with
        | error e => rw [hsv] at hg3; cases hg3
        | ok w =>
          obtain ⟨nv, ok⟩ := w
          rw [hsv] at hg3
          simp only [decide_eq_true_eq] at hg3
          subst hg3
          simp only
          have hset : ∀ y : Slot, Emb.setSlot st b { P with arr := P.arr.set i { us[i] with rev := 0, conflict := 0, deleted := false } } i y =
              Emb.setSlot st b P i y := by
            intro y; unfold Emb.setSlot; simp only [List.set_set]
          rw [hset, r1]
          simp only [finish]
          exact ⟨⟨gl, r3, fun _ => ⟨rfl, r4⟩⟩, r2, rfl⟩

/-- The operations of the theorems about deletions. -/
def PlainD : Op → Prop
  | .set (.str _) _ => True
  | .set _ _ => False
  | .storeItem _ _ _ => False
  | _ => True

theorem RelD.step (h : RelD H K st gl s) (hK : KOK st.maxPer K) {op : Op} (hg : gentle H st op = true)
    (hk : ∀ kc, setHash H op = some kc → kc ∈ K) :
    ((step H st op).2 = .crash .stackOverflow ∧ gl ≠ st.blist) ∨
    ((∃ gl', RelD H K (step H st op).1 gl' (s.step H (toOp op)).1 ∧
        (Few st.maxPer K → gl' = gl ∧ (step H st op).1.blist = st.blist)) ∧
      (step H st op).1.maxPer = st.maxPer ∧ ansE (step H st op).2 = some (s.step H (toOp op)).2) := by
  cases op with
  | set key v =>
    cases key with
    | str str => exact h.set hK (hk _ rfl) v hg
    | _ => exact absurd hg (by simp [gentle])
  | get key =>
    simp only [Emb.step, opGet, toOp, PMap.step]
    cases hh : keyToHash H key with
    | none => right; exact ⟨⟨gl, h, fun _ => ⟨by trivial, by trivial⟩⟩, by trivial, by trivial⟩
    | some kc =>
      obtain ⟨k, c⟩ := kc
      simp only
      rcases h.getByHash k c with h1 | h1
      · exact Or.inl h1
      · right
        refine ⟨⟨gl, h, fun _ => ⟨by trivial, by trivial⟩⟩, by trivial, ?_⟩
        rw [h1]; cases s.m (k, c) <;> rfl
  | getByHash k c =>
    simp only [Emb.step, toOp, PMap.step]
    rcases h.getByHash k c with h1 | h1
    · exact Or.inl h1
    · right
      refine ⟨⟨gl, h, fun _ => ⟨by trivial, by trivial⟩⟩, by trivial, ?_⟩
      rw [h1]; cases s.m (k, c) <;> rfl
  | loadItem key =>
    simp only [Emb.step, opLoadItem, toOp, PMap.step]
    cases hh : keyToHash H key with
    | none => right; exact ⟨⟨gl, h, fun _ => ⟨by trivial, by trivial⟩⟩, by trivial, by trivial⟩
    | some kc =>
      obtain ⟨k, c⟩ := kc
      simp only
      rcases h.loadByHash k c with h1 | ⟨r, h1, h2, _⟩
      · exact Or.inl h1
      · right
        refine ⟨⟨gl, h, fun _ => ⟨by trivial, by trivial⟩⟩, by trivial, ?_⟩
        rw [h1]; simp only [ansE, h2]
  | loadItemByHash k c =>
    simp only [Emb.step, toOp, PMap.step]
    rcases h.loadByHash k c with h1 | ⟨r, h1, h2, _⟩
    · exact Or.inl h1
    · right
      refine ⟨⟨gl, h, fun _ => ⟨by trivial, by trivial⟩⟩, by trivial, ?_⟩
      rw [h1]; simp only [ansE, h2]
  | storeItem str v r => exact absurd hg (by simp [gentle])
  | delete key =>
    simp only [Emb.step, opDelete, toOp, PMap.step]
    simp only [gentle] at hg
    cases hh : keyToHash H key with
    | none => right; exact ⟨⟨gl, h, fun _ => ⟨by trivial, by trivial⟩⟩, by trivial, by trivial⟩
    | some kc =>
      obtain ⟨k, c⟩ := kc
      rw [hh] at hg
      simp only at hg ⊢
      rcases h.find k c with ⟨h0, hgl⟩ | ⟨b, n, P, us, z, f, ⟨i, hi, h1, e1, e2, e3, h2⟩ | ⟨h1, h2, hno⟩⟩
      · left; rw [h0]; exact ⟨rfl, hgl⟩
      · right
        rw [h1] at hg ⊢
        rw [h2]
        simp only [decide_eq_true_eq] at hg ⊢
        rw [f.cp.slot hi]
        exact ⟨⟨gl, h.delete f hi e1 e2 hg, fun _ => ⟨rfl, rfl⟩⟩, rfl, rfl⟩
      · right
        rw [h1, h2]
        exact ⟨⟨gl, h, fun _ => ⟨by trivial, by trivial⟩⟩, by trivial, by trivial⟩
  | purge key =>
    simp only [Emb.step, opPurge, toOp, PMap.step]
    simp only [gentle] at hg
    cases hh : keyToHash H key with
    | none => right; exact ⟨⟨gl, h, fun _ => ⟨by trivial, by trivial⟩⟩, by trivial, by trivial⟩
    | some kc =>
      obtain ⟨k, c⟩ := kc
      rw [hh] at hg
      simp only at hg ⊢
      rcases h.find k c with ⟨h0, hgl⟩ | ⟨b, n, P, us, z, f, ⟨i, hi, h1, e1, e2, e3, h2⟩ | ⟨h1, h2, hno⟩⟩
      · left; rw [h0]; exact ⟨rfl, hgl⟩
      · right
        rw [h1] at hg ⊢
        rw [h2]
        simp only [Bool.and_eq_true, Bool.or_eq_true, decide_eq_true_eq] at hg ⊢
        rw [f.cp.slot hi]
        by_cases hlast : (i : Int) = P.len - 1
        · rw [if_pos hlast]
          exact ⟨⟨gl, h.purgeLast f hi e1 e2 (by rw [f.cp.len] at hlast; omega) (hg.2 hlast), fun _ => ⟨rfl, rfl⟩⟩, rfl, rfl⟩
        · rw [if_neg hlast]
          refine ⟨⟨gl, h.delete f hi e1 e2 ?_, fun _ => ⟨rfl, rfl⟩⟩, rfl, rfl⟩
          rcases hg.1 with h1 | h1
          · exact h1
          · rw [h1] at hlast
            have := f.cp.len
            omega
      · right
        rw [h1, h2]
        exact ⟨⟨gl, h, fun _ => ⟨by trivial, by trivial⟩⟩, by trivial, by trivial⟩
  | len => right; exact ⟨⟨gl, h, fun _ => ⟨by trivial, by trivial⟩⟩, by trivial, by trivial⟩

theorem RelD.run (hK : KOK st.maxPer K) : ∀ (ops : List Op) (st0 : St) (gl : List Path) (s : PMap), RelD H K st0 gl s →
    st0.maxPer = st.maxPer → gentleRun H st0 ops = true → (∀ op ∈ ops, ∀ kc, setHash H op = some kc → kc ∈ K) →
    (∀ c, Out.crash c ∉ (run H st0 ops).2) →
    (∃ gl', RelD H K (run H st0 ops).1 gl' (s.run H (ops.map toOp)).1) ∧ (run H st0 ops).1.maxPer = st.maxPer ∧
      (run H st0 ops).2.map ansE = (s.run H (ops.map toOp)).2.map some := by
  intro ops
  induction ops with
  | nil => intro st0 gl s h hm _ _ _; exact ⟨⟨gl, h⟩, hm, rfl⟩
  | cons op ops ih =>
    intro st0 gl s h hm hp hk hc
    simp only [Emb.run] at hc ⊢
    simp only [gentleRun, Bool.and_eq_true] at hp
    rcases h.step (hm ▸ hK) hp.1 (hk op (by simp)) with ⟨h1, _⟩ | ⟨⟨gl', h1, _⟩, h2, h3⟩
    · exact absurd (by rw [h1]; simp) (hc .stackOverflow)
    · obtain ⟨g1, g2, g3⟩ := ih _ gl' _ h1 (h2.trans hm) hp.2 (fun o ho => hk o (by simp [ho]))
        (fun c hx => hc c (List.mem_cons_of_mem _ hx))
      refine ⟨g1, g2, ?_⟩
      simp only [List.map_cons, PMap.run, h3, g3]

/-- Few keys: no crash at all. -/
theorem RelD.total (hK : KOK st.maxPer K) (hF : Few st.maxPer K) : ∀ (ops : List Op) (st0 : St) (s : PMap),
    RelD H K st0 st0.blist s → st0.maxPer = st.maxPer → gentleRun H st0 ops = true →
    (∀ op ∈ ops, ∀ kc, setHash H op = some kc → kc ∈ K) → ∀ c, Out.crash c ∉ (Emb.run H st0 ops).2 := by
  intro ops
  induction ops with
  | nil => intro st0 s h hm _ _ c hc; cases hc
  | cons op ops ih =>
    intro st0 s h hm hp hk c hc
    simp only [gentleRun, Bool.and_eq_true] at hp
    simp only [Emb.run, List.mem_cons] at hc
    rcases h.step (hm ▸ hK) hp.1 (hk op (by simp)) with ⟨_, h1⟩ | ⟨⟨gl', h1, h4⟩, h2, h3⟩
    · exact h1 rfl
    · obtain ⟨e1, e2⟩ := h4 (hm ▸ hF)
      rcases hc with hc | hc
      · rw [← hc] at h3; simp [ansE] at h3
      · rw [e1, ← e2] at h1
        exact ih _ _ h1 (h2.trans hm) hp.2 (fun o ho => hk o (by simp [ho])) c hc

theorem init_relD (H : HashFns) (K : List (U64 × U64)) (mp : Nat) (h1 : 1 ≤ mp) :
    RelD H K (initSt mp) (initSt mp).blist (PMap.empty .sample) := by
  have hpool : ∀ p P, (initSt mp).pools p = some P → P = { arr := List.replicate (mp * 3 / 2) {}, len := 0 } := by
    intro p P hP
    change (if p ≠ [] ∧ p ∈ (SLM.initSt {}).blist then some ({ arr := List.replicate (mp * 3 / 2) {}, len := 0 } : Pool) else none) = some P at hP
    split at hP
    · injection hP with hP; exact hP.symm
    · cases hP
  have hclr : clrSt (initSt mp) 0 = initSt mp := by
    have : (fun p => ((initSt mp).pools p).map clrP) = (initSt mp).pools := by
      funext p
      cases hp : (initSt mp).pools p with
      | none => rfl
      | some P => rw [hpool p P hp]; simp only [Option.map_some, Option.some.injEq, clrP, Int.toNat_zero, List.take_zero, List.map_nil, List.nil_append, List.length_replicate, Nat.sub_zero]
    unfold clrSt
    rw [this]; rfl
  refine ⟨by rw [hclr]; exact init_EI mp h1, ?_, ?_, rfl, ?_, fun x hx => absurd hx (init_stored mp x), fun x hx => absurd hx (init_stored mp x)⟩
  · intro p P hP hpos
    rw [hpool p P hP] at hpos; simp at hpos
  · intro p P hP x hx
    rw [hpool p P hP] at hx
    left; exact List.eq_of_mem_replicate (n := mp * 3 / 2) hx
  · intro k c v
    constructor
    · intro h; cases h
    · rintro ⟨x, hx, _⟩; exact absurd hx (init_stored mp x)

end SLM.Emb
