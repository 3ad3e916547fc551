import Verif.Proofs.EmbList8
import Verif.Proofs.EmbList9
import Verif.Proofs.EmbProv
import Verif.Props.EmbDel
/-!
C75–C77: `Range`, `RangeItem`, `First` and `Last` of maps with `UseEmbeddedPool(true)`.
-/
set_option maxRecDepth 100000
set_option autoImplicit false
namespace SLM.EList
open Spec (PMap Ans)
open Emb (setHash gentleRun toOp hashes mem_hashes CleanD NoCrash RelD hR key8 exDel exDel_clean exDel_nocrash)

/-- What Range of a plain map with content `m` may do: there is one list `L` of all its pairs, in strictly ascending order of
the bit-reversed hash of the key, and with any callback the calls are an initial part of `L` that ends only at its end or
with the call that answered false. -/
def Ranges (H : HashFns) (m : U64 × U64 → Option IVal)
    (range : (List (List (BitVec 8) × IVal) → List (BitVec 8) × IVal → Bool) → Option (List (List (BitVec 8) × IVal))) : Prop :=
  ∃ L : List (List (BitVec 8) × IVal),
    L.Pairwise (fun a b => rev64 (H.mem a.1) < rev64 (H.mem b.1)) ∧
    (∀ k c v, m (k, c) = some v ↔ ∃ x ∈ L, H.mem x.1 = k ∧ H.xx x.1 = c ∧ x.2 = v) ∧
    ∀ f, ∃ calls rest, range f = some calls ∧ L = calls ++ rest ∧
      (∀ p x s, calls = p ++ x :: s → s ≠ [] → f p x = true) ∧
      (rest ≠ [] → ∃ p x, calls = p ++ [x] ∧ f p x = false)

/-- C75: after every history Range goes through the content of the plain map. -/
def C75_statement (H : HashFns) (mp : Nat) (ops : List Emb.Op) : Prop :=
  Ranges H ((PMap.empty .sample).run H (ops.map toOp)).1.m (range (run H (initL mp) ops))

/-- What the theorem asks of the hashes: no key that was Set has the hash `2^64-1`, and none is exactly on a boundary made
by a split (the boundaries of the sixteen top buckets do no harm). -/
structure OffGrid (H : HashFns) (mp : Nat) (ops : List Emb.Op) : Prop where
  max : ∀ op ∈ ops, ∀ k c, setHash H op = some (k, c) → k ≠ maxU64
  grid : ∀ op ∈ ops, ∀ k c, setHash H op = some (k, c) → ∀ q ∈ (Emb.run H (Emb.initSt mp) ops).1.blist, 2 ≤ q.length →
    ((Emb.run H (Emb.initSt mp) ops).1.mem q).rev ≠ rev64 k

/-- Executable form of `OffGrid`. -/
def offB (H : HashFns) (mp : Nat) (ops : List Emb.Op) : Bool :=
  (hashes H ops).all (fun kc => decide (kc.1 ≠ maxU64) &&
    (Emb.run H (Emb.initSt mp) ops).1.blist.all (fun q => decide (2 ≤ q.length → ((Emb.run H (Emb.initSt mp) ops).1.mem q).rev ≠ rev64 kc.1)))

theorem offB_sound {H : HashFns} {mp : Nat} {ops : List Emb.Op} (h : offB H mp ops = true) : OffGrid H mp ops := by
  simp only [offB, List.all_eq_true, Bool.and_eq_true, decide_eq_true_eq] at h
  exact ⟨fun op ho k c hk => (h (k, c) (mem_hashes.2 ⟨op, ho, hk⟩)).1,
    fun op ho k c hk q hq h2 => (h (k, c) (mem_hashes.2 ⟨op, ho, hk⟩)).2 q hq h2⟩

/-- The list after a history. -/
theorem list_of {H : HashFns} {mp : Nat} {ops : List Emb.Op} (h : CleanD H mp ops) (hc : NoCrash H mp ops) (ho : OffGrid H mp ops) :
    ∃ gl l, RelD H (hashes H ops) (Emb.run H (Emb.initSt mp) ops).1 gl ((PMap.empty .sample).run H (ops.map toOp)).1 ∧
      (run H (initL mp) ops).items = some l ∧ (run H (initL mp) ops).st = (Emb.run H (Emb.initSt mp) ops).1 ∧
      LI (Emb.run H (Emb.initSt mp) ops).1 l := by
  have h' : CleanD H mp (ops ++ []) := by simpa using h
  obtain ⟨⟨gl, g1⟩, _⟩ := h'.at hc
  rw [List.append_nil] at g1
  have hoff : Off (hashes H ops) (Emb.run H (Emb.initSt mp) ops).1.blist := by
    refine ⟨?_, ?_⟩
    · intro kc hk q hq h2 he
      obtain ⟨op, h3, h4⟩ := mem_hashes.1 hk
      apply ho.grid op h3 kc.1 kc.2 h4 q hq h2
      apply BitVec.eq_of_toNat_eq
      have := dummy_rev g1.ei hq (by rintro rfl; simp at h2)
      rw [he]; exact this
    · intro kc hk
      obtain ⟨op, h3, h4⟩ := mem_hashes.1 hk
      exact ho.max op h3 kc.1 kc.2 h4
  obtain ⟨l, l1, l2⟩ := run_li (st := Emb.initSt mp) h.kok ops (Emb.initSt mp) _ _ _ (Emb.init_relD H _ mp h.one) rfl h.gentle
    (fun op ho kc hk => mem_hashes.2 ⟨op, ho, hk⟩) hc (init_li mp) hoff
  exact ⟨gl, l, g1, l1, run_st H ops (initL mp), l2⟩

/-- C75 for gentle histories (any number of keys, splits, deletions, purges, reused slots) without the two harmful hashes. -/
theorem C75_range_partial {H : HashFns} {mp : Nat} {ops : List Emb.Op} (h : CleanD H mp ops) (hc : NoCrash H mp ops)
    (ho : OffGrid H mp ops) : C75_statement H mp ops := by
  obtain ⟨gl, l, g, hl, hst, D, hD, rfl⟩ := list_of h hc ho
  unfold C75_statement Ranges
  generalize ((PMap.empty .sample).run H (ops.map toOp)).1 = s at g ⊢
  generalize run H (initL mp) ops = ls at *
  rw [← hst] at g hl hD
  have hkey : ∀ x, x ∈ liveS ls.st (lst D ls.st) → H.mem x.key = rev64 x.rev ∧ H.xx x.key = x.conflict :=
    fun x hx => g.key x ((live_iff g.ei hD x).1 hx).1
  refine ⟨(liveS ls.st (lst D ls.st)).map pairOf, ?_, ?_, ?_⟩
  · rw [List.pairwise_map]
    refine (live_sorted g.ei).imp_of_mem ?_
    intro a b ha hb hab
    simp only [pairOf]
    rw [(hkey a ha).1, (hkey b hb).1, rev64_rev64, rev64_rev64]
    exact hab
  · intro k c v
    rw [g.abs]
    constructor
    · rintro ⟨x, x1, x0, x2, x3, x4⟩
      have hx := (live_iff g.ei hD x).2 ⟨x1, x0⟩
      refine ⟨pairOf x, List.mem_map_of_mem hx, ?_, ?_, x4⟩
      · simp only [pairOf]; rw [(hkey x hx).1, x2, rev64_rev64]
      · simp only [pairOf]; rw [(hkey x hx).2, x3]
    · rintro ⟨y, hy, y1, y2, y3⟩
      obtain ⟨x, hx, rfl⟩ := List.mem_map.1 hy
      obtain ⟨x1, x0⟩ := (live_iff g.ei hD x).1 hx
      simp only [pairOf] at y1 y2 y3
      refine ⟨x, x1, x0, ?_, ?_, y3⟩
      · rw [← y1, (hkey x hx).1, rev64_rev64]
      · rw [← y2, (hkey x hx).2]
  · intro f
    obtain ⟨vis, rest, r1, r2, r3, r4⟩ := rangeItems_spec (st := ls.st) (fun seen x => f (seen.map pairOf) (pairOf x)) (lst D ls.st) []
    refine ⟨vis.map pairOf, rest.map pairOf, ?_, ?_, ?_, ?_⟩
    · unfold range
      rw [hl]
      simp only [Option.map_some, r1, List.nil_append]
    · rw [r2, List.map_append]
    · intro p x s hv hs
      obtain ⟨p', q', rfl, rfl, hq⟩ := List.map_eq_append_iff.1 hv
      cases q' with
      | nil => simp at hq
      | cons x' s' =>
        simp only [List.map_cons, List.cons.injEq] at hq
        obtain ⟨rfl, rfl⟩ := hq
        have := r3 p' x' s' rfl (by rintro rfl; exact hs rfl)
        simpa using this
    · intro hr
      obtain ⟨p, x, e1, e2⟩ := r4 (by rintro rfl; exact hr rfl)
      exact ⟨p.map pairOf, pairOf x, by rw [e1]; simp, by simpa using e2⟩

/-- A key of eight bytes, the first of which is `n`, and its value. -/
def set8 (n : U64) : Emb.Op := .set (.str (key8 (n <<< 56))) (exV n.toNat)

/-- A history with deletions, a reused slot, purges and a split meets the hypotheses. -/
def exList : List Emb.Op :=
  [.set (sk 10) (exV 1), .set (sk 20) (exV 2), .set (sk 30) (exV 3), .delete (sk 20), .set (sk 25) (exV 7), .purge (sk 30),
   .delete (sk 25), .set (sk 10) (exV 5), .delete (sk 30), set8 0x27, set8 0x21, set8 0x29, set8 0x2A, set8 0x22,
   .purge (.str (key8 0x2A00000000000000)), .get (.str (key8 0x2900000000000000)), .delete (.str (key8 0x2200000000000000))]

theorem exList_out : (Emb.run hR (Emb.initSt 4) exList).2 =
    [.bool true, .bool true, .bool true, .bool true, .bool true, .bool true,
     .bool true, .bool true, .bool false, .bool true, .bool true, .bool true, .bool true, .bool true,
     .bool true, .val (exV 0x29) true, .bool true] := by decide +kernel

theorem exList_clean : CleanD hR 4 exList := Emb.cleanDB_sound (by decide +kernel)
theorem exList_nocrash : NoCrash hR 4 exList := by unfold NoCrash; rw [exList_out]; intro c; simp
theorem exList_off : OffGrid hR 4 exList := offB_sound (by decide +kernel)

example : C75_statement hR 4 exList := C75_range_partial exList_clean exList_nocrash exList_off
/-- The bucket was split on the way; Range goes through the four live keys, or stops when it is told to. -/
example : (Emb.run hR (Emb.initSt 4) exList).1.blist.length = 18 ∧
    range (run hR (initL 4) exList) (fun _ _ => true) = some [([10], exV 5), (key8 0x2100000000000000, exV 0x21),
      (key8 0x2700000000000000, exV 0x27), (key8 0x2900000000000000, exV 0x29)] ∧
    range (run hR (initL 4) exList) (fun seen _ => decide (seen.length < 1)) = some [([10], exV 5), (key8 0x2100000000000000, exV 0x21)] := by
  decide +kernel

/-! ### histories without deletions -/

/-- Without Delete and Purge every Set is gentle. -/
theorem gentle_plain {H : HashFns} {K : List (U64 × U64)} {st : Emb.St} {gl : List Path} {s : PMap} (h : Emb.RelE H K st gl s)
    {op : Emb.Op} (hp : Emb.Plain op) : Emb.gentle H st op = true := by
  cases op with
  | set key v =>
    cases key with
    | str str =>
      simp only [Emb.gentle]
      split
      · rename_i b P hf
        have hb := (Emb.find_pool hf).1
        obtain ⟨h1, h2⟩ := h.ei.pool b (by rw [hb]; rfl)
        obtain ⟨n, ha⟩ := Emb.adj_next h.ei.desc h.ei.head h1 h2
        obtain ⟨P', xs, z, e1, e2, _⟩ := h.ei.content n b ha
        rw [hb] at e1; injection e1 with e1; subst e1
        have : P.arr.all (fun x => !x.deleted) = true := by
          rw [e2.arr, List.all_eq_true]
          intro x hx
          rcases List.mem_append.1 hx with hx | hx
          · rw [e2.live x hx]; rfl
          · rw [List.eq_of_mem_replicate hx]; rfl
        rw [this]; rfl
      · rfl
    | _ => exact absurd hp (by simp [Emb.Plain])
  | storeItem _ _ _ => exact absurd hp (by simp [Emb.Plain])
  | delete _ => exact absurd hp (by simp [Emb.Plain])
  | purge _ => exact absurd hp (by simp [Emb.Plain])
  | _ => rfl

theorem gentleRun_plain {H : HashFns} {K : List (U64 × U64)} {mp : Nat} (hK : Emb.KOK mp K) : ∀ (ops : List Emb.Op) (st : Emb.St)
    (gl : List Path) (s : PMap), Emb.RelE H K st gl s → st.maxPer = mp → (∀ op ∈ ops, Emb.Plain op) →
    (∀ op ∈ ops, ∀ kc, setHash H op = some kc → kc ∈ K) → (∀ c, Emb.Out.crash c ∉ (Emb.run H st ops).2) → gentleRun H st ops = true := by
  intro ops
  induction ops with
  | nil => intros; rfl
  | cons op ops ih =>
    intro st gl s h hm hp hk hc
    simp only [Emb.run] at hc
    simp only [gentleRun, Bool.and_eq_true]
    refine ⟨gentle_plain h (hp op (by simp)), ?_⟩
    rcases h.step (hm ▸ hK) (hp op (by simp)) (hk op (by simp)) with ⟨h1, _⟩ | ⟨⟨gl', h1, _⟩, h2, h3⟩
    · exact absurd (by rw [h1]; simp) (hc .stackOverflow)
    · exact ih _ gl' _ h1 (h2.trans hm) (fun o ho => hp o (by simp [ho])) (fun o ho => hk o (by simp [ho]))
        (fun c hx => hc c (List.mem_cons_of_mem _ hx))

/-- A clean history without deletions is a gentle one. -/
theorem cleanD_of_clean {H : HashFns} {mp : Nat} {ops : List Emb.Op} (h : Emb.Clean H mp ops) (hc : NoCrash H mp ops) :
    CleanD H mp ops :=
  ⟨h.one, gentleRun_plain h.kok ops (Emb.initSt mp) _ _ (Emb.init_rel H _ mp h.one) rfl h.plain
    (fun op ho kc hk => mem_hashes.2 ⟨op, ho, hk⟩) hc, h.coll, h.sparse, h.small⟩

/-- C75 for clean histories without deletions. -/
theorem C75_clean_partial {H : HashFns} {mp : Nat} {ops : List Emb.Op} (h : Emb.Clean H mp ops) (hc : NoCrash H mp ops)
    (ho : OffGrid H mp ops) : C75_statement H mp ops := C75_range_partial (cleanD_of_clean h hc) hc ho

def exGrow : List Emb.Op := [set8 0x21, set8 0x22, set8 0x27, set8 0x29, set8 0x2A, set8 0x2B, set8 0x24, set8 0x01]
example : Emb.Clean hR 4 exGrow ∧ NoCrash hR 4 exGrow ∧ OffGrid hR 4 exGrow ∧ (Emb.run hR (Emb.initSt 4) exGrow).1.blist.length = 18 :=
  ⟨Emb.cleanB_sound (by decide +kernel), by
    have : (Emb.run hR (Emb.initSt 4) exGrow).2 = List.replicate 8 (.bool true) := by decide +kernel
    unfold NoCrash; rw [this]; intro c; simp, offB_sound (by decide +kernel), by decide +kernel⟩

/-! ### few keys -/

theorem blist_few {H : HashFns} {K : List (U64 × U64)} {mp : Nat} (hK : Emb.KOK mp K) (hF : Emb.Few mp K) : ∀ (ops : List Emb.Op)
    (st0 : Emb.St) (s : PMap), RelD H K st0 st0.blist s → st0.maxPer = mp → gentleRun H st0 ops = true →
    (∀ op ∈ ops, ∀ kc, setHash H op = some kc → kc ∈ K) → (Emb.run H st0 ops).1.blist = st0.blist := by
  intro ops
  induction ops with
  | nil => intros; rfl
  | cons op ops ih =>
    intro st0 s h hm hp hk
    simp only [gentleRun, Bool.and_eq_true] at hp
    simp only [Emb.run]
    rcases h.step (hm ▸ hK) hp.1 (hk op (by simp)) with ⟨_, h1⟩ | ⟨⟨gl', h1, h4⟩, h2, h3⟩
    · exact absurd rfl h1
    · obtain ⟨e1, e2⟩ := h4 (hm ▸ hF)
      rw [e1, ← e2] at h1
      rw [ih _ _ h1 (h2.trans hm) hp.2 (fun o ho => hk o (by simp [ho])), e2]

/-- C75 as long as at most `mp` keys share the lowest four hash bits: nothing about crashes or boundaries need be assumed. -/
theorem C75_few_partial {H : HashFns} {mp : Nat} {ops : List Emb.Op} (one : 1 ≤ mp) (gentle : gentleRun H (Emb.initSt mp) ops = true)
    (coll : ∀ a ∈ ops, ∀ b ∈ ops, ∀ k c c', setHash H a = some (k, c) → setHash H b = some (k, c') → c = c')
    (few : ∀ L : List U64, L.Nodup → (∀ k ∈ L, ∃ op ∈ ops, ∃ c, setHash H op = some (k, c)) →
      (∀ k ∈ L, ∀ k' ∈ L, k.toNat % 16 = k'.toNat % 16) → L.length ≤ mp)
    (max : ∀ op ∈ ops, ∀ k c, setHash H op = some (k, c) → k ≠ maxU64)
    (small : (ops.length : Int) < 2 ^ 62) : NoCrash H mp ops ∧ C75_statement H mp ops := by
  have h : CleanD H mp ops := by
    refine ⟨one, gentle, coll, ?_, small⟩
    intro L h1 h2 h3
    refine few L h1 h2 (fun k hk k' hk' => ?_)
    have := h3 k hk k' hk'
    omega
  have hn := (Emb.C26_del_partial_few one gentle coll few small).1
  refine ⟨hn, C75_range_partial h hn ⟨max, ?_⟩⟩
  intro op ho k c hk q hq h2
  have hF : Emb.Few mp (hashes H ops) := by
    intro L hL hin hsame
    have := few (L.map rev64) (Emb.nodup_rev hL) (by
      intro k hk
      obtain ⟨r, hr, rfl⟩ := List.mem_map.1 hk
      obtain ⟨c, hc⟩ := hin r hr
      obtain ⟨op, ho, ho'⟩ := mem_hashes.1 hc
      exact ⟨op, ho, c, ho'⟩) (by
      intro k hk k' hk'
      obtain ⟨r, hr, rfl⟩ := List.mem_map.1 hk
      obtain ⟨r', hr', rfl⟩ := List.mem_map.1 hk'
      exact Emb.mod_of_rev (j := 60) (by omega) (hsame r hr r' hr'))
    rw [List.length_map] at this
    exact this
  rw [blist_few h.kok hF ops (Emb.initSt mp) _ (Emb.init_relD H _ mp one) rfl gentle
    (fun op ho kc hk => mem_hashes.2 ⟨op, ho, hk⟩)] at hq
  exact absurd h2 (by
    have : ∀ q ∈ (Emb.initSt mp).blist, ¬ 2 ≤ q.length := by
      show ∀ q ∈ (SLM.initSt {}).blist, ¬ 2 ≤ q.length
      decide +kernel
    exact this q hq)

def exFew : List Emb.Op := [.set (sk 10) (exV 1), .set (sk 20) (exV 2), .set (sk 30) (exV 3), .delete (sk 20), .set (sk 25) (exV 7)]

example : NoCrash hR 4 exFew ∧ C75_statement hR 4 exFew := by
  refine C75_few_partial (by omega) (by decide +kernel) ?_ ?_ ?_ (by decide)
  · intro a ha b hb k c c' h1 h2
    have : ∀ x ∈ hashes hR exFew, ∀ y ∈ hashes hR exFew, x.1 = y.1 → x.2 = y.2 := by decide +kernel
    exact this (k, c) (mem_hashes.2 ⟨a, ha, h1⟩) (k, c') (mem_hashes.2 ⟨b, hb, h2⟩) rfl
  · intro L hL hin _
    have h4 : ((hashes hR exFew).map (·.1)).length ≤ 4 := by decide +kernel
    refine le_trans (List.Subperm.length_le (List.subperm_of_subset hL ?_)) h4
    intro k hk
    obtain ⟨op, ho, c, hc⟩ := hin k hk
    exact List.mem_map.2 ⟨(k, c), mem_hashes.2 ⟨op, ho, hc⟩, rfl⟩
  · intro op ho k c hk
    have : ∀ x ∈ hashes hR exFew, x.1 ≠ maxU64 := by decide +kernel
    exact this (k, c) (mem_hashes.2 ⟨op, ho, hk⟩)

example : range (run hR (initL 4) exFew) (fun _ _ => true) = some [([10], exV 1), ([25], exV 7), ([30], exV 3)] := by decide +kernel

/-! ### C75 fails in general -/

/-- A key whose hash is `2^64-1` is not linked when its bucket holds another key: Get answers it, Range does not visit it. -/
def exMax : List Emb.Op := [.set (.str (key8 0xFFF0000000000000)) (exV 2), .set (.str (key8 0xFFFFFFFFFFFFFFFF)) (exV 1)]

theorem exMax_out : (Emb.run hR (Emb.initSt 4) (exMax ++ [.get (.str (key8 0xFFFFFFFFFFFFFFFF))])).2 =
    [.bool true, .bool true, .val (exV 1) true] := by decide +kernel
theorem exMax_range : range (run hR (initL 4) exMax) (fun _ _ => true) = some [(key8 0xFFF0000000000000, exV 2)] := by decide +kernel

theorem C75_refuted : CleanD hR 4 exMax ∧ NoCrash hR 4 exMax ∧ ¬ C75_statement hR 4 exMax := by
  refine ⟨Emb.cleanDB_sound (by decide +kernel), ?_, ?_⟩
  · have : (Emb.run hR (Emb.initSt 4) exMax).2 = [.bool true, .bool true] := by decide +kernel
    unfold NoCrash; rw [this]; intro c; simp
  · rintro ⟨L, h1, h2, h3⟩
    obtain ⟨calls, rest, h4, h5, h6, h7⟩ := h3 (fun _ _ => true)
    rw [exMax_range] at h4
    have hr : rest = [] := by
      by_contra hr
      obtain ⟨p, x, _, e⟩ := h7 hr
      cases e
    injection h4 with h4
    rw [hr, List.append_nil, ← h4] at h5
    have hm : ((PMap.empty .sample).run hR (exMax.map toOp)).1.m (hR.mem (key8 0xFFFFFFFFFFFFFFFF), hR.xx (key8 0xFFFFFFFFFFFFFFFF)) =
        some (exV 1) := by decide +kernel
    obtain ⟨x, hx, _, _, e⟩ := (h2 _ _ _).1 hm
    rw [h5, List.mem_singleton] at hx
    rw [hx] at e
    exact absurd e (by decide)

/-! ### C76 -/

/-- C76: First is the entry with reversed hash 0 and Last the one with `2^64-1`, both made when the map was made, never an item
with a key: Next of First, not First, is where the keys begin. -/
def C76_statement (H : HashFns) (mp : Nat) (ops : List Emb.Op) : Prop :=
  ∃ a z, first (run H (initL mp) ops) = some a ∧ last (run H (initL mp) ops) = some z ∧
    slotOf (run H (initL mp) ops).st a = none ∧ slotOf (run H (initL mp) ops).st z = none ∧
    revOf (run H (initL mp) ops).st a = 0 ∧ revOf (run H (initL mp) ops).st z = maxU64 ∧
    first (initL mp) = some a ∧ last (initL mp) = some z

theorem C76_ends_partial {H : HashFns} {mp : Nat} {ops : List Emb.Op} (h : CleanD H mp ops) (hc : NoCrash H mp ops)
    (ho : OffGrid H mp ops) : C76_statement H mp ops := by
  obtain ⟨gl, l, g, hl, hst, D, hD, rfl⟩ := list_of h hc ho
  unfold C76_statement first last
  rw [hl, hst]
  simp only [Option.bind_some]
  obtain ⟨rest, hr⟩ := g.ei.head
  have hne : ∀ p : Path, D (.dummy p) = false := hD.dummy
  refine ⟨.dummy [0], .dummy [], ?_, ?_, rfl, rfl, ?_, ?_, rfl, rfl⟩
  · obtain ⟨A, B, hAB⟩ := List.append_of_mem (g.ei.tops 0 (by omega))
    have hB : B = [] := by
      cases B with
      | nil => rfl
      | cons q B =>
        have hd := g.ei.desc
        rw [hAB] at hd
        have := (List.pairwise_cons.1 (List.pairwise_append.1 hd).2.1).1 q (by simp)
        have h0 : bval [0] = 0 := by decide
        omega
    change (Emb.run H (Emb.initSt mp) ops).1.blist = _ at hAB
    unfold lst canon
    rw [hAB, hB]
    simp only [List.reverse_append, List.reverse_cons, List.reverse_nil, List.nil_append, List.cons_append, List.flatMap_cons, seg,
      List.filter_cons, hne, Bool.not_false, if_true, List.head?_cons]
  · change (Emb.run H (Emb.initSt mp) ops).1.blist = _ at hr
    have hp : (Emb.run H (Emb.initSt mp) ops).1.pools [] = none := by
      cases hp : (Emb.run H (Emb.initSt mp) ops).1.pools [] with
      | none => rfl
      | some P =>
        have := (g.ei.pool [] (by show ((Emb.clrSt _ _).pools []).isSome = true; simp [Emb.clrSt, hp])).2
        exact absurd rfl this
    unfold lst canon
    rw [hr]
    simp [seg, plen, hp, hne]
  · apply BitVec.eq_of_toNat_eq
    rw [dummy_rev g.ei (g.ei.tops 0 (by omega)) (by simp)]
    decide
  · exact sentinel_rev g.ei

example : C76_statement hR 4 exList := C76_ends_partial exList_clean exList_nocrash exList_off

/-- C76 for every history whatever, as far as the model follows the item list: with Purge, StoreItem and deletes, keys on
boundaries, equal hashes. -/
theorem C76_followed_partial {H : HashFns} {mp : Nat} {ops : List Emb.Op} {l : List Node} (h : (run H (initL mp) ops).items = some l) :
    C76_statement H mp ops := by
  obtain ⟨hE, hr⟩ := Ends.run H ops (initL mp) (by
    intro l hl
    injection hl with hl
    rw [← hl]
    exact ⟨(([[1], [2], [3], [4], [5], [6], [7], [8], [9], [10], [11], [12], [13], [14], [15]] : List Path).map Node.dummy), rfl⟩)
    ⟨by rfl, by rfl⟩
  obtain ⟨m, hm⟩ := hE l h
  unfold C76_statement first last
  rw [h, hm]
  refine ⟨.dummy [0], .dummy [], rfl, ?_, rfl, rfl, hr.1, hr.2, rfl, rfl⟩
  exact List.getLast?_concat (l := Node.dummy [0] :: m)

/-- A history that is not gentle: keys that stand first in their arrays are deleted and purged, and Set again. -/
def exRough : List Emb.Op :=
  exList ++ [.delete (sk 10), .set (sk 10) (exV 8), set8 0x21, .delete (.str (key8 0x2100000000000000)), .purge (sk 10), set8 0x20]

theorem exRough_followed : ((run hR (initL 4) exRough).items.isSome && !gentleRun hR (Emb.initSt 4) exRough) = true := by decide +kernel

example : C76_statement hR 4 exRough := by
  obtain ⟨l, hl⟩ := Option.isSome_iff_exists.1 (Bool.and_eq_true_iff.1 exRough_followed).1
  exact C76_followed_partial hl

end SLM.EList
