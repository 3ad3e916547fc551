import Verif.Model.EmbWalk
import Verif.Proofs.EmbWalk
/-!
C89: Range of a map with `UseEmbeddedPool(true)` whose callback reads the map, deletes keys and sets keys that are there.
-/
set_option maxRecDepth 100000
set_option autoImplicit false
namespace SLM.EList
open Spec (PMap Ans)
open Emb (setHash gentleRun toOp hashes mem_hashes CleanD NoCrash RelD hR key8 Slot Pool RelX Keeps calm calmRun clrSt EI)

/-- The calls the callback makes while it is called with `q`, after it was called with `p`. -/
def callsOf (f : List (List (BitVec 8) × IVal) → List (BitVec 8) × IVal → List Emb.Op × Bool) :
    List (List (BitVec 8) × IVal) → List (List (BitVec 8) × IVal) → List Emb.Op
  | _, [] => []
  | p, x :: q => (f p x).1 ++ callsOf f (p ++ [x]) q

/-- C89: what a Range whose callback changes the map may have done, the map having had the content of `s0` before. -/
structure Visits (H : HashFns) (s0 : PMap) (f : List (List (BitVec 8) × IVal) → List (BitVec 8) × IVal → List Emb.Op × Bool) (R : Walk) :
    Prop where
  /-- the calls made are those of the callback -/
  calls : R.trace = callsOf f [] R.seen
  /-- ascending order of the reversed hash; in particular no key twice -/
  order : R.seen.Pairwise (fun a b => rev64 (H.mem a.1) < rev64 (H.mem b.1))
  /-- every pair shown is in the map at that moment, with that value -/
  now : ∀ p x q, R.seen = p ++ x :: q → (s0.run H ((callsOf f [] p).map toOp)).1.m (H.mem x.1, H.xx x.1) = some x.2
  /-- Range goes on when the callback says so, and stops early only when it says so -/
  goes : ∀ p x q, R.seen = p ++ x :: q → q ≠ [] → (f p x).2 = true
  stops : R.atEnd = false → ∃ p x, R.seen = p ++ [x] ∧ (f p x).2 = false
  /-- when it came to the end, every key that is there afterwards was shown -/
  all : R.atEnd = true → ∀ k c v, (s0.run H (R.trace.map toOp)).1.m (k, c) = some v → ∃ x ∈ R.seen, H.mem x.1 = k ∧ H.xx x.1 = c

theorem calmRun_append {H : HashFns} : ∀ (a b : List Emb.Op) (s : PMap), calmRun H s (a ++ b) ↔
    calmRun H s a ∧ calmRun H (s.run H (a.map toOp)).1 b := by
  intro a
  induction a with
  | nil => intro b s; simp [calmRun, PMap.run]
  | cons op a ih =>
    intro b s
    simp only [List.cons_append, calmRun, List.map_cons, PMap.run, ih, and_assoc]

theorem prun_append (H : HashFns) : ∀ (a b : List SLM.Op) (s : PMap), (s.run H (a ++ b)).1 = ((s.run H a).1.run H b).1 := by
  intro a
  induction a with
  | nil => intro b s; rfl
  | cons x l ih => intro b s; simp only [List.cons_append, PMap.run]; exact ih b _

/-- Slots keep their keys. -/
theorem keeps_slot {st st' : Emb.St} (h : Keeps st st') (x : Node) :
    (slotOf st x = none ∧ slotOf st' x = none) ∨ ∃ y y', slotOf st x = some y ∧ slotOf st' x = some y' ∧ y'.key = y.key ∧ y'.rev = y.rev ∧
      y'.conflict = y.conflict ∧ (y.deleted = true → y'.deleted = true) := by
  cases x with
  | dummy p => exact Or.inl ⟨rfl, rfl⟩
  | item b i =>
    simp only [slotOf]
    cases hP : st.pools b with
    | none => left; rw [(h.pool b).1.2 hP]; exact ⟨rfl, rfl⟩
    | some P =>
      cases hP' : st'.pools b with
      | none => rw [(h.pool b).1.1 hP'] at hP; cases hP
      | some P' =>
        right
        obtain ⟨_, _, h3⟩ := (h.pool b).2 P P' hP hP'
        obtain ⟨a1, a2, a3, a4⟩ := h3 i
        exact ⟨P.slot i, P'.slot i, rfl, rfl, a3, a1, a2, a4⟩

theorem keeps_plen {st st' : Emb.St} (h : Keeps st st') (p : Path) : plen st'.pools p = plen st.pools p := by
  unfold plen
  cases hP : st.pools p with
  | none => rw [(h.pool p).1.2 hP]
  | some P =>
    cases hP' : st'.pools p with
    | none => rw [(h.pool p).1.1 hP'] at hP; cases hP
    | some P' => simp only; rw [((h.pool p).2 P P' hP hP').1]

/-- The list is the same, and what was purged stays purged. -/
theorem keeps_li {st st' : Emb.St} (h : Keeps st st') {D : Node → Bool} (hD : DOk D st) : DOk D st' ∧ lst D st' = lst D st := by
  refine ⟨?_, lst_congr h.blist (keeps_plen h)⟩
  intro x hx
  obtain ⟨b, i, P, e, h1, h2, h3⟩ := hD x hx
  cases hP' : st'.pools b with
  | none => rw [(h.pool b).1.1 hP'] at h1; cases h1
  | some P' =>
    obtain ⟨a1, _, a3⟩ := (h.pool b).2 P P' h1 hP'
    exact ⟨b, i, P', e, hP', by rw [a1]; exact h2, (a3 i).2.2.2 h3⟩

theorem stepL_calm {H : HashFns} {st : Emb.St} {gl : List Path} {s : PMap} (h : RelX H st gl s) {op : Emb.Op} (hc : calm H s op)
    (hn : ∀ c, (Emb.step H st op).2 ≠ .crash c) (l : List Node) : stepL H st l op = some l := by
  cases op with
  | set key v =>
    obtain ⟨⟨k, c⟩, hk, hs⟩ := hc
    obtain ⟨old, ho⟩ := Option.isSome_iff_exists.1 hs
    simp only [stepL, opSet, hk]
    rcases h.find k c with h0 | ⟨b, n, P, us, z, f, ⟨i, hi, h1, _⟩ | ⟨h1, h2⟩⟩
    · rw [h0]
    · rw [h1]
    · rw [h2] at ho; cases ho
  | storeItem _ _ _ => exact absurd hc (by simp [calm])
  | purge _ => exact absurd hc (by simp [calm])
  | _ => rfl

theorem run_calm {H : HashFns} {gl : List Path} : ∀ (ops : List Emb.Op) (st : Emb.St) (s : PMap) (l : List Node), RelX H st gl s →
    calmRun H s ops → (∀ c, Emb.Out.crash c ∉ (Emb.run H st ops).2) → run H ⟨st, some l⟩ ops = ⟨(Emb.run H st ops).1, some l⟩ := by
  intro ops
  induction ops with
  | nil => intros; rfl
  | cons op ops ih =>
    intro st s l h hc hn
    simp only [Emb.run, List.mem_cons, not_or] at hn
    have hn1 : ∀ c, (Emb.step H st op).2 ≠ .crash c := fun c e => (hn c).1 e.symm
    have e : step H ⟨st, some l⟩ op = ⟨(Emb.step H st op).1, some l⟩ := by
      unfold step
      simp only [Option.bind_some, stepL_calm h hc.1 hn1]
    show run H (step H ⟨st, some l⟩ op) ops = _
    rw [e]
    exact ih _ _ l (h.step hc.1 hn1).1 hc.2 (fun c => (hn c).2)

/-- What Range shows of a list with live slots as the relation says. -/
theorem ranges_of {H : HashFns} {gl : List Path} {s : PMap} {ls : LSt} (g : RelX H ls.st gl s) {D : Node → Bool} (hD : DOk D ls.st)
    (hl : ls.items = some (lst D ls.st)) : Ranges H s.m (range ls) := by
  have hkey : ∀ x, x ∈ liveS ls.st (lst D ls.st) → H.mem x.key = rev64 x.rev ∧ H.xx x.key = x.conflict :=
    fun x hx => g.key x ((live_iff g.ei hD x).1 hx).1
  refine ⟨(liveS ls.st (lst D ls.st)).map pairOf, ?_, ?_, ?_⟩
  · rw [List.pairwise_map]
    refine (live_sorted g.ei).imp_of_mem ?_
    intro a b ha hb hab
    simp only [pairOf]
    rw [(hkey a ha).1, (hkey b hb).1, rev64_rev64, rev64_rev64]
    exact hab
  · intro k c v
    rw [g.abs]
    constructor
    · rintro ⟨x, x1, x0, x2, x3, x4⟩
      have hx := (live_iff g.ei hD x).2 ⟨x1, x0⟩
      refine ⟨pairOf x, List.mem_map_of_mem hx, ?_, ?_, x4⟩
      · simp only [pairOf]; rw [(hkey x hx).1, x2, rev64_rev64]
      · simp only [pairOf]; rw [(hkey x hx).2, x3]
    · rintro ⟨y, hy, y1, y2, y3⟩
      obtain ⟨x, hx, rfl⟩ := List.mem_map.1 hy
      obtain ⟨x1, x0⟩ := (live_iff g.ei hD x).1 hx
      simp only [pairOf] at y1 y2 y3
      refine ⟨x, x1, x0, ?_, ?_, y3⟩
      · rw [← y1, (hkey x hx).1, rev64_rev64]
      · rw [← y2, (hkey x hx).2]
  · intro f
    obtain ⟨vis, rest, r1, r2, r3, r4⟩ := rangeItems_spec (st := ls.st) (fun seen x => f (seen.map pairOf) (pairOf x)) (lst D ls.st) []
    refine ⟨vis.map pairOf, rest.map pairOf, ?_, ?_, ?_, ?_⟩
    · unfold range
      rw [hl]
      simp only [Option.map_some, r1, List.nil_append]
    · rw [r2, List.map_append]
    · intro p x s hv hs
      obtain ⟨p', q', rfl, rfl, hq⟩ := List.map_eq_append_iff.1 hv
      cases q' with
      | nil => simp at hq
      | cons x' s' =>
        simp only [List.map_cons, List.cons.injEq] at hq
        obtain ⟨rfl, rfl⟩ := hq
        have := r3 p' x' s' rfl (by rintro rfl; exact hs rfl)
        simpa using this
    · intro hr
      obtain ⟨p, x, e1, e2⟩ := r4 (by rintro rfl; exact hr rfl)
      exact ⟨p.map pairOf, pairOf x, by rw [e1]; simp, by simpa using e2⟩

/-- One Range, from any place on. -/
theorem walk_spec {H : HashFns} {gl : List Path} (f : List (List (BitVec 8) × IVal) → List (BitVec 8) × IVal → List Emb.Op × Bool) (st0 : Emb.St) :
    ∀ (xs : List Node) (st : Emb.St) (s : PMap) (seen : List (List (BitVec 8) × IVal)), RelX H st gl s → Keeps st0 st →
    (∀ x ∈ xs, ∀ y, slotOf st x = some y → Emb.Stored st y) →
    (∀ (st' : Emb.St), Keeps st st' → ∀ x ∈ xs, ∀ y, slotOf st' x = some y → Emb.Stored st' y) →
    calmRun H s (rangeWith H f xs st seen).trace → (∀ c, Emb.Out.crash c ∉ (Emb.run H st (rangeWith H f xs st seen).trace).2) →
    ∃ vis, (rangeWith H f xs st seen).seen = seen ++ vis ∧ (rangeWith H f xs st seen).trace = callsOf f seen vis ∧
      (rangeWith H f xs st seen).st = (Emb.run H st (rangeWith H f xs st seen).trace).1 ∧
      (vis.map (·.1)).Sublist ((xs.filterMap (slotOf st0)).map (·.key)) ∧
      (∀ p x q, vis = p ++ x :: q → (s.run H ((callsOf f seen p).map toOp)).1.m (H.mem x.1, H.xx x.1) = some x.2) ∧
      (∀ p x q, vis = p ++ x :: q → q ≠ [] → (f (seen ++ p) x).2 = true) ∧
      ((rangeWith H f xs st seen).atEnd = false → ∃ p x, vis = p ++ [x] ∧ (f (seen ++ p) x).2 = false) ∧
      ((rangeWith H f xs st seen).atEnd = true → ∀ x ∈ xs, ∀ y, slotOf (rangeWith H f xs st seen).st x = some y → y.deleted = false →
        ∃ v ∈ vis, v.1 = y.key) := by
  intro xs
  induction xs with
  | nil =>
    intro st s seen _ _ _ _ _ _
    refine ⟨[], by simp [rangeWith], rfl, rfl, by simp, by simp, by simp, by simp [rangeWith], by simp⟩
  | cons x xs ih =>
    intro st s seen g hk hst hst' hc hn
    have hkx := keeps_slot hk x
    have htail : ∀ (st' : Emb.St), Keeps st st' → ∀ x ∈ xs, ∀ y, slotOf st' x = some y → Emb.Stored st' y :=
      fun st' h' a ha => hst' st' h' a (List.mem_cons_of_mem _ ha)
    cases hx : slotOf st x with
    | none =>
      have e : rangeWith H f (x :: xs) st seen = rangeWith H f xs st seen := by simp only [rangeWith, hx]
      rw [e] at hc hn ⊢
      obtain ⟨vis, v1, v2, v3, v4, v5, v6, v7, v8⟩ := ih st s seen g hk (fun a ha => hst a (List.mem_cons_of_mem _ ha)) htail hc hn
      have h0 : slotOf st0 x = none := by
        rcases hkx with ⟨h, _⟩ | ⟨y, y', h1, h2, _⟩
        · exact h
        · rw [hx] at h2; cases h2
      refine ⟨vis, v1, v2, v3, by rw [List.filterMap_cons_none h0]; exact v4, v5, v6, v7, ?_⟩
      intro hE a ha y hy hd
      rcases List.mem_cons.1 ha with rfl | ha
      · exfalso
        have hrun := (g.run _ _ _ hc hn).2
        rw [← v3] at hrun
        rcases keeps_slot hrun a with ⟨_, h⟩ | ⟨y', _, h, _⟩
        · rw [h] at hy; cases hy
        · rw [hx] at h; cases h
      · exact v8 hE a ha y hy hd
    | some y =>
      obtain ⟨y0, hy0, hkey⟩ : ∃ y0, slotOf st0 x = some y0 ∧ y0.key = y.key := by
        rcases hkx with ⟨_, h⟩ | ⟨y0, y', h1, h2, h3, _⟩
        · rw [hx] at h; cases h
        · rw [hx] at h2; injection h2 with h2; subst h2; exact ⟨y0, h1, h3.symm⟩
      by_cases hd : y.deleted = true
      · have e : rangeWith H f (x :: xs) st seen = rangeWith H f xs st seen := by simp only [rangeWith, hx, hd, if_true]
        rw [e] at hc hn ⊢
        obtain ⟨vis, v1, v2, v3, v4, v5, v6, v7, v8⟩ := ih st s seen g hk (fun a ha => hst a (List.mem_cons_of_mem _ ha)) htail hc hn
        refine ⟨vis, v1, v2, v3, ?_, v5, v6, v7, ?_⟩
        · rw [List.filterMap_cons_some hy0, List.map_cons]
          exact List.Sublist.cons _ v4
        · intro hE a ha w hw hwd
          rcases List.mem_cons.1 ha with rfl | ha
          · exfalso
            have hrun := (g.run _ _ _ hc hn).2
            rw [← v3] at hrun
            rcases keeps_slot hrun a with ⟨_, h⟩ | ⟨y', w', h, h', _, _, _, h4⟩
            · rw [h] at hw; cases hw
            · rw [hx] at h; injection h with h; subst h
              rw [hw] at h'; injection h' with h'; subst h'
              rw [h4 hd] at hwd; cases hwd
          · exact v8 hE a ha w hw hwd
      · have hd : y.deleted = false := by simpa using hd
        have hmem : s.m (H.mem (pairOf y).1, H.xx (pairOf y).1) = some (pairOf y).2 := by
          have hsy := hst x (by simp) y hx
          obtain ⟨k1, k2⟩ := g.key y hsy
          exact (g.abs _ _ _).2 ⟨y, hsy, hd, by simp only [pairOf]; rw [k1, rev64_rev64], by simp only [pairOf]; rw [k2], rfl⟩
        by_cases hgo : (f seen (pairOf y)).2 = true
        · have e : rangeWith H f (x :: xs) st seen =
              { rangeWith H f xs (Emb.run H st (f seen (pairOf y)).1).1 (seen ++ [pairOf y]) with
                trace := (f seen (pairOf y)).1 ++ (rangeWith H f xs (Emb.run H st (f seen (pairOf y)).1).1 (seen ++ [pairOf y])).trace } := by
            simp only [rangeWith, hx, hd, hgo, if_true, Bool.false_eq_true, if_false]
          rw [e] at hc hn ⊢
          simp only at hc hn ⊢
          obtain ⟨hc1, hc2⟩ := (calmRun_append _ _ _).1 hc
          rw [Emb.run_append] at hn
          simp only [List.mem_append, not_or] at hn
          obtain ⟨g1, k1⟩ := g.run _ _ _ hc1 (fun c => (hn c).1)
          obtain ⟨vis, v1, v2, v3, v4, v5, v6, v7, v8⟩ := ih _ _ (seen ++ [pairOf y]) g1 (hk.trans k1)
            (htail _ k1) (fun st' h' => htail st' (k1.trans h')) hc2 (fun c => (hn c).2)
          refine ⟨pairOf y :: vis, by rw [v1]; simp, by rw [v2]; rfl, by rw [Emb.run_append]; exact v3, ?_, ?_, ?_, ?_, ?_⟩
          · rw [List.filterMap_cons_some hy0, List.map_cons, List.map_cons, hkey]
            exact List.Sublist.cons₂ _ v4
          · intro p x' q he
            cases p with
            | nil =>
              simp only [List.nil_append, List.cons.injEq] at he
              obtain ⟨rfl, _⟩ := he
              exact hmem
            | cons a p =>
              simp only [List.cons_append, List.cons.injEq] at he
              obtain ⟨rfl, he⟩ := he
              have := v5 p x' q he
              simp only [callsOf, List.map_append, prun_append]
              exact this
          · intro p x' q he hq
            cases p with
            | nil =>
              simp only [List.nil_append, List.cons.injEq] at he
              obtain ⟨rfl, _⟩ := he
              simpa using hgo
            | cons a p =>
              simp only [List.cons_append, List.cons.injEq] at he
              obtain ⟨rfl, he⟩ := he
              have := v6 p x' q he hq
              simpa using this
          · intro hE
            obtain ⟨p, x', h1, h2⟩ := v7 hE
            exact ⟨pairOf y :: p, x', by rw [h1]; rfl, by simpa using h2⟩
          · intro hE a ha w hw hwd
            rcases List.mem_cons.1 ha with rfl | ha
            · refine ⟨pairOf y, by simp, ?_⟩
              have hrun := (g1.run _ _ _ hc2 (fun c => (hn c).2)).2
              rw [← v3] at hrun
              rcases keeps_slot (k1.trans hrun) a with ⟨_, h⟩ | ⟨y', w', h, h', h3, _⟩
              · rw [h] at hw; cases hw
              · rw [hx] at h; injection h with h; subst h
                rw [hw] at h'; injection h' with h'; subst h'
                exact h3.symm
            · obtain ⟨v, w1, w2⟩ := v8 hE a ha w hw hwd
              exact ⟨v, List.mem_cons_of_mem _ w1, w2⟩
        · have e : rangeWith H f (x :: xs) st seen =
              ⟨(Emb.run H st (f seen (pairOf y)).1).1, seen ++ [pairOf y], (f seen (pairOf y)).1, false⟩ := by
            simp only [rangeWith, hx, hd, hgo, if_true, Bool.false_eq_true, if_false]
          rw [e]
          refine ⟨[pairOf y], rfl, by simp [callsOf], rfl, ?_, ?_, ?_, ?_, by simp⟩
          · rw [List.filterMap_cons_some hy0, List.map_cons, List.map_cons, hkey]
            exact List.Sublist.cons₂ _ (List.nil_sublist _)
          · intro p x' q he
            cases p with
            | nil =>
              simp only [List.nil_append, List.cons.injEq] at he
              obtain ⟨rfl, _⟩ := he
              exact hmem
            | cons a p => simp at he
          · intro p x' q he hq
            cases p with
            | nil =>
              simp only [List.nil_append, List.cons.injEq] at he
              exact absurd he.2.symm hq
            | cons a p => simp at he
          · intro _
            exact ⟨[], pairOf y, rfl, by simpa using hgo⟩

/-- Slots of the list are slots of the map. -/
theorem list_stored {st : Emb.St} {gl : List Path} {D : Node → Bool} (h : EI (clrSt st 0) gl) {x : Node}
    (hx : x ∈ lst D st) {y : Slot} (hy : slotOf st x = some y) : Emb.Stored st y :=
  (slot_iff h y).1 ⟨x, List.mem_of_mem_filter hx, hy⟩

/-- Structural properties only: they do not depend on marks and values. -/
theorem list_stored_keeps {H : HashFns} {st st' : Emb.St} {gl : List Path} {s : PMap} {D : Node → Bool} (g : RelX H st gl s) (hk : Keeps st st')
    {x : Node} (hx : x ∈ lst D st) {y : Slot} (hy : slotOf st' x = some y) : Emb.Stored st' y := by
  cases x with
  | dummy p => cases hy
  | item b i =>
    simp only [slotOf] at hy
    cases hP' : st'.pools b with
    | none => rw [hP'] at hy; cases hy
    | some P' =>
      cases hP : st.pools b with
      | none => rw [(hk.pool b).1.2 hP] at hP'; cases hP'
      | some P =>
        rw [hP'] at hy
        simp only [Option.map_some, Option.some.injEq] at hy
        obtain ⟨a1, a2, _⟩ := (hk.pool b).2 P P' hP hP'
        have hmem := List.mem_of_mem_filter hx
        unfold canon at hmem
        obtain ⟨q, hq, hm⟩ := List.mem_flatMap.1 hmem
        unfold seg at hm
        simp only [List.mem_cons, reduceCtorEq, List.mem_map, List.mem_range, Node.item.injEq, false_or] at hm
        obtain ⟨j, hj, rfl, rfl⟩ := hm
        simp only [plen, hP] at hj
        refine ⟨q, P', hP', ?_⟩
        -- the array is at least as long as its length says
        have hcap : P.len.toNat ≤ P.arr.length := by
          obtain ⟨hq1, hq2⟩ := g.ei.pool q (by simp [clrSt, hP])
          obtain ⟨n', ha'⟩ := Emb.adj_next g.ei.desc g.ei.head hq1 hq2
          obtain ⟨P2, xs', z', g1', g2', _⟩ := g.ei.content n' q ha'
          simp only [clrSt, hP, Option.map_some, Option.some.injEq] at g1'
          subst g1'
          have hcp := g2'.cp.1
          have := hcp.cap
          rw [hcp.len]; simp; omega
        unfold Pool.used
        have hlt : j < P'.arr.length := by rw [a2]; omega
        rw [← hy]
        unfold Pool.slot
        rw [List.getD_eq_getElem?_getD, List.getElem?_eq_getElem hlt, Option.getD_some]
        rw [List.mem_take_iff_getElem]
        exact ⟨j, by rw [a1]; omega, rfl⟩

/-- C89: Range with the callback `f` after the history `ops`. -/
def C89_statement (H : HashFns) (mp : Nat) (ops : List Emb.Op)
    (f : List (List (BitVec 8) × IVal) → List (BitVec 8) × IVal → List Emb.Op × Bool) : Prop :=
  ∃ l, (run H (initL mp) ops).items = some l ∧
    Visits H ((PMap.empty .sample).run H (ops.map toOp)).1 f (rangeWith H f l (Emb.run H (Emb.initSt mp) ops).1 []) ∧
    -- afterwards the list is the one walked through, and the map is what the calls made of it
    run H (initL mp) (ops ++ (rangeWith H f l (Emb.run H (Emb.initSt mp) ops).1 []).trace) =
      ⟨(rangeWith H f l (Emb.run H (Emb.initSt mp) ops).1 []).st, some l⟩ ∧
    -- and the next Range goes through what is left
    Ranges H ((PMap.empty .sample).run H ((ops ++ (rangeWith H f l (Emb.run H (Emb.initSt mp) ops).1 []).trace).map toOp)).1.m
      (range (run H (initL mp) (ops ++ (rangeWith H f l (Emb.run H (Emb.initSt mp) ops).1 []).trace)))

/-- The calls the callback makes in the course of the Range. -/
def made (H : HashFns) (mp : Nat) (ops : List Emb.Op) (f : List (List (BitVec 8) × IVal) → List (BitVec 8) × IVal → List Emb.Op × Bool) :
    List Emb.Op :=
  (rangeWith H f ((run H (initL mp) ops).items.getD []) (Emb.run H (Emb.initSt mp) ops).1 []).trace

/-- C89 after gentle histories, for callbacks that read, delete (any keys, also those that stand first in their arrays) and set
keys that are there. -/
theorem C89_partial {H : HashFns} {mp : Nat} {ops : List Emb.Op} (h : CleanD H mp ops) (ho : OffGrid H mp ops)
    {f : List (List (BitVec 8) × IVal) → List (BitVec 8) × IVal → List Emb.Op × Bool}
    (hc : calmRun H ((PMap.empty .sample).run H (ops.map toOp)).1 (made H mp ops f)) (hn : NoCrash H mp (ops ++ made H mp ops f)) :
    C89_statement H mp ops f := by
  have hn0 : ∀ c, Emb.Out.crash c ∉ (Emb.run H (Emb.initSt mp) ops).2 ∧
      Emb.Out.crash c ∉ (Emb.run H (Emb.run H (Emb.initSt mp) ops).1 (made H mp ops f)).2 := by
    intro c
    have := hn c
    rw [Emb.run_append] at this
    simpa [not_or] using this
  obtain ⟨gl, l, g, hl, hst, D, hD, rfl⟩ := list_of h (fun c => (hn0 c).1) ho
  have gx := g.x
  have hmade : made H mp ops f = (rangeWith H f (lst D (Emb.run H (Emb.initSt mp) ops).1) (Emb.run H (Emb.initSt mp) ops).1 []).trace := by
    unfold made; rw [hl]; rfl
  rw [hmade] at hc hn0
  unfold C89_statement
  refine ⟨_, hl, ?_⟩
  obtain ⟨vis, v1, v2, v3, v4, v5, v6, v7, v8⟩ := walk_spec f (Emb.run H (Emb.initSt mp) ops).1 (lst D (Emb.run H (Emb.initSt mp) ops).1)
    _ _ [] gx (Keeps.refl _) (fun x hx y hy => list_stored gx.ei hx hy) (fun st' hk x hx y hy => list_stored_keeps gx hk hx hy) hc
    (fun c => (hn0 c).2)
  rw [List.nil_append] at v1
  obtain ⟨gr, kr⟩ := gx.run _ _ _ hc (fun c => (hn0 c).2)
  have hrunl : run H (initL mp) (ops ++ (rangeWith H f (lst D (Emb.run H (Emb.initSt mp) ops).1) (Emb.run H (Emb.initSt mp) ops).1 []).trace) =
      ⟨(rangeWith H f (lst D (Emb.run H (Emb.initSt mp) ops).1) (Emb.run H (Emb.initSt mp) ops).1 []).st,
        some (lst D (Emb.run H (Emb.initSt mp) ops).1)⟩ := by
    have e : ∀ tr, run H (initL mp) (ops ++ tr) = run H (run H (initL mp) ops) tr := by intro tr; unfold run; rw [List.foldl_append]
    rw [e]
    have e2 : run H (initL mp) ops = ⟨(Emb.run H (Emb.initSt mp) ops).1, some (lst D (Emb.run H (Emb.initSt mp) ops).1)⟩ := by
      cases hh : run H (initL mp) ops with
      | mk a b => rw [hh] at hl hst; simp only at hl hst; rw [hl, hst]
    rw [e2, run_calm _ _ _ _ gx hc (fun c => (hn0 c).2), v3]
  obtain ⟨kD, kl⟩ := keeps_li kr hD
  refine ⟨⟨by rw [v2, v1], ?_, ?_, ?_, ?_, ?_⟩, hrunl, ?_⟩
  · rw [v1]
    have hs : (((lst D (Emb.run H (Emb.initSt mp) ops).1).filterMap (slotOf (Emb.run H (Emb.initSt mp) ops).1)).map (·.key)).Pairwise
        (fun a b => rev64 (H.mem a) < rev64 (H.mem b)) := by
      rw [List.pairwise_map]
      refine ((canon_sorted gx.ei).sublist (List.filter_sublist.filterMap _)).imp_of_mem ?_
      intro a b ha hb hab
      obtain ⟨x, hx, hxa⟩ := List.mem_filterMap.1 ha
      obtain ⟨x', hx', hxb⟩ := List.mem_filterMap.1 hb
      rw [(gx.key a (list_stored gx.ei hx hxa)).1, (gx.key b (list_stored gx.ei hx' hxb)).1, rev64_rev64, rev64_rev64]
      exact hab
    have := hs.sublist v4
    rwa [List.pairwise_map] at this
  · intro p x q he; exact v5 p x q (by rw [← v1]; exact he)
  · intro p x q he hq; have := v6 p x q (by rw [← v1]; exact he) hq; simpa using this
  · intro hE
    obtain ⟨p, x, h1, h2⟩ := v7 hE
    exact ⟨p, x, by rw [v1, h1], by simpa using h2⟩
  · intro hE k c v hm
    obtain ⟨y, y1, y0, y2, y3, y4⟩ := (gr.abs _ _ _).1 hm
    have hy := (live_iff gr.ei kD y).2 ⟨y1, y0⟩
    unfold liveS at hy
    obtain ⟨hy1, _⟩ := List.mem_filter.1 hy
    obtain ⟨x, hx, hxy⟩ := List.mem_filterMap.1 hy1
    rw [kl] at hx
    rw [← v3] at hxy
    obtain ⟨w, w1, w2⟩ := v8 hE x hx y hxy y0
    obtain ⟨k1, k2⟩ := gr.key y y1
    refine ⟨w, by rw [v1]; exact w1, ?_, ?_⟩
    · rw [w2, k1, y2, rev64_rev64]
    · rw [w2, k2, y3]
  · rw [hrunl, List.map_append, prun_append]
    refine ranges_of (ls := ⟨_, _⟩) (gl := gl) (D := D) ?_ ?_ ?_
    · simp only; rw [v3]; exact gr
    · simp only; rw [v3]; exact kD
    · simp only; rw [v3, kl]

/-- C75 after a gentle history and then any reads, Deletes (of first slots, too) and Sets of keys that are there. -/
theorem C75_deletes_partial {H : HashFns} {mp : Nat} {ops cs : List Emb.Op} (h : CleanD H mp ops) (ho : OffGrid H mp ops)
    (hc : calmRun H ((PMap.empty .sample).run H (ops.map toOp)).1 cs) (hn : NoCrash H mp (ops ++ cs)) : C75_statement H mp (ops ++ cs) := by
  have hn0 : ∀ c, Emb.Out.crash c ∉ (Emb.run H (Emb.initSt mp) ops).2 ∧
      Emb.Out.crash c ∉ (Emb.run H (Emb.run H (Emb.initSt mp) ops).1 cs).2 := by
    intro c
    have := hn c
    rw [Emb.run_append] at this
    simpa [not_or] using this
  obtain ⟨gl, l, g, hl, hst, D, hD, rfl⟩ := list_of h (fun c => (hn0 c).1) ho
  obtain ⟨gr, kr⟩ := g.x.run _ _ _ hc (fun c => (hn0 c).2)
  obtain ⟨kD, kl⟩ := keeps_li kr hD
  unfold C75_statement
  have e : run H (initL mp) (ops ++ cs) = ⟨(Emb.run H (Emb.run H (Emb.initSt mp) ops).1 cs).1, some (lst D (Emb.run H (Emb.initSt mp) ops).1)⟩ := by
    have e1 : run H (initL mp) (ops ++ cs) = run H (run H (initL mp) ops) cs := by unfold run; rw [List.foldl_append]
    have e2 : run H (initL mp) ops = ⟨(Emb.run H (Emb.initSt mp) ops).1, some (lst D (Emb.run H (Emb.initSt mp) ops).1)⟩ := by
      cases hh : run H (initL mp) ops with
      | mk a b => rw [hh] at hl hst; simp only at hl hst; rw [hl, hst]
    rw [e1, e2, run_calm _ _ _ _ g.x hc (fun c => (hn0 c).2)]
  rw [e, List.map_append, prun_append]
  exact ranges_of (ls := ⟨_, _⟩) gr kD (by simp only; rw [kl])

/-- The first key of a bucket is deleted: not a gentle call. -/
example : CleanD hR 4 exList ∧ OffGrid hR 4 exList ∧ Emb.gentle hR (Emb.run hR (Emb.initSt 4) exList).1 (.delete (sk 10)) = false ∧
    calmRun hR ((PMap.empty .sample).run hR (exList.map toOp)).1 [.delete (sk 10)] ∧
    range (run hR (initL 4) (exList ++ [.delete (sk 10)])) (fun _ _ => true) = some [(key8 0x2100000000000000, exV 0x21),
      (key8 0x2700000000000000, exV 0x27), (key8 0x2900000000000000, exV 0x29)] :=
  ⟨exList_clean, exList_off, by decide +kernel, ⟨trivial, trivial⟩, by decide +kernel⟩

/-- The callback that deletes every key it is shown. -/
def wipe : List (List (BitVec 8) × IVal) → List (BitVec 8) × IVal → List Emb.Op × Bool := fun _ x => ([.delete (.str x.1)], true)

theorem wipe_calls : ∀ (q p : List (List (BitVec 8) × IVal)), callsOf wipe p q = q.map (fun x => .delete (.str x.1)) := by
  intro q
  induction q with
  | nil => intro p; rfl
  | cons x q ih => intro p; simp only [callsOf, ih, wipe, List.map_cons, List.cons_append, List.nil_append]

theorem wipe_trace {H : HashFns} : ∀ (xs : List Node) (st : Emb.St) (seen : List (List (BitVec 8) × IVal)),
    (rangeWith H wipe xs st seen).atEnd = true ∧ ∀ op ∈ (rangeWith H wipe xs st seen).trace, ∃ k, op = .delete k := by
  intro xs
  induction xs with
  | nil => intro st seen; simp [rangeWith]
  | cons x xs ih =>
    intro st seen
    simp only [rangeWith]
    cases slotOf st x with
    | none => exact ih st seen
    | some y =>
      simp only
      split
      · exact ih st seen
      · simp only [wipe, if_true]
        refine ⟨(ih _ _).1, ?_⟩
        intro op hop
        rcases List.mem_append.1 hop with hop | hop
        · exact ⟨_, List.mem_singleton.1 hop⟩
        · exact (ih _ _).2 op hop

theorem calm_deletes {H : HashFns} : ∀ (ops : List Emb.Op) (s : PMap), (∀ op ∈ ops, ∃ k, op = Emb.Op.delete k) → calmRun H s ops := by
  intro ops
  induction ops with
  | nil => intro s _; trivial
  | cons op ops ih =>
    intro s h
    obtain ⟨k, rfl⟩ := h op (by simp)
    exact ⟨trivial, ih _ (fun o ho => h o (by simp [ho]))⟩

/-- Deletes leave nothing that was deleted. -/
theorem deletes_gone {H : HashFns} : ∀ (ks : List (List (BitVec 8))) (s : PMap) (kc : U64 × U64),
    (s.m kc = none ∨ ∃ k ∈ ks, (H.mem k, H.xx k) = kc) → (s.run H (ks.map (fun k => SLM.Op.delete (.str k)))).1.m kc = none := by
  intro ks
  induction ks with
  | nil => intro s kc h; simpa [PMap.run] using h
  | cons k ks ih =>
    intro s kc h
    simp only [List.map_cons, PMap.run]
    apply ih
    have hstep : (s.step H (.delete (.str k))).1.m kc = if (H.mem k, H.xx k) = kc then none else s.m kc := by
      simp only [PMap.step, keyToHash]
      cases hm : s.m (H.mem k, H.xx k) with
      | none =>
        simp only
        split
        · rename_i he; rw [← he]; exact hm
        · rfl
      | some v =>
        simp only [PMap.del]
        by_cases he : (H.mem k, H.xx k) = kc
        · rw [if_pos he.symm, if_pos he]
        · rw [if_neg (fun x => he x.symm), if_neg he]
    by_cases he : (H.mem k, H.xx k) = kc
    · left; rw [hstep, if_pos he]
    · rcases h with h | ⟨k', hk', hk2⟩
      · left; rw [hstep, if_neg he]; exact h
      · rcases List.mem_cons.1 hk' with rfl | hk'
        · exact absurd hk2 he
        · right; exact ⟨k', hk', hk2⟩

/-- Ranging over a map and deleting every key that is shown: every key is shown, the plain map is empty afterwards, and so is the next
Range (although Get may still answer some of the keys, see C23). -/
theorem C89_wipe_partial {H : HashFns} {mp : Nat} {ops : List Emb.Op} (h : CleanD H mp ops) (ho : OffGrid H mp ops)
    (hn : NoCrash H mp (ops ++ made H mp ops wipe)) :
    C89_statement H mp ops wipe ∧
    (∀ kc, ((PMap.empty .sample).run H ((ops ++ made H mp ops wipe).map toOp)).1.m kc = none) ∧
    ∀ f, range (run H (initL mp) (ops ++ made H mp ops wipe)) f = some [] := by
  have hC := C89_partial h ho (f := wipe) (calm_deletes _ _ (by unfold made; exact (wipe_trace _ _ _).2)) hn
  refine ⟨hC, ?_⟩
  obtain ⟨l, hl, hv, _, hr⟩ := hC
  have hmade : made H mp ops wipe = (rangeWith H wipe l (Emb.run H (Emb.initSt mp) ops).1 []).trace := by
    unfold made; rw [hl]; rfl
  rw [hmade]
  generalize hR : rangeWith H wipe l (Emb.run H (Emb.initSt mp) ops).1 [] = R at *
  have hend : R.atEnd = true := by rw [← hR]; exact (wipe_trace _ _ _).1
  have hempty : ∀ kc, ((PMap.empty .sample).run H ((ops ++ R.trace).map toOp)).1.m kc = none := by
    intro kc
    rw [List.map_append, prun_append]
    have htr : R.trace.map toOp = (R.seen.map (·.1)).map (fun k => SLM.Op.delete (.str k)) := by
      rw [hv.calls, wipe_calls, List.map_map, List.map_map]; rfl
    cases hm : (((PMap.empty .sample).run H (ops.map toOp)).1.run H (R.trace.map toOp)).1.m kc with
    | none => rfl
    | some v =>
      obtain ⟨k, c⟩ := kc
      obtain ⟨x, hx, e1, e2⟩ := hv.all hend k c v hm
      have := deletes_gone (H := H) (R.seen.map (·.1)) ((PMap.empty .sample).run H (ops.map toOp)).1 (k, c)
        (Or.inr ⟨x.1, List.mem_map_of_mem hx, by rw [e1, e2]⟩)
      rw [← htr, hm] at this
      cases this
  refine ⟨hempty, ?_⟩
  intro f
  obtain ⟨L, _, hL, hf⟩ := hr
  have hnil : L = [] := by
    rw [List.eq_nil_iff_forall_not_mem]
    intro x hx
    have := (hL (H.mem x.1) (H.xx x.1) x.2).2 ⟨x, hx, rfl, rfl, rfl⟩
    rw [hempty] at this
    cases this
  obtain ⟨calls, rest, h1, h2, _⟩ := hf f
  rw [hnil] at h2
  have := List.append_eq_nil_iff.1 h2.symm
  rw [h1, this.1]

/-- Non-vacuity: the history of C75 with deletions, a reused slot, purges and a split, and the callback that deletes what it is shown. -/
example : CleanD hR 4 exList ∧ OffGrid hR 4 exList ∧ NoCrash hR 4 (exList ++ made hR 4 exList wipe) ∧
    made hR 4 exList wipe = [.delete (sk 10), .delete (.str (key8 0x2100000000000000)), .delete (.str (key8 0x2700000000000000)),
      .delete (.str (key8 0x2900000000000000))] := by
  refine ⟨exList_clean, exList_off, ?_, by decide +kernel⟩
  have : ((Emb.run hR (Emb.initSt 4) (exList ++ made hR 4 exList wipe)).2.all (fun o => match o with | .crash _ => false | _ => true)) = true := by
    decide +kernel
  intro c hx
  have := List.all_eq_true.1 this _ hx
  cases this

/-- A callback that sets the key it is shown to another value, deletes another key, reads, and stops after three calls. -/
def exCb : List (List (BitVec 8) × IVal) → List (BitVec 8) × IVal → List Emb.Op × Bool := fun seen x =>
  ([.set (.str x.1) (exV 99), .get (.str x.1)] ++ (if seen = [] then [.delete (.str (key8 0x2100000000000000))] else []),
    decide (seen.length < 2))

example : C89_statement hR 4 exList exCb ∧
    (rangeWith hR exCb ((run hR (initL 4) exList).items.getD []) (Emb.run hR (Emb.initSt 4) exList).1 []).seen =
      [([10], exV 5), (key8 0x2700000000000000, exV 0x27), (key8 0x2900000000000000, exV 0x29)] := by
  refine ⟨C89_partial exList_clean exList_off ?_ ?_, by decide +kernel⟩
  · have e : made hR 4 exList exCb = [.set (sk 10) (exV 99), .get (sk 10), .delete (.str (key8 0x2100000000000000)),
        .set (.str (key8 0x2700000000000000)) (exV 99), .get (.str (key8 0x2700000000000000)),
        .set (.str (key8 0x2900000000000000)) (exV 99), .get (.str (key8 0x2900000000000000))] := by decide +kernel
    rw [e]
    refine ⟨⟨_, rfl, by decide +kernel⟩, trivial, trivial, ⟨_, rfl, by decide +kernel⟩, trivial, ⟨_, rfl, by decide +kernel⟩, trivial, trivial⟩
  · have : ((Emb.run hR (Emb.initSt 4) (exList ++ made hR 4 exList exCb)).2.all (fun o => match o with | .crash _ => false | _ => true)) = true := by
      decide +kernel
    intro c hx
    have := List.all_eq_true.1 this _ hx
    cases this

/-! ### C89 fails in general -/

/-- A callback that calls nothing and looks at everything. -/
def quiet : List (List (BitVec 8) × IVal) → List (BitVec 8) × IVal → List Emb.Op × Bool := fun _ _ => ([], true)

theorem quiet_trace (H : HashFns) : ∀ (l : List Node) (st : Emb.St) (seen : List (List (BitVec 8) × IVal)), (rangeWith H quiet l st seen).trace = [] := by
  intro l
  induction l with
  | nil => intro st seen; rfl
  | cons x xs ih =>
    intro st seen
    unfold rangeWith
    split
    · exact ih _ _
    · split
      · exact ih _ _
      · exact ih _ _

/-- C89 fails in general even for a callback that calls nothing: the key with the hash `2^64-1` is stored and Range does not show it. -/
theorem C89_refuted : CleanD hR 4 exMax ∧ NoCrash hR 4 exMax ∧ ¬ C89_statement hR 4 exMax quiet := by
  refine ⟨C75_refuted.1, C75_refuted.2.1, ?_⟩
  rintro ⟨l, _, _, _, hr⟩
  rw [quiet_trace, List.append_nil] at hr
  exact C75_refuted.2.2 hr

end SLM.EList
