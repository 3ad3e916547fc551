import Verif.Proofs.Ends
import Verif.Proofs.LConc
import Verif.Props.Static
import Verif.Props.Counting
import Verif.Props.Cost
/-!
C111: does deleting give anything back?  The nodes of a map are the elements of `st.items`: what a caller meets on the way from First to Last.  Those
that are no sentinels (`dummy = false`) carry a key, deleted or not.
-/
set_option autoImplicit false
namespace SLM
open History Spec

/-- The nodes that carry a key, be it deleted. -/
def keyNodes (st : St) : List Entry := st.items.filter (fun e => !e.dummy)

theorem insAt_eq_append (e : Entry) (l : List Entry) : ∃ a b, l = a ++ b ∧ insAt e l = a ++ e :: b :=
  ⟨_, _, (List.takeWhile_append_dropWhile (p := fun x => decide (x.rev ≤ e.rev)) (l := l)).symm, rfl⟩

theorem insert_cases {st : St} (b : Path) (rk : U64) (e : Entry) :
    setInsert st b rk e = st.items ∨ ∃ x y, st.items = x ++ y ∧ setInsert st b rk e = x ++ e :: y := by
  have key : ∀ r, (insertCheck r e st.items).getD st.items = st.items ∨
      ∃ x y, st.items = x ++ y ∧ (insertCheck r e st.items).getD st.items = x ++ e :: y := by
    intro r
    rcases insertCheck_getD_cases r e st.items with h | ⟨pre, d, post, h1, h2, _⟩
    · exact .inl h
    · exact .inr ⟨pre, d :: post, h1, h2⟩
  unfold setInsert
  simp only
  unfold add2
  split
  · exact key _
  · split
    · split
      · exact .inl rfl
      · exact key _
    · split
      · exact key _
      · exact .inl rfl

/-- What one operation does to the nodes: nothing but changes inside a node, or one new node, or one new node and one new sentinel. -/
theorem nodes_step (E : Env) {st : St} (h : Inv st) (op : Op) :
    ((refs (step E st op).1.items = refs st.items) ∨
      (storeHash E.H op).isSome = true ∧ (refs st.items).Sublist (refs (step E st op).1.items) ∧
        (step E st op).1.items.length ≤ st.items.length + 2) := by
  rcases step_eff E h op with x | ⟨e, nv, b, x⟩ | ⟨key, e, x⟩ | ⟨st2, k, c, e, x⟩
  · left
    obtain ⟨b, hb⟩ := x.same
    rw [hb]
  · left
    rw [x.res]
    simp only [refs, setVal, List.map_map]
    congr 1
    funext y
    simp only [Function.comp]
    split <;> rfl
  · left
    rw [x.res]
    simp only [refs, markDeleted, List.map_map]
    congr 1
    funext y
    simp only [Function.comp]
    split <;> rfl
  · right
    refine ⟨by rw [x.hash]; rfl, ?_⟩
    have hmid : (refs st.items).Sublist (refs (setMid st2 k (findBucket st.mem (rev64 k)) e).items) ∧
        (setMid st2 k (findBucket st.mem (rev64 k)) e).items.length ≤ st.items.length + 1 := by
      show (refs st.items).Sublist (refs (setInsert st2 _ _ e)) ∧ (setInsert st2 _ _ e).length ≤ _
      rcases insert_cases (st := st2) (findBucket st.mem (rev64 k)) (rev64 k) e with h1 | ⟨a, b, h1, h2⟩
      · rw [h1, x.items]; exact ⟨List.Sublist.refl _, by omega⟩
      · rw [h2, ← x.items, h1]
        refine ⟨?_, by simp; omega⟩
        simp only [refs, List.map_append, List.map_cons]
        exact List.Sublist.append (List.Sublist.refl _) (List.sublist_cons_self _ _)
    rcases x.grow with hg | ⟨A, B, n, b, c', hb⟩
    · rw [hg]; exact ⟨hmid.1, by omega⟩
    · rw [hb.items]
      obtain ⟨a, b', h1, h2⟩ := insAt_eq_append (dummyEntry b (bvRev b)) (setMid st2 k (findBucket st.mem (rev64 k)) e).items
      rw [h2]
      constructor
      · refine hmid.1.trans ?_
        rw [h1]
        simp only [refs, List.map_append, List.map_cons]
        exact List.Sublist.append (List.Sublist.refl _) (List.sublist_cons_self _ _)
      · have := congrArg List.length h1
        simp only [List.length_append, List.length_cons] at this ⊢
        omega

/-- The full property: the nodes of a map that carry a key are at most as many as there are live keys (up to a constant number `d` that the map may keep). -/
def C111_statement (E : Env) (cfg : Cfg) (d : Nat) (ops : List Op) : Prop :=
  (keyNodes (run E (initSt cfg) ops).1).length ≤ ((keyNodes (run E (initSt cfg) ops).1).filter (fun e => !e.deleted)).length + d

/-- No operation, in any reachable map, takes a node out of the map or changes the order of the nodes. -/
theorem C111_kept_refuted {E : Env} {st : St} (h : Reachable E st) (op : Op) : (refs st.items).Sublist (refs (step E st op).1.items) := by
  obtain ⟨cfg, ops, rfl⟩ := h
  rcases nodes_step E (run_inv E (inv_init cfg) ops) op with h1 | h1
  · rw [h1]
  · exact h1.2.1

/-- What there is instead: a map has at most seventeen nodes and two for each call that stores. -/
theorem C111_grow_partial (E : Env) (cfg : Cfg) (ops : List Op) : (run E (initSt cfg) ops).1.items.length ≤ 17 + 2 * stores E.H ops := by
  have key : ∀ (ops : List Op) (st : St), Inv st → (run E st ops).1.items.length ≤ st.items.length + 2 * stores E.H ops := by
    intro ops
    induction ops with
    | nil => intro st _; simp [run, stores]
    | cons op ops ih =>
      intro st h
      have h1 := ih _ (step_inv E h op)
      rw [run_cons, stores_cons]
      rcases nodes_step E h op with h2 | ⟨h2, _, h3⟩
      · have := congrArg List.length h2
        simp only [refs, List.length_map] at this
        show (run E (step E st op).1 ops).1.items.length ≤ _
        omega
      · rw [if_pos h2]
        show (run E (step E st op).1 ops).1.items.length ≤ _
        omega
  have h17 : (initSt cfg).items.length = 17 := by
    rw [initSt_items]; simp
  have := key ops (initSt cfg) (inv_init cfg)
  omega

/-- In a clean history, exactly: the nodes that carry a key are as many as the live keys and the acknowledged Deletes together. -/
theorem C111_partial {E : Env} {cfg : Cfg} {ops : List Op} (h : Clean E cfg ops) :
    ∃ L : List (U64 × U64), L.Nodup ∧
      (∀ k c, (k, c) ∈ L ↔ ∃ v, opGetByHash E (run E (initSt cfg) ops).1 k c = .val v true) ∧
      (keyNodes (run E (initSt cfg) ops).1).length = L.length + successfulDeletes ops (run E (initSt cfg) ops).2 := by
  obtain ⟨L, h1, h2, h3⟩ := C07_partial h
  refine ⟨L, h1, h2, ?_⟩
  have h4 := Conc.clean_nIt h
  simp only [step, Out.num.injEq] at h3
  rw [h3] at h4
  have h5 : (keyNodes (run E (initSt cfg) ops).1).length = Conc.nIt (run E (initSt cfg) ops).1.items := by
    unfold keyNodes Conc.nIt
    rw [List.countP_eq_length_filter]
  rw [h5]
  exact_mod_cast h4

/-! ### One key, set and deleted again and again -/

theorem setDelete_stores_eq (H : HashFns) (str : List (BitVec 8)) (v : IVal) (n : Nat) : stores H (setDelete (.str str) v n) = n := by
  induction n with
  | zero => rfl
  | succ n ih =>
    rw [setDelete, stores_cons, stores_cons, ih]
    simp only [storeHash, keyToHash, Option.isSome_some, Option.isSome_none, if_true, Bool.false_eq_true, if_false]
    omega

theorem setDelete_clean_max {E : Env} {cfg : Cfg} {str : List (BitVec 8)} {v : IVal} {n : Nat} (hn : (n : Int) ≤ cfg.maxPer)
    (hk : 16 ≤ (E.H.mem str).toNat) (hm : E.H.mem str ≠ maxU64) : Clean E cfg (setDelete (.str str) v n) := by
  have h0 : maxSplits E.H cfg (setDelete (.str str) v n) = 0 := by unfold maxSplits; rw [setDelete_stores_eq]; omega
  have hst : ∀ op ∈ setDelete (.str str) v n, ∀ k c, storeHash E.H op = some (k, c) → k = E.H.mem str ∧ c = E.H.xx str := by
    intro op ho k c hkc
    rcases setDelete_mem ho with rfl | rfl
    · simp only [storeHash, keyToHash, Option.some.injEq, Prod.mk.injEq] at hkc
      exact ⟨hkc.1.symm, hkc.2.symm⟩
    · cases hkc
  refine static_clean ?_ ?_ (by omega) ?_
  · intro a ha b hb k c c' e1 e2
    rw [(hst a ha k c e1).2, (hst b hb k c' e2).2]
  · intro it hit
    rcases setDelete_mem hit with h | h <;> cases h
  · intro op ho k c hkc
    rw [h0, (hst op ho k c hkc).1]
    exact ⟨hk, hm⟩

theorem setDelete_spec (H : HashFns) (str : List (BitVec 8)) (v : IVal) (n : Nat) : ∀ s : PMap, s.m = (fun _ => none) →
    (s.run H (setDelete (.str str) v n)).1.m = (fun _ => none) ∧ (s.run H (setDelete (.str str) v n)).2 = List.replicate (2 * n) (Ans.bool true) := by
  induction n with
  | zero => intro s hs; exact ⟨hs, rfl⟩
  | succ n ih =>
    intro s hs
    have e1 : s.step H (.set (.str str) v) = ({ s.put (H.mem str, H.xx str) v with fn := .sample }, .bool true) := by
      simp only [PMap.step, keyToHash, hs]
    have e2 : PMap.step H { s.put (H.mem str, H.xx str) v with fn := .sample } (.delete (.str str)) =
        (PMap.del { s.put (H.mem str, H.xx str) v with fn := .sample } (H.mem str, H.xx str), .bool true) := by
      simp only [PMap.step, keyToHash, PMap.put, if_true]
    have e3 : (PMap.del { s.put (H.mem str, H.xx str) v with fn := .sample } (H.mem str, H.xx str)).m = (fun _ => none) := by
      funext x
      simp only [PMap.del, PMap.put, hs]
      split <;> rfl
    obtain ⟨i1, i2⟩ := ih _ e3
    simp only [setDelete, PMap.run, e1, e2]
    refine ⟨i1, ?_⟩
    rw [i2, show 2 * (n + 1) = 2 * n + 1 + 1 by omega, List.replicate_succ, List.replicate_succ]

theorem setDelete_dels (str : List (BitVec 8)) (v : IVal) (n : Nat) :
    successfulDeletes (setDelete (.str str) v n) (List.replicate (2 * n) (Out.bool true)) = n := by
  induction n with
  | zero => rfl
  | succ n ih =>
    unfold successfulDeletes at ih ⊢
    rw [show 2 * (n + 1) = 2 * n + 1 + 1 by omega, List.replicate_succ, List.replicate_succ]
    simp only [setDelete, List.zip_cons_cons]
    rw [List.filter_cons_of_neg (by simp), List.filter_cons_of_pos (by rfl), List.length_cons, ih]

/-- A map that holds nothing may carry any number of nodes: one key, Set and Deleted `n` times (in a bucket that is not split: `n ≤ maxPer`), with every
call answered true, leaves no key in the map and `n` nodes that carry one, in every environment and whatever the key and the value. -/
theorem C111_rounds {E : Env} {cfg : Cfg} {str : List (BitVec 8)} {v : IVal} {n : Nat} (hn : (n : Int) ≤ cfg.maxPer)
    (hk : 16 ≤ (E.H.mem str).toNat) (hm : E.H.mem str ≠ maxU64) :
    (∀ o ∈ (run E (initSt cfg) (setDelete (.str str) v n)).2, o = .bool true) ∧
    (∀ k c, opGetByHash E (run E (initSt cfg) (setDelete (.str str) v n)).1 k c = .val none false) ∧
    (step E (run E (initSt cfg) (setDelete (.str str) v n)).1 .len).2 = .num n ∧
    (keyNodes (run E (initSt cfg) (setDelete (.str str) v n)).1).length = n ∧ (∀ e ∈ keyNodes (run E (initSt cfg) (setDelete (.str str) v n)).1, e.deleted = true) := by
  have hc := setDelete_clean_max (v := v) hn hk hm
  have hr := hc.refines.2.2
  obtain ⟨hs1, hs2⟩ := setDelete_spec E.H str v n (PMap.empty cfg.itemFn) rfl
  rw [← hr] at hs1 hs2
  have ho : (run E (initSt cfg) (setDelete (.str str) v n)).2 = List.replicate (2 * n) (Out.bool true) := by
    have h1 : ∀ o ∈ (run E (initSt cfg) (setDelete (.str str) v n)).2, o = .bool true := by
      intro o ho
      have : ans o ∈ List.replicate (2 * n) (Ans.bool true) := by rw [← hs2]; exact List.mem_map_of_mem ho
      exact ans_true (List.eq_of_mem_replicate this)
    have h2 : (run E (initSt cfg) (setDelete (.str str) v n)).2.length = 2 * n := by
      have := congrArg List.length hs2
      simpa using this
    rw [← h2]
    exact List.eq_replicate_of_mem h1
  have hg : ∀ k c, opGetByHash E (run E (initSt cfg) (setDelete (.str str) v n)).1 k c = .val none false := by
    intro k c
    rw [getByHash_absM hc.refines.1, hs1]
  obtain ⟨L, _, h2, h3⟩ := C111_partial hc
  obtain ⟨L', _, h2', h3'⟩ := C07_partial hc
  have hL : L = [] := by
    cases L with
    | nil => rfl
    | cons a as =>
      obtain ⟨v', hv⟩ := (h2 a.1 a.2).1 List.mem_cons_self
      rw [hg] at hv; cases hv
  have hL' : L' = [] := by
    cases L' with
    | nil => rfl
    | cons a as =>
      obtain ⟨v', hv⟩ := (h2' a.1 a.2).1 List.mem_cons_self
      rw [hg] at hv; cases hv
  refine ⟨?_, hg, ?_, ?_, ?_⟩
  · rw [ho]; exact fun o h => List.eq_of_mem_replicate h
  · rw [h3', ho, setDelete_dels, hL']; simp
  · rw [h3, ho, setDelete_dels, hL]; simp
  · intro e he
    unfold keyNodes at he
    rw [List.mem_filter] at he
    by_contra hd
    have := (absM_some hc.refines.1.uniq (k := rev64 e.rev) (c := e.conflict) (v := e.val)).2
      ⟨e, ⟨he.1, by simpa [Entry.ignored] using ⟨(by simpa using he.2 : e.dummy = false), (by simpa using hd : e.deleted = false)⟩⟩, (rev64_rev64 _).symm, rfl, rfl⟩
    rw [hs1] at this
    cases this

theorem C111_refuted (d : Nat) : ¬ ∀ (E : Env) (cfg : Cfg) (ops : List Op), C111_statement E cfg d ops := by
  intro h
  have h1 := h exE { maxPer := (d + 1 : Nat) } (setDelete (.str [97#8]) (exV 1) (d + 1))
  obtain ⟨_, _, _, h4, h6⟩ := C111_rounds (E := exE) (cfg := { maxPer := (d + 1 : Nat) }) (str := [97#8]) (v := exV 1) (n := d + 1)
    (by simp) (by decide +kernel) (by decide +kernel)
  have h5 : ((keyNodes (run exE (initSt { maxPer := (d + 1 : Nat) }) (setDelete (.str [97#8]) (exV 1) (d + 1))).1).filter (fun e => !e.deleted)) = [] := by
    rw [List.filter_eq_nil_iff]
    intro e he
    rw [h6 e he]; decide
  unfold C111_statement at h1
  rw [h4, h5] at h1
  simp at h1

/-! The hypotheses are met: the example history stores, overwrites, deletes and splits, and leaves more nodes than live keys. -/
example : Reachable exE (run exE (initSt exCfg) exOps).1 := ⟨exCfg, exOps, rfl⟩
example : Clean exE exCfg exOps := exClean
example : (keyNodes (run exE (initSt exCfg) exOps).1).length = 8 ∧
    ((keyNodes (run exE (initSt exCfg) exOps).1).filter (fun e => !e.deleted)).length = 6 := by
  constructor <;> decide +kernel
example : (3 : Int) ≤ (({ maxPer := 3 } : Cfg).maxPer) ∧ 16 ≤ (exE.H.mem [97#8]).toNat ∧ exE.H.mem [97#8] ≠ maxU64 := by decide +kernel

end SLM
