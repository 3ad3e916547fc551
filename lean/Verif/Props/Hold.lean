import Verif.Props.Spread
import Verif.Proofs.Hold
/-!
C91: items in the caller's hands, used between calls on the map.
-/
set_option autoImplicit false
set_option maxRecDepth 20000
namespace SLM
open Spec (ans Ans)
open History

/-- The calls on the map that store or read, in order. -/
def hcalls : List HOp → List Op
  | [] => []
  | .call op :: os => op :: hcalls os
  | .store _ it :: os => .storeItem it :: hcalls os
  | _ :: os => hcalls os

/-- As `OffBoundary` of C01. -/
def HOff (E : Env) : HSt → List HOp → Prop
  | _, [] => True
  | s, o :: os =>
    (∀ op ∈ hcalls [o], ∀ k c, storeHash E.H op = some (k, c) →
      (∃ v, opGetByHash E s.st k c = .val v true) ∨ rev64 k ∉ boundaries s.st) ∧ HOff E (hstep E s o).1 os

/-- As `Clean` of C01. -/
structure HClean (E : Env) (cfg : Cfg) (os : List HOp) : Prop where
  coll : NoCollision E.H (hcalls os)
  fresh : FreshItems (hcalls os)
  off : HOff E (hinit cfg) os
  crash : Out.panic .bucketHeadEmpty ∉ (hrun E (hinit cfg) os).2

/-- C91: calls on the map and on items answer as the machine in which keys and variables lead to cells: an item is the entry
of its key until the key is deleted; from then on it is an item by itself, and what is done to it does not reach the map. -/
def C91_statement (E : Env) (cfg : Cfg) (os : List HOp) : Prop :=
  (hrun E (hinit cfg) os).2.map ans = (Cells.empty cfg.itemFn).run E.H os

theorem hinit_rel (cfg : Cfg) : HRel (hinit cfg) (Cells.empty cfg.itemFn) := by
  have hd : (initSt cfg).items.filter (fun e => !e.dummy) = [] := by
    rw [List.filter_eq_nil_iff]
    intro e he
    simp [initSt_dummy cfg e he]
  refine ⟨⟨rfl, rfl, ?_, ?_⟩, fun _ => rfl, fun i x hx => (by cases hx)⟩
  · intro kc n
    simp [Cells.empty, core, hinit, hd]
  · intro e he
    simp only [core, hinit] at he
    rw [hd] at he
    cases he

def HAdmRun (E : Env) : HSt → List HOp → Prop
  | _, [] => True
  | s, o :: os => HAdm E s o ∧ HAdmRun E (hstep E s o).1 os

theorem hrun_cells {E : Env} {os : List HOp} {h : HSt} {s : Cells} (g : Good h.st) (r : HRel h s) (ha : HAdmRun E h os) :
    (hrun E h os).2.map ans = s.run E.H os := by
  induction os generalizing h s with
  | nil => rfl
  | cons o os ih =>
    obtain ⟨g', r', ho⟩ := r.step g ha.1
    simp only [hrun, Cells.run, List.map_cons]
    rw [ho, ih g' r' ha.2]

theorem HAdmRun.noCrash {E : Env} {os : List HOp} {h : HSt} (ha : HAdmRun E h os) :
    Out.panic .bucketHeadEmpty ∉ (hrun E h os).2 := by
  induction os generalizing h with
  | nil => simp [hrun]
  | cons o os ih =>
    simp only [hrun, List.mem_cons, not_or]
    refine ⟨?_, ih ha.2⟩
    intro hc
    have h1 := ha.1
    cases o with
    | call op => exact h1.2 hc.symm
    | store i it => exact h1.2 hc.symm
    | load i key => simp only [hstep] at hc; split at hc <;> cases hc
    | value i =>
      simp only [hstep] at hc
      split at hc
      · cases hc
      · simp only at hc; split at hc <;> cases hc
    | delete i => simp only [hstep] at hc; split at hc <;> cases hc
    | setValue i v =>
      simp only [hstep] at hc
      split at hc
      · cases hc
      · simp only [heldSetValue, setValue] at hc
        repeat' split at hc
        all_goals first | (cases hc; done) | skip
        all_goals rename_i hs; revert hs; repeat' split
        all_goals intro hs; first | (cases hs; done) | (injection hs with hs; subst hs; cases hc)

/-- What one step needs, and what it leaves. -/
theorem hstep_next {E : Env} {S : U64 → U64 → Prop} (hS : ∀ k c c', S k c → S k c' → c = c') {h : HSt} {s : Cells} {o : HOp} (g : Good h.st)
    (r : HRel h s) (hl : LiveIn S h.st) (hop : ∀ op ∈ hcalls [o], ∀ k c, storeHash E.H op = some (k, c) → S k c) (hf : FreshItems (hcalls [o]))
    (hoff : ∀ op ∈ hcalls [o], ∀ k c, storeHash E.H op = some (k, c) →
      (∃ v, opGetByHash E h.st k c = .val v true) ∨ rev64 k ∉ boundaries h.st)
    (hnc : ∀ op ∈ hcalls [o], (step E h.st op).2 ≠ .panic .bucketHeadEmpty) :
    HAdm E h o ∧ LiveIn S (hstep E h o).1.st := by
  have hcall : ∀ op ∈ hcalls [o], AdmOp E h.st op ∧ LiveIn S (step E h.st op).1 := by
    intro op ho
    have ha : AdmOp E h.st op := AdmOp.of g hS hl (hop op ho) (fun it hit => hf it (by rw [← hit]; exact ho)) (hoff op ho)
    have hone := run_refines hS (ops := [op]) g hl (fun o' ho' => by simp at ho'; subst ho'; exact hop _ ho)
      (fun it hit => hf it (by simp at hit; rw [hit]; exact ho)) ⟨hoff op ho, trivial⟩ (by
        rw [NoCrash]; simp only [run]; simp; exact fun h => hnc op ho h.symm)
    exact ⟨ha, hone.2.1⟩
  cases o with
  | call op => exact ⟨⟨(hcall op (by simp [hcalls])).1, hnc op (by simp [hcalls])⟩, (hcall op (by simp [hcalls])).2⟩
  | store i it => exact ⟨⟨(hcall _ (by simp [hcalls])).1, hnc _ (by simp [hcalls])⟩, (hcall (.storeItem it) (by simp [hcalls])).2⟩
  | load i key => refine ⟨trivial, ?_⟩; simp only [hstep]; split <;> exact hl
  | value i => refine ⟨trivial, ?_⟩; simp only [hstep]; split <;> exact hl
  | setValue i v =>
    refine ⟨trivial, ?_⟩
    simp only [hstep]
    split
    · exact hl
    · simp only [heldSetValue]
      split
      · exact hl
      · split
        · exact hl
        · intro x hx
          obtain ⟨h1, h2⟩ := hx
          simp only [setVal] at h1
          obtain ⟨y, hy, rfl⟩ := List.mem_map.1 h1
          split at h2
          · rename_i hc; simp only [if_pos hc]; exact hl y ⟨hy, h2⟩
          · rename_i hc; simp only [if_neg hc]; exact hl y ⟨hy, h2⟩
  | delete i =>
    refine ⟨trivial, ?_⟩
    simp only [hstep]
    split
    · exact hl
    · intro x hx
      obtain ⟨h1, h2⟩ := hx
      simp only [heldDelete, markDeleted] at h1
      obtain ⟨y, hy, rfl⟩ := List.mem_map.1 h1
      split at h2
      · simp [Entry.ignored] at h2
      · rename_i hc; simp only [if_neg hc]; exact hl y ⟨hy, h2⟩

theorem hcalls_cons (o : HOp) (os : List HOp) : hcalls (o :: os) = hcalls [o] ++ hcalls os := by
  cases o <;> rfl

theorem hadm_of {E : Env} {S : U64 → U64 → Prop} (hS : ∀ k c c', S k c → S k c' → c = c') {os : List HOp} {h : HSt} {s : Cells} (g : Good h.st)
    (r : HRel h s) (hl : LiveIn S h.st) (hop : ∀ op ∈ hcalls os, ∀ k c, storeHash E.H op = some (k, c) → S k c) (hf : FreshItems (hcalls os))
    (hoff : HOff E h os) (hcr : Out.panic .bucketHeadEmpty ∉ (hrun E h os).2) : HAdmRun E h os := by
  induction os generalizing h s with
  | nil => trivial
  | cons o os ih =>
    simp only [hrun, List.mem_cons, not_or] at hcr
    have hnc : ∀ op ∈ hcalls [o], (step E h.st op).2 ≠ .panic .bucketHeadEmpty := by
      intro op ho hc
      cases o with
      | call op' => simp [hcalls] at ho; subst ho; exact hcr.1 hc.symm
      | store i it => simp [hcalls] at ho; subst ho; exact hcr.1 hc.symm
      | _ => simp [hcalls] at ho
    obtain ⟨h1, h2⟩ := hstep_next hS g r hl (fun op ho => hop op (by rw [hcalls_cons]; simp [ho]))
      (fun it hit => hf it (by rw [hcalls_cons]; simp [hit])) hoff.1 hnc
    obtain ⟨g', r', _⟩ := r.step g h1
    exact ⟨h1, ih g' r' h2 (fun op ho => hop op (by rw [hcalls_cons]; simp [ho]))
      (fun it hit => hf it (by rw [hcalls_cons]; simp [hit])) hoff.2 hcr.2⟩

/-- C91, without pools, for clean histories. -/
theorem C91_partial {E : Env} {cfg : Cfg} {os : List HOp} (_hp : cfg.pool = false ∧ cfg.mode ≠ modeCombine4) (hc : HClean E cfg os) :
    C91_statement E cfg os := by
  refine hrun_cells (h := hinit cfg) (good_init cfg) (hinit_rel cfg) ?_
  apply hadm_of (S := storedPairs E.H (hcalls os)) _ (good_init cfg) (hinit_rel cfg) _ _ hc.fresh hc.off hc.crash
  · rintro k c c' ⟨a, ha, h1⟩ ⟨b, hb, h2⟩
    exact hc.coll a ha b hb k c c' h1 h2
  · intro x hx
    have := initSt_dummy cfg x hx.1
    have h2 := hx.2
    simp [Entry.ignored, this] at h2
  · intro op hop k c hk
    exact ⟨op, hop, hk⟩

/-- The buckets are not touched by methods of items. -/
theorem hstep_blist (E : Env) (h : HSt) (o : HOp) (hno : hcalls [o] = []) : (hstep E h o).1.st.blist = h.st.blist := by
  cases o with
  | call op => simp [hcalls] at hno
  | store i it => simp [hcalls] at hno
  | load i key => simp only [hstep]; split <;> rfl
  | value i => simp only [hstep]; split <;> rfl
  | delete i => simp only [hstep]; split <;> rfl
  | setValue i v =>
    simp only [hstep, heldSetValue]
    split
    · rfl
    · simp only
      split
      · rfl
      · split <;> rfl

theorem revsOf_append (H : HashFns) (a b : List Op) : revsOf H (a ++ b) = revsOf H a ++ revsOf H b := by
  simp [revsOf, List.filterMap_append]

theorem cnt_append (j x : Nat) (a b : List Nat) : cnt j x (a ++ b) = cnt j x a + cnt j x b := by
  simp [cnt, List.countP_append]

theorem spread_hadm {E : Env} {S0 : U64 → U64 → Prop} (hS : ∀ k c c', S0 k c → S0 k c' → c = c')
    {j M : Nat} (hD : j + M ≤ 58)
    {os : List HOp} {h : HSt} {s : Cells} {S : List Nat} (g : Good h.st) (r : HRel h s) (hl : LiveIn S0 h.st) (hc : Crowd S h.st.blist)
    (hop : ∀ op ∈ hcalls os, ∀ k c, storeHash E.H op = some (k, c) → S0 k c) (hfresh : FreshItems (hcalls os))
    (hb : ∀ x : U64, cnt j x.toNat S + cnt j x.toNat (revsOf E.H (hcalls os)) ≤ M)
    (hk : ∀ op ∈ hcalls os, ∀ k c, storeHash E.H op = some (k, c) → 2 ^ (4 + j + M) ≤ k.toNat ∧ k ≠ maxU64) :
    HAdmRun E h os := by
  induction os generalizing h s S with
  | nil => trivial
  | cons o os ih =>
    rw [hcalls_cons] at hop hfresh hb hk
    have h1 := spread_run hS hD (ops := hcalls [o]) (S := S) g hl hc (fun o ho => hop o (by simp [ho]))
      (fun it h => hfresh it (by simp [h]))
      (fun x => by have := hb x; rw [revsOf_append, cnt_append] at this; omega)
      (fun o ho => hk o (by simp [ho]))
    have hone : ∀ op, hcalls [o] = [op] → (∀ k c, storeHash E.H op = some (k, c) →
        (∃ v, opGetByHash E h.st k c = .val v true) ∨ rev64 k ∉ boundaries h.st) ∧ (step E h.st op).2 ≠ .panic .bucketHeadEmpty := by
      intro op he
      rw [he] at h1
      refine ⟨h1.1.1, ?_⟩
      have := h1.2
      rw [NoCrash, run_cons] at this
      simp only [List.mem_cons, not_or] at this
      exact fun h => this.1 h.symm
    have hsingle : ∀ op ∈ hcalls [o], hcalls [o] = [op] := by
      intro op ho
      cases o <;> simp [hcalls] at ho ⊢ <;> exact ho.symm
    obtain ⟨ha, hl'⟩ := hstep_next hS g r hl (fun op ho => hop op (by simp [ho])) (fun it h => hfresh it (by simp [h]))
      (fun op ho => (hone op (hsingle op ho)).1) (fun op ho => (hone op (hsingle op ho)).2)
    obtain ⟨g', r', _⟩ := r.step g ha
    have hnext : ∃ S', Crowd S' (hstep E h o).1.st.blist ∧ ∀ x : U64, cnt j x.toNat S' + cnt j x.toNat (revsOf E.H (hcalls os)) ≤ M := by
      cases o with
      | call op => exact spread_next (op := op) g ha.1 hc hb
      | store i it => exact spread_next (op := .storeItem it) g ha.1 hc hb
      | _ => exact ⟨S, by rw [hstep_blist _ _ _ rfl]; exact hc, hb⟩
    obtain ⟨S', hS', hb'⟩ := hnext
    exact ⟨ha, ih g' r' hl' hS' (fun o ho => hop o (by simp [ho])) (fun it h => hfresh it (by simp [h])) hb' (fun o ho => hk o (by simp [ho]))⟩

/-- C91, without pools, with conditions on the stored hashes only (those of C81); nothing crashes. -/
theorem C91_spread_partial {E : Env} {cfg : Cfg} {os : List HOp} {j M : Nat} (_hp : cfg.pool = false ∧ cfg.mode ≠ modeCombine4)
    (hcoll : NoCollision E.H (hcalls os)) (hf : FreshItems (hcalls os)) (hs : Spread E.H j M (hcalls os)) :
    C91_statement E cfg os ∧ Out.panic .bucketHeadEmpty ∉ (hrun E (hinit cfg) os).2 := by
  have hd := hs.depth
  have ha : HAdmRun E (hinit cfg) os := by
    refine spread_hadm (S0 := storedPairs E.H (hcalls os)) (j := j) (M := M) (S := []) ?_ hd (good_init cfg) (hinit_rel cfg) ?_
      (crowd_init cfg) ?_ hf ?_ hs.large
    · rintro k c c' ⟨a, ha, h1⟩ ⟨b, hb, h2⟩
      exact hcoll a ha b hb k c c' h1 h2
    · intro x hx
      have := initSt_dummy cfg x hx.1
      have h2 := hx.2
      simp [Entry.ignored, this] at h2
    · intro op hop k c hk
      exact ⟨op, hop, hk⟩
    · intro x
      have h1 := cnt_revs_le (H := E.H) (j := j) (by omega) (hcalls os) (rev64 x)
      rw [rev64_rev64] at h1
      have h2 := hs.few (rev64 x)
      have : cnt j x.toNat [] = 0 := rfl
      omega
  exact ⟨hrun_cells (h := hinit cfg) (good_init cfg) (hinit_rel cfg) ha, ha.noCrash⟩

/-- An item left over from a deleted key is out of the map: writing to it or deleting it changes no answer of the plain
machine about any key. -/
theorem Cells.stale (H : HashFns) (s : Cells) (i : Nat) {x : Nat × Kind} (hx : s.hand i = some x) (hg : ∀ kc, s.loc kc ≠ some x.1) (v : IVal) (key : Key) :
    ((s.step H (.setValue i v)).1.call H (.get key)).2 = (s.call H (.get key)).2 ∧
    ((s.step H (.delete i)).1.call H (.get key)).2 = (s.call H (.get key)).2 := by
  have hd : s.drop x.1 = s := by
    have : (fun y => if s.loc y = some x.1 then none else s.loc y) = s.loc := by
      funext y; rw [if_neg (hg y)]
    simp only [Cells.drop, this]
  have hw : ∀ kc, (match (s.write x.1 x.2 v).1.loc kc with | some n => Ans.val ((s.write x.1 x.2 v).1.val n) true | none => .val none false) =
      (match s.loc kc with | some n => Ans.val (s.val n) true | none => .val none false) := by
    intro kc
    have h1 : (s.write x.1 x.2 v).1.loc = s.loc := by
      unfold Cells.write; split <;> try rfl
      split <;> rfl
    have h2 : ∀ n, n ≠ x.1 → (s.write x.1 x.2 v).1.val n = s.val n := by
      intro n hn
      unfold Cells.write; split <;> try simp [hn]
      split <;> simp [hn]
    rw [h1]
    cases hl : s.loc kc with
    | none => rfl
    | some n => simp only; rw [h2 n (fun hc => hg kc (by rw [hl, hc]))]
  simp only [Cells.step, hx, hd, Cells.call]
  refine ⟨?_, trivial⟩
  cases keyToHash H key with
  | none => rfl
  | some kc => exact hw kc

/-- A variable holding an item from before Delete, the key set again, the old item written to and deleted; another key deleted
through its item; a stored item written to through the caller's pointer. -/
def handy : List HOp :=
  [ .call (.set (sk 2) (exV 20)), .load 0 (sk 2), .value 0, .setValue 0 (exV 21), .call (.get (sk 2)), .call (.delete (sk 2)),
    .call (.set (sk 2) (exV 22)), .setValue 0 (exV 99), .value 0, .delete 0, .call (.get (sk 2)), .load 1 (sk 2), .delete 1,
    .call (.get (sk 2)), .store 2 { kind := .sample, key := sk 3, val := exV 30 }, .setValue 2 (exV 31), .call (.get (sk 3)),
    .load 3 (sk 9), .value 3 ]

example : NoCollision exE.H (hcalls handy) ∧ FreshItems (hcalls handy) ∧ Spread exE.H 8 10 (hcalls handy) :=
  ⟨collB_sound (by decide +kernel), freshB_sound (by decide +kernel), spreadB_sound (by decide +kernel)⟩

example : (hrun exE (hinit exCfg) handy).2.map ans =
    [.bool true, .bool true, .val (exV 20) true, .bool true, .val (exV 21) true, .bool true,
     .bool true, .bool true, .val (exV 99) true, .bool true, .val (exV 22) true, .bool true, .bool true,
     .val none false, .bool true, .bool true, .val (exV 31) true, .bool false, .val none false] := by decide +kernel

def hoffB (E : Env) : HSt → List HOp → Bool
  | _, [] => true
  | s, o :: os => (hcalls [o]).all (fun op => offB E s.st [op]) && hoffB E (hstep E s o).1 os

theorem hoffB_sound {E : Env} {s : HSt} {os : List HOp} (hb : hoffB E s os = true) : HOff E s os := by
  induction os generalizing s with
  | nil => trivial
  | cons o os ih =>
    simp only [hoffB, Bool.and_eq_true, List.all_eq_true] at hb
    exact ⟨fun op ho => (offB_sound (hb.1 op ho)).1, ih hb.2⟩

example : HClean exE exCfg handy :=
  ⟨collB_sound (by decide +kernel), freshB_sound (by decide +kernel), hoffB_sound (by decide +kernel), by decide +kernel⟩

/-- C91 in full is false: an item whose key lies on a bucket boundary is in the caller's hands, but the map does not find it. -/
theorem C91_refuted : ¬ ∀ (E : Env) (cfg : Cfg) (os : List HOp), C91_statement E cfg os := by
  intro hall
  have h1 := hall exE { maxPer := 0 } [.call (.storeItem { kind := .entry, key := .u64 0x10008, val := exV 1 }),
    .store 0 { kind := .entry, key := .u64 24, val := exV 2 }, .value 0, .call (.get (.u64 24))]
  unfold C91_statement at h1
  revert h1
  decide +kernel

end SLM
