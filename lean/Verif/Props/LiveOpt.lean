import Verif.Props.Spread
import Verif.Model.LiveOpt
/-!
C90: options changed on a map in use.
-/
set_option autoImplicit false
set_option maxRecDepth 20000
namespace SLM
open Spec (PMap ans Ans)
open History

/-! ### Specification -/

/-- The calls of a history. -/
def lcalls : List LOp → List Op
  | [] => []
  | .opt _ :: h => lcalls h
  | .call op :: h => op :: lcalls h

/-- The history without its MaxPefBucket, BucketMode and UsePool calls. -/
def untuned : List LOp → List LOp
  | [] => []
  | .opt (.itemFn f) :: h => .opt (.itemFn f) :: untuned h
  | .opt _ :: h => untuned h
  | .call op :: h => .call op :: untuned h

/-- The plain map: of the options only ItemFn concerns it (it decides how the value of a present key is overwritten). -/
def plainRun (H : HashFns) (s : PMap) : List LOp → List Ans
  | [] => []
  | .opt (.itemFn f) :: h => plainRun H { s with fn := f } h
  | .opt _ :: h => plainRun H s h
  | .call op :: h => (s.step H op).2 :: plainRun H (s.step H op).1 h

/-- As `OffBoundary` of C01. -/
def LOff (E : Env) : St → List LOp → Prop
  | _, [] => True
  | st, .opt o :: h => LOff E (o.turn st) h
  | st, .call op :: h =>
    (∀ k c, storeHash E.H op = some (k, c) →
      (∃ v, opGetByHash E st k c = .val v true) ∨ rev64 k ∉ boundaries st) ∧ LOff E (step E st op).1 h

/-- As `Clean` of C01. -/
structure LClean (E : Env) (cfg : Cfg) (h : List LOp) : Prop where
  coll : NoCollision E.H (lcalls h)
  fresh : FreshItems (lcalls h)
  off : LOff E (initSt cfg) h
  crash : Out.panic .bucketHeadEmpty ∉ (lrun E (initSt cfg) h).2

/-- C90: the answers are those of the plain map, and they do not depend on when (or whether) MaxPefBucket, BucketMode and
UsePool are called. -/
def C90_statement (E : Env) (cfg : Cfg) (h : List LOp) : Prop :=
  (lrun E (initSt cfg) h).2.map ans = plainRun E.H (PMap.empty cfg.itemFn) h ∧
  Out.panic .bucketHeadEmpty ∉ (lrun E (initSt cfg) h).2 ∧
  ∀ h', untuned h' = untuned h → (lrun E (initSt cfg) h').2 = (lrun E (initSt cfg) h).2

/-! ### Proofs -/

theorem Good.turn {st : St} (g : Good st) (o : Knob) : Good (o.turn st) := by
  cases o <;> exact ⟨⟨g.inv.bi, g.inv.ii, g.inv.lv⟩, g.uniq, g.pos⟩

theorem turn_items (o : Knob) (st : St) : (o.turn st).items = st.items ∧ (o.turn st).blist = st.blist := by
  cases o <;> exact ⟨rfl, rfl⟩

/-- The machine without buckets, of `Proofs/Core.lean`. -/
def Core.lrun (H : HashFns) (s : Core) : List LOp → List Out
  | [] => []
  | .opt (.itemFn f) :: h => Core.lrun H { s with fn := f } h
  | .opt _ :: h => Core.lrun H s h
  | .call op :: h => (s.step H op).2 :: Core.lrun H (s.step H op).1 h

theorem Core.lrun_untuned (H : HashFns) (s : Core) (h : List LOp) : s.lrun H (untuned h) = s.lrun H h := by
  induction h generalizing s with
  | nil => rfl
  | cons x h ih =>
    rcases x with op | o
    · simp only [untuned, Core.lrun, ih]
    · cases o <;> simp only [untuned, Core.lrun, ih]

/-- Every call meets the conditions of `step_core`. -/
def LAdm (E : Env) : St → List LOp → Prop
  | _, [] => True
  | st, .opt o :: h => LAdm E (o.turn st) h
  | st, .call op :: h => AdmOp E st op ∧ (step E st op).2 ≠ .panic .bucketHeadEmpty ∧ LAdm E (step E st op).1 h

theorem lrun_core {E : Env} {h : List LOp} {st : St} (g : Good st) (ha : LAdm E st h) :
    (lrun E st h).2 = (core st).lrun E.H h := by
  induction h generalizing st with
  | nil => rfl
  | cons x h ih =>
    rcases x with op | o
    · have h1 := step_core g ha.1 ha.2.1
      have g' := (step_refines g ha.1 ha.2.1).1
      have h2 := ih g' ha.2.2
      simp only [lrun, Core.lrun]
      rw [← h1, h2]
    · have h2 := ih (g.turn o) ha
      cases o <;> exact h2

theorem lrun_plain {E : Env} {h : List LOp} {st : St} (g : Good st) (ha : LAdm E st h) :
    (lrun E st h).2.map ans = plainRun E.H (absM st) h := by
  induction h generalizing st with
  | nil => rfl
  | cons x h ih =>
    rcases x with op | o
    · obtain ⟨g', h1⟩ := step_refines g ha.1 ha.2.1
      have h2 := ih g' ha.2.2
      simp only [lrun, plainRun, List.map_cons]
      rw [← h1, h2]
    · have h2 := ih (g.turn o) ha
      cases o <;> exact h2

theorem LAdm.noCrash {E : Env} {h : List LOp} {st : St} (ha : LAdm E st h) : Out.panic .bucketHeadEmpty ∉ (lrun E st h).2 := by
  induction h generalizing st with
  | nil => simp [lrun]
  | cons x h ih =>
    rcases x with op | o
    · simp only [lrun, List.mem_cons, not_or]
      exact ⟨fun hc => ha.2.1 hc.symm, ih ha.2.2⟩
    · exact ih (st := o.turn st) ha

theorem ladm_of {E : Env} {S : U64 → U64 → Prop} (hS : ∀ k c c', S k c → S k c' → c = c') {h : List LOp} {st : St} (g : Good st)
    (hl : LiveIn S st) (hop : ∀ op ∈ lcalls h, ∀ k c, storeHash E.H op = some (k, c) → S k c) (hf : FreshItems (lcalls h))
    (hoff : LOff E st h) (hcr : Out.panic .bucketHeadEmpty ∉ (lrun E st h).2) : LAdm E st h := by
  induction h generalizing st with
  | nil => trivial
  | cons x h ih =>
    rcases x with op | o
    · simp only [lrun, List.mem_cons, not_or] at hcr
      have ha : AdmOp E st op := AdmOp.of g hS hl (hop op (by simp [lcalls])) (fun it h => hf it (by simp [lcalls, h])) hoff.1
      have hnc : (step E st op).2 ≠ .panic .bucketHeadEmpty := fun hc => hcr.1 hc.symm
      have hone := run_refines hS (ops := [op]) g hl (fun o ho => hop o (by simp at ho; simp [lcalls, ho]))
        (fun it h => hf it (by simp at h; simp [lcalls, h])) ⟨hoff.1, trivial⟩ (by
          rw [NoCrash]; simp only [run]; simp; exact fun h => hnc h.symm)
      exact ⟨ha, hnc, ih hone.1 hone.2.1 (fun o ho => hop o (by simp [lcalls, ho])) (fun it h => hf it (by simp [lcalls, h]))
        hoff.2 hcr.2⟩
    · refine ih (st := o.turn st) (g.turn o) ?_ hop hf hoff hcr
      intro x hx; rw [(turn_items o st).1] at hx; exact hl x hx

theorem LClean.adm {E : Env} {cfg : Cfg} {h : List LOp} (hc : LClean E cfg h) : LAdm E (initSt cfg) h := by
  apply ladm_of (S := storedPairs E.H (lcalls h)) _ (good_init cfg) _ _ hc.fresh hc.off hc.crash
  · rintro k c c' ⟨a, ha, h1⟩ ⟨b, hb, h2⟩
    exact hc.coll a ha b hb k c c' h1 h2
  · intro x hx
    have := initSt_dummy cfg x hx.1
    have h2 := hx.2
    simp [Entry.ignored, this] at h2
  · intro op hop k c hk
    exact ⟨op, hop, hk⟩

/-- Spread hashes, with options changed at any time. -/
theorem spread_ladm {E : Env} {S0 : U64 → U64 → Prop} (hS : ∀ k c c', S0 k c → S0 k c' → c = c')
    {j M : Nat} (hD : j + M ≤ 58)
    {h : List LOp} {st : St} {S : List Nat} (g : Good st) (hl : LiveIn S0 st) (hc : Crowd S st.blist)
    (hop : ∀ op ∈ lcalls h, ∀ k c, storeHash E.H op = some (k, c) → S0 k c) (hfresh : FreshItems (lcalls h))
    (hb : ∀ x : U64, cnt j x.toNat S + cnt j x.toNat (revsOf E.H (lcalls h)) ≤ M)
    (hk : ∀ op ∈ lcalls h, ∀ k c, storeHash E.H op = some (k, c) → 2 ^ (4 + j + M) ≤ k.toNat ∧ k ≠ maxU64) :
    LAdm E st h := by
  induction h generalizing st S with
  | nil => trivial
  | cons x h ih =>
    rcases x with op | o
    · have h1 := spread_run hS hD (ops := [op]) (S := S) g hl hc (fun o ho => hop o (by simp at ho; simp [lcalls, ho]))
        (fun it h => hfresh it (by simp at h; simp [lcalls, h]))
        (fun x => by
          have := hb x
          unfold revsOf lcalls at this
          unfold revsOf
          rw [List.filterMap_cons] at this ⊢
          cases hs : storeHash E.H op with
          | none => rw [hs] at this; simp [cnt] at this ⊢; omega
          | some p =>
            rw [hs] at this
            simp only [List.map_cons, List.filterMap_nil, List.map_nil] at this ⊢
            rw [cnt_cons] at this ⊢
            simp [cnt] at this ⊢; omega)
        (fun o ho => hk o (by simp at ho; simp [lcalls, ho]))
      obtain ⟨⟨hoff, _⟩, hcr⟩ := h1
      have hnc : (step E st op).2 ≠ .panic .bucketHeadEmpty := by
        rw [NoCrash, run_cons] at hcr
        simp only [List.mem_cons, not_or] at hcr
        exact fun h => hcr.1 h.symm
      have ha : AdmOp E st op := AdmOp.of g hS hl (hop op (by simp [lcalls])) (fun it h => hfresh it (by simp [lcalls, h])) hoff
      have hone := run_refines hS (ops := [op]) g hl (fun o ho => hop o (by simp at ho; simp [lcalls, ho]))
        (fun it h => hfresh it (by simp at h; simp [lcalls, h])) ⟨hoff, trivial⟩ hcr
      obtain ⟨S', hS', hb'⟩ := spread_next g ha hc hb
      exact ⟨ha, hnc, ih hone.1 hone.2.1 hS' (fun o ho => hop o (by simp [lcalls, ho]))
        (fun it h => hfresh it (by simp [lcalls, h])) hb' (fun o ho => hk o (by simp [lcalls, ho]))⟩
    · refine ih (st := o.turn st) (S := S) (g.turn o) ?_ (by rw [(turn_items o st).2]; exact hc) hop hfresh hb hk
      intro x hx; rw [(turn_items o st).1] at hx; exact hl x hx

theorem lcalls_untuned (h : List LOp) : lcalls (untuned h) = lcalls h := by
  induction h with
  | nil => rfl
  | cons x h ih =>
    rcases x with op | o
    · simp only [untuned, lcalls, ih]
    · cases o <;> simp only [untuned, lcalls, ih]

theorem spread_ladm_init {E : Env} {cfg : Cfg} {h : List LOp} {j M : Nat} (hcoll : NoCollision E.H (lcalls h))
    (hf : FreshItems (lcalls h)) (hs : Spread E.H j M (lcalls h)) : LAdm E (initSt cfg) h := by
  have hd := hs.depth
  refine spread_ladm (S0 := storedPairs E.H (lcalls h)) (j := j) (M := M) (S := []) ?_ hd (good_init cfg) ?_
    (crowd_init cfg) ?_ hf ?_ hs.large
  · rintro k c c' ⟨a, ha, h1⟩ ⟨b, hb, h2⟩
    exact hcoll a ha b hb k c c' h1 h2
  · intro x hx
    have := initSt_dummy cfg x hx.1
    have h2 := hx.2
    simp [Entry.ignored, this] at h2
  · intro op hop k c hk
    exact ⟨op, hop, hk⟩
  · intro x
    have h1 := cnt_revs_le (H := E.H) (j := j) (by omega) (lcalls h) (rev64 x)
    rw [rev64_rev64] at h1
    have h2 := hs.few (rev64 x)
    have : cnt j x.toNat [] = 0 := rfl
    omega

/-- C90 with conditions on the stored hashes only (those of C81), for histories of any length. -/
theorem C90_spread_partial {E : Env} {cfg : Cfg} {h : List LOp} {j M : Nat} (hcoll : NoCollision E.H (lcalls h))
    (hf : FreshItems (lcalls h)) (hs : Spread E.H j M (lcalls h)) : C90_statement E cfg h := by
  have ha := spread_ladm_init (cfg := cfg) hcoll hf hs
  refine ⟨?_, ha.noCrash, ?_⟩
  · rw [lrun_plain (good_init cfg) ha, absM_init]
  · intro h' he
    have hc : lcalls h' = lcalls h := by rw [← lcalls_untuned h', he, lcalls_untuned]
    have ha' := spread_ladm_init (cfg := cfg) (h := h') (j := j) (M := M) (by rw [hc]; exact hcoll) (by rw [hc]; exact hf) (by rw [hc]; exact hs)
    rw [lrun_core (good_init cfg) ha, lrun_core (good_init cfg) ha', ← Core.lrun_untuned, he, Core.lrun_untuned]

/-- In particular, without ItemFn calls the outputs are those of the calls alone. -/
theorem C90_calls_partial {E : Env} {cfg : Cfg} {h : List LOp} {j M : Nat} (hcoll : NoCollision E.H (lcalls h))
    (hf : FreshItems (lcalls h)) (hs : Spread E.H j M (lcalls h)) (hno : ∀ f, LOp.opt (.itemFn f) ∉ h) :
    (lrun E (initSt cfg) h).2 = (run E (initSt cfg) (lcalls h)).2 := by
  have h1 : ∀ h : List LOp, (∀ f, LOp.opt (.itemFn f) ∉ h) → untuned ((lcalls h).map LOp.call) = untuned h := by
    intro h
    induction h with
    | nil => intro _; rfl
    | cons x h ih =>
      intro hno
      have ih := ih (fun f hf => hno f (by simp [hf]))
      rcases x with op | o
      · simp only [lcalls, List.map_cons, untuned, ih]
      · cases o with
        | itemFn f => exact absurd (by simp) (hno f)
        | _ => exact ih
  have h2 : ∀ (ops : List Op) (st : St), (lrun E st (ops.map LOp.call)).2 = (run E st ops).2 := by
    intro ops
    induction ops with
    | nil => intro _; rfl
    | cons op ops ih => intro st; rw [run_cons]; simp only [List.map_cons, lrun, ih]
  rw [← h2, (C90_spread_partial hcoll hf hs).2.2 _ (h1 h hno)]

/-- C90 for clean histories: same answers as the plain map; same outputs as any other clean history that differs only in
the tuning. -/
theorem C90_partial {E : Env} {cfg : Cfg} {h : List LOp} (hc : LClean E cfg h) :
    (lrun E (initSt cfg) h).2.map ans = plainRun E.H (PMap.empty cfg.itemFn) h ∧
    ∀ h', LClean E cfg h' → untuned h' = untuned h → (lrun E (initSt cfg) h').2 = (lrun E (initSt cfg) h).2 := by
  refine ⟨by rw [lrun_plain (good_init cfg) hc.adm, absM_init], ?_⟩
  intro h' hc' he
  rw [lrun_core (good_init cfg) hc.adm, lrun_core (good_init cfg) hc'.adm, ← Core.lrun_untuned, he, Core.lrun_untuned]

/-- C90 in full is false: the tuning decides where buckets are, and a key on a boundary is lost (C14). -/
theorem C90_refuted : ¬ ∀ (E : Env) (cfg : Cfg) (h : List LOp), C90_statement E cfg h := by
  intro hall
  have h1 := (hall exE {} [.call (.storeItem { kind := .entry, key := .u64 0x10008, val := exV 1 }),
      .call (.storeItem { kind := .entry, key := .u64 24, val := exV 2 }), .call (.get (.u64 24))]).2.2
    [.opt (.maxPer 0), .call (.storeItem { kind := .entry, key := .u64 0x10008, val := exV 1 }), .opt (.maxPer 32),
      .call (.storeItem { kind := .entry, key := .u64 24, val := exV 2 }), .call (.get (.u64 24))] rfl
  revert h1
  decide +kernel

/-- A history with changes of every kind, on which buckets are split only because the limit was lowered. -/
def tuned : List LOp :=
  [ .opt (.mode modeCombine2), .call (.set (sk 2) (exV 20)), .call (.set (sk 3) (exV 30)), .opt (.maxPer 0),
    .call (.storeItem { kind := .entry, key := .u64 0x8123456789ABCDEF, val := exV 10 }), .opt (.pool true), .call (.set (sk 4) (exV 50)),
    .opt (.mode modeCombine4), .call (.delete (sk 2)), .call (.get (sk 2)), .opt (.itemFn .entry), .call (.set (sk 3) none),
    .opt (.maxPer 100), .opt (.pool false), .call (.get (sk 3)), .call (.set (sk 2) (exV 22)), .opt (.mode modeCombine), .call (.get (sk 2)),
    .call .len, .call .range ]

example : NoCollision exE.H (lcalls tuned) ∧ FreshItems (lcalls tuned) ∧ Spread exE.H 8 10 (lcalls tuned) :=
  ⟨collB_sound (by decide +kernel), freshB_sound (by decide +kernel), spreadB_sound (by decide +kernel)⟩

example : (lrun exE (initSt {}) tuned).1.blist.length ≠ (lrun exE (initSt {}) (untuned tuned)).1.blist.length ∧
    (lrun exE (initSt {}) tuned).2.map ans = [.bool true, .bool true, .bool true, .bool true, .bool true, .val none false, .bool true,
      .val none true, .bool true, .val (exV 22) true, .other, .other] := by decide +kernel

def loffB (E : Env) : St → List LOp → Bool
  | _, [] => true
  | st, .opt o :: h => loffB E (o.turn st) h
  | st, .call op :: h => offB E st [op] && loffB E (step E st op).1 h

theorem loffB_sound {E : Env} {st : St} {h : List LOp} (hb : loffB E st h = true) : LOff E st h := by
  induction h generalizing st with
  | nil => trivial
  | cons x h ih =>
    rcases x with op | o
    · simp only [loffB, Bool.and_eq_true] at hb
      exact ⟨(offB_sound hb.1).1, ih hb.2⟩
    · exact ih (st := o.turn st) hb

/-- The conditions of `C90_partial` hold of it and of its untuned form. -/
example : LClean exE {} tuned ∧ LClean exE {} (untuned tuned) ∧ untuned (untuned tuned) = untuned tuned :=
  ⟨⟨collB_sound (by decide +kernel), freshB_sound (by decide +kernel), loffB_sound (by decide +kernel), by decide +kernel⟩,
   ⟨collB_sound (by decide +kernel), freshB_sound (by decide +kernel), loffB_sound (by decide +kernel), by decide +kernel⟩, rfl⟩

end SLM
