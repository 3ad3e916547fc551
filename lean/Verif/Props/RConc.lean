import Verif.Proofs.RConc5
import Verif.Proofs.Example
/-!
C70-C74: `RMap` used by several goroutines (Model/RConc.lean).

Reading guide.  A history is `Steps H init s` (any schedule of any calls; the dirty maps may answer wrongly, as the defects of `Map` allow) or
`XSteps H init s` (faultless dirty maps).  `s.pc t = .ret cl r`: goroutine `t`'s last call `cl` has returned `r`.  `start s t cl = some s'`:
`t` calls `cl` in state `s`.  `got v copy ok` is what Get returns (`v`, `ok`).
-/
set_option autoImplicit false
namespace SLM.RConc

/-! ### C70 -/

/-- C70, all schedules: a value answered by Get (other than nil) was handed to a Set of a key with the same hashes that has been called. -/
theorem C70_get (H : HashFns) {s : St} (h : Steps H init s) {t : Tid} {q : Str} {v : IVal} {c : Bool}
    (hr : s.pc t = .ret (.get q) (.got v c true)) :
    v = none ∨ ∃ k, (k, v) ∈ s.sets ∧ H.mem k = H.mem q ∧ H.xx k = H.xx q := by
  have hl := (h.inv init_inv).loc t
  rw [hr] at hl
  obtain ⟨q', h1, h2⟩ := hl v c rfl
  cases h1
  exact h2

/-- `sets` holds exactly the Sets that have been called. -/
theorem C70_sets (H : HashFns) {s : St} (h : Steps H init s) {x : Str × IVal} (hx : x ∈ s.sets) :
    ∃ a b t, Steps H init a ∧ start a t (.set x.1 x.2) = some b ∧ Steps H b s := by
  induction h with
  | refl => cases hx
  | @tail s1 s2 u hh hs ih =>
    cases hs with
    | start h =>
      obtain ⟨hp, hc⟩ := start_eq h
      rcases hc with ⟨q, v, rfl, rfl⟩ | ⟨q, rfl, rfl⟩ | ⟨q, rfl, rfl⟩
      · have hx : x ∈ (q, v) :: s1.sets := hx
        rcases List.mem_cons.1 hx with rfl | hx
        · exact ⟨s1, _, u, hh, h, .refl⟩
        · obtain ⟨a, b, t, h1, h2, h3⟩ := ih hx
          exact ⟨a, b, t, h1, h2, h3.tail (.start h)⟩
      · obtain ⟨a, b, t, h1, h2, h3⟩ := ih hx
        exact ⟨a, b, t, h1, h2, h3.tail (.start h)⟩
      · obtain ⟨a, b, t, h1, h2, h3⟩ := ih hx
        exact ⟨a, b, t, h1, h2, h3.tail (.start h)⟩
    | move hs hm =>
      have hss : s2.sets = s1.sets := by
        unfold step at hm
        cases hpc : s1.pc u <;> rw [hpc] at hm <;> simp only [reduceCtorEq] at hm <;>
          (repeat' split at hm) <;> first | (cases hm; done) | (cases hm; rfl)
      rw [hss] at hx
      obtain ⟨a, b, t, h1, h2, h3⟩ := ih hx
      exact ⟨a, b, t, h1, h2, h3.tail (.move hs hm)⟩

/-! ### Schedules used as examples -/

theorem XSteps.trans {H : HashFns} {a b c : St} (h : XSteps H a b) (h' : XSteps H b c) : XSteps H a c := by
  induction h' with
  | refl => exact h
  | tail _ hs ih => exact ih.tail hs

theorem moveN_steps (H : HashFns) (t : Tid) : ∀ (n : Nat) (s : St), XSteps H s (moveN H s t n)
  | 0, _ => .refl
  | n + 1, s => by
    unfold moveN
    split
    · next s' hs => exact (XSteps.tail .refl (.move hs)).trans (moveN_steps H t n s')
    · exact .refl

theorem exec_steps (H : HashFns) : ∀ (l : List Cmd) (s : St), XSteps H s (exec H s l)
  | [], _ => .refl
  | .start t cl :: l, s => by
    show XSteps H s (exec H ((start s t cl).getD s) l)
    cases hs : start s t cl with
    | none => exact exec_steps H l s
    | some s' => exact (XSteps.tail .refl (.start hs)).trans (exec_steps H l s')
  | .move t n :: l, s => (moveN_steps H t n s).trans (exec_steps H l _)

def val (n : Nat) : IVal := some ⟨0, n⟩

/-- Set(1), which promotes, then Set(2), which stays in the dirty map. -/
def two : St := exec exH init [.start 0 (.set [1] (val 1)), .move 0 60, .start 0 (.set [2] (val 2)), .move 0 60]

theorem two_steps : XSteps exH init two := exec_steps _ _ _

theorem moveN_other (H : HashFns) {t u : Tid} (hu : u ≠ t) : ∀ (n : Nat) (s : St), (moveN H s t n).pc u = s.pc u
  | 0, _ => rfl
  | n + 1, s => by
    unfold moveN
    split
    · next s' hs => rw [moveN_other H hu n s']; exact step_other hs hu
    · rfl

def Cmd.tid : Cmd → Tid
  | .start t _ => t
  | .move t _ => t

theorem exec_other (H : HashFns) {u : Tid} : ∀ (l : List Cmd) (s : St), (∀ c ∈ l, u ≠ c.tid) → (exec H s l).pc u = s.pc u
  | [], _, _ => rfl
  | .start t cl :: l, s, h => by
    show (exec H ((start s t cl).getD s) l).pc u = _
    rw [exec_other H l _ (fun c hc => h c (by simp [hc]))]
    cases hs : start s t cl with
    | none => rfl
    | some s' => exact start_other hs (h _ (by simp : Cmd.start t cl ∈ _))
  | .move t n :: l, s, h => by
    show (exec H (moveN H s t n) l).pc u = _
    rw [exec_other H l _ (fun c hc => h c (by simp [hc]))]
    exact moveN_other H (h _ (by simp : Cmd.move t n ∈ _)) n s

theorem two_idle {u : Tid} (hu : u ≠ 0) : two.pc u = .idle := by
  refine (exec_other exH _ _ ?_).trans rfl
  intro c hc
  simp only [List.mem_cons, List.not_mem_nil, or_false] at hc
  rcases hc with rfl | rfl | rfl | rfl <;> exact hu

set_option maxRecDepth 20000 in
theorem two_quiet : Quiet two := by
  intro u
  by_cases hu : u = 0
  · subst hu; exact Or.inr ⟨.set [2] (val 2), .bool true, by decide +kernel⟩
  · exact Or.inl (two_idle hu)

set_option maxRecDepth 20000 in
example : two.read.isSome = true ∧ two.sets = [([2], val 2), ([1], val 1)] ∧ (two.dirty two.cur).length = 1 := by decide +kernel

/-- C70 applies: two overlapping Gets, one answered by a map that is being promoted. -/
def seen2 : St := exec exH two [.start 1 (.get [1]), .start 2 (.get [2]), .move 2 7, .move 1 60, .move 2 60]

set_option maxRecDepth 20000 in
theorem C70_applies : XSteps exH init seen2 ∧ seen2.pc 1 = .ret (.get [1]) (.got (val 1) true true) ∧
    seen2.pc 2 = .ret (.get [2]) (.got (val 2) false true) ∧ (([2] : Str), val 2) ∈ seen2.sets :=
  ⟨two_steps.trans (exec_steps _ _ _), by decide +kernel, by decide +kernel, by decide +kernel⟩

/-! ### C71 -/

/-- C71, all schedules: from a moment on at which a key has been promoted (the read map has it) and no first Set is about to install its
empty read map, every Get of the key called finds it, without panic.  (Provided no other key with the same primary hash is set.) -/
theorem C71_partial (H : HashFns) {s s0 s1 s2 : St} (h : Steps H init s) {rm : RM} {q : Str} {i : Nat} (hr : s.read = some rm)
    (hi : mget rm.m (H.mem q) = some i) (hf : ∀ u k v, s.pc u ≠ .s1 k v)
    (h0 : Steps H s s0) {t : Tid} (hst : start s0 t (.get q) = some s1) (h2 : Steps H s1 s2)
    (hcol : ∀ k v, (k, v) ∈ s2.sets → H.mem k = H.mem q → H.xx k = H.xx q) {r : Res} (hret : s2.pc t = .ret (.get q) r) :
    ∃ v, r = .got v true true := by
  have hg := h.good init_good
  have hx : Has s (H.mem q) := ⟨rm, hr, by rw [hi]; rfl⟩
  have hrd : Ready s := ⟨by rw [hr]; rfl, hf⟩
  have h1 : Steps H s s1 := h0.tail (.start hst)
  have := fast_steps (h1.good hg) (hrd.steps h1) (hx.steps hg hrd h1) (t := t) (q := q) (by rw [start_self hst]; rfl) h2 hcol
  rw [hret] at this
  simp only [slow, decide_true, Bool.true_and, Bool.not_eq_false'] at this
  cases r with
  | got v c ok =>
    cases c <;> cases ok <;> first | exact ⟨v, rfl⟩ | cases this
  | bool => cases this
  | panic => cases this

/-- C71, faultless dirty maps: if no call is in progress, the key is kept (C74) and the read map is marked amended, a Get of the key that is not
overlapped finds it. -/
theorem C71_partial_alone (H : HashFns) {s s1 s2 : St} (h : XSteps H init s) {q : Str} (hk : Kept H s q) {rm : RM} (hr : s.read = some rm)
    (ham : rm.amended = true) (hcol : ∀ k v, (k, v) ∈ s.sets → H.mem k = H.mem q → H.xx k = H.xx q) {t : Tid}
    (hst : start s t (.get q) = some s1) (h2 : Alo H t s1 s2) {cl : Call} {r : Res} (hret : s2.pc t = .ret cl r) :
    ∃ v c, r = .got v c true :=
  lone_ret (lone_get (h.steps.good init_good) hcol hk hr ham hst h2) hret

/-- The hypotheses of C71_partial are met by key 1 after `two`. -/
theorem C71_partial_applies : ∃ rm i, two.read = some rm ∧ mget rm.m (exH.mem [1]) = some i ∧ rm.amended = true ∧ (∀ u k v, two.pc u ≠ .s1 k v) ∧
    (seen2.pc 1 = .ret (.get [1]) (.got (val 1) true true)) := by
  refine ⟨{ id := 1, m := [(exH.mem [1], 0)], amended := true }, 0, by decide +kernel, by decide +kernel, rfl, ?_, C70_applies.2.1⟩
  intro u k v he
  rcases two_quiet u with h | ⟨_, _, h⟩ <;> rw [h] at he <;> cases he

set_option maxRecDepth 20000 in
/-- The hypotheses of C71_partial_alone are met by key 2 after `two`. -/
theorem C71_partial_alone_applies : Kept exH two [2] ∧ (∃ rm, two.read = some rm ∧ rm.amended = true ∧ mget rm.m (exH.mem [2]) = none) ∧
    (start two 1 (.get [2])).isSome = true := by
  refine ⟨Or.inr ⟨⟨1, by decide +kernel, by unfold LiveOf; decide +kernel⟩, fun u => ?_⟩,
    ⟨{ id := 1, m := [(exH.mem [1], 0)], amended := true }, by decide +kernel, rfl, by decide +kernel⟩, by decide +kernel⟩
  rcases two_quiet u with h | ⟨_, _, h⟩ <;> rw [h] <;> trivial

/-- Get(2), stopped before it reads the pointer of the dirty map, while another Get(2) promotes. -/
def panics : St := exec exH two [.start 1 (.get [2]), .move 1 2, .start 2 (.get [2]), .move 2 60, .move 1 60]
/-- Get(2), stopped before it loads the read map again, while another Get(2) promotes. -/
def nilTrue : St := exec exH two [.start 1 (.get [2]), .move 1 1, .start 2 (.get [2]), .move 2 60, .move 1 60]

set_option maxRecDepth 20000 in
/-- C71 refuted: key 2 was set before and is present before, during and after the Gets; one Get panics, or answers (nil, true). -/
theorem C71_refuted :
    (XSteps exH two panics ∧ panics.pc 2 = .ret (.get [2]) (.got (val 2) false true) ∧ panics.pc 1 = .ret (.get [2]) (.panic .nilItem)) ∧
    (XSteps exH two nilTrue ∧ nilTrue.pc 2 = .ret (.get [2]) (.got (val 2) false true) ∧
      nilTrue.pc 1 = .ret (.get [2]) (.got none false true)) :=
  ⟨⟨exec_steps _ _ _, by decide +kernel, by decide +kernel⟩, exec_steps _ _ _, by decide +kernel, by decide +kernel⟩

/-! ### C72 -/

/-- C72, all schedules: if at a moment when no call is in progress a key has been promoted and the dirty map has no item of its primary hash, then
every Get of the key called later, whatever Sets, Deletes and Gets of whatever keys run at the same time or in between, answers the value it had at that moment. -/
theorem C72_frozen (H : HashFns) {s s0 s1 s2 : St} (h : Steps H init s) (hq : Quiet s) {rm : RM} {q : Str} {i : Nat} (hr : s.read = some rm)
    (hi : mget rm.m (H.mem q) = some i) (hx : H.xx (s.item i).key = H.xx q) (hc : ∀ j ∈ s.dirty s.cur, H.mem (s.item j).key ≠ H.mem q)
    (h0 : Steps H s s0) {t : Tid} (hst : start s0 t (.get q) = some s1) (h2 : Steps H s1 s2) {r : Res} (hret : s2.pc t = .ret (.get q) r) :
    r = .got (s.item i).val true true := by
  have hg := h.good init_good
  have hrd : Ready s := hq.ready (by rw [hr]; rfl)
  have h1 : Steps H s s1 := h0.tail (.start hst)
  have hf := (hq.frozen hr hi hc).steps hg hrd h1
  have hx1 : H.xx (s1.item i).key = H.xx q := by
    rw [h1.ext.key i (hg.inv.glob.read rm hr _ (mget_mem hi)).1]; exact hx
  have := (frozen_get (h1.good hg) (hrd.steps h1) hf hx1 (t := t) (by rw [start_self hst]; rfl) (by rw [start_self hst]; trivial) h2).2
  rw [hret] at this
  exact this rfl

/-- ... and a Set of such a key called later changes nothing and answers true. -/
theorem C72_set_ignored (H : HashFns) {s s0 s1 : St} (h : Steps H init s) (hq : Quiet s) {rm : RM} {q : Str} {v : IVal} {i : Nat} (hr : s.read = some rm)
    (hi : mget rm.m (H.mem q) = some i) (hc : ∀ j ∈ s.dirty s.cur, H.mem (s.item j).key ≠ H.mem q) (h0 : Steps H s s0) {t : Tid} {ch : Choice}
    (hp : s0.pc t = .s0 q v) (hst : step H ch s0 t = some s1) : s1 = setPC s0 t (.ret (.set q v) (.bool true)) := by
  obtain ⟨rm0, hr0, hm0⟩ := ((hq.frozen hr hi hc).steps (h.good init_good) (hq.ready (by rw [hr]; rfl)) h0).read
  unfold step at hst
  rw [hp] at hst
  simp only [hr0, afterLoad, hm0, Option.isSome_some, if_true] at hst
  cases hst
  rfl

/-- Key 1 after `two`: Set(1, 9) is acknowledged while a promotion runs, Get(1) answers 1. -/
def ignored : St := exec exH two [.start 2 (.get [2]), .move 2 8, .start 1 (.set [1] (val 9)), .move 1 60, .move 2 60, .start 1 (.get [1]), .move 1 60]

set_option maxRecDepth 20000 in
theorem C72_applies : Steps exH init two ∧ Quiet two ∧ two.read = some { id := 1, m := [(exH.mem [1], 0)], amended := true } ∧
    exH.xx (two.item 0).key = exH.xx [1] ∧ (∀ j ∈ two.dirty two.cur, exH.mem (two.item j).key ≠ exH.mem [1]) ∧ (two.item 0).val = val 1 ∧
    XSteps exH two ignored ∧ (([1] : Str), val 9) ∈ ignored.sets ∧ ignored.pc 1 = .ret (.get [1]) (.got (val 1) true true) :=
  ⟨two_steps.steps, two_quiet, by decide +kernel, by decide +kernel, by decide +kernel, by decide +kernel, exec_steps _ _ _, by decide +kernel,
    by decide +kernel⟩

/-! ### C73 -/

/-- C73, all schedules: if a call is in progress and no goroutine can move, one of them is a Delete that waits for the lock it holds itself. -/
theorem C73_partial (H : HashFns) {s : St} (h : Steps H init s) {u : Tid} (hu : inCall (s.pc u) = true)
    (hstop : ∀ t ch, step H ch s t = none) : ∃ t q am r, s.pc t = .p0 am (.miss (.delete q) r) ∧ s.lock = some t := by
  have hg := h.good init_good
  cases hl : s.lock with
  | none =>
    obtain ⟨s', h'⟩ := can_move hg hu (Or.inr hl) {}
    rw [hstop] at h'; cases h'
  | some t =>
    have hh := (hg.inv2.lock t).2 hl
    have hin : inCall (s.pc t) = true := by cases hp : s.pc t <;> rw [hp] at hh <;> first | rfl | cases hh
    cases hw : waits (s.pc t) with
    | false =>
      obtain ⟨s', h'⟩ := can_move hg hin (Or.inl hw) {}
      rw [hstop] at h'; cases h'
    | true =>
      cases hp : s.pc t <;> rw [hp] at hh hw <;> first | (cases hw; done) | (cases hh; done) | skip
      next am k =>
      refine ⟨t, ?_⟩
      cases k with
      | store => cases hh
      | ret => cases hh
      | miss cl r =>
        cases cl with
        | set => cases hh
        | get => cases hh
        | delete q => exact ⟨q, am, r, hp, rfl⟩

/-- C73, all schedules: after a moment when no call was in progress and the first Set had been made, a call takes at most 25 steps of its own. -/
theorem C73_partial_bound (H : HashFns) {s s0 s1 s2 : St} (h : Steps H init s) (hq : Quiet s) (hr : s.read.isSome = true) (h0 : Steps H s s0)
    {t : Tid} {cl : Call} (hst : start s0 t cl = some s1) {n : Nat} (ho : Own H t n s1 s2) : n ≤ 25 := by
  have hg := h.good init_good
  have hc : Calm s := ⟨hq.ready hr, fun u o hb => by rcases hq u with h | ⟨_, _, h⟩ <;> rw [h] at hb <;> cases hb⟩
  have hc1 : ∀ {a : St}, Steps H s a → Calm a := by
    intro a ha
    induction ha with
    | refl => exact hc
    | tail hh hs ih => exact Calm.step (hh.good hg) ih hs
  have h1 : Steps H s s1 := h0.tail (.start hst)
  have := (own_bound (h1.good hg) (hc1 h1) ho).2
  have := start_mu hst
  omega

/-- C73, all schedules: a Delete that waits for its own lock waits for ever, and so does every goroutine that comes to the lock. -/
theorem C73_refuted (H : HashFns) {s : St} (h : Steps H init s) {t : Tid} {am : Bool} {k : Cont} (hp : s.pc t = .p0 am k) (hl : s.lock = some t)
    {s' : St} (h' : Steps H s s') :
    s'.pc t = .p0 am k ∧ ∀ u ch, waits (s'.pc u) = true → step H ch s' u = none := by
  obtain ⟨h1, h2⟩ := stuck_steps (h.good init_good) hp hl h'
  refine ⟨h1, fun u ch hw => ?_⟩
  unfold step
  cases hpc : s'.pc u <;> rw [hpc] at hw <;> first | (cases hw; done) | simp [h2]

/-- Delete of a key of the dirty map. -/
def stuck : St := exec exH two [.start 1 (.delete [2]), .move 1 60]

set_option maxRecDepth 20000 in
/-- Such a Delete exists: two Sets and one Delete, one after the other. -/
theorem C73_refuted_reached : XSteps exH init stuck ∧
    stuck.pc 1 = .p0 false (.miss (.delete [2]) (.bool false)) ∧ stuck.lock = some 1 :=
  ⟨two_steps.trans (exec_steps _ _ _), by decide +kernel, by decide +kernel⟩

/-- Get(2) in the middle of a promotion. -/
def midway : St := exec exH two [.start 2 (.get [2]), .move 2 7]

set_option maxRecDepth 20000 in
/-- The hypotheses of C73_partial_bound are met, with calls of several goroutines in progress. -/
theorem C73_partial_applies : Steps exH init two ∧ Quiet two ∧ two.read.isSome = true ∧ Steps exH two midway ∧ inCall (midway.pc 2) = true ∧
    (start midway 1 (.set [3] (val 3))).isSome = true :=
  ⟨two_steps.steps, two_quiet, by decide +kernel, (exec_steps _ _ _).steps, by decide +kernel, by decide +kernel⟩

/-! ### C74 -/

/-- C74, faultless dirty maps: a Set that stores its item in the current dirty map while no promotion is between its look at the dirty map and the
installation of the next one leaves its key kept. -/
theorem C74_partial_store (H : HashFns) {s s' : St} {t : Tid} {q : Str} {v : IVal} {rm : RM} (hp : s.pc t = .s8 q v rm s.cur)
    (hT : ∀ u, match s.pc u with | .p3 _ _ _ d => d = s.cur | .p4 _ _ _ _ | .p5 _ | .p6 _ => False | _ => True)
    (h : step H (exact H s t) s t = some s') (hn : ∀ p, s'.pc t ≠ .ret (.set q v) (.panic p)) : Kept H s' q := kept_of_store hp hT h hn

/-- C74, faultless dirty maps, all schedules of all other calls: a key kept stays kept as long as no Delete of it is called: it is in the read map, or
in the dirty map and the promotions under way will take it. -/
theorem C74_partial (H : HashFns) {s s' : St} (h : XSteps H init s) (hr : s.read.isSome = true) (hf : ∀ u k v, s.pc u ≠ .s1 k v) {q : Str}
    (hk : Kept H s q) (h' : XSteps H s s') (hd : ∀ k ∈ s'.dels, ¬ (H.mem k = H.mem q ∧ H.xx k = H.xx q)) : Kept H s' q :=
  hk.steps (h.steps.good init_good) ⟨hr, hf⟩ (h.steps.delOk init_good init_delOk).1 h' hd

/-- ... in particular when all calls have returned. -/
theorem C74_partial_quiet (H : HashFns) {s s' : St} (h : XSteps H init s) (hr : s.read.isSome = true) (hf : ∀ u k v, s.pc u ≠ .s1 k v) {q : Str}
    (hk : Kept H s q) (h' : XSteps H s s') (hd : ∀ k ∈ s'.dels, ¬ (H.mem k = H.mem q ∧ H.xx k = H.xx q)) :
    (∃ rm i, s'.read = some rm ∧ mget rm.m (H.mem q) = some i) ∨
      ∃ i ∈ s'.dirty s'.cur, H.mem (s'.item i).key = H.mem q ∧ H.xx (s'.item i).key = H.xx q ∧ (s'.item i).deleted = false := by
  rcases C74_partial H h hr hf hk h' hd with ⟨rm, h1, h2⟩ | ⟨h1, _⟩
  · obtain ⟨i, hi⟩ := Option.isSome_iff_exists.1 h2
    exact Or.inl ⟨rm, i, h1, hi⟩
  · exact Or.inr h1

/-- Set(3) about to store in the dirty map, no promotion under way. -/
def storing : St := exec exH two [.start 1 (.set [3] (val 3)), .move 1 4]

set_option maxRecDepth 20000 in
/-- The hypotheses of C74_partial_store and C74_partial are met: Set(3) then returns true and its key is kept. -/
theorem C74_partial_applies : ∃ s', XSteps exH init s' ∧ s'.pc 1 = .ret (.set [3] (val 3)) (.bool true) ∧ s'.read.isSome = true ∧
    (∀ u k v, s'.pc u ≠ .s1 k v) ∧ Kept exH s' [3] := by
  have hp : storing.pc 1 = .s8 [3] (val 3) { id := 1, m := [(exH.mem [1], 0)], amended := true } storing.cur := by decide +kernel
  have hr : (moveN exH storing 1 1).pc 1 = .ret (.set [3] (val 3)) (.bool true) := by decide +kernel
  have hs : ∃ s', step exH (exact exH storing 1) storing 1 = some s' ∧ moveN exH storing 1 1 = s' := by
    unfold moveN
    cases hs : step exH (exact exH storing 1) storing 1 with
    | some s' => exact ⟨s', rfl, rfl⟩
    | none =>
      exfalso
      have : (step exH (exact exH storing 1) storing 1).isSome = true := by decide +kernel
      rw [hs] at this; cases this
  obtain ⟨s', hs, he⟩ := hs
  have hother : ∀ u, u ≠ 1 → storing.pc u = two.pc u := by
    intro u hu
    refine exec_other exH _ _ ?_
    intro c hc
    simp only [List.mem_cons, List.not_mem_nil, or_false] at hc
    rcases hc with rfl | rfl <;> exact hu
  have hq : ∀ u, u ≠ 1 → storing.pc u = .idle ∨ ∃ cl r, storing.pc u = .ret cl r := by
    intro u hu; rw [hother u hu]; exact two_quiet u
  refine ⟨s', (two_steps.trans (exec_steps _ _ _)).trans (XSteps.tail .refl (.move hs)), by rw [← he]; exact hr, ?_, ?_, ?_⟩
  · rw [← he]; decide +kernel
  · intro u k v h
    by_cases hu : u = 1
    · subst hu; rw [← he, hr] at h; cases h
    · rw [step_other hs hu] at h
      rcases hq u hu with h' | ⟨_, _, h'⟩ <;> rw [h'] at h <;> cases h
  · refine C74_partial_store exH hp ?_ hs ?_
    · intro u
      by_cases hu : u = 1
      · subst hu; rw [hp]; trivial
      · rcases hq u hu with h' | ⟨_, _, h'⟩ <;> rw [h'] <;> trivial
    · intro p h
      rw [← he, hr] at h; cases h

/-- Set(3) stores into the dirty map after a promotion has visited it. -/
def lost : St := exec exH two [.start 1 (.set [3] (val 3)), .move 1 4, .start 2 (.get [2]), .move 2 10, .move 1 60, .move 2 60, .start 3 (.get [3]), .move 3 60]
/-- The first Sets of two goroutines: Set(1) is complete and Get(1) found it when the other installs its empty read map. -/
def wiped : St := exec exH init [.start 1 (.set [3] (val 3)), .move 1 1, .start 0 (.set [1] (val 1)), .move 0 60, .start 2 (.get [1]), .move 2 60,
  .move 1 1, .start 3 (.get [1]), .move 3 60]
/-- Set(3) loaded an amended read map; a promotion then installs one that is not. -/
def hidden : St := exec exH two [.start 1 (.set [3] (val 3)), .move 1 3, .start 2 (.get [2]), .move 2 60, .move 1 60, .start 3 (.get [3]), .move 3 60]

set_option maxRecDepth 20000 in
/-- C74 refuted: an acknowledged Set is lost (it is in neither map any more) when a promotion runs at the same time, or when it is the first of two first Sets;
and Get can deny a key that is in the dirty map. -/
theorem C74_refuted :
    (XSteps exH init lost ∧ lost.pc 1 = .ret (.set [3] (val 3)) (.bool true) ∧ lost.pc 3 = .ret (.get [3]) (.got none false false) ∧
      lost.dirty lost.cur = [] ∧ ∀ rm, lost.read = some rm → mget rm.m (exH.mem [3]) = none) ∧
    (XSteps exH init wiped ∧ wiped.pc 0 = .ret (.set [1] (val 1)) (.bool true) ∧ wiped.pc 2 = .ret (.get [1]) (.got (val 1) true true) ∧
      wiped.pc 3 = .ret (.get [1]) (.got none false false) ∧ wiped.dirty wiped.cur = []) ∧
    (XSteps exH init hidden ∧ hidden.pc 1 = .ret (.set [3] (val 3)) (.bool true) ∧ hidden.pc 3 = .ret (.get [3]) (.got none false false)) := by
  refine ⟨⟨two_steps.trans (exec_steps _ _ _), by decide +kernel, by decide +kernel, by decide +kernel, ?_⟩,
    ⟨exec_steps _ _ _, by decide +kernel, by decide +kernel, by decide +kernel, by decide +kernel⟩,
    two_steps.trans (exec_steps _ _ _), by decide +kernel, by decide +kernel⟩
  have : (match lost.read with | some rm => mget rm.m (exH.mem [3]) | none => none) = none := by decide +kernel
  intro rm hr
  rw [hr] at this
  exact this

end SLM.RConc
