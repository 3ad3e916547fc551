import Verif.Proofs.EConc3
import Verif.Proofs.Example
/-!
C36, C37, C56–C58: concurrent use of one embedded bucket.

Vocabulary (Model/EConc.lean).  `Step`/`Steps`: every interleaving; `XStep`/`XSteps`: those in which each search and each
classification runs undisturbed.  `Via P`/`XVia P`: such executions whose steps all satisfy `P`.  A goroutine is at
`.look cl` when its call `cl` has begun and at `.done r` when it has returned `r`.  `init n`: an empty bucket of capacity `n`
(`MaxPefBucket * 3 / 2`).  `s.log`: the operations on the bucket's lock so far, oldest first.  Keys are pairs of hashes.
-/
set_option autoImplicit false
set_option maxRecDepth 20000
namespace SLM.EConc
open Emb (Slot Pool)

/-! ### Running a schedule -/

theorem moveN_xsteps {s0 : St} (t : Tid) : ∀ (n : Nat) (s : St), XSteps s0 s → XSteps s0 (moveN s t n) := by
  intro n
  induction n with
  | zero => intro s h; exact h
  | succ n ih =>
    intro s h
    unfold moveN
    split
    · rename_i s' he
      rw [Option.bind_eq_some_iff] at he
      obtain ⟨ch, h1, h2⟩ := he
      exact ih _ (.tail h (.move h1 h2))
    · exact h

theorem exec_xsteps' {s0 : St} : ∀ (l : List Cmd) (s : St), XSteps s0 s → XSteps s0 (exec s l) := by
  intro l
  induction l with
  | nil => intro s h; exact h
  | cons c l ih =>
    intro s h
    cases c with
    | start t cl =>
      refine ih _ ?_
      cases hs : start s t cl with
      | none => exact h
      | some s' => exact .tail h (.start hs)
    | move t n => exact ih _ (moveN_xsteps t n s h)

theorem exec_xsteps (s : St) (l : List Cmd) : XSteps s (exec s l) := exec_xsteps' l s .refl

/-- A schedule run with a check before every step. -/
def moveC (P : St → Tid → St → Bool) (s : St) (t : Tid) : Nat → Option St
  | 0 => some s
  | n + 1 => match (exact s t).bind (fun ch => step ch s t) with
    | some s' => if P s t s' then moveC P s' t n else none
    | none => some s

def execC (P : St → Tid → St → Bool) (s : St) : List Cmd → Option St
  | [] => some s
  | .start t cl :: l => match start s t cl with
    | some s' => if P s t s' then execC P s' l else none
    | none => execC P s l
  | .move t n :: l => match moveC P s t n with
    | some s' => execC P s' l
    | none => none

theorem moveC_xvia {P : St → Tid → St → Bool} {Q : St → Tid → St → Prop} (hq : ∀ s t s', P s t s' = true → Q s t s') {s0 : St}
    (t : Tid) : ∀ (n : Nat) (s s' : St), XVia Q s0 s → moveC P s t n = some s' → XVia Q s0 s' := by
  intro n
  induction n with
  | zero => intro s s' h e; cases e; exact h
  | succ n ih =>
    intro s s' h e
    unfold moveC at e
    split at e
    · rename_i s1 he
      rw [Option.bind_eq_some_iff] at he
      obtain ⟨ch, h1, h2⟩ := he
      split at e
      · rename_i hp
        exact ih _ _ (.tail h (.move h1 h2) (hq _ _ _ hp)) e
      · cases e
    · cases e; exact h

theorem execC_xvia {P : St → Tid → St → Bool} {Q : St → Tid → St → Prop} (hq : ∀ s t s', P s t s' = true → Q s t s') {s0 : St} :
    ∀ (l : List Cmd) (s s' : St), XVia Q s0 s → execC P s l = some s' → XVia Q s0 s' := by
  intro l
  induction l with
  | nil => intro s s' h e; cases e; exact h
  | cons c l ih =>
    intro s s' h e
    cases c with
    | start t cl =>
      unfold execC at e
      split at e
      · rename_i s1 hs
        split at e
        · rename_i hp
          exact ih _ _ (.tail h (.start hs) (hq _ _ _ hp)) e
        · cases e
      · exact ih _ _ h e
    | move t n =>
      unfold execC at e
      split at e
      · rename_i s1 hs
        exact ih _ _ (moveC_xvia hq t n s s1 h hs) e
      · cases e

def w (n : Nat) : IVal := some ⟨0, n⟩

/-! ### Concrete executions that meet the hypotheses below -/

theorem XStep.other {s s' : St} {t u : Tid} (st : XStep s t s') (h : u ≠ t) : s'.pc u = s.pc u := by
  cases st with
  | start hs => obtain ⟨_, _, rfl⟩ := start_eq hs; exact setPC_other _ _ _ h
  | move _ hs =>
    obtain ⟨_, s1, p, mv, rfl⟩ := step_mv hs
    rw [setPC_other _ _ _ h, mv.pc_eq]

/-- As `execC_xvia`, for checks that look at the goroutines below `N` only. -/
theorem moveC_fin {P : St → Tid → St → Bool} {Q : St → Tid → St → Prop} {N : Nat} (hN : ∀ s t s', P s t s' = true → t < N)
    (hq : ∀ s t s', (∀ u, N ≤ u → s.pc u = .idle) → P s t s' = true → Q s t s') {s0 : St}
    (t : Tid) : ∀ (n : Nat) (s s' : St), (∀ u, N ≤ u → s.pc u = .idle) → XVia Q s0 s → moveC P s t n = some s' →
    XVia Q s0 s' ∧ ∀ u, N ≤ u → s'.pc u = .idle := by
  intro n
  induction n with
  | zero => intro s s' hi h e; cases e; exact ⟨h, hi⟩
  | succ n ih =>
    intro s s' hi h e
    unfold moveC at e
    split at e
    · rename_i s1 he
      rw [Option.bind_eq_some_iff] at he
      obtain ⟨ch, h1, h2⟩ := he
      split at e
      · rename_i hp
        refine ih _ _ ?_ (.tail h (.move h1 h2) (hq _ _ _ hi hp)) e
        intro u hu
        have := hN _ _ _ hp
        rw [XStep.other (.move h1 h2) (fun e => by subst e; exact absurd this (Nat.not_lt.2 hu))]
        exact hi u hu
      · cases e
    · cases e; exact ⟨h, hi⟩

theorem execC_fin {P : St → Tid → St → Bool} {Q : St → Tid → St → Prop} {N : Nat} (hN : ∀ s t s', P s t s' = true → t < N)
    (hq : ∀ s t s', (∀ u, N ≤ u → s.pc u = .idle) → P s t s' = true → Q s t s') {s0 : St} :
    ∀ (l : List Cmd) (s s' : St), (∀ u, N ≤ u → s.pc u = .idle) → XVia Q s0 s → execC P s l = some s' →
    XVia Q s0 s' ∧ ∀ u, N ≤ u → s'.pc u = .idle := by
  intro l
  induction l with
  | nil => intro s s' hi h e; cases e; exact ⟨h, hi⟩
  | cons c l ih =>
    intro s s' hi h e
    cases c with
    | start t cl =>
      unfold execC at e
      split at e
      · rename_i s1 hs
        split at e
        · rename_i hp
          refine ih _ _ ?_ (.tail h (.start hs) (hq _ _ _ hi hp)) e
          intro u hu
          have := hN _ _ _ hp
          rw [XStep.other (.start hs) (fun e => by subst e; exact absurd this (Nat.not_lt.2 hu))]
          exact hi u hu
        · cases e
      · exact ih _ _ hi h e
    | move t n =>
      unfold execC at e
      split at e
      · rename_i s1 hs
        obtain ⟨h1, h2⟩ := moveC_fin hN hq t n s s1 hi h hs
        exact ih _ _ h2 h1 e
      · cases e

/-- Every key here has the second hash 1. -/
def g1 : U64 → U64 := fun _ => 1

/-- The checks made on every step of the executions below: calls are Sets and Gets of keys with second hash 1, a Set misses its key
only while no other is inserting, no Set starts over under the lock, and no item of the key `r` is updated. -/
def chk (r : U64) (s : St) (t : Tid) (s' : St) : Bool :=
  decide (t < 8) &&
  (match s.pc t, s'.pc t with
   | .idle, .look cl => decide (cl.rev ≠ 0) && decide (cl.conf = 1) && cl.keeps
   | .look _, .gw _ => (List.range 8).all (fun u => !(s.pc u).inserting)
   | .app2 _, .gw _ => false
   | .ins2 _, .gw _ => false
   | .upd cl _ _, _ => decide (cl.rev ≠ r)
   | .mark cl _ _, _ => decide (cl.rev ≠ r)
   | _, _ => true)

theorem chk_ok {r c : U64} (s : St) (t : Tid) (s' : St) (hi : ∀ u, 8 ≤ u → s.pc u = .idle) (h : chk r s t s' = true) :
    Neat g1 s t s' ∧ NoRetry s t s' ∧ Spares r c s t s' := by
  unfold chk at h
  rw [Bool.and_eq_true] at h
  obtain ⟨_, h⟩ := h
  refine ⟨⟨?_, ?_⟩, ?_, ?_⟩
  · intro cl h1 h2
    rw [h1, h2] at h
    simp only [Bool.and_eq_true, decide_eq_true_eq] at h
    exact ⟨h.1.1, by rw [h.1.2]; decide, h.1.2, h.2⟩
  · intro cl f h1 h2 u
    rw [h1, h2] at h
    simp only [List.all_eq_true, List.mem_range] at h
    by_cases hu : u < 8
    · simpa using h u hu
    · rw [hi u (Nat.not_lt.1 hu)]; rfl
  · intro f gg h1 h2
    rcases h1 with h1 | h1 <;> · rw [h1, h2] at h; simp at h
  · intro cl a i h1 h2
    rcases h1 with h1 | h1 <;> · rw [h1] at h; simp [h2.1] at h

/-- Running a checked schedule from the empty bucket, then another one. -/
theorem chk_run {r c : U64} {s : St} {l : List Cmd} {n : Nat} (e : execC (chk r) (init n) l = some s) :
    XVia (fun s t s' => Neat g1 s t s' ∧ NoRetry s t s' ∧ Spares r c s t s') (init n) s ∧ ∀ u, 8 ≤ u → s.pc u = .idle :=
  execC_fin (N := 8) (fun s t s' h => by unfold chk at h; rw [Bool.and_eq_true] at h; simpa using h.1)
    (fun s t s' => chk_ok s t s') l _ _ (fun _ _ => rfl) .refl e

theorem chk_run2 {r c : U64} {s s' : St} {l : List Cmd} (hi : ∀ u, 8 ≤ u → s.pc u = .idle) (e : execC (chk r) s l = some s') :
    XVia (fun s t s' => Neat g1 s t s' ∧ NoRetry s t s' ∧ Spares r c s t s') s s' ∧ ∀ u, 8 ≤ u → s'.pc u = .idle :=
  execC_fin (N := 8) (fun s t s' h => by unfold chk at h; rw [Bool.and_eq_true] at h; simpa using h.1)
    (fun s t s' => chk_ok s t s') l _ _ hi .refl e

/-- Undisturbed schedules are schedules. -/
theorem neat_via {g : U64 → U64} {n : Nat} (hn : 0 < n) {P : St → Tid → St → Prop} {s : St}
    (h : XVia (fun s t s' => Neat g s t s' ∧ P s t s') (init n) s) :
    SI g s ∧ Via (fun s t s' => Neat g s t s' ∧ P s t s') (init n) s := by
  induction h with
  | refl => exact ⟨SI.init g hn, .refl⟩
  | tail _ st hp ih => exact ⟨ih.1.step st hp.1, .tail ih.2 (st.step ih.1.pi.cur ih.1.vis) hp⟩

theorem neat_via2 {g : U64 → U64} {P : St → Tid → St → Prop} {s0 s : St} (h0 : SI g s0)
    (h : XVia (fun s t s' => Neat g s t s' ∧ P s t s') s0 s) :
    SI g s ∧ Via (fun s t s' => Neat g s t s' ∧ Plain s t s' ∧ P s t s') s0 s := by
  induction h with
  | refl => exact ⟨h0, .refl⟩
  | tail _ st hp ih =>
    have st' := st.step ih.1.pi.cur ih.1.vis
    exact ⟨ih.1.step st hp.1, .tail ih.2 st' ⟨hp.1, ⟨ih.1.nd.noFree ih.1.pi.li st', fun cl x y => good_plain (hp.1.1 cl x y)⟩, hp.2⟩⟩

theorem getD_run {o : Option St} {d : St} (h : o.isSome = true) : o = some (o.getD d) := by
  cases o with
  | none => cases h
  | some x => rfl

/-- Keys 16, 32 and 48 are there; goroutine 3 is about to write a new value for 32 under the lock, goroutine 4 has found 48, goroutine 5
is about to insert 40, goroutine 6 gets 16. -/
def busyL : List Cmd :=
  [.start 0 (.set 16 1 (w 1)), .move 0 20, .start 1 (.set 32 1 (w 2)), .move 1 20, .start 2 (.set 48 1 (w 3)), .move 2 20,
   .start 3 (.set 32 1 (w 7)), .start 4 (.set 48 1 (w 8)), .start 5 (.set 40 1 (w 9)), .start 6 (.get 16 1), .move 4 1, .move 5 3,
   .move 3 2]
def busy : St := (execC (chk 0) (init 3) busyL).getD (init 3)
theorem busy_run : execC (chk 0) (init 3) busyL = some busy := getD_run (by decide +kernel)

/-- Goroutine 3 has written. -/
def busy1 : St := (execC (chk 0) busy [.move 3 1]).getD busy
/-- Goroutine 3 returns, 5 inserts 40 into a new array, 4 writes its value under the lock and returns, 7 starts a Get of 32. -/
def busy2L : List Cmd := [.move 3 9, .move 5 30, .move 4 9, .start 7 (.get 32 1)]
def busy2 : St := (execC (chk 32) busy1 busy2L).getD busy1
theorem busy1_run : execC (chk 0) busy [.move 3 1] = some busy1 := getD_run (by decide +kernel)
theorem busy2_run : execC (chk 32) busy1 busy2L = some busy2 := getD_run (by decide +kernel)

theorem busy_x {c : U64} : XVia (fun s t s' => Neat g1 s t s' ∧ NoRetry s t s' ∧ Spares 0 c s t s') (init 3) busy := (chk_run busy_run).1
theorem busy_idle : ∀ u, 8 ≤ u → busy.pc u = .idle := (chk_run (c := 1) busy_run).2
theorem busy1_x : XVia (fun s t s' => Neat g1 s t s' ∧ NoRetry s t s' ∧ Spares 0 1 s t s') busy busy1 := (chk_run2 busy_idle busy1_run).1
theorem busy1_idle : ∀ u, 8 ≤ u → busy1.pc u = .idle := (chk_run2 (c := 1) busy_idle busy1_run).2
theorem busy2_x : XVia (fun s t s' => Neat g1 s t s' ∧ NoRetry s t s' ∧ Spares 32 1 s t s') busy1 busy2 :=
  (chk_run2 busy1_idle busy2_run).1
theorem busy2_idle : ∀ u, 8 ≤ u → busy2.pc u = .idle := (chk_run2 (c := 1) busy1_idle busy2_run).2

/-- What is claimed of the goroutines below 8 and of idle ones holds of all. -/
theorem all8 {s : St} {P : PC → Prop} [DecidablePred P] (hi : ∀ u, 8 ≤ u → s.pc u = .idle) (h0 : P .idle)
    (h : ∀ u ∈ List.range 8, P (s.pc u)) (t : Tid) : P (s.pc t) := by
  by_cases ht : t < 8
  · exact h t (List.mem_range.2 ht)
  · rw [hi t (Nat.not_lt.1 ht)]; exact h0

/-! ### C37: the bucket lock -/

/-- The lock is only taken when free, and only released by the goroutine that took it last. -/
def Orderly (l : List Ev) : Prop :=
  ∀ pre e post, l = pre ++ e :: post →
    match e with
    | .acq _ => pre = [] ∨ ∃ u, pre.getLast? = some (.rel u)
    | .rel t => pre.getLast? = some (.acq t)

theorem last_of_holder {l : List Ev} {t : Tid} (h : holder l = some t) : l.getLast? = some (.acq t) := by
  unfold holder at h
  split at h
  · rename_i u hu; cases h; exact hu
  · cases h

theorem holder_none {l : List Ev} (h : holder l = none) : l = [] ∨ ∃ u, l.getLast? = some (.rel u) := by
  unfold holder at h
  split at h
  · cases h
  · rename_i hn
    cases hl : l.getLast? with
    | none => left; exact List.getLast?_eq_none_iff.1 hl
    | some e =>
      cases e with
      | acq t => exact absurd hl (hn t)
      | rel t => right; exact ⟨t, rfl⟩

theorem Proper.orderly {l : List Ev} (h : Proper l) : Orderly l := by
  induction h with
  | nil => intro pre e post hh; simp at hh
  | @acq l t h hh ih =>
    intro pre e post he
    rcases List.eq_nil_or_concat post with rfl | ⟨post', x, rfl⟩
    · have := List.append_inj' he rfl
      obtain ⟨rfl, h2⟩ := this
      cases h2
      exact holder_none hh
    · have he : l ++ [.acq t] = (pre ++ e :: post') ++ [x] := by simpa using he
      obtain ⟨h1, _⟩ := List.append_inj' he rfl
      exact ih pre e post' h1
  | @rel l t h hh ih =>
    intro pre e post he
    rcases List.eq_nil_or_concat post with rfl | ⟨post', x, rfl⟩
    · have := List.append_inj' he rfl
      obtain ⟨rfl, h2⟩ := this
      cases h2
      exact last_of_holder hh
    · have he : l ++ [.rel t] = (pre ++ e :: post') ++ [x] := by simpa using he
      obtain ⟨h1, _⟩ := List.append_inj' he rfl
      exact ih pre e post' h1

/-- The places from which a goroutine writes to the array, or publishes one. -/
def Writes (s : St) (t : Tid) : Prop :=
  (∃ cl a i, s.pc t = .upd cl a i) ∨ (∃ f, s.pc t = .app2 f) ∨ (∃ f n i, s.pc t = .ins3 f n i) ∨ (∃ f n, s.pc t = .exp3 f n) ∨
  (∃ f fn a i, s.pc t = .clR f fn a i ∨ s.pc t = .clC f fn a i ∨ s.pc t = .wr f fn a i)

theorem Writes.locked {s : St} {t : Tid} (h : Writes s t) : (s.pc t).locked = true := by
  rcases h with ⟨_, _, _, h⟩ | ⟨_, h⟩ | ⟨_, _, _, h⟩ | ⟨_, _, h⟩ | ⟨_, _, _, _, h | h | h⟩ <;> rw [h] <;> rfl

def PC.isClR : PC → Bool
  | .clR .. => true
  | _ => false

/-- C37 for executions without Delete and Purge, all schedules: the lock is taken when free and released only by its
holder, never while free; whoever writes to the array holds it, so no two goroutines do.
Missing: that it is always released (`C37_refuted_leak`), and executions with deletions (`C37_refuted_owner`,
`C37_refuted_deadlock`). -/
theorem C37_partial {n : Nat} {s : St} (h : Via (Calls (fun cl => cl.keeps = true)) (init n) s) :
    Orderly s.log ∧ s.fatal = false ∧ (∀ t, Writes s t → s.log.getLast? = some (.acq t)) ∧
    (∀ t u, Writes s t → Writes s u → t = u) := by
  obtain ⟨_, hl, _⟩ := keeps_noFree (ND.init n) (LI.init n) h
  have hw : ∀ t, Writes s t → s.log.getLast? = some (.acq t) := fun t ht => last_of_holder (hl.held t ht.locked)
  exact ⟨hl.proper.orderly, hl.fatal, hw, fun t u ht hu => hl.unique hu.locked ht.locked⟩

/-- The hypotheses are met by a state in which a goroutine writes, one waits for the lock, one is about to insert. -/
example : Via (Calls (fun cl => cl.keeps = true)) (init 3) busy ∧ Writes busy 3 ∧ busy.log.length = 7 ∧
    busy.pc 4 = .lockUpd (.set 48 1 (w 8)) 0 2 :=
  ⟨(neat_via (by decide) (busy_x (c := 1))).2.mono fun _ _ _ h cl a b => (h.1.1 cl a b).2.2.2,
   .inl ⟨.set 32 1 (w 7), 0, 1, by decide +kernel⟩, by decide +kernel, by decide +kernel⟩

/-- The same with deletions, as long as no Set reuses a deleted slot. -/
theorem C37_noreuse_partial {n : Nat} {s : St} (h : Via NoFree (init n) s) :
    Orderly s.log ∧ s.fatal = false ∧ (∀ t, Writes s t → s.log.getLast? = some (.acq t)) ∧
    (∀ t u, Writes s t → Writes s u → t = u) := by
  have hl := (LI.init n).via h
  have hw : ∀ t, Writes s t → s.log.getLast? = some (.acq t) := fun t ht => last_of_holder (hl.held t ht.locked)
  exact ⟨hl.proper.orderly, hl.fatal, hw, fun t u ht hu => hl.unique hu.locked ht.locked⟩

theorem Proper.count {l : List Ev} (h : Proper l) (t : Tid) :
    l.count (.acq t) = l.count (.rel t) + (if holder l = some t then 1 else 0) := by
  induction h with
  | nil => simp [holder]
  | @acq l u h hh ih =>
    rw [List.count_append, List.count_append, ih, hh]
    by_cases e : u = t
    · subst e; simp
    · simp [e]
  | @rel l u h hh ih =>
    rw [List.count_append, List.count_append, ih, hh]
    by_cases e : u = t
    · subst e; simp
    · simp [e]

/-- C37, release: as long as no Set finds, after taking the lock, that the array has filled up or that its place is gone, a
goroutine that has returned has released the lock as often as it took it, and a goroutine that holds the lock is not
waiting for it. -/
theorem C37_released_partial {n : Nat} {s : St} (h : Via (fun s t s' => NoFree s t s' ∧ NoRetry s t s') (init n) s) :
    (∀ t res, s.pc t = .done res → s.log.count (.acq t) = s.log.count (.rel t) ∧ s.log.getLast? ≠ some (.acq t)) ∧
    (∀ t, s.log.getLast? = some (.acq t) → ∀ f, f.mu = true → s.pc t ≠ .app f ∧ s.pc t ≠ .ins f ∧ s.pc t ≠ .exp f) := by
  have hr := (RI.init n).via h
  have hold : ∀ t, s.log.getLast? = some (.acq t) → holder s.log = some t := fun t e => by unfold holder; rw [e]
  refine ⟨?_, ?_⟩
  · intro t res hp
    have hn : holder s.log ≠ some t := by
      intro e
      have := hr.only t e
      rw [hp] at this; cases this
    refine ⟨?_, fun e => hn (hold t e)⟩
    have := hr.li.proper.count t
    rw [if_neg hn] at this
    exact this
  · intro t e f hm
    have := hr.only t (hold t e)
    refine ⟨?_, ?_, ?_⟩ <;> (intro hp; rw [hp] at this; simp [PC.locked, hm] at this)

example : Via (fun s t s' => NoFree s t s' ∧ NoRetry s t s') (init 3) busy ∧ busy.pc 2 = .done (.bool true) ∧
    busy.log.getLast? = some (.acq 3) :=
  ⟨(neat_via2 (SI.init g1 (by decide)) (busy_x (c := 1))).2.mono fun _ _ _ h => ⟨h.2.1.1, h.2.2.1⟩, by decide +kernel, by decide +kernel⟩

/-- Witness: two Sets of new keys on an empty bucket of capacity 1 (`MaxPefBucket` 1). -/
def leak : St := exec (init 1)
  [.start 0 (.set 16 1 (w 1)), .start 1 (.set 32 1 (w 2)), .move 0 3, .move 1 3, .move 0 9, .move 1 30]
/-- A third Set on top. -/
def leak2 : St := exec leak [.start 2 (.set 48 1 (w 3)), .move 2 30]

/-- C37 refuted, release: two concurrent Sets of new keys return, nobody else runs, and the lock stays taken; a
following Set waits for it forever. -/
theorem C37_refuted_leak :
    XSteps (init 1) leak ∧ leak.pc 0 = .done (.bool true) ∧ leak.pc 1 = .done (.bool true) ∧ leak.lock = true ∧
    XSteps leak leak2 ∧ leak2.lock = true ∧ (∃ f, leak2.pc 2 = .exp f ∧ f.mu = true) ∧
    (∀ ch, step ch leak2 0 = none ∧ step ch leak2 1 = none ∧ step ch leak2 2 = none) := by
  refine ⟨exec_xsteps _ _, by decide +kernel, by decide +kernel, by decide +kernel, exec_xsteps _ _, by decide +kernel, ?_, ?_⟩
  · exact ⟨{ r := 48, c := 1, v := w 3, mu := true, ov := none }, by decide +kernel, rfl⟩
  · intro ch
    have hf : leak2.fatal = false := by decide +kernel
    have h0 : leak2.pc 0 = .done (.bool true) := by decide +kernel
    have h1 : leak2.pc 1 = .done (.bool true) := by decide +kernel
    have h2 : leak2.pc 2 = .exp { r := 48, c := 1, v := w 3, mu := true, ov := none } := by decide +kernel
    have hl : leak2.lock = true := by decide +kernel
    unfold step
    rw [hf, h0, h1, h2]
    simp [lockIf, hl]

/-- A bucket with the keys 16, 32, 48, the second deleted. -/
def gap : St := exec (init 6)
  [.start 0 (.set 16 1 (w 1)), .move 0 20, .start 1 (.set 32 1 (w 1)), .move 1 20, .start 2 (.set 48 1 (w 1)), .move 2 20,
   .start 3 (.del 32 1), .move 3 9]

/-- Goroutine 4 updates 48 under the lock; goroutine 5 sets 40 into the deleted slot and waits; goroutine 6 takes the lock
to update 48; then 5 returns. -/
def owner : St := exec gap
  [.start 4 (.set 48 1 (w 2)), .move 4 2, .start 5 (.set 40 1 (w 3)), .move 5 9, .move 4 9, .move 5 2,
   .start 6 (.set 48 1 (w 4)), .move 6 2, .move 5 9]
/-- Goroutine 7 gets into the lock as well. -/
def owner2 : St := exec owner [.start 7 (.set 48 1 (w 5)), .move 7 2]
/-- Goroutine 6 returns instead: the lock it holds is not taken any more. -/
def owner3 : St := exec owner [.move 6 9]

/-- C37 refuted, ownership: with one deletion, a Set that reuses the slot releases the lock another goroutine holds; then two
goroutines write under the lock at once, or the process dies of unlocking an unlocked mutex. -/
theorem C37_refuted_owner :
    XSteps (init 6) owner ∧ ¬ Orderly owner.log ∧
    XSteps (init 6) owner2 ∧ (Writes owner2 6 ∧ Writes owner2 7) ∧
    XSteps (init 6) owner3 ∧ owner3.fatal = true := by
  have tr : ∀ {a b : St} (l : List Cmd), XSteps a b → XSteps a (exec b l) := fun {a b} l h => exec_xsteps' l b h
  have h1 : XSteps (init 6) owner := tr _ (exec_xsteps _ _)
  refine ⟨h1, ?_, tr _ h1, ⟨.inl ⟨.set 48 1 (w 4), 0, 2, by decide +kernel⟩, .inl ⟨.set 48 1 (w 5), 0, 2, by decide +kernel⟩⟩,
    tr _ h1, by decide +kernel⟩
  intro ho
  have hl : owner.log = [.acq 0, .rel 0, .acq 1, .rel 1, .acq 2, .rel 2, .acq 4, .rel 4, .acq 5, .rel 5, .acq 6] ++ .rel 5 :: [] := by
    decide +kernel
  have := ho _ _ _ hl
  simp at this

/-- Goroutines 5 and 6 go for the same deleted slot; 6 gets it. -/
def dead : St := exec gap
  [.start 5 (.set 40 1 (w 3)), .move 5 3, .start 6 (.set 33 1 (w 4)), .move 6 30, .move 5 30]

/-- C37 refuted, deadlock: with one deletion and two Sets, a goroutine waits for the lock it holds itself. -/
theorem C37_refuted_deadlock :
    XSteps (init 6) dead ∧ (∃ f, dead.pc 5 = .ins f ∧ f.mu = true) ∧ dead.lock = true ∧ dead.log.getLast? = some (.acq 5) ∧
    (∀ ch, step ch dead 5 = none) := by
  refine ⟨exec_xsteps' _ _ (exec_xsteps _ _), ⟨{ r := 40, c := 1, v := w 3, mu := true, ov := none }, by decide +kernel, rfl⟩,
    by decide +kernel, by decide +kernel, ?_⟩
  intro ch
  have hf : dead.fatal = false := by decide +kernel
  have h2 : dead.pc 5 = .ins { r := 40, c := 1, v := w 3, mu := true, ov := none } := by decide +kernel
  have hl : dead.lock = true := by decide +kernel
  unfold step
  rw [hf, h2]
  simp [lockIf, hl]

/-! ### C57: keys that are there stay -/

/-- C57, storage: once the array holds a value under a key, in a slot nobody is filling, it holds it after every
execution, all schedules, in which no deleted slot is reused, nobody purges, and nobody updates or deletes this key; any
number of insertions, array replacements and deletions of other keys included. -/
theorem C57_stays_partial {n : Nat} {s s' : St} {r c : U64} {v : IVal} (h : Via Plain (init n) s) (hk : Kept s r c v)
    (h' : Via (fun s t s' => Plain s t s' ∧ Spares r c s t s') s s') : Kept s' r c v :=
  (kept_via ((PI.init n).via h) hk h').2

/-- No goroutine is between taking a slot and writing its hash into it. -/
def Settled (s : St) : Prop := ∀ t f fn a i, s.pc t ≠ .clR f fn a i

theorem get_run {g : U64 → U64} {s s1 s2 : St} {u : Tid} {r c : U64} {v : IVal} (h : SI g s) (hk : Kept s r c v) (hq : Settled s)
    (hu : s.pc u = .look (.get r c)) (a1 : XStep s u s1) (a2 : XStep s1 u s2) : s2.pc u = .done (.val v true) := by
  have hs := h.srt hq
  obtain ⟨i, k1, k2, k3, k4, _, _⟩ := hk
  have hfind : ∃ j, exactItem s r c = some (s.cur, j) ∧ (slotOf s s.cur j).val = v := by
    rcases h.search hs r c with ⟨j, h1, h2, h3, _⟩ | ⟨_, h2⟩
    · refine ⟨j, h2, ?_⟩
      have e : j = i := by
        have k2 : rv s i = r := k2
        rcases Nat.lt_trichotomy j i with hl | hl | hl
        · have := hs j i hl k1; rw [h3, k2] at this; exact absurd this (by bv_omega)
        · exact hl
        · have := hs i j hl h1; rw [h3, k2] at this; exact absurd this (by bv_omega)
      rw [e]; exact k4
    · exact absurd ⟨k2, k3⟩ (h2 i k1)
  obtain ⟨j, hj, hv⟩ := hfind
  have e1 : s1 = setPC s u (.getV (.get r c) s.cur j) := by
    cases a1 with
    | start hs => obtain ⟨hid, _, _⟩ := start_eq hs; rw [hu] at hid; cases hid
    | move hx hs =>
      unfold exact at hx
      rw [hu] at hx
      cases hx
      unfold step at hs
      split at hs
      · cases hs
      · rw [hu] at hs
        simp only [Call.rev, Call.conf, hj] at hs
        exact (Option.some.inj hs).symm
  subst e1
  cases a2 with
  | start hs => obtain ⟨hid, _, _⟩ := start_eq hs; simp at hid
  | move hx hs =>
    unfold step at hs
    split at hs
    · cases hs
    · simp only [setPC_same] at hs
      rw [← Option.some.inj hs, setPC_same]
      show PC.done (.val (slotOf s s.cur j).val true) = _
      rw [hv]

/-- C57, Get: in executions of Sets and Gets in which at most one Set at a time is inserting a new key, a Get finds every stored
value whenever it searches while nobody is between taking a slot and writing the hash into it. -/
theorem C57_partial {g : U64 → U64} {n : Nat} (hn : 0 < n) {s s1 s2 : St} {u : Tid} {r c : U64} {v : IVal}
    (h : XVia (Neat g) (init n) s) (hk : Kept s r c v) (hq : Settled s) (hu : s.pc u = .look (.get r c)) (a1 : XStep s u s1)
    (a2 : XStep s1 u s2) : s2.pc u = .done (.val v true) :=
  get_run ((SI.init g hn).via h) hk hq hu a1 a2

theorem settled8 {s : St} (hi : ∀ u, 8 ≤ u → s.pc u = .idle) (h : ∀ u ∈ List.range 8, (s.pc u).isClR = false) : Settled s := by
  intro t f fn a i e
  have := all8 (P := fun p => p.isClR = false) hi rfl h t
  rw [e] at this; cases this

/-- The hypotheses of the two theorems are met: 16 is stored while goroutine 3 holds the lock and others are under way, and a Get of it
begins. -/
theorem busy_kept : Kept busy 16 1 (w 1) :=
  ⟨0, by decide +kernel, by decide +kernel, by decide +kernel, by decide +kernel, by decide +kernel,
   all8 (P := fun p => p.claimAt ≠ some 0) busy_idle (by decide) (by decide +kernel)⟩
example : Via Plain (init 3) busy := (neat_via2 (SI.init g1 (by decide)) (busy_x (c := 1))).2.mono fun _ _ _ h => h.2.1
example : XVia (Neat g1) (init 3) busy ∧ Settled busy ∧ busy.pc 6 = .look (.get 16 1) ∧
    (∃ s1 s2, XStep busy 6 s1 ∧ XStep s1 6 s2) :=
  ⟨(busy_x (c := 1)).mono fun _ _ _ h => h.1,
   settled8 busy_idle (by decide +kernel),
   by decide +kernel,
   ⟨setPC busy 6 (.getV (.get 16 1) 0 0), setPC (setPC busy 6 (.getV (.get 16 1) 0 0)) 6 (.done (.val (w 1) true)),
    .move (ch := ⟨some (0, 0), .append⟩) (by
      have h : busy.pc 6 = .look (.get 16 1) := by decide +kernel
      have h2 : exactItem busy 16 1 = some (0, 0) := by decide +kernel
      unfold exact; rw [h]; show some ({ item := exactItem busy 16 1, verdict := .append } : Choice) = _; rw [h2]) (by
      have h : busy.pc 6 = .look (.get 16 1) := by decide +kernel
      have hf : busy.fatal = false := by decide +kernel
      unfold step; rw [h, hf]; rfl),
    .move (ch := ⟨none, .append⟩) (by unfold exact; rw [setPC_same]) (by
      have hf : busy.fatal = false := by decide +kernel
      have hv : (slotOf (setPC busy 6 (.getV (.get 16 1) 0 0)) 0 0).val = w 1 := by decide +kernel
      unfold step; rw [setPC_same, setPC_fatal, hf]; simp only [hv]; rfl)⟩⟩

/-- A bucket with the key 16. -/
def one : St := exec (init 3) [.start 0 (.set 16 1 (w 1)), .move 0 20]
/-- Goroutine 1 has taken a slot for the key 32; goroutine 3 gets the key 16. -/
def missing : St := exec one [.start 1 (.set 32 1 (w 2)), .move 1 5, .start 3 (.get 16 1), .move 3 9]

/-- C57 refuted: a Get of a key that is stored and that nobody else touches answers "not found" while another goroutine is
inserting a different key. -/
theorem C57_refuted : XSteps (init 3) one ∧ one.pc 0 = .done (.bool true) ∧ one.pc 1 = .idle ∧ one.pc 3 = .idle ∧
    XSteps one missing ∧ (missing.pc 1).call = some (.set 32 1 (w 2)) ∧ missing.pc 3 = .done (.val none false) := by
  refine ⟨exec_xsteps _ _, by decide +kernel, by decide +kernel, by decide +kernel, exec_xsteps _ _, by decide +kernel, by decide +kernel⟩

/-! ### C36: updates are not lost -/

/-- C36 for executions of Sets and Gets in which at most one Set at a time is inserting a new key, any number of
concurrent updates and Gets: if the array has not been replaced when a Set writes the value to the item it found, every
later Get of the key answers with that value until another Set writes this key, provided it searches while nobody is between
taking a slot and writing the hash into it. -/
theorem C36_partial {g : U64 → U64} {n : Nat} (hn : 0 < n) {s s1 s2 s3 s4 : St} {t u : Tid} {r c : U64} {v : IVal} {i : Nat}
    (h : XVia (Neat g) (init n) s) (hp : s.pc t = .upd (.set r c v) s.cur i) (st : XStep s t s1) (hst : Neat g s t s1)
    (h2 : XVia (fun s t s' => Neat g s t s' ∧ Spares r c s t s') s1 s2) (hq : Settled s2)
    (hu : s2.pc u = .look (.get r c)) (a1 : XStep s2 u s3) (a2 : XStep s3 u s4) : s4.pc u = .done (.val v true) := by
  have hS := (SI.init g hn).via h
  have st' := st.step hS.pi.cur hS.vis
  have hk := kept_upd hS.pi hp (hS.nd.slot _ _) st'
  have hS1 := hS.step st hst
  have key : ∀ {s1 s2 : St}, SI g s1 → Kept s1 r c v → XVia (fun s t s' => Neat g s t s' ∧ Spares r c s t s') s1 s2 →
      SI g s2 ∧ Kept s2 r c v := by
    intro s1 s2 hS1 hk h2
    induction h2 with
    | refl => exact ⟨hS1, hk⟩
    | tail _ st hpp ih =>
      obtain ⟨i1, i2⟩ := ih
      have st' := st.step i1.pi.cur i1.vis
      exact ⟨i1.step st hpp.1, kept_step i1.pi st' ⟨i1.nd.noFree i1.pi.li st', fun cl x y => good_plain (hpp.1.1 cl x y)⟩ hpp.2 i2⟩
  obtain ⟨q1, q2⟩ := key hS1 hk h2
  exact get_run q1 q2 hq hu a1 a2

/-- The hypotheses are met: goroutine 3 writes a new value for 32 while 4, 5 and 6 are under way; 5 then replaces the array. -/
example : XVia (Neat g1) (init 3) busy ∧ busy.pc 3 = .upd (.set 32 1 (w 7)) busy.cur 1 ∧ busy1.pc 3 = .ret true (.bool true) ∧
    XVia (fun s t s' => Neat g1 s t s' ∧ Spares 32 1 s t s') busy1 busy2 ∧ Settled busy2 ∧ busy2.cur ≠ busy1.cur ∧
    busy2.pc 5 = .done (.bool true) ∧ busy2.pc 7 = .look (.get 32 1) :=
  ⟨(busy_x (c := 1)).mono fun _ _ _ h => h.1, by decide +kernel, by decide +kernel, busy2_x.mono fun _ _ _ h => ⟨h.1, h.2.2⟩,
   settled8 busy2_idle (by decide +kernel),
   by decide +kernel, by decide +kernel, by decide +kernel⟩

/-- Goroutine 1 sets 16 and has found the item; goroutine 2 inserts the key 8; then 1 continues. -/
def lost : St := exec one [.start 1 (.set 16 1 (w 2)), .move 1 1, .start 2 (.set 8 1 (w 3)), .move 2 20, .move 1 9]
def lost2 : St := exec lost [.start 3 (.get 16 1), .move 3 9]

/-- C36 refuted: a Set of a present key returns true while another key is being inserted, and a Get after both have returned answers
with the old value. -/
theorem C36_refuted : XSteps (init 3) one ∧ one.pc 0 = .done (.bool true) ∧ one.pc 1 = .idle ∧ one.pc 2 = .idle ∧
    XSteps one lost ∧ lost.pc 1 = .done (.bool true) ∧ lost.pc 2 = .done (.bool true) ∧ lost.pc 3 = .idle ∧
    XSteps lost lost2 ∧ lost2.pc 3 = .done (.val (w 1) true) ∧ w 1 ≠ w 2 := by
  refine ⟨exec_xsteps _ _, by decide +kernel, by decide +kernel, by decide +kernel, exec_xsteps _ _, by decide +kernel,
    by decide +kernel, by decide +kernel, exec_xsteps _ _, by decide +kernel, by decide⟩

/-! ### C56: keys set concurrently are there afterwards -/

/-- C56 for executions of Sets and Gets in which at most one Set at a time is inserting a new key: the value such a Set writes
is what every later Get of the key answers with until another Set writes this key, provided the Get searches while nobody
is between taking a slot and writing the hash into it. -/
theorem C56_partial {g : U64 → U64} {n : Nat} (hn : 0 < n) {s s1 s2 s3 s4 : St} {t u : Tid} {f : Fr} {fn : Bool} {a i : Nat}
    (h : XVia (Neat g) (init n) s) (hp : s.pc t = .wr f fn a i) (st : XStep s t s1) (hst : Neat g s t s1)
    (h2 : XVia (fun s t s' => Neat g s t s' ∧ Spares f.r f.c s t s') s1 s2) (hq : Settled s2)
    (hu : s2.pc u = .look (.get f.r f.c)) (a1 : XStep s2 u s3) (a2 : XStep s3 u s4) : s4.pc u = .done (.val f.v true) := by
  have hS := (SI.init g hn).via h
  have st' := st.step hS.pi.cur hS.vis
  have hk := kept_wr hS.pi hp (hS.nd.slot _ _) st'
  have hS1 := hS.step st hst
  have key : ∀ {s1 s2 : St}, SI g s1 → Kept s1 f.r f.c f.v → XVia (fun s t s' => Neat g s t s' ∧ Spares f.r f.c s t s') s1 s2 →
      SI g s2 ∧ Kept s2 f.r f.c f.v := by
    intro s1 s2 hS1 hk h2
    induction h2 with
    | refl => exact ⟨hS1, hk⟩
    | tail _ st hpp ih =>
      obtain ⟨i1, i2⟩ := ih
      have st' := st.step i1.pi.cur i1.vis
      exact ⟨i1.step st hpp.1, kept_step i1.pi st' ⟨i1.nd.noFree i1.pi.li st', fun cl x y => good_plain (hpp.1.1 cl x y)⟩ hpp.2 i2⟩
  obtain ⟨q1, q2⟩ := key hS1 hk h2
  exact get_run q1 q2 hq hu a1 a2

/-- C56, storage, all schedules: the value a Set writes to the slot it took is in the array, and stays there until this key is
updated or deleted (no deleted slot reused, nobody purges).  Whether a Get finds it is another matter: `C56_refuted`. -/
theorem C56_stored_partial {n : Nat} {s s1 s2 : St} {t : Tid} {f : Fr} {fn : Bool} {a i : Nat} (h : Via Plain (init n) s)
    (hp : s.pc t = .wr f fn a i) (hd : (slotOf s a i).deleted = false) (st : Step s t s1) (hst : Plain s t s1)
    (h2 : Via (fun s t s' => Plain s t s' ∧ Spares f.r f.c s t s') s1 s2) : Kept s2 f.r f.c f.v := by
  have hP := (PI.init n).via h
  exact (kept_via (hP.step st hst) (kept_wr hP hp hd st) h2).2

/-- Goroutine 5 is about to write the value of the new key 40 into its slot of a new array. -/
def mid : St := (execC (chk 0) busy [.move 3 9, .move 5 10]).getD busy
theorem mid_run : execC (chk 0) busy [.move 3 9, .move 5 10] = some mid := getD_run (by decide +kernel)
example : XVia (Neat g1) (init 3) mid ∧ (∃ f, mid.pc 5 = .wr f true 2 2 ∧ f.r = 40) ∧ (slotOf mid 2 2).deleted = false ∧
    mid.pc 4 = .lockUpd (.set 48 1 (w 8)) 0 2 :=
  ⟨((busy_x (c := 1)).mono fun _ _ _ h => h.1).trans ((chk_run2 (c := 1) busy_idle mid_run).1.mono fun _ _ _ h => h.1),
   ⟨{ r := 40, c := 1, v := w 9, mu := false, ov := some true }, by decide +kernel, rfl⟩, by decide +kernel, by decide +kernel⟩

/-- Goroutines 0 and 1 set the new keys 32 and 16 on an empty bucket, both seeing it empty. -/
def unsorted : St := exec (init 3)
  [.start 0 (.set 32 1 (w 1)), .start 1 (.set 16 1 (w 2)), .move 0 3, .move 1 3, .move 0 9, .move 1 9]
def unsorted2 : St := exec unsorted [.start 2 (.get 32 1), .move 2 9, .start 3 (.get 16 1), .move 3 9]

/-- C56 refuted: two concurrent Sets of different new keys return true, and Gets after both have returned find neither key. -/
theorem C56_refuted : XSteps (init 3) unsorted ∧ unsorted.pc 0 = .done (.bool true) ∧ unsorted.pc 1 = .done (.bool true) ∧
    unsorted.pc 2 = .idle ∧ unsorted.pc 3 = .idle ∧ XSteps unsorted unsorted2 ∧
    unsorted2.pc 2 = .done (.val none false) ∧ unsorted2.pc 3 = .done (.val none false) := by
  refine ⟨exec_xsteps _ _, by decide +kernel, by decide +kernel, by decide +kernel, by decide +kernel, exec_xsteps _ _,
    by decide +kernel, by decide +kernel⟩

/-! ### C58: deletions are not lost -/

def lostDel : St := exec one [.start 1 (.del 16 1), .move 1 1, .start 2 (.set 8 1 (w 3)), .move 2 20, .move 1 9]
def lostDel2 : St := exec lostDel [.start 3 (.get 16 1), .move 3 9]

/-- C58 refuted: a Delete of a present key returns true while another key is being inserted, and a Get after both have returned still
finds the key. -/
theorem C58_refuted : XSteps (init 3) one ∧ one.pc 0 = .done (.bool true) ∧ one.pc 1 = .idle ∧ one.pc 2 = .idle ∧
    XSteps one lostDel ∧ lostDel.pc 1 = .done (.bool true) ∧ lostDel.pc 2 = .done (.bool true) ∧ lostDel.pc 3 = .idle ∧
    XSteps lostDel lostDel2 ∧ lostDel2.pc 3 = .done (.val (w 1) true) := by
  refine ⟨exec_xsteps _ _, by decide +kernel, by decide +kernel, by decide +kernel, exec_xsteps _ _, by decide +kernel,
    by decide +kernel, by decide +kernel, exec_xsteps _ _, by decide +kernel⟩

end SLM.EConc
