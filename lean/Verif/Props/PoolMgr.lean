import Verif.Model.PoolMgr
import Verif.Props.Pool
import Mathlib.Data.List.Perm.Subperm
/-!
C105: the item pool with manager goroutines.
-/
set_option autoImplicit false
namespace SLM.PoolMgr
open Pool (CSt PC PoolObj)

/-- What holds of the pool of a manager when the manager is at a program point. -/
def At0 (s : CSt) : PC → Prop
  | .idle => (s.pools s.cur).owner = none ∧ (s.log.length : Int) = (s.pools s.cur).len
  | .start p => p = s.cur ∧ (s.pools p).owner = none ∧ (s.log.length : Int) = (s.pools p).len
  | .ini p => p = s.cur ∧ (s.pools p).owner = none ∧ (s.pools p).inited = false ∧ (s.log.length : Int) = (s.pools p).len
  | .check p => p = s.cur ∧ (s.pools p).owner = none ∧ (s.pools p).inited = true ∧ (s.log.length : Int) = (s.pools p).len
  | .readLen p => p = s.cur ∧ (s.pools p).owner = none ∧ (s.pools p).inited = true ∧ (s.log.length : Int) = (s.pools p).len ∧ (s.pools p).len < (s.pools p).cap
  | .lock p i => p = s.cur ∧ (s.pools p).owner = none ∧ (s.pools p).inited = true ∧ (s.log.length : Int) = i ∧ (s.pools p).len = i ∧ i + 1 = (s.pools p).cap
  | .cas p i h => p = s.cur ∧ (s.pools p).owner = (if h then some 0 else none) ∧ (s.pools p).inited = true ∧ (s.log.length : Int) = i ∧ (s.pools p).len = i ∧
      i < (s.pools p).cap
  | .at p i h => p = s.cur ∧ (s.pools p).owner = (if h then some 0 else none) ∧ (s.pools p).inited = true ∧ (s.log.length : Int) = i ∧ (s.pools p).len = i + 1 ∧
      i < (s.pools p).cap ∧ ∀ e ∈ s.log, e.2.1 = (s.pools p).arr → e.2.2 < i
  | .expand p => p = s.cur ∧ (s.pools p).owner = none ∧ (s.pools p).inited = true ∧ (s.log.length : Int) = (s.pools p).len
  | .got p a i h => p = s.cur ∧ (s.pools p).owner = (if h then some 0 else none) ∧ (s.pools p).inited = true ∧ (s.log.length : Int) = (s.pools p).len ∧
      s.log.head? = some (0, a, i)
  | .crashed => False

/-- The pool of a manager: goroutine 0 works alone. -/
structure One (s : CSt) : Prop where
  lt : s.cur < s.count
  arr : ∀ p, p < s.count → (s.pools p).arr < s.arrs
  fresh : ∀ e ∈ s.log, e.2.1 < s.arrs
  inl : ∀ e ∈ s.log, e.2.1 = (s.pools s.cur).arr → 0 ≤ e.2.2 ∧ e.2.2 < (s.pools s.cur).len
  nd : (s.log.map (·.2)).Nodup
  raw : (s.pools s.cur).inited = false → s.log = []
  at0 : At0 s (s.pc 0)

theorem One.cinit : One Pool.cinit := by
  constructor <;> simp [Pool.cinit, At0]

theorem One.pc {s : CSt} (o : One s) (c : PC) (h : At0 s c) : One (Pool.setPC s 0 c) := ⟨o.lt, o.arr, o.fresh, o.inl, o.nd, o.raw, h⟩

/-- Only `owner` of the current pool changes. -/
theorem One.owner {s : CSt} (o : One s) (p : Nat) (w : Option Nat) (c : PC) (h : At0 (Pool.setPool s p { s.pools p with owner := w }) c) :
    One (Pool.setPC (Pool.setPool s p { s.pools p with owner := w }) 0 c) := by
  have key : ∀ q, ((Pool.setPool s p { s.pools p with owner := w }).pools q).arr = (s.pools q).arr ∧
      ((Pool.setPool s p { s.pools p with owner := w }).pools q).len = (s.pools q).len ∧
      ((Pool.setPool s p { s.pools p with owner := w }).pools q).inited = (s.pools q).inited := by
    intro q
    unfold Pool.setPool
    by_cases hq : q = p
    · subst hq; simp
    · simp [hq]
  refine ⟨o.lt, ?_, o.fresh, ?_, o.nd, ?_, h⟩
  · intro q hq
    show ((Pool.setPool s p { s.pools p with owner := w }).pools q).arr < _
    rw [(key q).1]; exact o.arr q hq
  · intro e he
    show e.2.1 = ((Pool.setPool s p { s.pools p with owner := w }).pools s.cur).arr → 0 ≤ e.2.2 ∧ e.2.2 < ((Pool.setPool s p { s.pools p with owner := w }).pools s.cur).len
    rw [(key s.cur).1, (key s.cur).2.1]; exact o.inl e he
  · show ((Pool.setPool s p { s.pools p with owner := w }).pools s.cur).inited = false → _
    rw [(key s.cur).2.2]; exact o.raw

theorem One.step {s s' : CSt} (o : One s) (h : Pool.Step s 0 s') : One s' := by
  have a := o.at0
  cases h with
  | enter h => rw [h] at a; exact o.pc _ ⟨rfl, a⟩
  | startInit p h hi => rw [h] at a; exact o.pc _ ⟨a.1, a.2.1, hi, a.2.2⟩
  | startReady p h hi => rw [h] at a; exact o.pc _ ⟨a.1, a.2.1, hi, a.2.2⟩
  | doInit p h =>
    rw [h] at a
    obtain ⟨rfl, a1, a2, a3⟩ := a
    have hl := o.raw a2
    refine ⟨o.lt, ?_, ?_, ?_, o.nd, ?_, ?_⟩
    · intro q hq
      show ((Pool.setPool s s.cur _).pools q).arr < s.arrs + 1
      unfold Pool.setPool
      by_cases hqc : q = s.cur
      · simp [hqc]
      · have := o.arr q hq
        simp only [hqc, if_false]; omega
    · intro e he
      have : e ∈ s.log := he
      rw [hl] at this; cases this
    · intro e he
      have : e ∈ s.log := he
      rw [hl] at this; cases this
    · intro _; exact hl
    · show At0 _ (PC.check s.cur)
      refine ⟨rfl, ?_, ?_, ?_⟩
      · simp [Pool.setPC, Pool.setPool, a1]
      · simp [Pool.setPC, Pool.setPool]
      · simp [Pool.setPC, Pool.setPool, hl]
  | full p h hc => rw [h] at a; exact o.pc _ a
  | notFull p h hc => rw [h] at a; exact o.pc _ ⟨a.1, a.2.1, a.2.2.1, a.2.2.2, by omega⟩
  | readLast p h hc => rw [h] at a; exact o.pc _ ⟨a.1, a.2.1, a.2.2.1, a.2.2.2.1, rfl, hc⟩
  | readMid p h hc => rw [h] at a; exact o.pc _ ⟨a.1, by simpa using a.2.1, a.2.2.1, a.2.2.2.1, rfl, a.2.2.2.2⟩
  | lockOk p i h hw hc =>
    rw [h] at a
    obtain ⟨rfl, a1, a2, a3, a4, a5⟩ := a
    refine o.owner _ _ _ ⟨rfl, ?_, ?_, a3, ?_, ?_⟩
    · simp [Pool.setPool]
    · simpa [Pool.setPool] using a2
    · simpa [Pool.setPool] using a4
    · simp only [Pool.setPool, if_true]; omega
  | lockRetry p i h hw hc => rw [h] at a; exact absurd a.2.2.2.2.2 hc
  | casOk p i b h hc =>
    rw [h] at a
    obtain ⟨rfl, a1, a2, a3, a4, a5⟩ := a
    have key : ∀ q, ((Pool.setPool s s.cur { s.pools s.cur with len := i + 1 }).pools q).arr = (s.pools q).arr := by
      intro q
      unfold Pool.setPool
      by_cases hq : q = s.cur
      · subst hq; simp
      · simp [hq]
    have hcur : (Pool.setPool s s.cur { s.pools s.cur with len := i + 1 }).pools s.cur = { s.pools s.cur with len := i + 1 } := by simp [Pool.setPool]
    refine ⟨o.lt, ?_, o.fresh, ?_, o.nd, ?_, ?_⟩
    · intro q hq
      show ((Pool.setPool s s.cur { s.pools s.cur with len := i + 1 }).pools q).arr < _
      rw [key q]; exact o.arr q hq
    · intro e he
      show e.2.1 = ((Pool.setPool s s.cur { s.pools s.cur with len := i + 1 }).pools s.cur).arr →
        0 ≤ e.2.2 ∧ e.2.2 < ((Pool.setPool s s.cur { s.pools s.cur with len := i + 1 }).pools s.cur).len
      rw [hcur]
      intro ha
      have := o.inl e he ha
      simp only
      omega
    · show ((Pool.setPool s s.cur { s.pools s.cur with len := i + 1 }).pools s.cur).inited = false → _
      rw [hcur]; intro h2; rw [a2] at h2; cases h2
    · show At0 (Pool.setPool s s.cur { s.pools s.cur with len := i + 1 }) (PC.at s.cur i b)
      refine ⟨rfl, by rw [hcur]; exact a1, by rw [hcur]; exact a2, a3, by rw [hcur], by rw [hcur]; exact a5, ?_⟩
      rw [hcur]
      intro e he ha
      have := (o.inl e he ha).2
      omega
  | casFail p i b h hc => rw [h] at a; exact absurd a.2.2.2.2.1 hc
  | atOk p i b h h1 h2 =>
    rw [h] at a
    obtain ⟨rfl, a1, a2, a3, a4, a5, a6⟩ := a
    refine ⟨o.lt, o.arr, ?_, ?_, ?_, ?_, ?_⟩
    · intro e he
      rcases List.mem_cons.1 he with rfl | he
      · exact o.arr _ o.lt
      · exact o.fresh e he
    · intro e he ha
      rcases List.mem_cons.1 he with rfl | he
      · refine ⟨?_, h1⟩
        show 0 ≤ i
        omega
      · exact o.inl e he ha
    · show ((0, (s.pools s.cur).arr, i) :: s.log).map (·.2) |>.Nodup
      rw [List.map_cons, List.nodup_cons]
      refine ⟨?_, o.nd⟩
      intro hm
      obtain ⟨e, he, hee⟩ := List.mem_map.1 hm
      have := a6 e he (by rw [hee])
      rw [hee] at this
      exact Int.lt_irrefl _ this
    · intro hi
      have : (s.pools s.cur).inited = false := hi
      rw [a2] at this; cases this
    · have hp : (Pool.setPC s 0 (.got s.cur (s.pools s.cur).arr i b)).pc 0 = .got s.cur (s.pools s.cur).arr i b := by simp [Pool.setPC]
      show At0 _ ((Pool.setPC s 0 (.got s.cur (s.pools s.cur).arr i b)).pc 0)
      rw [hp]
      refine ⟨rfl, a1, a2, ?_, rfl⟩
      show ((s.log.length + 1 : Nat) : Int) = (s.pools s.cur).len
      omega
  | atNil p i b h h1 =>
    rw [h] at a
    obtain ⟨rfl, a1, a2, a3, a4, a5, a6⟩ := a
    omega
  | expandOk p h hw =>
    rw [h] at a
    obtain ⟨rfl, a1, a2, a3⟩ := a
    have hlt := o.lt
    have e1 : ∀ q, q < s.count → q ≠ s.count := by omega
    refine ⟨Nat.lt_succ_self _, ?_, ?_, ?_, o.nd, ?_, ?_⟩
    · intro q hq
      show ((Pool.setPool s s.count _).pools q).arr < s.arrs + 1
      unfold Pool.setPool
      by_cases hqc : q = s.count
      · simp [hqc]
      · have hq' : q < s.count + 1 := hq
        have := o.arr q (by omega)
        simp only [hqc, if_false]; omega
    · intro e he
      exact Nat.lt_succ_of_lt (o.fresh e he)
    · intro e he ha
      exfalso
      have h2 := o.fresh e he
      have h3 : e.2.1 = ((Pool.setPool s s.count { inited := true, arr := s.arrs, len := (s.pools s.cur).len, cap := poolCap (s.pools s.cur).len, owner := none }).pools s.count).arr := ha
      simp only [Pool.setPool, if_true] at h3
      omega
    · intro hi
      have h3 : ((Pool.setPool s s.count { inited := true, arr := s.arrs, len := (s.pools s.cur).len, cap := poolCap (s.pools s.cur).len, owner := none }).pools s.count).inited = false := hi
      simp [Pool.setPool] at h3
    · show At0 _ (PC.start s.count)
      refine ⟨rfl, ?_, ?_⟩
      · simp [Pool.setPC, Pool.setPool]
      · simp only [Pool.setPC, Pool.setPool, if_true]; exact a3
  | expandCrash p h hw hp => rw [h] at a; exact absurd a.1 hp
  | finish p w i b h =>
    rw [h] at a
    obtain ⟨rfl, a1, a2, a3, a4⟩ := a
    cases b with
    | false => exact o.pc _ ⟨by simpa using a1, a3⟩
    | true =>
      refine o.owner s.cur none .idle ⟨?_, ?_⟩
      · simp [Pool.setPool]
      · simpa [Pool.setPool] using a3

/-! ### a manager's Get ends -/

/-- Steps of a manager inside `Get`. -/
inductive WSteps : CSt → CSt → Prop
  | refl (p : CSt) : WSteps p p
  | step {a b c : CSt} : WSteps a b → b.pc 0 ≠ .idle → (∀ q x k h, b.pc 0 ≠ .got q x k h) → Pool.Step b 0 c → WSteps a c

theorem WSteps.cons {a b c : CSt} (h1 : a.pc 0 ≠ .idle) (h2 : ∀ q x k h, a.pc 0 ≠ .got q x k h) (h3 : Pool.Step a 0 b) (h : WSteps b c) : WSteps a c := by
  induction h with
  | refl => exact .step (.refl _) h1 h2 h3
  | step _ h4 h5 h6 ih => exact .step ih h4 h5 h6

/-- The manager comes to the end of `Get`. -/
def Ends (p : CSt) : Prop := ∃ p', WSteps p p' ∧ ∃ q x k h, p'.pc 0 = .got q x k h

theorem Ends.of {a b : CSt} {c : PC} (h : a.pc 0 = c) (h1 : c ≠ .idle) (h2 : ∀ q x k h, c ≠ .got q x k h) (h3 : Pool.Step a 0 b) (e : Ends b) : Ends a := by
  obtain ⟨p', h4, h5⟩ := e
  exact ⟨p', h4.cons (by rw [h]; exact h1) (by rw [h]; exact h2) h3, h5⟩

theorem pc0 (s : CSt) (c : PC) : (Pool.setPC s 0 c).pc 0 = c := by simp [Pool.setPC]

theorem ends_at {p : CSt} (o : One p) {q : Nat} {i : Int} {b : Bool} (h : p.pc 0 = .at q i b) : Ends p := by
  have a := o.at0
  rw [h] at a
  refine ⟨_, .step (.refl _) (by rw [h]; exact fun e => nomatch e) (by intro q x k h' e; rw [h] at e; exact nomatch e)
    (Pool.Step.atOk p 0 q i b h (by have := a.2.2.2.2.1; omega) a.2.2.2.2.2.1), q, (p.pools q).arr, i, b, pc0 p _⟩

theorem ends_cas {p : CSt} (o : One p) {q : Nat} {i : Int} {b : Bool} (h : p.pc 0 = .cas q i b) : Ends p := by
  have a := o.at0
  rw [h] at a
  have st := Pool.Step.casOk p 0 q i b h a.2.2.2.2.1
  exact Ends.of h (by simp) (by simp) st (ends_at (o.step st) (pc0 _ _))

theorem ends_lock {p : CSt} (o : One p) {q : Nat} {i : Int} (h : p.pc 0 = .lock q i) : Ends p := by
  have a := o.at0
  rw [h] at a
  have st := Pool.Step.lockOk p 0 q i h a.2.1 a.2.2.2.2.2
  exact Ends.of h (by simp) (by simp) st (ends_cas (o.step st) (pc0 _ _))

theorem ends_readLen {p : CSt} (o : One p) {q : Nat} (h : p.pc 0 = .readLen q) : Ends p := by
  by_cases hc : (p.pools q).len + 1 = (p.pools q).cap
  · have st := Pool.Step.readLast p 0 q h hc
    exact Ends.of h (by simp) (by simp) st (ends_lock (o.step st) (pc0 _ _))
  · have st := Pool.Step.readMid p 0 q h hc
    exact Ends.of h (by simp) (by simp) st (ends_cas (o.step st) (pc0 _ _))

theorem ends_check_room {p : CSt} (o : One p) {q : Nat} (h : p.pc 0 = .check q) (hr : (p.pools q).len < (p.pools q).cap) : Ends p := by
  have st := Pool.Step.notFull p 0 q h (by omega)
  exact Ends.of h (by simp) (by simp) st (ends_readLen (o.step st) (pc0 _ _))

theorem ends_start_room {p : CSt} (o : One p) {q : Nat} (h : p.pc 0 = .start q) (hi : (p.pools q).inited = true) (hr : (p.pools q).len < (p.pools q).cap) : Ends p := by
  have st := Pool.Step.startReady p 0 q h hi
  exact Ends.of h (by simp) (by simp) st (ends_check_room (o.step st) (pc0 _ _) hr)

theorem ends_expand {p : CSt} (o : One p) {q : Nat} (h : p.pc 0 = .expand q) (hn : (p.log.length : Int) < 2 ^ 62) : Ends p := by
  have a := o.at0
  rw [h] at a
  have st := Pool.Step.expandOk p 0 q h a.2.1
  have hl : (p.pools q).len < poolCap (p.pools q).len := by
    have := a.2.2.2
    rw [← this]
    exact (poolCap_bounds (p.log.length : Int) (by omega)).1
  refine Ends.of h (by simp) (by simp) st (ends_start_room (o.step st) (pc0 _ _) ?_ ?_)
  · simp [Pool.setPC, Pool.setPool]
  · simpa [Pool.setPC, Pool.setPool] using hl

theorem ends_check {p : CSt} (o : One p) {q : Nat} (h : p.pc 0 = .check q) (hn : (p.log.length : Int) < 2 ^ 62) : Ends p := by
  by_cases hc : (p.pools q).cap ≤ (p.pools q).len
  · have st := Pool.Step.full p 0 q h hc
    exact Ends.of h (by simp) (by simp) st (ends_expand (o.step st) (pc0 _ _) hn)
  · exact ends_check_room o h (by omega)

theorem ends_ini {p : CSt} (o : One p) {q : Nat} (h : p.pc 0 = .ini q) : Ends p := by
  have st := Pool.Step.doInit p 0 q h
  refine Ends.of h (by simp) (by simp) st (ends_check_room (o.step st) (pc0 _ _) ?_)
  simp [Pool.setPC, Pool.setPool]

theorem ends_start {p : CSt} (o : One p) {q : Nat} (h : p.pc 0 = .start q) (hn : (p.log.length : Int) < 2 ^ 62) : Ends p := by
  by_cases hi : (p.pools q).inited = true
  · have st := Pool.Step.startReady p 0 q h hi
    exact Ends.of h (by simp) (by simp) st (ends_check (o.step st) (pc0 _ _) hn)
  · have st := Pool.Step.startInit p 0 q h (by simpa using hi)
    exact Ends.of h (by simp) (by simp) st (ends_ini (o.step st) (pc0 _ _))

theorem get_ends {p : CSt} (o : One p) (h : p.pc 0 ≠ .idle) (hn : (p.log.length : Int) < 2 ^ 62) : Ends p := by
  cases hp : p.pc 0 with
  | idle => exact absurd hp h
  | start q => exact ends_start o hp hn
  | ini q => exact ends_ini o hp
  | check q => exact ends_check o hp hn
  | readLen q => exact ends_readLen o hp
  | lock q i => exact ends_lock o hp
  | cas q i b => exact ends_cas o hp
  | «at» q i b => exact ends_at o hp
  | expand q => exact ends_expand o hp hn
  | got q x k b => exact ⟨p, .refl p, q, x, k, b, hp⟩
  | crashed => have a := o.at0; rw [hp] at a; exact a.elim

theorem WSteps.one {p p' : CSt} (h : WSteps p p') (o : One p) : One p' := by
  induction h with
  | refl => exact o
  | step _ _ _ h ih => exact ih.step h

/-! ### the machine -/

/-- The slots of a pool that were handed to Sets. -/
def granted (p : CSt) : List (Nat × Int) :=
  match p.pc 0 with
  | .got _ _ _ _ => p.log.tail.map (·.2)
  | _ => p.log.map (·.2)

theorem granted_work {p p' : CSt} (h2 : ∀ q x k h, p.pc 0 ≠ .got q x k h) (h : Pool.Step p 0 p') : granted p' = granted p := by
  have hg : granted p = p.log.map (·.2) := by
    unfold granted
    split
    · rename_i q x k b hp; exact absurd hp (h2 _ _ _ _)
    · rfl
  rw [hg]
  unfold granted
  cases h <;> (try rw [pc0]) <;> first
    | rfl
    | skip
  case finish q x k b hp => exact absurd hp (h2 _ _ _ _)

theorem granted_finish {p p' : CSt} (o : One p) {q a : Nat} {k : Int} {b : Bool} (hp : p.pc 0 = .got q a k b) (h : Pool.Step p 0 p') :
    p'.pc 0 = .idle ∧ granted p' = (a, k) :: granted p ∧ p'.log = p.log := by
  have h0 := o.at0
  rw [hp] at h0
  obtain ⟨_, _, _, _, h5⟩ := h0
  have hl : p.log = (0, a, k) :: p.log.tail := by
    cases hl : p.log with
    | nil => rw [hl] at h5; cases h5
    | cons e l => rw [hl] at h5; simp only [List.head?_cons, Option.some.injEq] at h5; rw [h5]; rfl
  have key : p'.pc 0 = .idle ∧ p'.log = p.log := by
    cases h <;> (rw [‹p.pc 0 = _›] at hp) <;> try (cases hp; done)
    exact ⟨pc0 _ _, by simp only [Pool.setPC]; split <;> rfl⟩
  refine ⟨key.1, ?_, key.2⟩
  unfold granted
  rw [key.1, key.2, hp]
  simp only
  conv_lhs => rw [hl]
  rfl

structure Inv (s : St) : Prop where
  one : ∀ i, One (s.pool i)
  busy : ∀ i, s.serving i = none ↔ (s.pool i).pc 0 = .idle
  wait : ∀ i g, s.serving i = some g → s.pc g = .waiting i
  slots : ∀ i x, (∃ g, (g, i, x) ∈ s.log) ↔ x ∈ granted (s.pool i)
  nd : (s.log.map (·.2)).Nodup
  cl : ∀ g i a k, s.pc g = .got i a k → (g, i, a, k) ∈ s.log

theorem Inv.init (b : Bool) : Inv (init b) := by
  refine ⟨fun _ => One.cinit, fun _ => ⟨fun _ => rfl, fun _ => rfl⟩, ?_, ?_, List.nodup_nil, ?_⟩
  · intro i g h; cases h
  · intro i x
    constructor
    · rintro ⟨g, h⟩; cases h
    · intro h; cases h
  · intro g i a k h; cases h

theorem setClient_same (s : St) (g : Tid) (c : Client) : (setClient s g c).pc g = c := by simp [setClient]
theorem setClient_ne (s : St) {g u : Tid} (c : Client) (h : u ≠ g) : (setClient s g c).pc u = s.pc u := by simp [setClient, h]
theorem setMgr_pool (s : St) (i : Fin 8) (p : CSt) (o : Option Tid) : (setMgr s i p o).pool i = p := by simp [setMgr]
theorem setMgr_pool_ne (s : St) {i j : Fin 8} (p : CSt) (o : Option Tid) (h : j ≠ i) : (setMgr s i p o).pool j = s.pool j := by simp [setMgr, h]
theorem setMgr_serving (s : St) (i : Fin 8) (p : CSt) (o : Option Tid) : (setMgr s i p o).serving i = o := by simp [setMgr]
theorem setMgr_serving_ne (s : St) {i j : Fin 8} (p : CSt) (o : Option Tid) (h : j ≠ i) : (setMgr s i p o).serving j = s.serving j := by simp [setMgr, h]
theorem setMgr_twice (s : St) (i : Fin 8) (p q : CSt) (o w : Option Tid) : setMgr (setMgr s i p o) i q w = setMgr s i q w := by
  unfold setMgr
  congr 1
  · funext j; by_cases h : j = i <;> simp [h]
  · funext j; by_cases h : j = i <;> simp [h]
theorem setMgr_self (s : St) (i : Fin 8) : setMgr s i (s.pool i) (s.serving i) = s := by
  unfold setMgr
  have h1 : (fun j => if j = i then s.pool i else s.pool j) = s.pool := by funext j; by_cases h : j = i <;> simp [h]
  have h2 : (fun j => if j = i then s.serving i else s.serving j) = s.serving := by funext j; by_cases h : j = i <;> simp [h]
  rw [h1, h2]

theorem Inv.step {s s' : St} (I : Inv s) (h : Step s s') : Inv s' := by
  cases h with
  | ask g r hp =>
    refine ⟨I.one, I.busy, ?_, I.slots, I.nd, ?_⟩
    · intro i u hu
      have h1 := I.wait i u hu
      have : u ≠ g := by rintro rfl; rw [hp] at h1; cases h1
      rw [setClient_ne _ _ this]; exact h1
    · intro u i a k hu
      by_cases hg : u = g
      · subst hg; rw [setClient_same] at hu; cases hu
      · rw [setClient_ne _ _ hg] at hu; exact I.cl u i a k hu
  | recv i g hs hi hp =>
    have hidle := (I.busy i).1 hi
    refine ⟨?_, ?_, ?_, ?_, I.nd, I.cl⟩
    · intro j
      by_cases hj : j = i
      · subst hj; rw [setMgr_pool]; exact (I.one j).step (Pool.Step.enter _ 0 hidle)
      · rw [setMgr_pool_ne _ _ _ hj]; exact I.one j
    · intro j
      by_cases hj : j = i
      · subst hj
        rw [setMgr_pool, setMgr_serving, pc0]
        simp
      · rw [setMgr_pool_ne _ _ _ hj, setMgr_serving_ne _ _ _ hj]; exact I.busy j
    · intro j u hu
      by_cases hj : j = i
      · subst hj; rw [setMgr_serving] at hu; cases hu; exact hp
      · rw [setMgr_serving_ne _ _ _ hj] at hu; exact I.wait j u hu
    · intro j x
      by_cases hj : j = i
      · subst hj
        rw [setMgr_pool, granted_work (by rw [hidle]; exact fun _ _ _ _ e => nomatch e) (Pool.Step.enter _ 0 hidle)]
        exact I.slots j x
      · rw [setMgr_pool_ne _ _ _ hj]; exact I.slots j x
  | work i g p hs h1 h2 hw =>
    have hne : p.pc 0 ≠ .idle := by
      revert h1 h2
      cases hw <;> intro h1 h2 <;> rw [pc0] <;> first
        | (rename_i hp; exact absurd hp (h2 _ _ _ _))
        | exact fun e => nomatch e
    refine ⟨?_, ?_, ?_, ?_, I.nd, I.cl⟩
    · intro j
      by_cases hj : j = i
      · subst hj; rw [setMgr_pool]; exact (I.one j).step hw
      · rw [setMgr_pool_ne _ _ _ hj]; exact I.one j
    · intro j
      by_cases hj : j = i
      · subst hj
        rw [setMgr_pool, setMgr_serving]
        simp [hne]
      · rw [setMgr_pool_ne _ _ _ hj, setMgr_serving_ne _ _ _ hj]; exact I.busy j
    · intro j u hu
      by_cases hj : j = i
      · subst hj; rw [setMgr_serving] at hu; cases hu; exact I.wait j g hs
      · rw [setMgr_serving_ne _ _ _ hj] at hu; exact I.wait j u hu
    · intro j x
      by_cases hj : j = i
      · subst hj
        rw [setMgr_pool, granted_work h2 hw]
        exact I.slots j x
      · rw [setMgr_pool_ne _ _ _ hj]; exact I.slots j x
  | reply i g q a k b p hs hp hw =>
    obtain ⟨f1, f2, f3⟩ := granted_finish (I.one i) hp hw
    have hwait := I.wait i g hs
    have hnew : ∀ u, (u, i, a, k) ∉ s.log := by
      intro u hu
      have := (I.slots i (a, k)).1 ⟨u, hu⟩
      have hn := ((I.one i).step hw).nd
      have : granted p = p.log.map (·.2) := by unfold granted; rw [f1]
      rw [← this, f2, List.nodup_cons] at hn
      exact hn.1 ((I.slots i (a, k)).1 ⟨u, hu⟩)
    refine ⟨?_, ?_, ?_, ?_, ?_, ?_⟩
    · intro j
      show One ((setMgr s i p none).pool j)
      by_cases hj : j = i
      · subst hj; rw [setMgr_pool]; exact (I.one j).step hw
      · rw [setMgr_pool_ne _ _ _ hj]; exact I.one j
    · intro j
      show (setMgr s i p none).serving j = none ↔ ((setMgr s i p none).pool j).pc 0 = .idle
      by_cases hj : j = i
      · subst hj
        rw [setMgr_pool, setMgr_serving]
        simp [f1]
      · rw [setMgr_pool_ne _ _ _ hj, setMgr_serving_ne _ _ _ hj]; exact I.busy j
    · intro j u hu
      have hu : (setMgr s i p none).serving j = some u := hu
      by_cases hj : j = i
      · subst hj; rw [setMgr_serving] at hu; cases hu
      · rw [setMgr_serving_ne _ _ _ hj] at hu
        have h1 := I.wait j u hu
        have : u ≠ g := by rintro rfl; rw [hwait] at h1; injection h1 with h1; exact hj h1.symm
        show (setClient (setMgr s i p none) g (.got i a k)).pc u = _
        rw [setClient_ne _ _ this]
        exact h1
    · intro j x
      show (∃ u, (u, j, x) ∈ (g, i, a, k) :: s.log) ↔ x ∈ granted ((setMgr s i p none).pool j)
      by_cases hj : j = i
      · subst hj
        rw [setMgr_pool, f2, List.mem_cons, ← I.slots j x]
        constructor
        · rintro ⟨u, hu⟩
          rcases List.mem_cons.1 hu with hu | hu
          · left; injection hu with _ hu; injection hu
          · exact Or.inr ⟨u, hu⟩
        · rintro (rfl | ⟨u, hu⟩)
          · exact ⟨g, List.mem_cons_self ..⟩
          · exact ⟨u, List.mem_cons_of_mem _ hu⟩
      · rw [setMgr_pool_ne _ _ _ hj, ← I.slots j x]
        constructor
        · rintro ⟨u, hu⟩
          rcases List.mem_cons.1 hu with hu | hu
          · injection hu with _ hu; injection hu with hu _; exact absurd hu hj
          · exact ⟨u, hu⟩
        · rintro ⟨u, hu⟩; exact ⟨u, List.mem_cons_of_mem _ hu⟩
    · show (((g, i, a, k) :: s.log).map (·.2)).Nodup
      rw [List.map_cons, List.nodup_cons]
      refine ⟨?_, I.nd⟩
      intro hm
      obtain ⟨⟨u, e⟩, he, hee⟩ := List.mem_map.1 hm
      simp only at hee
      subst hee
      exact hnew u he
    · intro u j x y hu
      have hu : (setClient (setMgr s i p none) g (.got i a k)).pc u = .got j x y := hu
      by_cases hg : u = g
      · subst hg
        rw [setClient_same] at hu
        cases hu
        exact List.mem_cons_self ..
      · rw [setClient_ne _ _ hg] at hu
        exact List.mem_cons_of_mem _ (I.cl u j x y hu)
  | done g i a k hp =>
    refine ⟨I.one, I.busy, ?_, I.slots, I.nd, ?_⟩
    · intro j u hu
      have h1 := I.wait j u hu
      have : u ≠ g := by rintro rfl; rw [hp] at h1; cases h1
      rw [setClient_ne _ _ this]; exact h1
    · intro u j x y hu
      by_cases hg : u = g
      · subst hg; rw [setClient_same] at hu; cases hu
      · rw [setClient_ne _ _ hg] at hu; exact I.cl u j x y hu

theorem Inv.steps {s s' : St} (I : Inv s) (h : Steps s s') : Inv s' := by
  induction h with
  | refl => exact I
  | step _ hs ih => exact ih.step hs

theorem Steps.trans {a b c : St} (h1 : Steps a b) (h2 : Steps b c) : Steps a c := by
  induction h2 with
  | refl => exact h1
  | step _ h ih => exact .step ih h

theorem started_step {s s' : St} (h : Step s s') : s'.started = s.started := by cases h <;> rfl
theorem started_steps {s s' : St} (h : Steps s s') : s'.started = s.started := by
  induction h with
  | refl => rfl
  | step _ h ih => rw [started_step h, ih]

theorem WSteps.lift {p p' : CSt} (h : WSteps p p') {s : St} {i : Fin 8} {g : Tid} (hp : s.pool i = p) (hs : s.serving i = some g) :
    Steps s (setMgr s i p' (some g)) := by
  induction h with
  | refl => rw [← hp, ← hs, setMgr_self]; exact .refl _
  | @step b c _ h2 h3 h4 ih =>
    refine .step ih ?_
    have := Step.work (setMgr s i b (some g)) i g c (setMgr_serving ..) (by rw [setMgr_pool]; exact h2) (by rw [setMgr_pool]; exact h3) (by rw [setMgr_pool]; exact h4)
    rwa [setMgr_twice] at this

theorem WSteps.granted {p p' : CSt} (h : WSteps p p') : granted p' = granted p := by
  induction h with
  | refl => rfl
  | step _ _ h2 h3 ih => rw [granted_work h2 h3, ih]

theorem granted_len (p : CSt) : (granted p).length ≤ p.log.length ∧ p.log.length ≤ (granted p).length + 1 := by
  unfold PoolMgr.granted
  split
  · rw [List.length_map, List.length_tail]; omega
  · rw [List.length_map]; omega

/-- A manager that works on a request finishes it, whatever the Sets do. -/
theorem serve {s : St} (I : Inv s) {i : Fin 8} {g : Tid} (hs : s.serving i = some g) (hn : ((s.pool i).log.length : Int) < 2 ^ 62) :
    ∃ s', Steps s s' ∧ s'.serving i = none ∧ (∃ a k, s'.pc g = .got i a k) ∧ (∀ u, u ≠ g → s'.pc u = s.pc u) ∧
      (s'.pool i).log.length ≤ (s.pool i).log.length + 1 := by
  have hb : (s.pool i).pc 0 ≠ .idle := by
    intro e
    rw [(I.busy i).2 e] at hs
    cases hs
  obtain ⟨p', h1, q, a, k, b, h2⟩ := get_ends (I.one i) hb hn
  have o' := h1.one (I.one i)
  have st := Pool.Step.finish p' 0 q a k b h2
  have hsteps := h1.lift rfl hs
  have := Step.reply (setMgr s i p' (some g)) i g q a k b _ (setMgr_serving ..) (by rw [setMgr_pool]; exact h2) (by rw [setMgr_pool]; exact st)
  refine ⟨_, .step hsteps this, ?_, ⟨a, k, ?_⟩, ?_, ?_⟩
  · simp [setClient, setMgr]
  · simp [setClient]
  · intro u hu; simp [setClient, hu, setMgr]
  · have h3 := (granted_len (s.pool i)).1
    rw [← h1.granted] at h3
    have h4 := (granted_len p').2
    have h5 : (Pool.setPC (if b = true then Pool.setPool p' q { p'.pools q with owner := none } else p') 0 PC.idle).log = p'.log := by
      simp only [Pool.setPC]; split <;> rfl
    have h6 : (({ setClient (setMgr (setMgr s i p' (some g)) i (Pool.setPC (if b = true then Pool.setPool p' q { p'.pools q with owner := none } else p') 0 PC.idle) none) g
        (.got i a k) with log := (g, i, a, k) :: (setMgr s i p' (some g)).log } : St).pool i) =
        Pool.setPC (if b = true then Pool.setPool p' q { p'.pools q with owner := none } else p') 0 PC.idle := setMgr_pool _ _ _ none
    rw [h6, h5]
    omega

/-- The slots a pool handed out are among those handed out. -/
theorem Inv.len {s : St} (I : Inv s) (i : Fin 8) : (granted (s.pool i)).length ≤ s.log.length := by
  have hn : (granted (s.pool i)).Nodup := by
    have := (I.one i).nd
    unfold granted
    split
    · exact this.sublist ((List.tail_sublist _).map _)
    · exact this
  have h1 : ((granted (s.pool i)).map (fun x => (i, x))).Nodup := hn.map (fun a b h => by injection h)
  have h2 : (granted (s.pool i)).map (fun x => (i, x)) ⊆ s.log.map (·.2) := by
    intro y hy
    obtain ⟨x, hx, rfl⟩ := List.mem_map.1 hy
    obtain ⟨g, hg⟩ := (I.slots i x).2 hx
    exact List.mem_map.2 ⟨_, hg, rfl⟩
  have h3 : ((granted (s.pool i)).map (fun x => (i, x))).length ≤ (s.log.map (·.2)).length := (List.Nodup.subperm h1 h2).length_le
  rw [List.length_map, List.length_map] at h3
  exact h3

/-! ### C105 -/

/-- C105, for any number of goroutines and all schedules: no slot is handed to two Sets (nor twice to one), two Sets that hold an item at the same time hold
different ones, and no manager crashes.  The first allocation is no exception (compare C30_refuted), nor is the last slot of an array (C49_refuted_crash). -/
theorem C105_distinct (b : Bool) (s : St) (h : Steps (init b) s) :
    (s.log.map (·.2)).Nodup ∧
    (∀ g g' i a k, s.pc g = .got i a k → s.pc g' = .got i a k → g = g') ∧
    ∀ i, (s.pool i).pc 0 ≠ .crashed := by
  have I := (Inv.init b).steps h
  refine ⟨I.nd, ?_, ?_⟩
  · intro g g' i a k h1 h2
    have := List.inj_on_of_nodup_map I.nd (I.cl g i a k h1) (I.cl g' i a k h2) rfl
    injection this
  · intro i hc
    have := (I.one i).at0
    rw [hc] at this
    exact this

/-- C105, for all schedules, if the managers were started: a Set that waits for an item can be served at every moment, by the manager of its pool alone, even if no
other goroutine does anything; nobody is kept waiting by a lock (compare C49_refuted_hang).  At that moment less than 2^61 items have been handed out. -/
theorem C105_served (s : St) (h : Steps (init true) s) (hn : s.log.length < 2 ^ 61) (g : Tid) (i : Fin 8) (hw : s.pc g = .waiting i) :
    ∃ s', Steps s s' ∧ (∃ a k, s'.pc g = .got i a k) ∧ ∀ u, u ≠ g → s.serving i ≠ some u → s'.pc u = s.pc u := by
  have I := (Inv.init true).steps h
  have hst : s.started = true := started_steps h
  have hl := I.len i
  have hl2 := (granted_len (s.pool i)).2
  -- from a state in which the manager is in its loop
  have free : ∀ s1, Steps (init true) s1 → s1.serving i = none → s1.pc g = .waiting i → (s1.pool i).log.length ≤ 2 ^ 61 + 2 →
      ∃ s', Steps s1 s' ∧ (∃ a k, s'.pc g = .got i a k) ∧ ∀ u, u ≠ g → s'.pc u = s1.pc u := by
    intro s1 h1 h2 h3 h4
    have st := Step.recv s1 i g (started_steps h1) h2 h3
    have I2 := (Inv.init true).steps (.step h1 st)
    obtain ⟨s', a1, _, a3, a4, _⟩ := serve I2 (i := i) (g := g) (setMgr_serving ..) (by rw [setMgr_pool]; show ((s1.pool i).log.length : Int) < 2 ^ 62; omega)
    exact ⟨s', (Steps.step (.refl _) st).trans a1, a3, a4⟩
  cases hs : s.serving i with
  | none =>
    obtain ⟨s', a1, a2, a3⟩ := free s h hs hw (by omega)
    exact ⟨s', a1, a2, fun u hu _ => a3 u hu⟩
  | some u =>
    obtain ⟨s1, a1, a2, a3, a4, a5⟩ := serve I hs (by omega)
    by_cases hu : u = g
    · subst hu
      exact ⟨s1, a1, a3, fun v hv _ => a4 v hv⟩
    · have hw1 : s1.pc g = .waiting i := by rw [a4 g (fun e => hu e.symm)]; exact hw
      obtain ⟨s', b1, b2, b3⟩ := free s1 (h.trans a1) a2 hw1 (by omega)
      exact ⟨s', a1.trans b1, b2, fun v hv hv2 => by rw [b3 v hv, a4 v (fun e => hv2 (by rw [e]))]⟩

/-- C105 fails if the variable is set after the option `UsePool(true)` was applied: there is no manager, and a Set of a new key waits for ever. -/
theorem C105_refuted_order (s s' : St) (h : Steps (init false) s) (h' : Steps s s') (g : Tid) (i : Fin 8) (hw : s.pc g = .waiting i) : s'.pc g = .waiting i := by
  induction h' with
  | refl => exact hw
  | @step b c h1 st ih =>
    have I := (Inv.init false).steps (h.trans h1)
    have hst : b.started = false := started_steps (h.trans h1)
    -- no manager serves anybody
    have hno : ∀ t, Steps (init false) t → ∀ j, t.serving j = none := by
      intro t ht
      induction ht with
      | refl => intro j; rfl
      | step h0 st ih2 =>
        intro j
        have hs0 : _ = false := started_steps h0
        cases st with
        | ask => exact ih2 j
        | recv i' g' hs => rw [hs0] at hs; cases hs
        | work i' g' p hs => rw [ih2 i'] at hs; cases hs
        | reply i' g' q a k b p hs => rw [ih2 i'] at hs; cases hs
        | done => exact ih2 j
    cases st with
    | ask u r hp =>
      have : g ≠ u := by rintro rfl; rw [ih] at hp; cases hp
      rw [setClient_ne _ _ this]; exact ih
    | recv i' g' hs => rw [hst] at hs; cases hs
    | work i' g' p hs => rw [hno _ (h.trans h1) i'] at hs; cases hs
    | reply i' g' q a k b p hs => rw [hno _ (h.trans h1) i'] at hs; cases hs
    | done u j a k hp =>
      have : g ≠ u := by rintro rfl; rw [ih] at hp; cases hp
      rw [setClient_ne _ _ this]; exact ih

/-- The hypotheses are met: a Set waits. -/
example : ∃ s, Steps (init true) s ∧ s.pc 7 = .waiting (idx 0x8400000000000000#64) :=
  ⟨_, .step (.refl _) (.ask (init true) 7 0x8400000000000000#64 rfl), setClient_same ..⟩
example : ∃ s, Steps (init false) s ∧ s.pc 7 = .waiting (idx 0x8400000000000000#64) :=
  ⟨_, .step (.refl _) (.ask (init false) 7 0x8400000000000000#64 rfl), setClient_same ..⟩

end SLM.PoolMgr
