import Verif.Proofs.Slots2
/-!
C67–C69: one group of sibling buckets under concurrent splits and lookups.

`Steps fresh s`: any interleaving of any number of goroutines, each of them splitting (asking for child `i`) or looking child `i` up.
`CSteps`: the interleavings in which no goroutine, between reading `cntOfActiveLevels` and its compare-and-swap of map.go:1830, is overtaken by a
split that makes the group longer than it asks for. `NSteps`: splits do not overlap.
-/
set_option autoImplicit false
namespace SLM.Slots

/-! ### Running schedules -/

/-- What goroutine `g` does next: begin a split, begin a lookup, go on. -/
inductive Cmd where
  | split (i : Nat) | look (i : Nat) | go
  deriving DecidableEq, Repr

def exec1 (s : St) (g : Tid) : Cmd → Option St
  | .split i => if s.pc g = .idle ∧ 0 < i ∧ i < 16 then some ⟨s.core, setPC s.pc g (.init i)⟩ else none
  | .look i => if s.pc g = .idle ∧ i < 16 then some ⟨s.core, setPC s.pc g (.look i)⟩ else none
  | .go => (act s.core (s.pc g)).map fun x => ⟨x.1, setPC s.pc g x.2⟩

def exec (s : St) : List (Tid × Cmd) → Option St
  | [] => some s
  | (g, c) :: l => (exec1 s g c).bind fun s' => exec s' l

theorem exec1_step {s s' : St} {g : Tid} {c : Cmd} (h : exec1 s g c = some s') : Step s g s' := by
  cases c with
  | split i =>
    simp only [exec1, Option.ite_none_right_eq_some, Option.some.injEq] at h
    obtain ⟨⟨h1, h2, h3⟩, rfl⟩ := h
    exact .split s g i h1 h2 h3
  | look i =>
    simp only [exec1, Option.ite_none_right_eq_some, Option.some.injEq] at h
    obtain ⟨⟨h1, h2⟩, rfl⟩ := h
    exact .look s g i h1 h2
  | go =>
    simp only [exec1, Option.map_eq_some_iff] at h
    obtain ⟨x, h1, rfl⟩ := h
    exact .run s g x.1 x.2 h1

theorem Steps.head {a b c : St} {g : Tid} (st : Step a g b) (h : Steps b c) : Steps a c := by
  induction h with
  | refl => exact .step (.refl _) st
  | step _ st' ih => exact .step ih st'

theorem exec_steps {s s' : St} {l : List (Tid × Cmd)} (h : exec s l = some s') : Steps s s' := by
  induction l generalizing s with
  | nil => simp only [exec, Option.some.injEq] at h; subst h; exact .refl _
  | cons x l ih =>
    obtain ⟨g, c⟩ := x
    simp only [exec, Option.bind_eq_some_iff] at h
    obtain ⟨b, h1, h2⟩ := h
    exact (ih h2).head (exec1_step h1)

theorem exec_pc {s s' : St} {l : List (Tid × Cmd)} (h : exec s l = some s') {u : Tid} (hu : ∀ x ∈ l, x.1 ≠ u) : s'.pc u = s.pc u := by
  induction l generalizing s with
  | nil => simp only [exec, Option.some.injEq] at h; subst h; rfl
  | cons x l ih =>
    obtain ⟨g, c⟩ := x
    simp only [exec, Option.bind_eq_some_iff] at h
    obtain ⟨b, h1, h2⟩ := h
    rw [ih h2 fun x hx => hu x (List.mem_cons_of_mem _ hx)]
    have hg : u ≠ g := fun e => hu (g, c) List.mem_cons_self e.symm
    have st := exec1_step h1
    cases st <;> simp only [setPC_ne _ _ hg]

/-- The step is calm. -/
def calmB (s : St) (g : Tid) : Bool :=
  match s.pc g with
  | .cas2 i n => decide (s.core.cnt = n → n ≤ i)
  | _ => true

theorem calm_of {s : St} {g : Tid} (h : calmB s g = true) : Calm s g := by
  intro i n hp
  unfold calmB at h
  rw [hp] at h
  exact of_decide_eq_true h

def execC (s : St) : List (Tid × Cmd) → Option St
  | [] => some s
  | (g, c) :: l => if calmB s g then (exec1 s g c).bind fun s' => execC s' l else none

theorem CSteps.head {a b c : St} {g : Tid} (st : Step a g b) (hc : Calm a g) (h : CSteps b c) : CSteps a c := by
  induction h with
  | refl => exact .step (.refl _) st hc
  | step _ st' hc' ih => exact .step ih st' hc'

theorem execC_steps {s s' : St} {l : List (Tid × Cmd)} (h : execC s l = some s') : CSteps s s' := by
  induction l generalizing s with
  | nil => simp only [execC, Option.some.injEq] at h; subst h; exact .refl _
  | cons x l ih =>
    obtain ⟨g, c⟩ := x
    simp only [execC, Option.ite_none_right_eq_some, Option.bind_eq_some_iff] at h
    obtain ⟨hc, b, h1, h2⟩ := h
    exact (ih h2).head (exec1_step h1) (calm_of hc)

def gos (g : Tid) (n : Nat) : List (Tid × Cmd) := List.replicate n (g, .go)

/-! ### C67 -/

/-- C67, what holds (1): in calm executions the newest child (nothing of the group lies behind it) has been set up at most once. -/
theorem C67_partial {s : St} {i : Nat} (h : CSteps fresh s) (hi : 0 < i) (hn : s.core.len ≤ i + 1) : (s.core.slot i).setups ≤ 1 := by
  have ht := h.inv
  by_cases h1 : s.core.len = i + 1
  · refine ht.glob.su i ?_
    have := ht.glob.top2 (by omega)
    rwa [h1] at this
  · by_cases h2 : i + 1 = s.core.cnt
    · obtain ⟨u, hu⟩ := ht.busy (by omega)
      have hl := ht.loc u
      cases hp : s.pc u <;> rw [hp] at hl hu <;> simp only [grows, ne_eq, not_true_eq_false, Loc, New] at hl hu
      case mk j => omega
      case own j =>
        have : j = i := by omega
        subst this; rw [hl.2]; simp
      all_goals (have hsu := ht.glob.su i; grind)
    · rw [ht.glob.above i (by omega) h2]; simp

/-- C67, what holds (2): a child that was the newest when it became part of the group is linked, and nobody ever sets it up again. -/
theorem C67_partial_stays {s s' : St} {i : Nat} (h : CSteps fresh s) (hi : 0 < i) (hn : s.core.len = i + 1) (h' : CSteps s s') :
    (s'.core.slot i).linked = true ∧ (s'.core.slot i).setups = (s.core.slot i).setups ∧ (s'.core.slot i).setups ≤ 1 := by
  have ht := h.inv.glob.top2 (by omega)
  have hk := h.inv.glob.top (by omega)
  rw [hn] at ht hk
  have hm := h'.mono h.inv
  have he := (hm.once i ht (by omega)).2
  exact ⟨hm.linked i hk, he, he ▸ C67_partial h hi (by omega)⟩

/-- Child 9 is set up, then two goroutines ask for child 3: the second is handed it before the first has linked its sentinel. -/
def twice : List (Tid × Cmd) :=
  (1, .split 9) :: gos 1 14 ++ (2, .split 3) :: gos 2 9 ++ (3, .split 3) :: gos 3 7

theorem twice_run : (execC fresh twice).map (fun s => ((s.core.slot 3).setups, s.pc 2, s.pc 3, s.core.len)) =
    some (2, .link 3 (some false), .link 3 (some false), 10) := by decide +kernel

/-- C67, refuted: two goroutines set one bucket up, both of them past every test, in a calm execution. -/
theorem C67_refuted : ∃ s, CSteps fresh s ∧ (s.core.slot 3).setups = 2 ∧ s.pc 2 = .link 3 (some false) ∧ s.pc 3 = .link 3 (some false) := by
  have h := twice_run
  simp only [Option.map_eq_some_iff, Prod.mk.injEq] at h
  obtain ⟨s, h1, h2, h3, h4, _⟩ := h
  exact ⟨s, execC_steps h1, h2, h3, h4⟩

/-- The hypotheses of `C67_partial` are met with a child that has been set up. -/
theorem C67_partial_applies : ∃ s s', CSteps fresh s ∧ s.core.len = 9 + 1 ∧ CSteps s s' ∧ (s'.core.slot 9).setups = 1 ∧ s'.core.len = 13 := by
  have h : (execC fresh ((1, .split 9) :: gos 1 14)).map (fun s => (s.core.len, (execC s ((2, .split 12) :: gos 2 13)).map fun s' =>
      ((s'.core.slot 9).setups, s'.core.len))) = some (10, some (1, 13)) := by decide +kernel
  simp only [Option.map_eq_some_iff, Prod.mk.injEq] at h
  obtain ⟨s, h1, h2, s', h3, h4, h5⟩ := h
  exact ⟨s, s', execC_steps h1, h2, execC_steps h3, h4, h5⟩

/-! ### C68 -/

/-- C68, what holds: in calm executions a split that is under way ends after at most fifteen steps of its own, if nobody else moves; or somebody else
is making the group longer, and that split ends after at most fifteen steps of its own. -/
theorem C68_partial {s : St} {g : Tid} (h : CSteps fresh s) (hp : splitting (s.pc g) = true) :
    Ends g 15 s ∨ ∃ w, w ≠ g ∧ splitting (s.pc w) = true ∧ Ends w 15 s := by
  have hi := h.inv
  by_cases hlt : s.core.len < s.core.cnt
  · obtain ⟨u, hu⟩ := hi.busy hlt
    have hend := ends_grower (hi.loc u) hu
    by_cases hug : u = g
    · left; exact hug ▸ hend
    · refine .inr ⟨u, hug, ?_, hend⟩
      cases hp : s.pc u <;> rw [hp] at hu <;> first | rfl | exact absurd rfl hu
  · left
    have := hi.glob.le
    exact ends_calm (by omega) (hi.loc g) hp

/-- C68, for splits that do not overlap: each ends after at most fifteen steps of its own, whatever lookups go on. -/
theorem C68_partial_alone {s : St} {g : Tid} (h : NSteps fresh s) (hn : NoOverlap s) (hp : splitting (s.pc g) = true) : Ends g 15 s := by
  rcases C68_partial (h.calm rfl).1 hp with h1 | ⟨w, hw, h2, _⟩
  · exact h1
  · exact absurd (hn w g h2 hp) hw

/-- Goroutine 1 wants child 4 and reads `cntOfActiveLevels` (1); goroutine 2 makes child 8; goroutine 1 goes on: the compare-and-swap succeeds and
makes the count smaller (5); then goroutine 3 wants child 12. -/
def stuck : List (Tid × Cmd) :=
  (1, .split 4) :: gos 1 3 ++ (2, .split 8) :: gos 2 14 ++ gos 1 8 ++ [(3, .split 12)]

theorem stuck_run : (exec fresh stuck).map (fun s => (s.core.cnt, s.core.len, s.pc 1, s.pc 2, s.pc 3)) =
    some (5, 9, .ret, .ret, .init 12) := by decide +kernel

/-- Nobody can change the length or the count any more. -/
def StuckPC : PC → Prop
  | .mk _ => False
  | .cas2 _ n => n = 9
  | .own _ => False
  | .state i => i < 9
  | .gap i => i < 9
  | .gap2 i => i < 9
  | .got i _ => i < 9
  | .prep i _ => i < 9
  | .link i _ => i < 9
  | .fin i _ => i < 9
  | .finR _ => False
  | .fin2 _ _ => False
  | _ => True

def Waits : PC → Prop
  | .init i => i = 12
  | .init2 i => i = 12
  | .setup i => i = 12
  | .cas i => i = 12
  | .cas2 i n => i = 12 ∧ n = 9
  | .chk i => i = 12
  | _ => False

theorem act_stuck {c c' : Core} {p p' : PC} (ha : act c p = some (c', p')) (h1 : c.cnt = 5) (h2 : c.len = 9) (hp : StuckPC p) :
    c'.cnt = 5 ∧ c'.len = 9 ∧ StuckPC p' ∧ (Waits p → Waits p') := by
  cases p
  all_goals (try (simp only [act] at ha))
  all_goals (repeat' split at ha)
  all_goals (simp only [Option.some.injEq, Prod.mk.injEq, reduceCtorEq] at ha)
  all_goals (obtain ⟨rfl, rfl⟩ := ha)
  all_goals (simp only [StuckPC, Waits] at *)
  all_goals grind

structure Stuck (s : St) : Prop where
  cnt : s.core.cnt = 5
  len : s.core.len = 9
  pcs : ∀ u, StuckPC (s.pc u)
  waits : Waits (s.pc 3)

theorem Steps.stuck {s s' : St} (h : Steps s s') (hs : Stuck s) : Stuck s' := by
  induction h with
  | refl => exact hs
  | @step b c g _ st ih =>
    obtain ⟨h1, h2, h3, h4⟩ := ih
    have start : ∀ p, b.pc g = .idle → StuckPC p → Stuck ⟨b.core, setPC b.pc g p⟩ := by
      intro p hi hp
      refine ⟨h1, h2, fun u => ?_, ?_⟩
      · by_cases hu : u = g
        · subst hu; simp only [setPC_same]; exact hp
        · simp only [setPC_ne _ _ hu]; exact h3 u
      · by_cases hg : 3 = g
        · subst hg; rw [hi] at h4; exact h4.elim
        · simp only [setPC_ne _ _ hg]; exact h4
    cases st with
    | split i hi _ _ => exact start _ hi trivial
    | look i hi _ => exact start _ hi trivial
    | run c p ha =>
      obtain ⟨a1, a2, a3, a4⟩ := act_stuck ha h1 h2 (h3 g)
      refine ⟨a1, a2, fun u => ?_, ?_⟩
      · by_cases hu : u = g
        · subst hu; simp only [setPC_same]; exact a3
        · simp only [setPC_ne _ _ hu]; exact h3 u
      · by_cases hg : 3 = g
        · subst hg; simp only [setPC_same]; exact a4 h4
        · simp only [setPC_ne _ _ hg]; exact h4

/-- C68, refuted: a reachable state in which a split is under way, all others have ended, and that split never ends, whatever happens. -/
theorem C68_refuted : ∃ s, Steps fresh s ∧ splitting (s.pc 3) = true ∧ (∀ u, u ≠ 3 → splitting (s.pc u) = false) ∧
    ∀ s', Steps s s' → splitting (s'.pc 3) = true := by
  have h := stuck_run
  simp only [Option.map_eq_some_iff, Prod.mk.injEq] at h
  obtain ⟨s, h1, h2, h3, h4, h5, h6⟩ := h
  have other : ∀ u, u ≠ 1 → u ≠ 2 → u ≠ 3 → s.pc u = .idle := by
    intro u a b c
    rw [exec_pc h1]
    · rfl
    · intro x hx
      have : ∀ x ∈ stuck, x.1 = 1 ∨ x.1 = 2 ∨ x.1 = 3 := by decide
      rcases this x hx with e | e | e <;> rw [e] <;> exact Ne.symm ‹_›
  have hst : Stuck s := by
    refine ⟨h2, h3, fun u => ?_, by rw [h6]; rfl⟩
    by_cases a : u = 1
    · rw [a, h4]; trivial
    · by_cases b : u = 2
      · rw [b, h5]; trivial
      · by_cases c : u = 3
        · rw [c, h6]; trivial
        · rw [other u a b c]; trivial
  refine ⟨s, exec_steps h1, by rw [h6]; rfl, fun u hu => ?_, fun s' hs' => ?_⟩
  · by_cases a : u = 1
    · rw [a, h4]; rfl
    · by_cases b : u = 2
      · rw [b, h5]; rfl
      · rw [other u a b hu]; rfl
  · have hw := (hs'.stuck hst).waits
    cases hp : s'.pc 3 <;> rw [hp] at hw <;> first | rfl | exact hw.elim

/-- The hypotheses of `C68_partial` are met by a split that has to wait: the second disjunct is not idle talk. -/
theorem C68_partial_applies : ∃ s, CSteps fresh s ∧ splitting (s.pc 2) = true ∧ grows s.core (s.pc 1) = some 9 ∧ s.pc 2 = .setup 12 := by
  have h : (execC fresh ((1, .split 9) :: gos 1 7 ++ (2, .split 12) :: gos 2 6)).map (fun s => (grows s.core (s.pc 1), s.pc 2)) =
      some (some 9, .setup 12) := by decide +kernel
  simp only [Option.map_eq_some_iff, Prod.mk.injEq] at h
  obtain ⟨s, h1, h2, h3⟩ := h
  exact ⟨s, execC_steps h1, by rw [h3]; rfl, h2, h3⟩

/-! ### C69 -/

/-- C69: a lookup of child `i` that runs while splits run. Whatever child `k ≤ i` could be seen when it began, the answer is `k` or a child between
`k` and `i`; the answer is never behind `i`; and it is a child that can be seen. -/
theorem C69_partial {s s' : St} {g : Tid} {i : Nat} {r : Option Nat} (h : CSteps fresh s) (hb : s.pc g = .look i) (h' : CSteps s s')
    (he : s'.pc g = .ans r) :
    (∀ k, k ≤ i → k < s.core.len → (s.core.slot k).level = true → ∃ j, r = some j ∧ k ≤ j ∧ j ≤ i) ∧
    (∀ j, r = some j → j < s'.core.len ∧ (s'.core.slot j).level = true) ∧
    (∀ j, r = some j → (s'.core.slot j).linked = false → j + 1 < s'.core.len) := by
  have hi' := h'.inv_of h.inv
  have seen : ∀ j, r = some j → j < s'.core.len ∧ (s'.core.slot j).level = true := by
    intro j hj
    have := hi'.loc g
    rw [he, hj] at this
    exact this
  refine ⟨fun k hk hl hlev => ?_, seen, fun j hj hlk => ?_⟩
  · have := looking h' h.inv (g := g) (i := i) (k := k) (by rw [hb]; rfl) hk hl hlev
    rw [he] at this
    cases r with
    | none => exact this.elim
    | some j => exact ⟨j, rfl, this⟩
  · obtain ⟨a, _⟩ := seen j hj
    refine Classical.byContradiction fun hc => ?_
    have : j = s'.core.len - 1 := by omega
    have ht := hi'.glob.top (by omega)
    rw [← this, hlk] at ht
    exact absurd ht (by simp)

/-- C69: a lookup takes at most `i + 5` steps of its own, in every execution, and it can always take the next one. -/
theorem C69_ends {s s' : St} {g : Tid} {i n : Nat} (hb : s.pc g = .look i) (h : Count g n s s') :
    n ≤ i + 5 ∧ ((∃ r, s'.pc g = .ans r) ∨ ∃ t, Step s' g t) := by
  obtain ⟨h1, h2⟩ := lookMu_bound h (by rw [hb]; rfl)
  rw [hb] at h2
  exact ⟨by simp only [lookMu] at h2; omega, look_step h1⟩

/-- The hypotheses of `C69_partial` are met by a lookup that runs while child 9 is being made, and that finds child 4. -/
theorem C69_partial_applies : ∃ s s', CSteps fresh s ∧ s.pc 3 = .look 10 ∧ CSteps s s' ∧ s'.pc 3 = .ans (some 4) ∧
    grows s'.core (s'.pc 2) = some 9 ∧ s.core.len = 5 ∧ (s.core.slot 4).level = true := by
  have h : (execC fresh ((1, .split 4) :: gos 1 14 ++ (2, .split 9) :: gos 2 6 ++ [(3, .look 10)])).map (fun s =>
      (s.pc 3, s.core.len, (s.core.slot 4).level, (execC s (gos 2 1 ++ gos 3 4)).map fun s' => (s'.pc 3, grows s'.core (s'.pc 2)))) =
      some (.look 10, 5, true, some (.ans (some 4), some 9)) := by decide +kernel
  simp only [Option.map_eq_some_iff, Prod.mk.injEq] at h
  obtain ⟨s, h1, h2, h3, h4, s', h5, h6, h7⟩ := h
  exact ⟨s, s', execC_steps h1, h2, execC_steps h5, h6, h7, h3, h4⟩

/-- Goroutine 1 wants child 3 and is overtaken between reading the count and reading the length, which makes the count smaller than
the length; goroutine 3, overtaken after reading the length, can then take child 9, and goroutine 1, which reads the count again, fills in
child 9 as well. Both make the group longer, the slower one after child 12 was added: it makes the group shorter. -/
def shrink : List (Tid × Cmd) :=
  (1, .split 3) :: gos 1 3 ++ (2, .split 3) :: gos 2 14 ++ (3, .split 9) :: gos 3 4 ++ (4, .split 4) :: gos 4 14 ++ gos 1 2 ++ gos 3 1 ++
    gos 1 1 ++ gos 3 5 ++ gos 1 2 ++ gos 3 4 ++ (5, .split 12) :: gos 5 14 ++ [(6, .look 12)]

theorem shrink_run : (exec fresh shrink).map (fun s => (s.pc 6, s.core.len, (s.core.slot 12).level && (s.core.slot 12).linked, (exec s (gos 1 2 ++ gos 6 4)).map fun s' =>
    (s'.pc 6, s'.core.len))) =
    some (.look 12, 13, true, some (.ans (some 9), 10)) := by
  decide +kernel

/-- C69, refuted: when the lookup of child 12 begins, child 12 is finished, linked and visible; the lookup answers child 9. -/
theorem C69_refuted : ∃ s s', Steps fresh s ∧ s.pc 6 = .look 12 ∧ 12 < s.core.len ∧ (s.core.slot 12).level = true ∧ (s.core.slot 12).linked = true ∧
    Steps s s' ∧ s'.pc 6 = .ans (some 9) ∧ s'.core.len = 10 := by
  have h := shrink_run
  simp only [Option.map_eq_some_iff, Prod.mk.injEq, Bool.and_eq_true] at h
  obtain ⟨s, h1, h2, h3, ⟨h4, h5⟩, s', h6, h7, h8⟩ := h
  exact ⟨s, s', exec_steps h1, h2, by omega, h4, h5, exec_steps h6, h7, h8⟩

end SLM.Slots
