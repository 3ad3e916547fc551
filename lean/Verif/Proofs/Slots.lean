import Verif.Model.Slots
/-! Invariants of one group of buckets. -/
set_option autoImplicit false
set_option linter.unusedSimpArgs false
namespace SLM.Slots

/-- A step that does not make `cntOfActiveLevels` smaller: the value compared at map.go:1830 is not above the index wanted. -/
def Calm (s : St) (g : Tid) : Prop := ∀ i n, s.pc g = .cas2 i n → s.core.cnt = n → n ≤ i

/-- Child `i` is about to become part of the group. -/
def New (c : Core) (i : Nat) : Prop := c.len ≤ i ∧ c.cnt = i + 1 ∧ 1 ≤ c.len

/-- What a goroutine at a program point knows. -/
def Loc (c : Core) : PC → Prop
  | .init2 _ => c.cnt ≠ 0
  | .mk _ => c.cnt = 1 ∧ c.len = 0
  | .setup _ => 1 ≤ c.len
  | .chk _ => 1 ≤ c.len
  | .cas _ => 1 ≤ c.len
  | .cas2 _ n => 1 ≤ n ∧ n ≤ c.len
  | .own i => New c i ∧ c.slot i = {}
  | .state i => i < c.len
  | .gap i => i < c.len ∧ (c.slot i).okfn ≠ some true
  | .gap2 i => i < c.len ∧ (c.slot i).okfn ≠ some true
  | .got i k => (k = some true → (c.slot i).okfn = some true) ∧ (i < c.len ∨
      (New c i ∧ k = some true ∧ (c.slot i).setups = 0 ∧ (c.slot i).linked = false))
  | .prep i k => (i < c.len ∧ (c.slot i).okfn ≠ some true ∧ k ≠ some true) ∨
      (New c i ∧ k = some true ∧ (c.slot i).okfn = some true ∧ (c.slot i).setups = 0 ∧ (c.slot i).linked = false)
  | .link i k => (i < c.len ∧ (c.slot i).okfn ≠ some true ∧ k ≠ some true) ∨
      (New c i ∧ k = some true ∧ (c.slot i).okfn = some true ∧ (c.slot i).setups = 1 ∧ (c.slot i).linked = false)
  | .fin i k => (c.slot i).linked = true ∧ (i < c.len ∨ (New c i ∧ k = some true ∧ (c.slot i).okfn = some true))
  | .finR i => (c.slot i).linked = true ∧ New c i ∧ (c.slot i).okfn = some true
  | .fin2 i n => (c.slot i).linked = true ∧ New c i ∧ n = c.len ∧ (c.slot i).okfn = some true
  | .fin3 i => (c.slot i).linked = true ∧ i < c.len
  | .look2 _ => 1 ≤ c.len
  | .lookL i => i < c.len
  | .scan0 _ => 1 ≤ c.len
  | .scan i j => j ≤ i ∧ j < c.len
  | .ans (some j) => j < c.len ∧ (c.slot j).level = true
  | _ => True

structure Glob (c : Core) : Prop where
  le : c.len ≤ c.cnt
  zero : c.cnt = 0 → c.len = 0
  top : 1 ≤ c.len → (c.slot (c.len - 1)).linked = true
  top2 : 2 ≤ c.len → (c.slot (c.len - 1)).okfn = some true
  base : 1 ≤ c.len → (c.slot 0).level = true
  above : ∀ i, c.len ≤ i → i + 1 ≠ c.cnt → c.slot i = {}
  okt : ∀ i, (c.slot i).okfn = some true → i < c.len → (c.slot i).linked = true
  okn : ∀ i, (c.slot i).okfn = some true → (c.slot i).st ≠ .none
  su : ∀ i, (c.slot i).okfn = some true → (c.slot i).setups ≤ 1

/-- The child a goroutine is about to make part of the group, and is the only one to work on. -/
def grows (c : Core) : PC → Option Nat
  | .mk _ => some 0
  | .own i => some i
  | .got i k => if k = some true ∧ c.len ≤ i then some i else .none
  | .prep i k => if k = some true ∧ c.len ≤ i then some i else .none
  | .link i k => if k = some true ∧ c.len ≤ i then some i else .none
  | .fin i k => if k = some true ∧ c.len ≤ i then some i else .none
  | .finR i => some i
  | .fin2 i _ => some i
  | _ => none

/-- At most one of two goroutines makes the group longer. -/
def Excl (c : Core) (p q : PC) : Prop := grows c p = .none ∨ grows c q = .none

def CalmPC (c : Core) (p : PC) : Prop := ∀ i n, p = .cas2 i n → c.cnt = n → n ≤ i

set_option maxHeartbeats 4000000 in
theorem act_glob {c c' : Core} {p p' : PC} (ha : act c p = some (c', p')) (hc : CalmPC c p) (hg : Glob c) (hl : Loc c p) :
    Glob c' := by
  have hg' := hg
  obtain ⟨le, zero, top, top2, base, above, okt, okn, su⟩ := hg
  cases p
  all_goals (try (simp only [act] at ha))
  all_goals (repeat' split at ha)
  all_goals (simp only [Option.some.injEq, Prod.mk.injEq, reduceCtorEq] at ha)
  all_goals (obtain ⟨rfl, rfl⟩ := ha)
  all_goals (first
    | exact hg'
    | (simp only [Loc, New, CalmPC] at *; constructor <;> grind [upd]))

set_option maxHeartbeats 4000000 in
theorem act_loc {c c' : Core} {p p' : PC} (ha : act c p = some (c', p')) (hc : CalmPC c p) (hg : Glob c) (hl : Loc c p) :
    Loc c' p' := by
  obtain ⟨le, zero, top, top2, base, above, okt, okn, su⟩ := hg
  cases p
  all_goals (try (simp only [act] at ha))
  all_goals (repeat' split at ha)
  all_goals (simp only [Option.some.injEq, Prod.mk.injEq, reduceCtorEq] at ha)
  all_goals (obtain ⟨rfl, rfl⟩ := ha)
  all_goals (simp only [Loc, New, CalmPC] at *)
  all_goals (grind [upd, Loc, New])

set_option maxHeartbeats 4000000 in
theorem act_excl {c c' : Core} {p p' q : PC} (ha : act c p = some (c', p')) (hc : CalmPC c p) (hg : Glob c) (hl : Loc c p)
    (hq : Loc c q) (he : Excl c p q) : Excl c' p' q := by
  obtain ⟨le, zero, top, top2, base, above, okt, okn, su⟩ := hg
  unfold Excl at *
  cases p
  all_goals (try (simp only [act] at ha))
  all_goals (repeat' split at ha)
  all_goals (simp only [Option.some.injEq, Prod.mk.injEq, reduceCtorEq] at ha)
  all_goals (obtain ⟨rfl, rfl⟩ := ha)
  all_goals (simp only [Loc, New, CalmPC, grows] at *)
  all_goals (cases q <;> simp only [Loc, New, grows] at * <;> grind)

set_option maxHeartbeats 4000000 in
theorem act_frame {c c' : Core} {p p' q : PC} (ha : act c p = some (c', p')) (hc : CalmPC c p) (hg : Glob c) (hl : Loc c p)
    (hq : Loc c q) (he : Excl c p q) : Loc c' q := by
  obtain ⟨le, zero, top, top2, base, above, okt, okn, su⟩ := hg
  unfold Excl at *
  cases p
  all_goals (try (simp only [act] at ha))
  all_goals (repeat' split at ha)
  all_goals (simp only [Option.some.injEq, Prod.mk.injEq, reduceCtorEq] at ha)
  all_goals (obtain ⟨rfl, rfl⟩ := ha)
  all_goals (first
    | exact hq
    | (simp only [Loc, New, CalmPC, grows] at *; cases q <;> simp only [Loc, New, grows] at * <;> grind [upd]))

end SLM.Slots
