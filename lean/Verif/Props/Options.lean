import Verif.Model.Options
/-!
C19: options return their own undo.  False as stated (UsePool, UseEmbeddedPool); the exact cases in which it holds.
-/
set_option autoImplicit false
namespace SLM.Opt

/-- What a user can observe of the configuration: a pool is either in use or not (its identity is internal). -/
structure Same (a b : Config) : Prop where
  maxPer : a.maxPer = b.maxPer
  mode : a.mode = b.mode
  itemFn : a.itemFn = b.itemFn
  pool : a.pool.isSome = b.pool.isSome
  embedded : a.embedded = b.embedded

/-- "Applying the value returned by the option restores the previous configuration". -/
def Undoes (o : OptHMap) (c : Config) : Prop :=
  ∃ u, (o.apply c).2 = some u ∧ Same (u.apply (o.apply c).1).1 c

/-- The full property C19: every option, every configuration. -/
def C19_full : Prop := ∀ o c, Undoes o c

theorem C19_maxPefBucket_partial (n : Int) (c : Config) : Undoes (.maxPefBucket n) c :=
  ⟨_, rfl, ⟨rfl, rfl, rfl, rfl, rfl⟩⟩

theorem C19_bucketMode_partial (m : Nat) (c : Config) : Undoes (.bucketMode m) c :=
  ⟨_, rfl, ⟨rfl, rfl, rfl, rfl, rfl⟩⟩

/-- `ItemFn`: exactly when the previous function was not nil. -/
theorem C19_itemFn_partial (f : Option Nat) (c : Config) : Undoes (.itemFn f) c ↔ c.itemFn ≠ none := by
  rcases hc : c.itemFn with _ | p
  · constructor
    · rintro ⟨u, hu, _⟩; simp [OptHMap.apply, hc] at hu
    · intro h; exact absurd rfl h
  · constructor
    · intro _; simp
    · intro _
      refine ⟨.itemFn (some p), by simp [OptHMap.apply, hc], ?_⟩
      constructor <;> simp [OptHMap.apply, hc]

/-- `UsePool(enable)`: exactly when it changed whether a pool is used. -/
theorem C19_usePool_partial (e : Bool) (c : Config) : Undoes (.usePool e) c ↔ c.pool.isSome = !e := by
  constructor
  · rintro ⟨u, hu, h⟩
    simp [OptHMap.apply] at hu
    subst hu
    have := h.pool
    cases e <;> cases hp : c.pool <;> simp_all [OptHMap.apply, setPool]
  · intro h
    refine ⟨.usePool (!e), by simp [OptHMap.apply], ?_⟩
    cases e <;> cases hp : c.pool <;> simp_all [OptHMap.apply, setPool] <;> constructor <;> simp_all

/-- `UseEmbeddedPool(enable)`: exactly when the flag already had that value and the pool flag agrees with it. -/
theorem C19_useEmbeddedPool_partial (e : Bool) (c : Config) :
    Undoes (.useEmbeddedPool e) c ↔ c.embedded = e ∧ c.pool.isSome = e := by
  constructor
  · rintro ⟨u, hu, h⟩
    simp [OptHMap.apply] at hu
    subst hu
    have h1 := h.pool
    have h2 := h.embedded
    cases e <;> cases hp : c.pool <;> cases he : c.embedded <;> simp_all [OptHMap.apply, setPool]
  · rintro ⟨h1, h2⟩
    refine ⟨.usePool c.embedded, by simp [OptHMap.apply], ?_⟩
    cases e <;> cases hp : c.pool <;> simp_all [OptHMap.apply, setPool] <;> constructor <;> simp_all

/-- The options whose undo is right on every configuration with an item function. -/
def Faithful : OptHMap → Prop
  | .maxPefBucket _ => True
  | .bucketMode _ => True
  | .itemFn f => f ≠ none
  | _ => False

/-- `Options(opts...)` with such options: applying what it returned, last first, restores the configuration. -/
theorem C19_options_list_partial (os : List OptHMap) (hos : ∀ o ∈ os, Faithful o) (c : Config) (hc : c.itemFn ≠ none) :
    ∃ us : List OptHMap, (options os c).2 = us.map some ∧ (options us.reverse (options os c).1).1 = c := by
  have happ : ∀ (xs ys : List OptHMap) (c : Config), (options (xs ++ ys) c).1 = (options ys (options xs c).1).1 := by
    intro xs
    induction xs with
    | nil => intros; rfl
    | cons x xs ih => intro ys c; simp [options, ih]
  induction os generalizing c with
  | nil => exact ⟨[], rfl, rfl⟩
  | cons o os ih =>
    have hf := hos o (by simp)
    have hrest : (o.apply c).1.itemFn ≠ none := by
      cases o <;> simp_all [Faithful, OptHMap.apply]
    obtain ⟨us, h1, h2⟩ := ih (fun o ho => hos o (by simp [ho])) (o.apply c).1 hrest
    have hu : ∃ u, (o.apply c).2 = some u ∧ (u.apply (o.apply c).1).1 = c := by
      cases o with
      | maxPefBucket n => exact ⟨_, rfl, rfl⟩
      | bucketMode n => exact ⟨_, rfl, rfl⟩
      | itemFn f =>
        cases hp : c.itemFn with
        | none => exact absurd hp hc
        | some p => exact ⟨.itemFn (some p), by simp [OptHMap.apply, hp], by simp [OptHMap.apply, ← hp]⟩
      | usePool => exact absurd hf (by simp [Faithful])
      | useEmbeddedPool => exact absurd hf (by simp [Faithful])
    obtain ⟨u, hu1, hu2⟩ := hu
    refine ⟨u :: us, by simp [options, hu1, h1], ?_⟩
    simp only [List.reverse_cons, happ]
    simp only [options] at h2 ⊢
    rw [h2, hu2]

/-- NewHMap's defaults, map.go:162-175. -/
def defaults : Config := { maxPer := 32, mode := 1, itemFn := some 0, pool := none, embedded := false }

/-- C19 is false: on a fresh map, undoing `UsePool(false)` turns pooling on, and undoing `UseEmbeddedPool(true)`
leaves the embedded pool on. -/
theorem C19_refuted : ¬ C19_full ∧ ¬ Undoes (.usePool false) defaults ∧ ¬ Undoes (.useEmbeddedPool true) defaults := by
  have h1 : ¬ Undoes (.usePool false) defaults := by rw [C19_usePool_partial]; decide
  refine ⟨fun h => h1 (h _ _), h1, ?_⟩
  rw [C19_useEmbeddedPool_partial]; decide

example : Undoes (.usePool true) defaults := (C19_usePool_partial _ _).2 rfl
example : (∀ o ∈ [OptHMap.maxPefBucket 8, .bucketMode 2, .itemFn (some 5)], Faithful o) ∧ defaults.itemFn ≠ none := by
  refine ⟨?_, by decide⟩
  intro o ho
  simp at ho
  rcases ho with rfl | rfl | rfl <;> simp [Faithful]

end SLM.Opt
