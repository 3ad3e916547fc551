import Verif.Proofs.Conc8
import Verif.Props.Conc
/-!
C54: maps of one process.  Vocabulary as in Props/Conc.lean.  `F` is the set of goroutines that work on other maps of the
process.  `CSteps Pk P a b`: executions all of whose steps satisfy `P`.
-/
set_option autoImplicit false
set_option maxRecDepth 100000
namespace SLM.Conc
open History

variable {Pk : CSt → Call → Ref → Prop}

/-- C54 for executions in which no position search on another map overlaps a position search (of any map; those on this map may
overlap each other): there is an execution without the goroutines of the other maps in which this map has the same content and
each of its calls is at the same point, with the same answer if it has returned; and the search option is what it would be
without them, whenever none of them is searching. -/
theorem C54_partial (pi : PkItems Pk) (E : Env) (cfg : Cfg) (ops : List Op) {F : Tid → Prop} {s : CSt}
    (h : CSteps Pk (fun s g s' => Elsewhere F s g s' ∧ Apart F s g s') (begun E cfg ops) s) :
    ∃ t, CSteps Pk (fun _ g _ => ¬ F g) (begun E cfg ops) t ∧ t.items = s.items ∧ (∀ u, ¬ F u → t.pc u = s.pc u) ∧
      ((∀ u, F u → InFind (s.pc u) = none) → t.opt = s.opt) := by
  obtain ⟨t, h1, h2⟩ := Erased.run pi (fun _ => rfl) h
  refine ⟨t, h1, h2.items, h2.own, fun hn => h2.none fun u hu => ?_⟩
  have := hn u hu
  cases hp : s.pc u <;> rw [hp] at this <;> simp [isForeign, InFind] at this ⊢

/-- C54 for all schedules in which the calls on this map do no position search (Get, Delete, Range, and Set of keys that are present):
whatever happens on other maps, there is an execution without it with the same content and the same answers. -/
theorem C54_nosearch_partial (pi : PkItems Pk) (E : Env) (cfg : Cfg) (ops : List Op) {F : Tid → Prop} {s : CSt}
    (h : CSteps Pk (fun s g s' => Elsewhere F s g s' ∧ NoSearch F s g s') (begun E cfg ops) s) :
    ∃ t, CSteps Pk (fun _ g _ => ¬ F g) (begun E cfg ops) t ∧ t.items = s.items ∧ ∀ u, ¬ F u → t.pc u = s.pc u := by
  obtain ⟨t, h1, h2⟩ := Erased'.run pi (fun _ => rfl) h
  exact ⟨t, h1, h2.items, fun u hu => (h2.own u hu).1⟩

/-- The condition on the choice of the bucket is met by the code's. -/
example : PkItems (pkExact modeNested) := pkExact_items _

def isFor (g : Tid) : Bool := decide (g = 1 ∨ g = 3)

def apartB (k : Nat) (s : CSt) (g : Tid) (s' : CSt) : Bool :=
  (isFor g == (isForeign (s.pc g) || isForeign (s'.pc g))) &&
  (!(decide (InFind (s.pc g) = none)) || decide (InFind (s'.pc g) = none) ||
    (List.range k).all (fun u => !(isFor g || isFor u) || decide (InFind (s.pc u) = none)))

theorem elsewhere_of {s s' : CSt} {g : Tid} (h : (isFor g == (isForeign (s.pc g) || isForeign (s'.pc g))) = true) :
    Elsewhere (fun g => isFor g = true) s g s' := by
  unfold Elsewhere
  rw [beq_iff_eq] at h
  show isFor g = true ↔ _
  rw [h, Bool.or_eq_true]

theorem apartB_sound {k : Nat} : ∀ s g s', (∀ u, k ≤ u → s.pc u = .idle) → apartB k s g s' = true →
    Elsewhere (fun g => isFor g = true) s g s' ∧ Apart (fun g => isFor g = true) s g s' := by
  intro s g s' hi h
  unfold apartB at h
  rw [Bool.and_eq_true] at h
  refine ⟨elsewhere_of h.1, ?_⟩
  intro h1 h2 u hu
  have h3 := h.2
  simp only [h1, h2, decide_true, decide_false, Bool.not_true, Bool.false_or, List.all_eq_true, List.mem_range, Bool.or_eq_true,
    decide_eq_true_eq, Bool.not_eq_true'] at h3
  by_cases hk : u < k
  · rcases h3 u hk with h4 | h4
    · rw [Bool.or_eq_false_iff] at h4
      rcases hu with hu | hu
      · rw [h4.1] at hu; cases hu
      · rw [h4.2] at hu; cases hu
    · exact h4
  · rw [hi u (Nat.le_of_not_lt hk)]; rfl

def noSearchB (s : CSt) (g : Tid) (s' : CSt) : Bool :=
  (isFor g == (isForeign (s.pc g) || isForeign (s'.pc g))) && (isFor g || decide (InFind (s'.pc g) = none))

theorem noSearchB_sound {k : Nat} : ∀ s g s', (∀ u, k ≤ u → s.pc u = .idle) → noSearchB s g s' = true →
    Elsewhere (fun g => isFor g = true) s g s' ∧ NoSearch (fun g => isFor g = true) s g s' := by
  intro s g s' _ h
  unfold noSearchB at h
  rw [Bool.and_eq_true] at h
  refine ⟨elsewhere_of h.1, ?_⟩
  intro hn
  have := h.2
  simp only [Bool.or_eq_true, decide_eq_true_eq] at this
  exact this.resolve_left hn

/-- Goroutines 1 and 3 search in other maps, 0 and 4 set new keys, 2 gets one. -/
def manyCalls : Tid → Call
  | 0 => setCall 4 (exV 1)
  | 1 => .foreign
  | 2 => getCall 4
  | 3 => .foreign
  | _ => setCall 20 (exV 2)

/-- Non-vacuity of `C54_partial`: two searches on other maps between those of two overlapping Sets of this one. -/
example : ∃ s, CSteps (pkExact modeNested) (fun s g s' => Elsewhere (fun g => isFor g = true) s g s' ∧ Apart (fun g => isFor g = true) s g s')
      (begun exE {} oneKey) s ∧ s.pc 0 = .ret (.bool true) ∧ s.pc 1 = .ret (.bool true) ∧ s.pc 2 = .ret (.val (exV 1) true) ∧
      s.pc 3 = .ret (.bool true) ∧ s.pc 4 = .ret (.bool true) := by
  have hi : ∀ u, 5 ≤ u → (begun exE {} oneKey).pc u = .idle := fun _ _ => rfl
  have key : ((schedC (fun s u s' => apartB 5 s u s') modeNested manyCalls 5 (begun exE {} oneKey)
      [(4, 20), (0, 33), (1, 1), (1, 1), (0, 5), (4, 13), (2, 3), (0, 100), (4, 100), (3, 2), (2, 100)]).map (fun s =>
        decide (s.pc 0 = .ret (.bool true) ∧ s.pc 1 = .ret (.bool true) ∧ s.pc 2 = .ret (.val (exV 1) true) ∧
          s.pc 3 = .ret (.bool true) ∧ s.pc 4 = .ret (.bool true)))) = some true := by decide +kernel
  obtain ⟨s, h1, h2⟩ := Option.map_eq_some_iff.1 key
  exact ⟨s, (schedC_sound apartB_sound h1 hi).1, of_decide_eq_true h2⟩

/-- Goroutines 1 and 3 search in other maps, 0 overwrites, 2 gets, 4 deletes. -/
def calmCalls : Tid → Call
  | 0 => setCall 1 (exV 7)
  | 1 => .foreign
  | 2 => getCall 1
  | 3 => .foreign
  | _ => delCall 1

/-- Non-vacuity of `C54_nosearch_partial`: overlapping searches on two other maps. -/
example : ∃ s, CSteps (pkExact modeNested) (fun s g s' => Elsewhere (fun g => isFor g = true) s g s' ∧ NoSearch (fun g => isFor g = true) s g s')
      (begun exE {} oneKey) s ∧ s.pc 0 = .ret (.bool true) ∧ s.pc 1 = .ret (.bool true) ∧ s.pc 2 = .ret (.val (exV 7) true) ∧
      s.pc 3 = .ret (.bool true) ∧ s.pc 4 = .ret (.bool true) ∧ s.opt = false := by
  have hi : ∀ u, 5 ≤ u → (begun exE {} oneKey).pc u = .idle := fun _ _ => rfl
  have key : ((schedC (fun s u s' => noSearchB s u s') modeNested calmCalls 5 (begun exE {} oneKey)
      [(1, 1), (0, 3), (3, 1), (0, 100), (1, 1), (2, 100), (3, 1), (4, 100)]).map (fun s =>
        decide (s.pc 0 = .ret (.bool true) ∧ s.pc 1 = .ret (.bool true) ∧ s.pc 2 = .ret (.val (exV 7) true) ∧
          s.pc 3 = .ret (.bool true) ∧ s.pc 4 = .ret (.bool true) ∧ s.opt = false))) = some true := by decide +kernel
  obtain ⟨s, h1, h2⟩ := Option.map_eq_some_iff.1 key
  exact ⟨s, (schedC_sound noSearchB_sound h1 hi).1, of_decide_eq_true h2⟩

end SLM.Conc
