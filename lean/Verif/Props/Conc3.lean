import Verif.Proofs.Conc9
import Verif.Proofs.Ends
import Verif.Props.Conc
/-!
C65: no call waits for another one.  Vocabulary as in Props/Conc.lean.  `NSteps Pk g k a b`: an execution from `a` to `b` in which
goroutine `g` takes `k` of the steps.  `Solo Pk g a b`: one in which only `g` takes steps.  `Busy p`: a call that has begun and
has not returned (the split of a bucket with boundary 0 excepted: there is always one).
-/
set_option autoImplicit false
set_option maxRecDepth 100000
namespace SLM.Conc
open History

variable {Pk : CSt → Call → Ref → Prop}

theorem begun_bottom (E : Env) (cfg : Cfg) (ops : List Op) : Bottom (begun E cfg ops).items := by
  have h := (init_ends cfg)
  have : Ends (run E (initSt cfg) ops).1.items := by
    have hi := inv_init cfg
    generalize initSt cfg = st at h hi
    induction ops generalizing st with
    | nil => exact h
    | cons op ops ih => exact ih _ (step_ends E hi h op) (step_inv E hi op)
  exact ⟨_, List.mem_of_head? this.1, rfl, rfl⟩

theorem begun_shape (E : Env) (cfg : Cfg) (ops : List Op) : ∀ g, Shape ((begun E cfg ops).pc g) := fun _ => trivial

/-- C65, the bound: whatever the other goroutines do, between the start of a call and its return (or any moment before) the
goroutine takes at most 6 n + 16 atomic steps, n being the number of nodes of the list at that moment. -/
theorem C65_bounded (pk : PkOk Pk) (E : Env) (cfg : Cfg) (ops : List Op) {s0 s : CSt} {g : Tid} {k : Nat}
    (h0 : Steps Pk (begun E cfg ops) s0) (hi : s0.pc g = .idle) (h : NSteps Pk g k s0 s) : k ≤ 6 * s.items.length + 16 := by
  have := (h.bound pk (h0.j0 pk (begun_j1 E cfg ops).toJ0)).2
  rw [hi] at this
  simp only [mu] at this
  omega

/-- C65, no waiting: in every state the machine can reach, a goroutine whose call is in progress can take its next step,
whatever the other goroutines are in the middle of. -/
theorem C65_no_wait (m : Mode) (E : Env) (cfg : Cfg) (ops : List Op) {s : CSt} {g : Tid}
    (h : Steps (pkExact m) (begun E cfg ops) s) (hb : Busy (s.pc g)) : ∃ s', Step (pkExact m) s g s' :=
  can_step m (h.j0 (pkExact_ok m) (begun_j1 E cfg ops).toJ0) (h.shape (begun_shape E cfg ops) g) ((begun_bottom E cfg ops).ext h.ext) hb

/-- C65, completion: in every state the machine can reach, a goroutine whose call is in progress completes it by its own
steps alone, even if every other goroutine stopped for ever where it is. -/
theorem C65_completes (m : Mode) (E : Env) (cfg : Cfg) (ops : List Op) {s : CSt} {g : Tid}
    (h : Steps (pkExact m) (begun E cfg ops) s) (hb : Busy (s.pc g)) :
    ∃ s' r, Solo (pkExact m) g s s' ∧ s'.pc g = .ret r :=
  solo_ends m _ (Nat.le_refl _) (h.j0 (pkExact_ok m) (begun_j1 E cfg ops).toJ0) (h.shape (begun_shape E cfg ops))
    ((begun_bottom E cfg ops).ext h.ext) hb

/-- `n` steps of `g`. -/
def nburst (m : Mode) (calls : Tid → Call) (g : Tid) : Nat → CSt → Option CSt
  | 0, s => some s
  | n + 1, s => (nburst m calls g n s).bind (fun s' => stepX m s' g (calls g))

theorem nburst_steps {m : Mode} {calls : Tid → Call} {g : Tid} {n : Nat} {s d : CSt} (h : (nburst m calls g n s).isSome = true) :
    NSteps (pkExact m) g n s ((nburst m calls g n s).getD d) := by
  induction n with
  | zero => exact .refl _
  | succ n ih =>
    unfold nburst at h ⊢
    cases h1 : nburst m calls g n s with
    | none => rw [h1] at h; simp at h
    | some s1 =>
      rw [h1] at ih h
      simp only [Option.bind_some] at h ⊢
      cases h2 : stepX m s1 g (calls g) with
      | none => rw [h2] at h; simp at h
      | some s2 => exact .own (ih rfl) (stepX_step h2)

def midway : CSt := sched modeNested twoSets (begun exE {} oneKey) [(0, 41), (1, 30)]

def isLink : PC → Bool
  | .link _ _ => true
  | _ => false

def isLoop : PC → Bool
  | .fLoop _ _ _ _ _ _ => true
  | _ => false

/-- Non-vacuity: goroutine 0 has stopped between the check and the link of its Set, goroutine 1 in the middle of a position search
with the shared option changed; both calls are in progress, and a third goroutine has not begun its call. -/
example : Steps (pkExact modeNested) (begun exE {} oneKey) midway ∧ (isLink (midway.pc 0) = true ∧ Busy (midway.pc 0)) ∧
    (isLoop (midway.pc 1) = true ∧ Busy (midway.pc 1)) ∧ midway.opt = false ∧ midway.pc 2 = .idle := by
  have h1 : isLink (midway.pc 0) = true := by decide +kernel
  have h2 : isLoop (midway.pc 1) = true := by decide +kernel
  refine ⟨sched_steps _ _ _ _, ⟨h1, ?_⟩, ⟨h2, ?_⟩, by decide +kernel, by decide +kernel⟩
  · revert h1; cases midway.pc 0 <;> simp [isLink, Busy]
  · revert h2; cases midway.pc 1 <;> simp [isLoop, Busy]

/-- The bound is of the right order: a Set of a new key takes 42 steps on a list of 18 nodes. -/
example : ∃ s, NSteps (pkExact modeNested) 0 42 (begun exE {} oneKey) s ∧ s.pc 0 = .ret (.bool true) ∧ s.items.length = 19 := by
  refine ⟨(nburst modeNested twoSets 0 42 (begun exE {} oneKey)).getD (begun exE {} []), nburst_steps (by decide +kernel), by decide +kernel, by decide +kernel⟩

end SLM.Conc
