import Verif.Proofs.ConcExec
import Verif.Proofs.Example
/-!
C33–C35, C38, C53–C55: concurrent use of a map without embedded pool.

Vocabulary.  `Steps Pk a b`: an execution from state `a` to state `b`, any number of goroutines, any interleaving of the atomic
steps of Model/Conc.lean.  A call `cl` of goroutine `g` starts in a state with `pc g = .pick cl` and is over, with answer `r`, in
a state with `pc g = .ret r`.  `begun st` is the map a sequential history left behind, no call in progress.  Keys appear as
their reversed primary hash `t` and conflict hash `c`.
-/
set_option autoImplicit false
set_option maxRecDepth 100000
namespace SLM.Conc
open History

variable {Pk : CSt → Call → Ref → Prop}

/-- The map after a sequential history, about to be used concurrently. -/
abbrev begun (E : Env) (cfg : Cfg) (ops : List Op) : CSt := ofSt (run E (initSt cfg) ops).1

theorem begun_j1 (E : Env) (cfg : Cfg) (ops : List Op) : J1 (begun E cfg ops) := ofSt_j1 (run_inv E (inv_init cfg) ops)

theorem begun_setB (E : Env) (cfg : Cfg) (ops : List Op) : ∀ g, SetB (begun E cfg ops).items ((begun E cfg ops).pc g) := fun _ => trivial

/-- The last sentinel. -/
theorem begun_top (E : Env) (cfg : Cfg) (ops : List Op) : ∃ m ∈ (begun E cfg ops).items, m.rev = maxU64 := by
  have h := run_inv E (inv_init cfg) ops
  obtain ⟨rest, hr⟩ := h.bi.head
  exact ⟨_, h.ii.has [] (by rw [hr]; simp), rfl⟩

theorem lt_maxU64 {t : U64} (h : t ≠ maxU64) : t < maxU64 := by
  have e : maxU64 = 18446744073709551615#64 := by decide
  rw [e] at h ⊢; bv_omega

/-! ### Concrete calls for the witnesses -/

/-- The call `Set(key, v)`, for a string key of one byte under the example hash functions. -/
def setCall (b : BitVec 8) (v : IVal) : Call :=
  match keyToHash exH (sk b) with | some (k, c) => .set (rev64 k) c (sk b) v | none => .range
def getCall (b : BitVec 8) : Call :=
  match keyToHash exH (sk b) with | some (k, c) => .get (rev64 k) c | none => .range
def delCall (b : BitVec 8) : Call :=
  match keyToHash exH (sk b) with | some (k, c) => .del (rev64 k) c | none => .range

/-- Two goroutines set different keys, two later ones get them. -/
def twoSets : Tid → Call
  | 0 => setCall 4 (exV 1)
  | 1 => setCall 20 (exV 2)
  | 2 => getCall 4
  | _ => getCall 20

theorem burst_other (m : Mode) (calls : Tid → Call) (s : CSt) {g u : Tid} (h : u ≠ g) (n : Nat) : (burst m calls s g n).pc u = s.pc u := by
  induction n generalizing s with
  | zero => rfl
  | succ n ih =>
    unfold burst
    split
    · rename_i s' hs; rw [ih, (stepX_step hs).others h]
    · rfl

theorem sched_idle (m : Mode) (calls : Tid → Call) (s : CSt) (k : Nat) (l : List (Tid × Nat)) (hl : ∀ p ∈ l, p.1 < k)
    (hi : ∀ u, k ≤ u → s.pc u = .idle) : ∀ u, k ≤ u → (sched m calls s l).pc u = .idle := by
  induction l generalizing s with
  | nil => exact hi
  | cons a l ih =>
    obtain ⟨g, n⟩ := a
    refine ih _ (fun p hp => hl p (List.mem_cons_of_mem _ hp)) ?_
    intro u hu
    have hg : g < k := hl (g, n) (by simp)
    rw [burst_other _ _ _ (fun e => Nat.lt_irrefl k (Nat.lt_of_le_of_lt hu (by rw [e]; exact hg)))]
    exact hi u hu

instance (s : CSt) (r : Ref) (t c : U64) : Decidable (Live s r t c) := by unfold Live; infer_instance
instance (s : CSt) (t c : U64) : Decidable (Clear s t c) := by unfold Clear; infer_instance

/-! ### C35: existing keys stay visible -/

/-- C35, for all schedules: a key that a sequential Get finds before the concurrent phase, and that is still there and not deleted
when a concurrent call looking for it returns, is found by that call, if the call never locates a bucket whose sentinel is
not linked yet (`SSteps`; without this see Props/Conc4.lean).  (`Clear`: at that time its hash is neither a
bucket boundary nor the primary hash of another key.) -/
theorem C35_visible_partial (pk : PkOk Pk) (E : Env) (cfg : Cfg) (ops : List Op) {k c : U64} {v : IVal}
    (hk : opGetByHash E (run E (initSt cfg) ops).1 k c = .val v true) :
    ∃ r, Live (begun E cfg ops) r (rev64 k) c ∧
      ∀ {s0 s : CSt} {g : Tid} {cl : Call} {res : Res}, cl.target = some (rev64 k, c) →
        Steps Pk (begun E cfg ops) s0 → s0.pc g = .pick cl → SSteps Pk g s0 s → s.pc g = .ret res →
        Live s r (rev64 k) c → Clear s (rev64 k) c → FoundAns Pk s0 s (rev64 k) c cl res := by
  unfold opGetByHash at hk
  cases he : getEntry E (run E (initSt cfg) ops).1 k c with
  | none => rw [he] at hk; simp at hk
  | some e =>
    obtain ⟨h1, h2, h3, h4⟩ := getEntry_mem he
    simp only [Entry.ignored, Bool.or_eq_false_iff] at h2
    refine ⟨e.ref, ⟨e, h1, rfl, h3, h4, h2.1, h2.2⟩, ?_⟩
    intro s0 s g cl res ht hs0 hg hs hr hl hc
    have j := begun_j1 E cfg ops
    have hw : WP (begun E cfg ops) e.ref e.rev := j.wp h1
    rw [h3] at hw
    have := onWay_run pk ht (hs0.j0 pk j.toJ0) (hs0.wp pk j.toJ0 hw) hg hs hl hc
    rw [hr] at this; exact this

/-- The same for Get alone, spelled out: it answers ok, with a value the key had during the call. -/
theorem C35_get_partial (pk : PkOk Pk) (E : Env) (cfg : Cfg) (ops : List Op) {k c : U64} {v : IVal}
    (hk : opGetByHash E (run E (initSt cfg) ops).1 k c = .val v true) :
    ∃ r, ∀ {s0 s : CSt} {g : Tid} {res : Res}, Steps Pk (begun E cfg ops) s0 → s0.pc g = .pick (.get (rev64 k) c) → SSteps Pk g s0 s →
        s.pc g = .ret res → Live s r (rev64 k) c → Clear s (rev64 k) c → ∃ v', res = .val v' true ∧ HadValue Pk s0 s (rev64 k) c v' := by
  obtain ⟨r, _, h⟩ := C35_visible_partial pk E cfg ops hk
  exact ⟨r, fun h0 hg hs hr hl hc => h rfl h0 hg hs hr hl hc⟩

/-- Order, for executions in which no two goroutines are between check and link before the same node. -/
theorem C35_order_partial (pk : PkOk Pk) (E : Env) (cfg : Cfg) (ops : List Op) {s : CSt} (h : GSteps Pk (begun E cfg ops) s) :
    s.items.Pairwise (fun a b => a.rev ≤ b.rev) := (h.j1 pk (begun_j1 E cfg ops)).sorted

/-- For all schedules the order around a node that was there at the start is kept. -/
theorem C35_separates (pk : PkOk Pk) (E : Env) (cfg : Cfg) (ops : List Op) {s : CSt} (h : Steps Pk (begun E cfg ops) s) {e : Entry}
    (he : e ∈ (begun E cfg ops).items) :
    (∀ x ∈ s.items, SB s.items x.ref e.ref → x.rev ≤ e.rev) ∧ (∀ x ∈ s.items, SB s.items e.ref x.ref → e.rev ≤ x.rev) := by
  have j := begun_j1 E cfg ops
  have := h.wp pk j.toJ0 (j.wp he)
  exact ⟨this.before, this.after⟩

/-- The item order is not preserved by all schedules: between check and link another goroutine links before the same node.  Then
two keys whose Sets answered true are in the list, and neither is found by a later Get. -/
theorem C35_refuted_order : ∃ s, Steps (pkExact modeNested) (begun exE {} []) s ∧
    s.pc 0 = .ret (.bool true) ∧ s.pc 1 = .ret (.bool true) ∧ s.pc 2 = .ret (.val none false) ∧ s.pc 3 = .ret (.val none false) ∧
    (s.items.filter (fun e => !e.dummy)).map (·.key) = [sk 20, sk 4] ∧ ¬ s.items.Pairwise (fun a b => a.rev ≤ b.rev) := by
  refine ⟨sched modeNested twoSets (begun exE {} []) [(0, 50), (1, 100), (0, 100), (2, 100), (3, 100)], sched_steps _ _ _ _, ?_⟩
  decide +kernel

/-- Non-vacuity of `C35_get_partial`: a map with buckets split, a Get that runs while two other goroutines insert and a third splits a
bucket. -/
def exCalls : Tid → Call
  | 0 => getCall 1
  | 1 => setCall 7 (exV 1)
  | 2 => setCall 9 (exV 2)
  | 3 => .split 0x4000000000000001#64 [4, 0]
  | _ => .range

example : opGet exE (run exE (initSt exCfg) exOps).1 (sk 1) = .val (exV 11) true := by decide +kernel
example : ∃ s0 s, Steps (pkExact modeNested) (begun exE exCfg exOps) s0 ∧ s0.pc 0 = .pick (getCall 1) ∧ SSteps (pkExact modeNested) 0 s0 s ∧
    s.pc 0 = .ret (.val (exV 11) true) ∧
    s.pc 1 = .ret (.bool true) ∧ s.pc 2 = .ret (.bool true) ∧ s.pc 3 = .ret (.bool true) ∧
    Live s (.item 0) (rev64 (exH.mem [1])) (exH.xx [1]) ∧ Clear s (rev64 (exH.mem [1])) (exH.xx [1]) := by
  have hi : ∀ u, 4 ≤ u → (sched modeNested exCalls (begun exE exCfg exOps) [(0, 1)]).pc u = .idle :=
    sched_idle _ _ _ 4 _ (by decide) (fun _ _ => rfl)
  have key : ((schedC (fun _ _ s' => !(isLost (s'.pc 0))) modeNested exCalls 4 (sched modeNested exCalls (begun exE exCfg exOps) [(0, 1)])
      [(0, 1), (1, 10), (2, 200), (0, 3), (3, 300), (1, 300), (0, 300)]).map (fun s => decide (s.pc 0 = .ret (.val (exV 11) true) ∧
    s.pc 1 = .ret (.bool true) ∧ s.pc 2 = .ret (.bool true) ∧ s.pc 3 = .ret (.bool true) ∧
    Live s (.item 0) (rev64 (exH.mem [1])) (exH.xx [1]) ∧ Clear s (rev64 (exH.mem [1])) (exH.xx [1])))) = some true := by
    decide +kernel
  obtain ⟨s, h1, h2⟩ := Option.map_eq_some_iff.1 key
  have h3 := (schedC_sound (P := fun _ u s' => u = 0 → isLost (s'.pc u) = false)
    (fun s u s' _ h hu => by subst hu; simpa using h) h1 hi).1.ssteps
  exact ⟨_, s, sched_steps _ _ _ [(0, 1)], by decide +kernel, h3, of_decide_eq_true h2⟩

/-! ### C33: concurrent inserts of different keys -/

/-- C33, said for the two Sets of `twoSets` on the empty map: when both answered true, later Gets find both. -/
def C33_statement : Prop :=
  ∀ s0 s1 s2, Steps (pkExact modeNested) (begun exE {} []) s0 → s0.pc 0 = .pick (twoSets 0) → s0.pc 1 = .pick (twoSets 1) →
    (∀ u, 2 ≤ u → s0.pc u = .idle) → Steps (pkExact modeNested) s0 s1 → s1.pc 0 = .ret (.bool true) → s1.pc 1 = .ret (.bool true) →
    (∀ u, 2 ≤ u → s1.pc u = .idle) → Steps (pkExact modeNested) s1 s2 → (∀ u, 4 ≤ u → s2.pc u = .idle) →
    (∀ r, s2.pc 2 = .ret r → r = .val (exV 1) true) ∧ (∀ r, s2.pc 3 = .ret r → r = .val (exV 2) true)

/-- The schedule: both calls start; goroutine 0 locates its position; goroutine 1 runs to its end; goroutine 0 goes on; then
goroutine 2 gets the key of goroutine 0. -/
def loss0 : CSt := sched modeNested twoSets (begun exE {} []) [(0, 1), (1, 1)]
def loss1 : CSt := sched modeNested twoSets loss0 [(0, 48), (1, 100), (0, 100)]
def loss2 : CSt := sched modeNested twoSets loss1 [(2, 100)]

/-- C33 fails: the goroutine that located its position before the other one linked finds the check failing; the failure is only
logged, Set answers true, and the key is in no list. -/
theorem C33_refuted : ¬ C33_statement := by
  intro h
  have hi0 : ∀ u, 2 ≤ u → loss0.pc u = .idle := sched_idle _ _ _ 2 _ (by decide) (fun _ _ => rfl)
  have hi1 : ∀ u, 2 ≤ u → loss1.pc u = .idle := sched_idle _ _ _ 2 _ (by decide) hi0
  have hi2 : ∀ u, 4 ≤ u → loss2.pc u = .idle := sched_idle _ _ _ 4 _ (by decide) (fun u hu => hi1 u (le_trans (by decide) hu))
  have h0 : loss0.pc 0 = .pick (twoSets 0) ∧ loss0.pc 1 = .pick (twoSets 1) := by decide +kernel
  have h1 : loss1.pc 0 = .ret (.bool true) ∧ loss1.pc 1 = .ret (.bool true) := by decide +kernel
  have h2 : loss2.pc 2 = .ret (.val none false) := by decide +kernel
  have := (h loss0 loss1 loss2 (sched_steps _ _ _ _) h0.1 h0.2 hi0 (sched_steps _ _ _ _) h1.1 h1.2 hi1 (sched_steps _ _ _ _) hi2).1 _ h2
  exact absurd this (by decide)

/-- C33 for a Set during which the other goroutines neither link an item or sentinel nor touch the search option
(`QSteps`; they may look up, overwrite, delete, range, and be at any point of their own Sets), reached by an execution that keeps
the order: if it answers true, the key is in the map with its value, and every call that looks for it later — in any
schedule, if neither locates a bucket whose sentinel is not linked — finds it, unless it is deleted or meets a boundary or a colliding key. -/
theorem C33_partial (pk : PkOk Pk) (E : Env) (cfg : Cfg) (ops : List Op) {s0 s1 : CSt} {g : Tid} {t c : U64} {key : Key} {v : IVal}
    (h0 : GSteps Pk (begun E cfg ops) s0) (hg : s0.pc g = .pick (.set t c key v)) (ht : t ≠ maxU64) (h1 : QSteps Pk g s0 s1)
    (hr : s1.pc g = .ret (.bool true)) :
    HadValue Pk s0 s1 t c v ∧
    ∃ r, (∃ x ∈ s1.items, x.ref = r ∧ x.rev = t ∧ x.conflict = c ∧ x.dummy = false) ∧
      ∀ {s2 s3 : CSt} {g' : Tid} {cl : Call} {res : Res}, cl.target = some (t, c) → Steps Pk s1 s2 → s2.pc g' = .pick cl → SSteps Pk g' s2 s3 →
        s3.pc g' = .ret res → Live s3 r t c → Clear s3 t c → FoundAns Pk s2 s3 t c cl res := by
  have j0 := h0.j1 pk (begun_j1 E cfg ops)
  obtain ⟨m, hm, hmr⟩ := begun_top E cfg ops
  obtain ⟨m', hm', hs⟩ := h0.ext.mem hm
  have hmt : t < m'.rev := by rw [hs.2.1, hmr]; exact lt_maxU64 ht
  obtain ⟨⟨x, hx, hx1, hx2, hx3⟩, hv⟩ := set_stores pk j0 hg (h0.steps.setB pk (begun_setB E cfg ops)) hm' hmt h1 hr
  refine ⟨hv, x.ref, ⟨x, hx, rfl, hx1, hx2, hx3⟩, ?_⟩
  intro s2 s3 g' cl res hcl hs2 hg' hs3 hr' hl hc
  have j1 := h1.gsteps.j1 pk j0
  have hw := j1.wp hx
  rw [hx1] at hw
  have := onWay_run pk hcl (hs2.j0 pk j1.toJ0) (hs2.wp pk j1.toJ0 hw) hg' hs3 hl hc
  rw [hr'] at this; exact this

/-- Non-vacuity of `C33_partial`: goroutine 0 sets a new key while goroutine 1 is in the middle of its own Set, goroutine 2 looks
a key up and goroutine 3 deletes one. -/
def quietCalls : Tid → Call
  | 0 => setCall 7 (exV 1)
  | 1 => setCall 9 (exV 2)
  | 2 => getCall 1
  | 3 => delCall 3
  | _ => getCall 7

example : ∃ s0 s1 s3, GSteps (pkExact modeNested) (begun exE exCfg exOps) s0 ∧ s0.pc 0 = .pick (quietCalls 0) ∧
    QSteps (pkExact modeNested) 0 s0 s1 ∧ s1.pc 0 = .ret (.bool true) ∧ s1.pc 2 = .ret (.val (exV 11) true) ∧ s1.pc 3 = .ret (.bool true) ∧
    Steps (pkExact modeNested) s1 s3 ∧ s3.pc 1 = .ret (.bool true) ∧ s3.pc 4 = .ret (.val (exV 1) true) := by
  have hi : ∀ u, 5 ≤ u → (begun exE exCfg exOps).pc u = .idle := fun _ _ => rfl
  have key : ((schedC (fun s u _ => aloneB 5 s u) modeNested quietCalls 5 (begun exE exCfg exOps) [(1, 22), (0, 1)]).bind (fun s0 =>
      (schedC (fun s u s' => quietB 5 0 s u s') modeNested quietCalls 5 s0 [(0, 9), (2, 4), (3, 300), (0, 300), (2, 300)]).map (fun s1 =>
        let s3 := sched modeNested quietCalls s1 [(1, 300), (4, 300)]
        (decide (s0.pc 0 = .pick (quietCalls 0)), s1.pc 0, s1.pc 2, s1.pc 3, s3.pc 1, s3.pc 4)))) =
      some (true, .ret (.bool true), .ret (.val (exV 11) true), .ret (.bool true), .ret (.bool true), .ret (.val (exV 1) true)) := by
    decide +kernel
  obtain ⟨s0, h0, h1⟩ := Option.bind_eq_some_iff.1 key
  obtain ⟨s1, h2, h3⟩ := Option.map_eq_some_iff.1 h1
  have a0 := schedC_sound (P := fun s g _ => Alone s g) (fun s g s' hi h => aloneB_sound hi h) h0 hi
  have a1 := schedC_sound quietB_sound h2 a0.2
  simp only [Prod.mk.injEq, decide_eq_true_eq] at h3
  exact ⟨s0, s1, _, a0.1.gsteps, h3.1, a1.1.qsteps, h3.2.1, h3.2.2.1, h3.2.2.2.1, sched_steps _ _ _ _, h3.2.2.2.2.1, h3.2.2.2.2.2⟩

/-! ### C34: concurrent Sets of one new key -/

/-- C34, after any clean sequential history, for executions in which Sets of this key do not overlap each other (everything else may
overlap, as far as the order is kept): the key never has two live entries. -/
theorem C34_partial (pk : PkOk Pk) {E : Env} {cfg : Cfg} {ops : List Op} (hcl : Clean E cfg ops) {t c : U64} {s : CSt}
    (h : USteps Pk t c (begun E cfg ops) s) (hc : Clear s t c) : AtMostOne s.items t := by
  have g := hcl.refines.1
  refine (h.uinv pk (begun_j1 E cfg ops) hc ⟨fun _ => trivial, ?_, ?_, fun _ => trivial⟩).one
  · intro x hx y hy h1 h2 h3 h4
    rw [g.uniq x hx y hy h3 h4 (h1.trans h2.symm)]
  · intro u w hu; exact absurd hu (by simp [ofSt, InSet])

/-- Two goroutines set the same new key, then one deletes it, then one gets it. -/
def sameKey : Tid → Call
  | 0 => setCall 4 (exV 1)
  | 1 => setCall 4 (exV 2)
  | 2 => delCall 4
  | _ => getCall 4

/-- C34 fails: two overlapping Sets of one new key make two entries; after a Delete that answers true the key is still there, with the
other value. -/
theorem C34_refuted : ∃ s1 s2, Steps (pkExact modeNested) (begun exE {} []) s1 ∧ s1.pc 0 = .ret (.bool true) ∧ s1.pc 1 = .ret (.bool true) ∧
    ((s1.items.filter (fun e => !e.ignored)).map (fun e => (e.key, e.val))) = [(sk 4, exV 2), (sk 4, exV 1)] ∧
    Steps (pkExact modeNested) s1 s2 ∧ s2.pc 2 = .ret (.bool true) ∧ s2.pc 3 = .ret (.val (exV 1) true) := by
  refine ⟨sched modeNested sameKey (begun exE {} []) [(0, 36), (1, 100), (0, 100)], _, sched_steps _ _ _ _, ?_, ?_, ?_,
    sched_steps modeNested sameKey _ [(2, 100), (3, 100)], ?_, ?_⟩ <;> decide +kernel

/-- Non-vacuity of `C34_partial`: two Sets of the key, one after the other, interleaved with the Set of another key. -/
def sameKey2 : Tid → Call
  | 0 => setCall 4 (exV 1)
  | 1 => setCall 20 (exV 2)
  | _ => setCall 4 (exV 3)

example : ∃ s, USteps (pkExact modeNested) 0x0515b759ede5c930#64 0xa6#64 (begun exE {} []) s ∧ s.pc 0 = .ret (.bool true) ∧
    s.pc 1 = .ret (.bool true) ∧ s.pc 2 = .ret (.bool true) ∧
    ((s.items.filter (fun e => !e.ignored)).map (fun e => (e.key, e.val))) = [(sk 4, exV 3), (sk 20, exV 2)] ∧
    Clear s 0x0515b759ede5c930#64 0xa6#64 := by
  have hi : ∀ u, 3 ≤ u → (begun exE {} []).pc u = .idle := fun _ _ => rfl
  have key : ((schedC (fun s u s' => soloB 3 0x0515b759ede5c930#64 0xa6#64 s u s') modeNested sameKey2 3 (begun exE {} [])
      [(1, 30), (0, 100), (2, 10), (1, 100), (2, 100)]).map (fun s => (decide (s.pc 0 = .ret (.bool true) ∧
    s.pc 1 = .ret (.bool true) ∧ s.pc 2 = .ret (.bool true) ∧
    ((s.items.filter (fun e => !e.ignored)).map (fun e => (e.key, e.val))) = [(sk 4, exV 3), (sk 20, exV 2)]),
    s.items.all (fun x => decide (x.rev = 0x0515b759ede5c930#64 → x.dummy = false ∧ x.conflict = 0xa6#64))))) = some (true, true) := by
    decide +kernel
  obtain ⟨s, h1, h2⟩ := Option.map_eq_some_iff.1 key
  simp only [Prod.mk.injEq, decide_eq_true_eq, List.all_eq_true] at h2
  exact ⟨s, (schedC_sound soloB_sound h1 hi).1.usteps, h2.1.1, h2.1.2.1, h2.1.2.2.1, h2.1.2.2.2, h2.2⟩

/-! ### C38: the search option -/

/-- C38 fails for all schedules: two overlapping position searches, the first one to start also ends first; the option then stays off
although no operation is in progress. -/
def optCalls : Tid → Call
  | 0 => setCall 4 (exV 1)
  | 1 => .foreign
  | _ => getCall 4

/-- A map with one key. -/
def oneKey : List Op := [.set (sk 1) (exV 5)]

theorem C38_refuted : ∃ s, Steps (pkExact modeNested) (begun exE {} oneKey) s ∧ s.pc 0 = .ret (.bool true) ∧ s.pc 1 = .ret (.bool true) ∧
    (∀ u, 2 ≤ u → s.pc u = .idle) ∧ s.opt = false := by
  refine ⟨sched modeNested optCalls (begun exE {} oneKey) [(0, 34), (1, 1), (0, 1), (1, 1), (0, 100)], sched_steps _ _ _ _, ?_, ?_,
    sched_idle _ _ _ 2 _ (by decide) (fun _ _ => rfl), ?_⟩ <;> decide +kernel

/-- What it means: with the option off, SearchKey without arguments hands out deleted items. -/
theorem C38_refuted_effect : ∃ (ops : List Op) (k : U64), opSearchKey exE (run exE (initSt {}) ops).1 k true = none ∧
    ((opSearchKey exE (run exE (initSt {}) ops).1 k false).map (fun e => (e.key, e.deleted))) = some (sk 1, true) := by
  refine ⟨[.set (sk 1) (exV 5), .delete (sk 1)], exH.mem [1], ?_⟩
  decide +kernel

/-- C38 for executions in which position searches (of all maps of the process) do not overlap: whenever none is in progress the option
has its default value. -/
theorem C38_partial (E : Env) (cfg : Cfg) (ops : List Op) {s : CSt} (h : FSteps Pk (begun E cfg ops) s)
    (hq : ∀ u, InFind (s.pc u) = none) : s.opt = true := (h.oinv (ofSt_oinv _)).free hq

/-- Non-vacuity: three goroutines, interleaved, their searches not overlapping. -/
example : ∃ s, FSteps (pkExact modeNested) (begun exE {} oneKey) s ∧ s.pc 0 = .ret (.bool true) ∧ s.pc 1 = .ret (.bool true) ∧
    s.pc 2 = .ret (.val (exV 1) true) := by
  have hi : ∀ u, 3 ≤ u → (begun exE {} oneKey).pc u = .idle := fun _ _ => rfl
  have key : ((schedC (fun s u s' => findAloneB 3 s u s') modeNested optCalls 3 (begun exE {} oneKey)
      [(0, 33), (1, 1), (1, 1), (0, 5), (2, 3), (0, 100), (2, 100)]).map (fun s => decide (s.pc 0 = .ret (.bool true) ∧
    s.pc 1 = .ret (.bool true) ∧ s.pc 2 = .ret (.val (exV 1) true)))) = some true := by decide +kernel
  obtain ⟨s, h1, h2⟩ := Option.map_eq_some_iff.1 key
  exact ⟨s, (schedC_sound findAloneB_sound h1 hi).1.fsteps, of_decide_eq_true h2⟩

/-! ### C54: maps do not influence each other -/

/-- C54 fails: a position search on another map of the same process that overlaps a Set makes the Set lose its key, although no
other goroutine uses this map. -/
theorem C54_refuted : ∃ s1 s2, Steps (pkExact modeNested) (begun exE {} oneKey) s1 ∧ s1.pc 0 = .ret (.bool true) ∧
    (∀ u, 2 ≤ u → s1.pc u = .idle) ∧ Steps (pkExact modeNested) s1 s2 ∧ s2.pc 2 = .ret (.val none false) := by
  refine ⟨sched modeNested optCalls (begun exE {} oneKey) [(0, 34), (1, 1), (0, 1), (1, 1), (0, 100)], _, sched_steps _ _ _ _, ?_,
    sched_idle _ _ _ 2 _ (by decide) (fun _ _ => rfl), sched_steps modeNested optCalls _ [(2, 100)], ?_⟩ <;> decide +kernel

/-! ### C53: Range during concurrent changes -/

/-- C53, for all schedules: the items a Range shows are pairwise different, were items and not deleted at some moment of the Range, come in
the order of the list, and include every item that was there before the Range and is not deleted when it ends. -/
theorem C53_range (pk : PkOk Pk) (E : Env) (cfg : Cfg) (ops : List Op) {s0 s : CSt} {g : Tid} {L : List Ref}
    (h0 : Steps Pk (begun E cfg ops) s0) (hg : s0.pc g = .idle) (h : Steps Pk s0 s) (hr : s.pc g = .ret (.seen L)) :
    L.Nodup ∧ L.Sublist (refs s.items) ∧ (∀ r ∈ L, WasLive Pk s0 s r) ∧
    ∀ {r : Ref} {t c : U64}, Live s0 r t c → Live s r t c → r ∈ L := by
  have j := h0.j0 pk (begun_j1 E cfg ops).toJ0
  have j' := h.j0 pk j
  obtain ⟨h1, h2⟩ := range_run pk j hg h
  rw [hr] at h1 h2
  have h3 := sawLive_run hg h
  rw [hr] at h3
  refine ⟨j'.nd.sublist h1, h1, h3, ?_⟩
  intro r t c hl0 hl
  refine h2 r hl0.mem ?_
  intro x hx hxr
  obtain ⟨e, he, her, _, _, hed, hedel⟩ := hl
  have : x = e := List.inj_on_of_nodup_map j'.nd hx he (hxr.trans her.symm)
  rw [this]; simp [Entry.ignored, hed, hedel]

/-- The order of the items shown is that of their reversed hashes, in executions that keep the order. -/
theorem C53_order_partial (pk : PkOk Pk) (E : Env) (cfg : Cfg) (ops : List Op) {s0 s : CSt} {g : Tid} {L : List Ref}
    (h0 : GSteps Pk (begun E cfg ops) s0) (hg : s0.pc g = .idle) (h : GSteps Pk s0 s) (hr : s.pc g = .ret (.seen L)) {x y : Entry}
    (hx : x ∈ s.items) (hy : y ∈ s.items) (hxy : List.Sublist [x.ref, y.ref] L) : x.rev ≤ y.rev := by
  have j := (h0.trans h).j1 pk (begun_j1 E cfg ops)
  have := (C53_range pk E cfg ops h0.steps hg h.steps hr).2.1
  exact SB.rev_le j.nd j.sorted (hxy.trans this) hx rfl hy rfl

/-- Non-vacuity: a Range during which one key is inserted behind the cursor, one before it, and one is deleted. -/
def rangeCalls : Tid → Call
  | 0 => .range
  | 1 => setCall 4 (exV 1)
  | 2 => setCall 7 (exV 2)
  | _ => delCall 1

example : ∃ s, Steps (pkExact modeNested) (begun exE exCfg exOps) s ∧ s.pc 1 = .ret (.bool true) ∧ s.pc 2 = .ret (.bool true) ∧
    s.pc 3 = .ret (.bool true) ∧ ∃ L, s.pc 0 = .ret (.seen L) ∧ 5 ≤ L.length := by
  have key : (match (sched modeNested rangeCalls (begun exE exCfg exOps) [(0, 20), (1, 300), (2, 300), (0, 2), (3, 300), (0, 300)]) with
      | s => decide (s.pc 1 = .ret (.bool true) ∧ s.pc 2 = .ret (.bool true) ∧ s.pc 3 = .ret (.bool true)) &&
        (match s.pc 0 with | .ret (.seen L) => decide (5 ≤ L.length) | _ => false)) = true := by decide +kernel
  refine ⟨_, sched_steps modeNested rangeCalls _ [(0, 20), (1, 300), (2, 300), (0, 2), (3, 300), (0, 300)], ?_⟩
  simp only [Bool.and_eq_true, decide_eq_true_eq] at key
  obtain ⟨h1, h2⟩ := key
  refine ⟨h1.1, h1.2.1, h1.2.2, ?_⟩
  split at h2
  · rename_i L hL; exact ⟨L, hL, of_decide_eq_true h2⟩
  · cases h2

def rangeAfter : Tid → Call
  | 4 => .range
  | g => twoSets g

/-- C53 fails: after the race of C35_refuted_order a Range, alone in the map, shows two live keys in the wrong order. -/
theorem C53_refuted : ∃ s0 s x y, Steps (pkExact modeNested) (begun exE {} []) s0 ∧ s0.pc 0 = .ret (.bool true) ∧ s0.pc 1 = .ret (.bool true) ∧
    s0.pc 4 = .idle ∧ Steps (pkExact modeNested) s0 s ∧ s.pc 4 = .ret (.seen [x.ref, y.ref]) ∧
    x ∈ s.items ∧ y ∈ s.items ∧ x.key = sk 20 ∧ y.key = sk 4 ∧ y.rev < x.rev := by
  have key : (match (sched modeNested rangeAfter (sched modeNested rangeAfter (begun exE {} []) [(0, 50), (1, 100), (0, 100)]) [(4, 100)]) with
      | s => (match s.items.filter (fun e => !e.dummy) with
        | [x, y] => decide (s.pc 4 = .ret (.seen [x.ref, y.ref]) ∧ x.key = sk 20 ∧ y.key = sk 4 ∧ y.rev < x.rev)
        | _ => false)) = true := by decide +kernel
  have key0 : (let s := sched modeNested rangeAfter (begun exE {} []) [(0, 50), (1, 100), (0, 100)]
      decide (s.pc 0 = .ret (.bool true) ∧ s.pc 1 = .ret (.bool true) ∧ s.pc 4 = .idle)) = true := by decide +kernel
  simp only [decide_eq_true_eq] at key0
  simp only at key
  split at key
  · rename_i x y hxy
    simp only [decide_eq_true_eq] at key
    have hx : x ∈ (sched modeNested rangeAfter (sched modeNested rangeAfter (begun exE {} []) [(0, 50), (1, 100), (0, 100)]) [(4, 100)]).items :=
      List.mem_of_mem_filter (by rw [hxy]; simp)
    have hy : y ∈ (sched modeNested rangeAfter (sched modeNested rangeAfter (begun exE {} []) [(0, 50), (1, 100), (0, 100)]) [(4, 100)]).items :=
      List.mem_of_mem_filter (by rw [hxy]; simp)
    exact ⟨_, _, x, y, sched_steps _ _ _ _, key0.1, key0.2.1, key0.2.2, sched_steps _ _ _ _, key.1, hx, hy, key.2.1, key.2.2.1, key.2.2.2⟩
  · cases key

/-! ### C55: a Get never invents a value -/

/-- C55, for all schedules: a Get that answers ok answers with a value that an entry with exactly the two hashes asked for had at
some moment of the call; otherwise it answers (nil, false) or panics (see `C66_refuted_panic`). -/
theorem C55_get (pk : PkOk Pk) (E : Env) (cfg : Cfg) (ops : List Op) {s0 s : CSt} {g : Tid} {t c : U64} {res : Res}
    (h0 : Steps Pk (begun E cfg ops) s0) (hg : s0.pc g = .pick (.get t c)) (h : Steps Pk s0 s) (hr : s.pc g = .ret res) :
    res = .panic ∨ res = .val none false ∨ ∃ v, res = .val v true ∧ HadValue Pk s0 s t c v := by
  have := honest_run pk (h0.j0 pk (begun_j1 E cfg ops).toJ0) hg h
  rw [hr] at this
  rcases this with h | ⟨v, ok, h1, h2, h3⟩
  · exact .inl h
  right
  cases ok
  · left; rw [h1, h3 rfl]
  · right; exact ⟨v, h1, h2 rfl⟩

end SLM.Conc
