import Verif.Proofs.Conc10
import Verif.Props.Conc4
/-!
C77–C79: what a finished Set or Delete means for later calls of other goroutines.  Vocabulary as in Props/Conc.lean;
`CSteps Pk P a b`: an execution from `a` to `b` every step of which satisfies `P`.
-/
set_option autoImplicit false
set_option maxRecDepth 100000
namespace SLM.Conc
open History

variable {Pk : CSt → Call → Ref → Prop}

theorem begun_uinv {E : Env} {cfg : Cfg} {ops : List Op} (hcl : Clean E cfg ops) (t c : U64) : UInv (begun E cfg ops) t c := by
  have g := hcl.refines.1
  refine ⟨fun _ => trivial, ?_, ?_, fun _ => trivial⟩
  · intro x hx y hy h1 h2 h3 h4
    rw [g.uniq x hx y hy h3 h4 (h1.trans h2.symm)]
  · intro u w hu; exact absurd hu (by simp [ofSt, InSet])

theorem begun_hitAt (E : Env) (cfg : Cfg) (ops : List Op) : HitAt (begun E cfg ops) := by
  intro u cl r h; simp [ofSt] at h

/-! ### C77: a Get after a finished Set -/

/-- The state a Set leaves, in which every live entry of the key has the value. -/
theorem set_done (pk : PkOk Pk) {E : Env} {cfg : Cfg} {ops : List Op} (hcl : Clean E cfg ops) {t c : U64} {key : Key} {v : IVal} {s0 s1 : CSt} {g : Tid}
    (h0 : USteps Pk t c (begun E cfg ops) s0) (hg : s0.pc g = .pick (.set t c key v)) (h1 : CSteps Pk (SetAlone g t) s0 s1)
    (hr : s1.pc g = .ret (.bool true)) (hc : Clear s1 t c) :
    J1 s1 ∧ HitAt s1 ∧ AtMostOne s1.items t ∧ AllVal s1.items t v ∧ ∀ u, ¬ InSet t (s1.pc u) := by
  have j0 := h0.gsteps.j1 pk (begun_j1 E cfg ops)
  have ha0 := h0.gsteps.steps.hitAt (begun_hitAt E cfg ops)
  have hu0 := h0.uinv pk (begun_j1 E cfg ops) (hc.back h1.steps.ext) (begun_uinv hcl t c)
  obtain ⟨j1, ha1, hu1, hm, hno⟩ := mine_run pk j0 ha0 hu0 hg h1 hc
  rw [hr] at hm
  refine ⟨j1, ha1, hu1.one, hm rfl, fun u => ?_⟩
  by_cases hug : u = g
  · subst hug; rw [hr]; exact id
  · exact hno u hug

/-- C77: after a Set of a key that overlapped no other Set of this key has answered true, and as long as nobody begins
another Set of this key, every Get of the key by any goroutine — whatever else happens: Deletes of the key, Sets of other keys, splits, Ranges —
answers the value of that Set, or not found, or panics (only in the window of C66); and it answers the value if the
entry is there when the Get returns. -/
theorem C77_fresh_partial (pk : PkOk Pk) {E : Env} {cfg : Cfg} {ops : List Op} (hcl : Clean E cfg ops) {t c : U64} {key : Key} {v : IVal}
    {s0 s1 s2 s3 : CSt} {g g' : Tid} {res : Res}
    (h0 : USteps Pk t c (begun E cfg ops) s0) (hg : s0.pc g = .pick (.set t c key v)) (h1 : CSteps Pk (SetAlone g t) s0 s1)
    (hr : s1.pc g = .ret (.bool true)) (hc : Clear s1 t c) (h2 : CSteps Pk (NoSetOf t) s1 s2) (hg' : s2.pc g' = .pick (.get t c))
    (h3 : CSteps Pk (NoSetOf t) s2 s3) (hr' : s3.pc g' = .ret res) :
    (res = .val v true ∨ res = .val none false ∨ res = .panic) ∧
    ∀ r, Live s1 r t c → Live s3 r t c → Clear s3 t c → SSteps Pk g' s2 s3 → res = .val v true := by
  obtain ⟨j1, ha1, _, hv1, hn1⟩ := set_done pk hcl h0 hg h1 hr hc
  have j2 := h2.steps.j0 pk j1.toJ0
  have ha2 := h2.steps.hitAt ha1
  have hn2 := noSet_run h2 hn1
  have hv2 := keep_run pk (Q := fun l => AllVal l t v) (fun nd ha st hn h => h.other nd ha st hn) j1.toJ0 ha1 h2 hn1 hv1
  have hs := sees_run pk j2 ha2 hn2 hv2 hg' h3
  rw [hr'] at hs
  refine ⟨hs, fun r hl1 hl3 hc3 hss => ?_⟩
  obtain ⟨x, hx, hx1, hx2, _⟩ := hl1
  have hw := j1.wp hx
  rw [hx1, hx2] at hw
  have := onWay_run pk (cl := .get t c) rfl j2 (h2.steps.wp pk j1.toJ0 hw) hg' hss hl3 hc3
  rw [hr'] at this
  obtain ⟨v', hv', _⟩ := this
  rcases hs with h | h | h
  · exact h
  · rw [hv'] at h; cases h
  · rw [hv'] at h; cases h

/-! ### C78, C79: after a finished Delete -/

/-- The state a Delete leaves: no live entry of the key. -/
theorem del_done (pk : PkOk Pk) {E : Env} {cfg : Cfg} {ops : List Op} (hcl : Clean E cfg ops) {t c : U64} {s0 s1 : CSt} {g : Tid}
    (h0 : USteps Pk t c (begun E cfg ops) s0) (hc : Clear s0 t c) (hn : ∀ u, ¬ InSet t (s0.pc u)) (hg : s0.pc g = .pick (.del t c))
    (h1 : CSteps Pk (NoSetOf t) s0 s1) (hr : s1.pc g = .ret (.bool true)) :
    J0 s1 ∧ HitAt s1 ∧ NoLive s1.items t ∧ ∀ u, ¬ InSet t (s1.pc u) := by
  have j0 := h0.gsteps.j1 pk (begun_j1 E cfg ops)
  have ha0 := h0.gsteps.steps.hitAt (begun_hitAt E cfg ops)
  have hu0 := h0.uinv pk (begun_j1 E cfg ops) hc (begun_uinv hcl t c)
  have hk := kills_run pk j0.toJ0 ha0 hn hu0.one hg h1
  rw [hr] at hk
  exact ⟨h1.steps.j0 pk j0.toJ0, h1.steps.hitAt ha0, hk rfl, noSet_run h1 hn⟩

/-- C78: after a Delete of a key that overlapped no Set of it has answered true (earlier Sets of the key not having overlapped each
other), and as long as nobody begins a Set of this key, every Get of the key answers not found (or panics, only in the window
of C66), and no Range that begins after the Delete shows an entry of the key. -/
theorem C78_gone_partial (pk : PkOk Pk) {E : Env} {cfg : Cfg} {ops : List Op} (hcl : Clean E cfg ops) {t c : U64} {s0 s1 s2 s3 : CSt} {g g' : Tid}
    (h0 : USteps Pk t c (begun E cfg ops) s0) (hc : Clear s0 t c) (hn : ∀ u, ¬ InSet t (s0.pc u)) (hg : s0.pc g = .pick (.del t c))
    (h1 : CSteps Pk (NoSetOf t) s0 s1) (hr : s1.pc g = .ret (.bool true))
    (h2 : CSteps Pk (NoSetOf t) s1 s2) (h3 : CSteps Pk (NoSetOf t) s2 s3) :
    (∀ res, s2.pc g' = .pick (.get t c) → s3.pc g' = .ret res → res = .val none false ∨ res = .panic) ∧
    (∀ L, s2.pc g' = .idle → s3.pc g' = .ret (.seen L) → ∀ x ∈ s3.items, x.rev = t → x.ref ∉ L) := by
  obtain ⟨j1, ha1, hno1, hn1⟩ := del_done pk hcl h0 hc hn hg h1 hr
  have j2 := h2.steps.j0 pk j1
  have ha2 := h2.steps.hitAt ha1
  have hn2 := noSet_run h2 hn1
  have hno2 := keep_run pk (Q := fun l => NoLive l t) (fun nd ha st hn h => h.other nd ha st hn) j1 ha1 h2 hn1 hno1
  refine ⟨fun res hg' hr' => ?_, fun L hg' hr' x hx ht hxL => ?_⟩
  · have := misses_run pk (Or.inl rfl) j2 ha2 hn2 hno2 hg' h3
    rw [hr'] at this
    exact this.symm
  · have h4 := skips_run pk j2 ha2 hn2 hno2 hg' h3
    rw [hr'] at h4
    obtain ⟨y, hy, h5, h6⟩ := h4 x.ref hxL
    have : y = x := List.inj_on_of_nodup_map (h3.steps.j0 pk j2).nd hy hx h5
    exact h6 (by rw [this]; exact ht)

/-- C79: a second Delete, begun after the first has answered true, answers false (or panics, only in the window of C66), as
long as nobody begins a Set of this key. -/
theorem C79_delete_once_partial (pk : PkOk Pk) {E : Env} {cfg : Cfg} {ops : List Op} (hcl : Clean E cfg ops) {t c : U64} {s0 s1 s2 s3 : CSt} {g g' : Tid}
    {res : Res} (h0 : USteps Pk t c (begun E cfg ops) s0) (hc : Clear s0 t c) (hn : ∀ u, ¬ InSet t (s0.pc u)) (hg : s0.pc g = .pick (.del t c))
    (h1 : CSteps Pk (NoSetOf t) s0 s1) (hr : s1.pc g = .ret (.bool true))
    (h2 : CSteps Pk (NoSetOf t) s1 s2) (hg' : s2.pc g' = .pick (.del t c)) (h3 : CSteps Pk (NoSetOf t) s2 s3) (hr' : s3.pc g' = .ret res) :
    res = .bool false ∨ res = .panic := by
  obtain ⟨j1, ha1, hno1, hn1⟩ := del_done pk hcl h0 hc hn hg h1 hr
  have hno2 := keep_run pk (Q := fun l => NoLive l t) (fun nd ha st hn h => h.other nd ha st hn) j1 ha1 h2 hn1 hno1
  have := misses_run pk (Or.inr rfl) (h2.steps.j0 pk j1) (h2.steps.hitAt ha1) (noSet_run h2 hn1) hno2 hg' h3
  rw [hr'] at this
  exact this.symm

/-! ### The witnesses -/

def setAloneB (k : Nat) (g : Tid) (t : U64) (s : CSt) (u : Tid) (s' : CSt) : Bool :=
  aloneB k s u && !(isLost (s'.pc u)) && (decide (u = g) || !(inSetB t (s'.pc u)))

theorem setAloneB_sound {k : Nat} {g : Tid} {t : U64} : ∀ s u s', (∀ w, k ≤ w → s.pc w = .idle) → setAloneB k g t s u s' = true →
    SetAlone g t s u s' := by
  intro s u s' hi h
  simp only [setAloneB, Bool.and_eq_true, Bool.or_eq_true, decide_eq_true_eq, Bool.not_eq_true'] at h
  refine ⟨aloneB_sound hi h.1.1, ?_, ?_⟩
  · intro c key v q r hc
    rw [hc] at h; simp [isLost] at h
  · intro hu hin
    rw [← inSetB_iff] at hin
    rcases h.2 with h2 | h2
    · exact hu h2
    · rw [hin] at h2; cases h2

theorem noSetB_sound {k : Nat} {t : U64} : ∀ (s : CSt) (u : Tid) (s' : CSt), (∀ w, k ≤ w → s.pc w = .idle) → (!(inSetB t (s'.pc u))) = true → NoSetOf t s u s' := by
  intro s u s' _ h hin
  rw [← inSetB_iff] at hin
  rw [hin] at h; cases h

def laterCalls : Tid → Call
  | 0 => setCall 4 (exV 1)
  | 1 => setCall 20 (exV 2)
  | 2 => getCall 4
  | 3 => delCall 4
  | 4 => getCall 4
  | 5 => .range
  | _ => delCall 4

/-- Non-vacuity of `C77_fresh_partial`: the Set and the Get overlap a Set of another key. -/
example : ∃ s0 s1 s2 s3, USteps (pkExact modeNested) 0x0515b759ede5c930#64 0xa6#64 (begun exE exCfg exOps) s0 ∧
    s0.pc 0 = .pick (.set 0x0515b759ede5c930#64 0xa6#64 (sk 4) (exV 1)) ∧
    CSteps (pkExact modeNested) (SetAlone 0 0x0515b759ede5c930#64) s0 s1 ∧ s1.pc 0 = .ret (.bool true) ∧
    Clear s1 0x0515b759ede5c930#64 0xa6#64 ∧ CSteps (pkExact modeNested) (NoSetOf 0x0515b759ede5c930#64) s1 s2 ∧
    s2.pc 2 = .pick (.get 0x0515b759ede5c930#64 0xa6#64) ∧ CSteps (pkExact modeNested) (NoSetOf 0x0515b759ede5c930#64) s2 s3 ∧
    s3.pc 2 = .ret (.val (exV 1) true) ∧ s3.pc 1 = .ret (.bool true) := by
  have hi : ∀ u, 7 ≤ u → (begun exE exCfg exOps).pc u = .idle := fun _ _ => rfl
  have key : ((schedC (fun s u s' => soloB 7 0x0515b759ede5c930#64 0xa6#64 s u s') modeNested laterCalls 7 (begun exE exCfg exOps) [(1, 20), (0, 1)]).bind (fun s0 =>
      (schedC (fun s u s' => setAloneB 7 0 0x0515b759ede5c930#64 s u s') modeNested laterCalls 7 s0 [(0, 3), (1, 2), (0, 300)]).bind (fun s1 =>
      (schedC (fun _ u s' => !(inSetB 0x0515b759ede5c930#64 (s'.pc u))) modeNested laterCalls 7 s1 [(2, 1)]).bind (fun s2 =>
      (schedC (fun _ u s' => !(inSetB 0x0515b759ede5c930#64 (s'.pc u))) modeNested laterCalls 7 s2 [(2, 3), (1, 300), (2, 300)]).map (fun s3 =>
        (s0.pc 0, s1.pc 0, decide (Clear s1 0x0515b759ede5c930#64 0xa6#64), s2.pc 2, s3.pc 2, s3.pc 1)))))) =
      some (.pick (.set 0x0515b759ede5c930#64 0xa6#64 (sk 4) (exV 1)), .ret (.bool true), true, .pick (.get 0x0515b759ede5c930#64 0xa6#64),
        .ret (.val (exV 1) true), .ret (.bool true)) := by
    decide +kernel
  obtain ⟨s0, h0, k0⟩ := Option.bind_eq_some_iff.1 key
  obtain ⟨s1, h1, k1⟩ := Option.bind_eq_some_iff.1 k0
  obtain ⟨s2, h2, k2⟩ := Option.bind_eq_some_iff.1 k1
  obtain ⟨s3, h3, k3⟩ := Option.map_eq_some_iff.1 k2
  have a0 := schedC_sound soloB_sound h0 hi
  have a1 := schedC_sound setAloneB_sound h1 a0.2
  have a2 := schedC_sound noSetB_sound h2 a1.2
  have a3 := schedC_sound noSetB_sound h3 a2.2
  simp only [Prod.mk.injEq, decide_eq_true_eq] at k3
  exact ⟨s0, s1, s2, s3, a0.1.usteps, k3.1, a1.1, k3.2.1, k3.2.2.1, a2.1, k3.2.2.2.1, a3.1, k3.2.2.2.2.1, k3.2.2.2.2.2⟩

/-- Non-vacuity of `C78_gone_partial` and `C79_delete_once_partial`: after the Delete a Get, a Range and a second Delete, all of them overlapping each other
and a Set of another key. -/
example : ∃ s0 s1 s2 s3, USteps (pkExact modeNested) 0x0515b759ede5c930#64 0xa6#64 (begun exE exCfg exOps) s0 ∧
    Clear s0 0x0515b759ede5c930#64 0xa6#64 ∧ (∀ u, ¬ InSet 0x0515b759ede5c930#64 (s0.pc u)) ∧
    s0.pc 3 = .pick (.del 0x0515b759ede5c930#64 0xa6#64) ∧
    CSteps (pkExact modeNested) (NoSetOf 0x0515b759ede5c930#64) s0 s1 ∧ s1.pc 3 = .ret (.bool true) ∧
    CSteps (pkExact modeNested) (NoSetOf 0x0515b759ede5c930#64) s1 s2 ∧
    s2.pc 4 = .pick (.get 0x0515b759ede5c930#64 0xa6#64) ∧ s2.pc 5 = .idle ∧ s2.pc 6 = .pick (.del 0x0515b759ede5c930#64 0xa6#64) ∧
    CSteps (pkExact modeNested) (NoSetOf 0x0515b759ede5c930#64) s2 s3 ∧
    s3.pc 4 = .ret (.val none false) ∧ s3.pc 6 = .ret (.bool false) ∧ s3.pc 1 = .ret (.bool true) ∧
    (∃ x ∈ s3.items, x.rev = 0x0515b759ede5c930#64) ∧ ∃ L, s3.pc 5 = .ret (.seen L) ∧ 4 ≤ L.length := by
  have hi : ∀ u, 7 ≤ u → (begun exE exCfg exOps).pc u = .idle := fun _ _ => rfl
  have key : ((schedC (fun s u s' => soloB 7 0x0515b759ede5c930#64 0xa6#64 s u s') modeNested laterCalls 7 (begun exE exCfg exOps)
        [(1, 20), (0, 300), (3, 1)]).bind (fun s0 =>
      (schedC (fun _ u s' => !(inSetB 0x0515b759ede5c930#64 (s'.pc u))) modeNested laterCalls 7 s0 [(3, 3), (1, 2), (3, 300)]).bind (fun s1 =>
      (schedC (fun _ u s' => !(inSetB 0x0515b759ede5c930#64 (s'.pc u))) modeNested laterCalls 7 s1 [(4, 1), (6, 1)]).bind (fun s2 =>
      (schedC (fun _ u s' => !(inSetB 0x0515b759ede5c930#64 (s'.pc u))) modeNested laterCalls 7 s2
          [(4, 3), (5, 6), (1, 300), (6, 300), (5, 300), (4, 300)]).map (fun s3 =>
        (decide (Clear s0 0x0515b759ede5c930#64 0xa6#64 ∧ (∀ u, u < 7 → inSetB 0x0515b759ede5c930#64 (s0.pc u) = false) ∧
          s0.pc 3 = .pick (.del 0x0515b759ede5c930#64 0xa6#64) ∧ s1.pc 3 = .ret (.bool true) ∧ s2.pc 4 = .pick (.get 0x0515b759ede5c930#64 0xa6#64) ∧
          s2.pc 5 = .idle ∧ s2.pc 6 = .pick (.del 0x0515b759ede5c930#64 0xa6#64) ∧
          s3.pc 4 = .ret (.val none false) ∧ s3.pc 6 = .ret (.bool false) ∧ s3.pc 1 = .ret (.bool true) ∧
          ∃ x ∈ s3.items, x.rev = 0x0515b759ede5c930#64),
          match s3.pc 5 with | .ret (.seen L) => decide (4 ≤ L.length) | _ => false)))))) =
      some (true, true) := by
    decide +kernel
  obtain ⟨s0, h0, k0⟩ := Option.bind_eq_some_iff.1 key
  obtain ⟨s1, h1, k1⟩ := Option.bind_eq_some_iff.1 k0
  obtain ⟨s2, h2, k2⟩ := Option.bind_eq_some_iff.1 k1
  obtain ⟨s3, h3, k3⟩ := Option.map_eq_some_iff.1 k2
  have a0 := schedC_sound soloB_sound h0 hi
  have a1 := schedC_sound noSetB_sound h1 a0.2
  have a2 := schedC_sound noSetB_sound h2 a1.2
  have a3 := schedC_sound noSetB_sound h3 a2.2
  simp only [Prod.mk.injEq, decide_eq_true_eq] at k3
  obtain ⟨⟨b1, b2, b3, b4, b5, b6, b7, b8, b9, b10, b11⟩, b12⟩ := k3
  refine ⟨s0, s1, s2, s3, a0.1.usteps, b1, ?_, b3, a1.1, b4, a2.1, b5, b6, b7, a3.1, b8, b9, b10, b11, ?_⟩
  · intro u hu
    rw [← inSetB_iff] at hu
    by_cases hk : u < 7
    · rw [b2 u hk] at hu; cases hu
    · rw [a0.2 u (Nat.le_of_not_lt hk)] at hu; cases hu
  · split at b12
    · rename_i L hL; exact ⟨L, hL, of_decide_eq_true b12⟩
    · cases b12

/-- Calls on the empty map: two goroutines set two different keys; all the other calls come one after the other. -/
def backCalls : Tid → Call
  | 0 => setCall 100 (exV 1)
  | 1 => setCall 228 (exV 2)
  | 2 => setCall 100 (exV 3)
  | 3 => getCall 100
  | 4 => delCall 100
  | 5 => getCall 100
  | 6 => delCall 228
  | 7 => getCall 100
  | _ => delCall 100

/-- Two overlapping Sets of different keys, then a Set of the first key, then a Get: -/
def back1 : CSt := sched modeNested backCalls (begun exE {} []) [(0, 50), (1, 100), (0, 100), (2, 200), (3, 200)]
/-- then a Delete of it and a Get: -/
def back2 : CSt := sched modeNested backCalls back1 [(4, 200), (5, 200)]
/-- then a Delete of the second key, a Get of the first, a Delete of the first. -/
def back3 : CSt := sched modeNested backCalls back2 [(6, 200), (7, 200), (8, 200)]

/-- C77 and C78 fail for all schedules, although no two Sets of one key overlap: two overlapping Sets of different keys, everything
after them strictly one call after the other.  `Set(k, 3)` answers true and a Get answers 3; `Delete(k)` answers true and a Get answers
not found; after a Delete of the other key a Get of `k` answers 1, the value that was replaced and deleted. -/
theorem C77_refuted : Steps (pkExact modeNested) (begun exE {} []) back1 ∧ Steps (pkExact modeNested) back1 back2 ∧
    Steps (pkExact modeNested) back2 back3 ∧ back1.pc 0 = .ret (.bool true) ∧ back1.pc 1 = .ret (.bool true) ∧
    back1.pc 2 = .ret (.bool true) ∧ back1.pc 3 = .ret (.val (exV 3) true) ∧ (∀ u, 4 ≤ u → back1.pc u = .idle) ∧
    back3.pc 7 = .ret (.val (exV 1) true) := by
  refine ⟨sched_steps _ _ _ _, sched_steps _ _ _ _, sched_steps _ _ _ _, by decide +kernel, by decide +kernel, by decide +kernel,
    by decide +kernel, sched_idle _ _ _ 4 _ (by decide) (fun _ _ => rfl), by decide +kernel⟩

theorem C78_refuted : Steps (pkExact modeNested) back1 back2 ∧ Steps (pkExact modeNested) back2 back3 ∧ (∀ u, 4 ≤ u → back1.pc u = .idle) ∧
    (∀ u, 6 ≤ u → back2.pc u = .idle) ∧
    back2.pc 4 = .ret (.bool true) ∧ back2.pc 5 = .ret (.val none false) ∧ back3.pc 6 = .ret (.bool true) ∧ back3.pc 7 = .ret (.val (exV 1) true) := by
  refine ⟨sched_steps _ _ _ _, sched_steps _ _ _ _, sched_idle _ _ _ 4 _ (by decide) (fun _ _ => rfl),
    sched_idle _ _ _ 6 _ (by decide) (sched_idle _ _ _ 6 _ (by decide) (fun _ _ => rfl)), ?_⟩
  decide +kernel

/-- C79 fails for the same schedule: the second Delete answers true. -/
theorem C79_refuted : Steps (pkExact modeNested) back1 back2 ∧ Steps (pkExact modeNested) back2 back3 ∧ (∀ u, 4 ≤ u → back1.pc u = .idle) ∧
    back2.pc 4 = .ret (.bool true) ∧ back3.pc 8 = .ret (.bool true) := by
  refine ⟨sched_steps _ _ _ _, sched_steps _ _ _ _, sched_idle _ _ _ 4 _ (by decide) (fun _ _ => rfl), ?_⟩
  decide +kernel

/-- Two Deletes that overlap may both answer true, in any case. -/
theorem C79_refuted_overlap : ∃ s, Steps (pkExact modeNested) (begun exE exCfg exOps) s ∧ s.pc 3 = .ret (.bool true) ∧ s.pc 6 = .ret (.bool true) ∧
    ∀ u, 7 ≤ u → s.pc u = .idle := by
  refine ⟨sched modeNested laterCalls (begun exE exCfg exOps) [(3, 5), (6, 200), (3, 200)], sched_steps _ _ _ _, by decide +kernel, by decide +kernel,
    sched_idle _ _ _ 7 _ (by decide) (fun _ _ => rfl)⟩

end SLM.Conc
