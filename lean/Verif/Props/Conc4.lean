import Verif.Props.Conc
/-!
C66: a bucket split in progress changes no answer.  Vocabulary as in Props/Conc.lean.  A split is the call `.split t p`: a new
bucket `p` with boundary `t`.
-/
set_option autoImplicit false
set_option maxRecDepth 100000
namespace SLM.Conc
open History

variable {Pk : CSt → Call → Ref → Prop}

/-! ### The positive part -/

/-- When goroutine `g` locates the bucket of a key with reversed hash `t`, no new bucket with a boundary at or below `t` that lookups
already find (`Window`) is without its sentinel. -/
def Settled (g : Tid) (t : U64) (s : CSt) (u : Tid) (_ : CSt) : Prop :=
  u = g → (∃ cl, s.pc u = .pick cl) → ∀ p r, Window s p r → ¬ r ≤ t

/-- The program points of a Get or Delete, none of them a panic. -/
def Reads (cl : Call) : PC → Prop
  | .pick cl' => cl' = cl
  | .look cl' _ _ _ _ => cl' = cl
  | .hit cl' _ => cl' = cl
  | .miss cl' _ => cl' = cl
  | .ret r => r ≠ .panic
  | _ => False

/-- A Get or Delete. -/
def ReadCall (t c : U64) (cl : Call) : Prop := cl = .get t c ∨ cl = .del t c

theorem ReadCall.target {t c : U64} {cl : Call} (h : ReadCall t c cl) : cl.target = some (t, c) := by
  rcases h with rfl | rfl <;> rfl

theorem Reads.self {s s' : CSt} {g : Tid} {t c : U64} {cl : Call} (hcl : ReadCall t c cl) (st : Step Pk s g s')
    (hset : Settled g t s g s') (h : Reads cl (s.pc g)) : Reads cl (s'.pc g) ∧ isLost (s'.pc g) = false := by
  have hns : ∀ t' c' k v, cl ≠ .set t' c' k v := by rcases hcl with rfl | rfl <;> simp
  cases st <;> rw [setPC_same]
  case pickKey h1 _ _ _ => rw [h1] at h; exact ⟨h, rfl⟩
  case pickSplit h1 _ => rw [h1] at h; rcases hcl with rfl | rfl <;> cases h
  case pickLost cl' t' c' p r h1 h2 h3 h4 h5 =>
    rw [h1] at h
    cases (h : cl' = cl)
    rw [hcl.target] at h2
    cases h2
    exact absurd h4 (hset rfl ⟨_, h1⟩ p r h3)
  case lookCont h1 _ _ _ => rw [h1] at h; exact ⟨h, rfl⟩
  case lookHit h1 _ _ _ _ => rw [h1] at h; split <;> exact ⟨h, rfl⟩
  case lookMiss h1 _ _ _ _ => rw [h1] at h; exact ⟨h, rfl⟩
  case lookAdv h1 => rw [h1] at h; split <;> exact ⟨h, rfl⟩
  case hitGet => exact ⟨by simp [Reads], rfl⟩
  case hitSet h1 _ _ => exact ⟨by simp [Reads], rfl⟩
  case hitSetPanic h1 _ _ => rw [h1] at h; exact absurd (h : _ = cl).symm (hns _ _ _ _)
  case hitDel => exact ⟨by simp [Reads], rfl⟩
  case missGet => exact ⟨by simp [Reads], rfl⟩
  case missDel => exact ⟨by simp [Reads], rfl⟩
  case missSet h1 => rw [h1] at h; exact absurd (h : _ = cl).symm (hns _ _ _ _)
  all_goals (rename_i h1; first | (rw [h1] at h; exact h.elim) | skip)
  all_goals (exfalso; simp only [Reads, *] at h)

/-- Calls that locate their bucket while no such split is in progress. -/
theorem settled_run {s0 s : CSt} {g : Tid} {t c : U64} {cl : Call} (hcl : ReadCall t c cl) (h0 : s0.pc g = .pick cl)
    (h : CSteps Pk (Settled g t) s0 s) : SSteps Pk g s0 s ∧ Reads cl (s.pc g) := by
  induction h with
  | refl => exact ⟨.refl _, by rw [h0]; rfl⟩
  | @step a b u h1 st hp ih =>
    by_cases hu : u = g
    · subst hu
      obtain ⟨h2, h3⟩ := Reads.self hcl st hp ih.2
      exact ⟨.step ih.1 st (fun _ => h3), h2⟩
    · refine ⟨.step ih.1 st (fun e => absurd e hu), ?_⟩
      rw [st.others (fun e => hu e.symm)]; exact ih.2

/-- C66 for Get and Delete, when no split that put a new bucket between existing ones is in progress at the moment the call locates its
bucket (splits that begin later, or put the bucket elsewhere, may be at any point): the call does not panic, and if the key was there
before the concurrent phase and is not deleted when the call returns, the call finds it. -/
theorem C66_partial (pk : PkOk Pk) (E : Env) (cfg : Cfg) (ops : List Op) {k c : U64} :
    (∀ {s0 s : CSt} {g : Tid} {cl : Call} {res : Res}, ReadCall (rev64 k) c cl → Steps Pk (begun E cfg ops) s0 → s0.pc g = .pick cl →
      CSteps Pk (Settled g (rev64 k)) s0 s → s.pc g = .ret res → res ≠ .panic) ∧
    ∀ {v : IVal}, opGetByHash E (run E (initSt cfg) ops).1 k c = .val v true →
      ∃ r, Live (begun E cfg ops) r (rev64 k) c ∧
        ∀ {s0 s : CSt} {g : Tid} {cl : Call} {res : Res}, ReadCall (rev64 k) c cl →
          Steps Pk (begun E cfg ops) s0 → s0.pc g = .pick cl → CSteps Pk (Settled g (rev64 k)) s0 s → s.pc g = .ret res →
          Live s r (rev64 k) c → Clear s (rev64 k) c → FoundAns Pk s0 s (rev64 k) c cl res := by
  refine ⟨?_, ?_⟩
  · intro s0 s g cl res hcl _ hg hs hr
    have := (settled_run hcl hg hs).2
    rw [hr] at this; exact this
  · intro v hk
    obtain ⟨r, h1, h2⟩ := C35_visible_partial pk E cfg ops hk
    exact ⟨r, h1, fun hcl h0 hg hs hr hl hc => h2 hcl.target h0 hg (settled_run hcl hg hs).1 hr hl hc⟩

/-- The test behind `Settled`. -/
def settledB (k : Nat) (g : Tid) (t : U64) (s : CSt) (u : Tid) : Bool :=
  !(decide (u = g)) || (match s.pc u with | .pick _ => false | _ => true) ||
    (List.range k).all (fun w => match (s.pc w).newE with | some e => decide (¬ e.rev ≤ t) | none => true)

theorem settledB_sound {k : Nat} {g : Tid} {t : U64} {s : CSt} {u : Tid} {s' : CSt} (hi : ∀ u, k ≤ u → s.pc u = .idle)
    (h : settledB k g t s u = true) : Settled g t s u s' := by
  rintro hu ⟨cl, hcl⟩ p r ⟨⟨w, hw⟩, _⟩
  simp only [settledB, hu, decide_true, Bool.not_true, Bool.false_or] at h
  rw [hu] at hcl
  rw [hcl] at h
  simp only [Bool.false_or, List.all_eq_true, List.mem_range] at h
  by_cases hk : w < k
  · have := h w hk
    rw [hw] at this
    exact of_decide_eq_true this
  · rw [hi w (Nat.le_of_not_lt hk)] at hw; cases hw

/-! ### The witnesses -/

/-- A split of the bucket that holds the key of `sk 5`: the new bucket lies between two existing ones. -/
def splitCalls : Tid → Call
  | 0 => getCall 5
  | 1 => .split 0x8400000000000000#64 [4, 8]
  | 2 => setCall 69 (exV 1)
  | 3 => .get (rev64 0x21) 0
  | 4 => getCall 69
  | 5 => delCall 5
  | _ => getCall 5

/-- Non-vacuity of `C66_partial`: a Delete locates its bucket, then the bucket is split, then the Delete goes on and finds the key. -/
example : ∃ s0 s, Steps (pkExact modeNested) (begun exE exCfg exOps) s0 ∧ s0.pc 5 = .pick (splitCalls 5) ∧
    CSteps (pkExact modeNested) (Settled 5 0x8515b759ede5c930#64) s0 s ∧ s.pc 5 = .ret (.bool true) ∧ s.pc 1 = .ret (.bool true) := by
  have hi : ∀ u, 6 ≤ u → (sched modeNested splitCalls (begun exE exCfg exOps) [(5, 1)]).pc u = .idle :=
    sched_idle _ _ _ 6 _ (by decide) (fun _ _ => rfl)
  have key : ((schedC (fun s u _ => settledB 6 5 0x8515b759ede5c930#64 s u) modeNested splitCalls 6
      (sched modeNested splitCalls (begun exE exCfg exOps) [(5, 1)]) [(1, 1), (5, 1), (1, 5), (5, 1), (1, 100), (5, 100)]).map (fun s =>
      decide (s.pc 5 = .ret (.bool true) ∧ s.pc 1 = .ret (.bool true)))) = some true := by decide +kernel
  obtain ⟨s, h1, h2⟩ := Option.map_eq_some_iff.1 key
  exact ⟨_, s, sched_steps _ _ _ [(5, 1)], by decide +kernel, (schedC_sound (fun _ _ _ hi h => settledB_sound hi h) h1 hi).1,
    of_decide_eq_true h2⟩

/-- The split is about to link its sentinel; then goroutine `g` begins its call. -/
def inSplit (g : Tid) : CSt := sched modeNested splitCalls (begun exE exCfg exOps) [(1, 5), (g, 1)]

theorem inSplit_steps (g : Tid) : Steps (pkExact modeNested) (begun exE exCfg exOps) (inSplit g) := sched_steps _ _ _ _

instance (s : CSt) (p : Path) (r : U64) (u : Tid) : Decidable ((s.pc u).newE = some (dummyEntry p r)) := inferInstance

/-- The step in which a call locates the new bucket. -/
theorem inSplit_lost (g : Tid) (cl : Call) (t c : U64) (hp : (inSplit g).pc g = .pick cl) (ht : cl.target = some (t, c))
    (h1 : ((inSplit g).pc 1).newE = some (dummyEntry [4, 8] 0x8400000000000000#64)) (h2 : 0x8400000000000000#64 ≤ t)
    (h3 : ∀ d ∈ (inSplit g).items, d.dummy = true → d.rev ≤ t → d.rev < 0x8400000000000000#64)
    (h4 : ∃ d ∈ (inSplit g).items, d.ref = .dummy [8, 8]) :
    Step (pkExact modeNested) (inSplit g) g (setPC (inSplit g) g (.lost cl [4, 8] 0x8400000000000000#64)) :=
  .pickLost _ _ _ t c _ _ hp ht ⟨⟨1, h1⟩, 4, 8, [8], rfl, by simp, by decide, by decide, h4⟩ h2 h3

def lostAt (g : Tid) : CSt := setPC (inSplit g) g (.lost (splitCalls g) [4, 8] 0x8400000000000000#64)

/-- C66 fails for Get: the key is in the map all the time, the only other call is a split, and Get answers "not found". -/
theorem C66_refuted_get : opGet exE (run exE (initSt exCfg) exOps).1 (sk 5) = .val (exV 60) true ∧
    ∃ s, Steps (pkExact modeNested) (begun exE exCfg exOps) s ∧ s.pc 0 = .ret (.val none false) ∧ (∀ u, 2 ≤ u → s.pc u = .idle) ∧
      s.items = (begun exE exCfg exOps).items := by
  refine ⟨by decide +kernel, sched modeNested splitCalls (lostAt 0) [(0, 1)], ?_, by decide +kernel, ?_, by decide +kernel⟩
  · exact ((inSplit_steps 0).trans (.step (.refl _) (inSplit_lost 0 _ 0x8515b759ede5c930#64 (exH.xx [5]) (by decide +kernel) (by decide +kernel) (by decide +kernel) (by decide +kernel)
      (by decide +kernel) (by decide +kernel)))).trans (sched_steps modeNested splitCalls (lostAt 0) [(0, 1)])
  · refine sched_idle _ _ _ 2 _ (by decide) (fun u hu => ?_)
    have : (inSplit 0).pc u = .idle := sched_idle _ _ _ 2 _ (by decide) (fun _ _ => rfl) u hu
    unfold lostAt setPC
    have h0 : u ≠ 0 := fun e => by subst e; exact absurd hu (by decide)
    simp only [h0, if_false]; exact this

/-- C66 fails for Delete: it answers that the key is not there. -/
theorem C66_refuted_delete : ∃ s, Steps (pkExact modeNested) (begun exE exCfg exOps) s ∧ s.pc 5 = .ret (.bool false) ∧
    s.items = (begun exE exCfg exOps).items := by
  refine ⟨sched modeNested splitCalls (lostAt 5) [(5, 1)], ?_, by decide +kernel, by decide +kernel⟩
  exact ((inSplit_steps 5).trans (.step (.refl _) (inSplit_lost 5 _ 0x8515b759ede5c930#64 (exH.xx [5]) (by decide +kernel) (by decide +kernel) (by decide +kernel) (by decide +kernel)
    (by decide +kernel) (by decide +kernel)))).trans (sched_steps modeNested splitCalls (lostAt 5) [(5, 1)])

/-- C66 fails for Set: a Set of a new key, beside a split only, answers true; after both have returned the key is in no list and a Get
of it answers "not found". -/
theorem C66_refuted_set : ∃ s1 s2, Steps (pkExact modeNested) (begun exE exCfg exOps) s1 ∧ s1.pc 2 = .ret (.bool true) ∧
    s1.pc 1 = .ret (.bool true) ∧ s1.items.all (fun e => decide (e.key ≠ sk 69)) = true ∧
    Steps (pkExact modeNested) s1 s2 ∧ s2.pc 4 = .ret (.val none false) := by
  refine ⟨sched modeNested splitCalls (lostAt 2) [(2, 100), (1, 100)], _, ?_, by decide +kernel, by decide +kernel, by decide +kernel,
    sched_steps modeNested splitCalls _ [(4, 100)], by decide +kernel⟩
  exact ((inSplit_steps 2).trans (.step (.refl _) (inSplit_lost 2 _ 0x8715b759ede5c930#64 (exH.xx [69]) (by decide +kernel) (by decide +kernel) (by decide +kernel) (by decide +kernel)
    (by decide +kernel) (by decide +kernel)))).trans (sched_steps modeNested splitCalls (lostAt 2) _)

/-- C66 fails for a key whose hash is the boundary: Get panics. -/
theorem C66_refuted_panic : ∃ s, Steps (pkExact modeNested) (begun exE exCfg exOps) s ∧ s.pc 3 = .ret .panic := by
  refine ⟨sched modeNested splitCalls (lostAt 3) [(3, 1)], ?_, by decide +kernel⟩
  exact ((inSplit_steps 3).trans (.step (.refl _) (inSplit_lost 3 _ 0x8400000000000000#64 0 (by decide +kernel) (by decide +kernel) (by decide +kernel) (by decide +kernel)
    (by decide +kernel) (by decide +kernel)))).trans (sched_steps modeNested splitCalls (lostAt 3) [(3, 1)])

end SLM.Conc
