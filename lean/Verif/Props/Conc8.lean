import Verif.Proofs.Conc12
import Verif.Props.Conc7
import Verif.Props.Conc4
/-!
C94: one writer, any number of readers.  If Sets and Deletes (and the splits they start) are made one at a time, all calls are linearizable, however Gets and
Ranges overlap them, unless a Get locates a bucket that is just being made (C66).
-/
set_option autoImplicit false
set_option maxRecDepth 100000
namespace SLM.Conc
open History

variable {Pk : CSt → Call → Ref → Prop}

/-- One writer at a time: a Set, Delete or split, or a search on another map of the process, starts only when no such call is in progress. -/
def Serial (s : CSt) (g : Tid) (s' : CSt) : Prop := s.pc g = .idle → Writer (s'.pc g) → ∀ u, u ≠ g → ¬ Writer (s.pc u)

/-- No Set of a key with the same primary hash and another conflict hash starts. -/
def NoTwin (K : U64 × U64 → Prop) (s : CSt) (g : Tid) (s' : CSt) : Prop :=
  s.pc g = .idle → ∀ k, K k → ∀ c' key v, s'.pc g = .pick (.set k.1 c' key v) → c' = k.2

/-- C94 in full. -/
def C94_statement : Prop :=
  ∀ (m : Mode) (E : Env) (cfg : Cfg) (ops : List Op), Clean E cfg ops → ∀ (σ : Nat → CSt) (γ : Nat → Tid) (n : Nat) (K : U64 × U64 → Prop), σ 0 = begun E cfg ops →
    Exec (pkExact m) (fun s g s' => Serial s g s' ∧ NoTwin K s g s') σ γ n → (∀ k, K k → Clear (σ n) k.1 k.2) → MapLinearizable σ n K (plainAfter E cfg ops)

/-- A key that lies on no boundary is below the last sentinel. -/
theorem begun_above {E : Env} {cfg : Cfg} {ops : List Op} {t c : U64} (hc : Clear (begun E cfg ops) t c) : ∃ m ∈ (begun E cfg ops).items, t < m.rev := by
  have h := run_inv E (inv_init cfg) ops
  obtain ⟨rest, hr⟩ := h.bi.head
  have hm := h.ii.has [] (by rw [hr]; simp)
  refine ⟨_, hm, ?_⟩
  show t < maxU64
  apply lt_maxU64
  rintro rfl
  have := (hc _ hm rfl).1
  cases this

/-- C94, if no Get of a key of `K` locates a bucket whose sentinel is not linked yet. -/
theorem C94_partial (pk : PkOk Pk) {E : Env} {cfg : Cfg} {ops : List Op} (hcl : Clean E cfg ops) {σ : Nat → CSt} {γ : Nat → Tid} {n : Nat} {K : U64 × U64 → Prop}
    (h0 : σ 0 = begun E cfg ops)
    (ex : Exec Pk (fun s g s' => Serial s g s' ∧ NoTwin K s g s' ∧ ∀ k, K k → ∀ c' p r, s'.pc g ≠ .lost (.get k.1 c') p r) σ γ n)
    (hc : ∀ k, K k → Clear (σ n) k.1 k.2) : MapLinearizable σ n K (plainAfter E cfg ops) := by
  refine C93_apart_partial pk hcl h0 (fun i hi => ⟨(ex i hi).1, fun k hk => ?_⟩) hc
  have exk : Exec Pk (OneWriter k.1 k.2) σ γ n := fun i hi => ⟨(ex i hi).1, (ex i hi).2.1, (ex i hi).2.2.2 k hk, fun h => (ex i hi).2.2.1 h k hk⟩
  have hc0 : Clear (σ 0) k.1 k.2 := ex.clear (hc k hk) n 0 (by omega)
  rw [h0] at hc0
  exact (exk.oneWriter pk (by rw [h0]; exact begun_j1 E cfg ops) (by rw [h0]; exact fun _ => rfl) (by rw [h0]; exact begun_above hc0) i hi).2

/-! ### A schedule that meets the conditions -/

def Call.writesB : Call → Bool
  | .get _ _ => false
  | .range => false
  | _ => true

def writerB : PC → Bool
  | .idle => false
  | .ret _ => false
  | .walk _ _ _ => false
  | .pick cl => cl.writesB
  | .look cl _ _ _ _ => cl.writesB
  | .lost cl _ _ => cl.writesB
  | .hit cl _ => cl.writesB
  | .miss cl _ => cl.writesB
  | _ => true

theorem writesB_iff {cl : Call} : cl.writesB = true ↔ cl.writes := by
  cases cl with
  | get _ _ => exact iff_of_false Bool.noConfusion id
  | range => exact iff_of_false Bool.noConfusion id
  | _ => exact iff_of_true rfl trivial
theorem writerB_iff {p : PC} : writerB p = true ↔ Writer p := by
  cases p with
  | pick cl => exact writesB_iff (cl := cl)
  | look cl _ _ _ _ => exact writesB_iff (cl := cl)
  | lost cl _ _ => exact writesB_iff (cl := cl)
  | hit cl _ => exact writesB_iff (cl := cl)
  | miss cl _ => exact writesB_iff (cl := cl)
  | idle => exact iff_of_false Bool.noConfusion id
  | ret _ => exact iff_of_false Bool.noConfusion id
  | walk _ _ _ => exact iff_of_false Bool.noConfusion id
  | _ => exact iff_of_true rfl trivial

def serialB (k : Nat) (s : CSt) (g : Tid) (s' : CSt) : Bool :=
  !(decide (s.pc g = .idle)) || !(writerB (s'.pc g)) || (List.range k).all (fun u => decide (u = g) || !(writerB (s.pc u)))

theorem serialB_sound {k : Nat} : ∀ s g s', (∀ u, k ≤ u → s.pc u = .idle) → serialB k s g s' = true → Serial s g s' := by
  intro s g s' hi h hid hw u hu hs
  rw [← writerB_iff] at hw hs
  simp only [serialB, hid, hw, decide_true, Bool.not_true, Bool.false_or, List.all_eq_true, List.mem_range, Bool.or_eq_true, decide_eq_true_eq] at h
  by_cases hk : u < k
  · rcases h u hk with h | h
    · exact hu h
    · rw [hs] at h; cases h
  · rw [hi u (Nat.le_of_not_lt hk)] at hs; cases hs

def noTwinB (l : List (U64 × U64)) (s' : CSt) (g : Tid) : Bool :=
  match s'.pc g with
  | .pick (.set t' c' _ _) => l.all (fun k => !(decide (t' = k.1)) || decide (c' = k.2))
  | _ => true

theorem noTwinB_sound {l : List (U64 × U64)} {s s' : CSt} {g : Tid} (h : noTwinB l s' g = true) : NoTwin (· ∈ l) s g s' := by
  intro _ k hk c' key v hp
  simp only [noTwinB, hp, List.all_eq_true, Bool.or_eq_true, Bool.not_eq_true', decide_eq_false_iff_not, decide_eq_true_eq] at h
  rcases h k hk with h | h
  · exact absurd rfl h
  · exact h

/-- One writer after the other sets key 4, splits the bucket of key 5, deletes key 5 and sets key 20; Gets of all three keys overlap them. -/
def readMany : Tid → Call
  | 0 => setCall 4 (exV 1)
  | 1 => .split 0x8400000000000000#64 [4, 8]
  | 2 => delCall 5
  | 3 => setCall 20 (exV 2)
  | 4 => getCall 4
  | 5 => getCall 5
  | 6 => getCall 5
  | 7 => getCall 20
  | _ => getCall 5

def manyKeys : List (U64 × U64) := [(0x0515b759ede5c930#64, 0xa6#64), (0x0d15b759ede5c930#64, 0xb6#64), (0x8515b759ede5c930#64, exH.xx [5])]

/-- The conditions of C94_partial are met: the Get of key 4 and the Gets 5 and 6 of key 5 have begun when key 4 is set; Get 5 has located its bucket when the split starts and
ends while the split is under way; Get 6 ends while the Delete is under way; the Get of key 20 begins in the middle of the Set of key 20; the last Get finds nothing. -/
example : ∃ s, CSteps (pkExact modeNested) (fun s g s' => Serial s g s' ∧ NoTwin (· ∈ manyKeys) s g s' ∧ ∀ k, k ∈ manyKeys → ∀ c' p r, s'.pc g ≠ .lost (.get k.1 c') p r)
      (begun exE exCfg exOps) s ∧ (∀ k, k ∈ manyKeys → Clear s k.1 k.2) ∧
    s.pc 0 = .ret (.bool true) ∧ s.pc 1 = .ret (.bool true) ∧ s.pc 2 = .ret (.bool true) ∧ s.pc 3 = .ret (.bool true) ∧ s.pc 4 = .ret (.val (exV 1) true) ∧
    s.pc 5 = .ret (.val (exV 60) true) ∧ s.pc 6 = .ret (.val (exV 60) true) ∧ s.pc 7 = .ret (.val (exV 2) true) ∧ s.pc 8 = .ret (.val none false) := by
  have hi : ∀ u, 9 ≤ u → (begun exE exCfg exOps).pc u = .idle := fun _ _ => rfl
  have key : ((schedC (fun s u s' => serialB 9 s u s' && noTwinB manyKeys s' u && !(isLost (s'.pc u))) modeNested readMany 9 (begun exE exCfg exOps)
      [(4, 2), (5, 2), (6, 1), (0, 200), (4, 200), (1, 4), (5, 200), (1, 200), (6, 3), (2, 3), (6, 200), (2, 200), (3, 12), (7, 3), (8, 2), (3, 300), (7, 200), (8, 200)]).map (fun s =>
        manyKeys.all (fun k => decide (Clear s k.1 k.2)) && decide (s.pc 0 = .ret (.bool true)) && decide (s.pc 1 = .ret (.bool true)) &&
        decide (s.pc 2 = .ret (.bool true)) && decide (s.pc 3 = .ret (.bool true)) && decide (s.pc 4 = .ret (.val (exV 1) true)) &&
        decide (s.pc 5 = .ret (.val (exV 60) true)) && decide (s.pc 6 = .ret (.val (exV 60) true)) && decide (s.pc 7 = .ret (.val (exV 2) true)) &&
        decide (s.pc 8 = .ret (.val none false)))) = some true := by decide +kernel
  obtain ⟨s, h1, h2⟩ := Option.map_eq_some_iff.1 key
  simp only [Bool.and_eq_true, decide_eq_true_eq, List.all_eq_true] at h2
  obtain ⟨⟨⟨⟨⟨⟨⟨⟨⟨k0, k1⟩, k2⟩, k3⟩, k4⟩, k5⟩, k6⟩, k7⟩, k8⟩, k9⟩ := h2
  refine ⟨s, (schedC_sound (P := fun s g s' => Serial s g s' ∧ NoTwin (· ∈ manyKeys) s g s' ∧ ∀ k, k ∈ manyKeys → ∀ c' p r, s'.pc g ≠ .lost (.get k.1 c') p r) ?_ h1 hi).1,
    k0, k1, k2, k3, k4, k5, k6, k7, k8, k9⟩
  intro s g s' hid h
  simp only [Bool.and_eq_true] at h
  refine ⟨serialB_sound s g s' hid h.1.1, noTwinB_sound h.1.2, ?_⟩
  intro k _ c' p r hp
  rw [hp] at h; simp [isLost] at h

/-! ### C94 fails for all schedules -/

theorem CSteps.exec2 {P : CSt → Tid → CSt → Prop} {a m b : CSt} (h : CSteps Pk P a m) (h' : CSteps Pk P m b) :
    ∃ σ γ n i, Exec Pk P σ γ n ∧ i ≤ n ∧ σ 0 = a ∧ σ i = m ∧ σ n = b := by
  obtain ⟨σ1, γ1, n1, ex1, a1, b1⟩ := h.exec
  obtain ⟨σ2, γ2, n2, ex2, a2, b2⟩ := h'.exec
  have hj : σ1 n1 = σ2 0 := by rw [a2]; exact b1
  refine ⟨_, _, n1 + n2, n1, ex1.append ex2 hj, by omega, by simpa using a1, by simpa using b1, ?_⟩
  by_cases h : n2 = 0
  · subst h; simp only [Nat.add_zero, le_refl, if_true]; rw [hj]; exact b2
  · have h1 : ¬ n1 + n2 ≤ n1 := by omega
    simp only [h1, if_false, Nat.add_sub_cancel_left]; exact b2

/-- A goroutine performs one call. -/
theorem Performed.same {P : CSt → Tid → CSt → Prop} {σ : Nat → CSt} {γ : Nat → Tid} {n : Nat} (ex : Exec Pk P σ γ n) {d d' : Done} (hp : Performed σ n d) (hp' : Performed σ n d')
    (hg : d'.g = d.g) : d = d' := by
  refine hp.unique ex hp' ?_
  rcases Nat.lt_trichotomy d.r d'.r with h | h | h
  · have := ex.stays (i := d.r + 1) (j := d'.r) h (Nat.le_of_lt hp'.le) hp.returned
    rw [← hg] at this; exact absurd this (hp'.busy _)
  · exact h
  · have := ex.stays (i := d'.r + 1) (j := d.r) h (Nat.le_of_lt hp.le) hp'.returned
    rw [hg] at this; exact absurd this (hp.busy _)

/-- C94 fails for all schedules: with nothing but one split going on, a Get of a key that is stored all the time answers "not found" (C66). -/
theorem C94_refuted : ¬ C94_statement := by
  intro hst
  let P : CSt → Tid → CSt → Prop := fun s g s' => Serial s g s' ∧ NoTwin (· ∈ [(0x8515b759ede5c930#64, exH.xx [5])]) s g s'
  have hi : ∀ u, 2 ≤ u → (begun exE exCfg exOps).pc u = .idle := fun _ _ => rfl
  have key : ((schedC (fun s u s' => serialB 2 s u s' && noTwinB [(0x8515b759ede5c930#64, exH.xx [5])] s' u) modeNested splitCalls 2 (begun exE exCfg exOps) [(1, 5), (0, 1)]).map (fun s =>
      decide (s.pc 0 = .pick (.get 0x8515b759ede5c930#64 (exH.xx [5]))) && decide ((s.pc 1).newE = some (dummyEntry [4, 8] 0x8400000000000000#64)) &&
      decide (∀ d ∈ s.items, d.dummy = true → d.rev ≤ 0x8515b759ede5c930#64 → d.rev < 0x8400000000000000#64) && decide (∃ d ∈ s.items, d.ref = .dummy [8, 8]) &&
      decide (Clear s 0x8515b759ede5c930#64 (exH.xx [5])))) = some true := by decide +kernel
  obtain ⟨s1, h1, h2⟩ := Option.map_eq_some_iff.1 key
  simp only [Bool.and_eq_true, decide_eq_true_eq] at h2
  obtain ⟨⟨⟨⟨k0, k1⟩, k2⟩, k3⟩, k4⟩ := h2
  obtain ⟨c1, hid⟩ := schedC_sound (P := P) (fun s g s' hid h => by
    simp only [Bool.and_eq_true] at h
    exact ⟨serialB_sound s g s' hid h.1, noTwinB_sound h.2⟩) h1 hi
  have busy : ∀ s s' : CSt, s.pc 0 ≠ .idle → P s 0 s' := fun s s' h => ⟨fun h' => absurd h' h, fun h' => absurd h' h⟩
  have st1 : Step (pkExact modeNested) s1 0 (setPC s1 0 (.lost (.get 0x8515b759ede5c930#64 (exH.xx [5])) [4, 8] 0x8400000000000000#64)) :=
    .pickLost _ _ _ _ _ _ _ k0 rfl ⟨⟨1, k1⟩, 4, 8, [8], rfl, by simp, by decide, by decide, k3⟩ (by decide) k2
  have st2 := Step.lostGet (Pk := pkExact modeNested) (setPC s1 0 (.lost (.get 0x8515b759ede5c930#64 (exH.xx [5])) [4, 8] 0x8400000000000000#64)) 0
    0x8515b759ede5c930#64 (exH.xx [5]) [4, 8] 0x8400000000000000#64 (setPC_same _ _ _) (by decide)
  have c2 : CSteps (pkExact modeNested) P s1 _ := .step (.step (.refl _) st1 (busy _ _ (by rw [k0]; simp))) st2 (busy _ _ (by rw [setPC_same]; simp))
  obtain ⟨σ, γ, n, i, ex, hin, e0, ei, en⟩ := c1.exec2 c2
  obtain ⟨L, hL1, hL2, _, hL4⟩ := hst modeNested exE exCfg exOps exClean σ γ n _ e0 ex (by
    intro k hk
    rw [List.mem_singleton] at hk
    subst hk
    rw [en]; exact k4)
  obtain ⟨d, hd, g1, g2, g3⟩ := ex.performed (i := i) (g := 0) (cl := .get 0x8515b759ede5c930#64 (exH.xx [5])) (res := .val none false) hin (by rw [e0]; rfl) (by rw [ei]; exact k0)
    (by rw [en]; exact setPC_same _ _ _)
  have all : ∀ d' ∈ L, d' = d := by
    intro d' hd'
    have hp := ((hL2 d').1 hd').1
    have hfin := ex.stays (i := d'.r + 1) (j := n) hp.le (le_refl _) hp.returned
    refine hp.same ex hd ?_
    rw [g1]
    by_contra hne
    have hne : d'.g ≠ 0 := fun e => hne e.symm
    rw [en, setPC_ne _ _ hne, setPC_ne _ _ hne] at hfin
    by_cases h2 : 2 ≤ d'.g
    · rw [hid _ h2] at hfin; cases hfin
    · have h3 : d'.g = 1 := by
        have aux : ∀ x : Nat, ¬ 2 ≤ x → x ≠ 0 → x = 1 := by omega
        exact aux _ h2 hne
      rw [h3] at hfin
      rw [hfin] at k1; cases k1
  have hdL : d ∈ L := (hL2 d).2 ⟨hd, (0x8515b759ede5c930#64, exH.xx [5]), by rw [g2]; rfl, by simp⟩
  have hpl : plainAfter exE exCfg exOps (0x8515b759ede5c930#64, exH.xx [5]) = some (exV 60) := by decide +kernel
  match L, all, hdL, hL4 with
  | [], _, hdL, _ => cases hdL
  | a :: rest, all, _, hL4 =>
    have ha := all a (by simp)
    subst ha
    simp only [List.map_cons, cellsRun, List.cons.injEq, g2, g3, cells, Call.target, hpl, cell] at hL4
    exact absurd hL4.1 (by decide)

end SLM.Conc
