import Verif.Proofs.Conc11
import Verif.Props.Conc5
/-!
C92: the calls on one key are linearizable, unless two Sets insert it or two Deletes delete the same entry.  The specification is `cell` (SpecCell.lean), one key of a plain map.
-/
set_option autoImplicit false
set_option maxRecDepth 100000
namespace SLM.Conc
open History

variable {Pk : CSt → Call → Ref → Prop}

/-- The finished calls on the key with reversed hash `t` and conflict hash `c`, all of them and no others, can be put into one order such that no call comes
before a call that had returned when it began, and such that each of them answers as it would if they were made one after the other in this order on a
cell that holds `v0` at first. -/
def Linearizable (σ : Nat → CSt) (n : Nat) (t c : U64) (v0 : Option IVal) : Prop :=
  ∃ L : List Done, L.Nodup ∧ (∀ d, d ∈ L ↔ Performed σ n d ∧ d.cl.target = some (t, c)) ∧ L.Pairwise (fun a b => ¬ b.r < a.b) ∧
    cellRun v0 (L.map (·.cl)) = L.map (·.res)

/-- C92 in full: for every execution after a clean sequential history, at first the cell holds what a plain map holds after the history. -/
def C92_statement : Prop :=
  ∀ (m : Mode) (E : Env) (cfg : Cfg) (ops : List Op), Clean E cfg ops → ∀ (σ : Nat → CSt) (γ : Nat → Tid) (n : Nat) (k c : U64), σ 0 = begun E cfg ops →
    Exec (pkExact m) (fun _ _ _ => True) σ γ n → Clear (σ n) (rev64 k) c →
    Linearizable σ n (rev64 k) c (((Spec.PMap.empty cfg.itemFn).run E.H ops).1.m (k, c))

theorem begun_linInv {E : Env} {cfg : Cfg} {ops : List Op} (hcl : Clean E cfg ops) (t c : U64) : LinInv (begun E cfg ops) t c := by
  have u := begun_uinv hcl t c
  exact ⟨begun_j1 E cfg ops, begun_hitAt E cfg ops, u.conf, u.one, u.way⟩

/-- After a clean history the list holds what a plain map holds. -/
theorem begun_holds {E : Env} {cfg : Cfg} {ops : List Op} (hcl : Clean E cfg ops) {k c : U64} (hc : Clear (begun E cfg ops) (rev64 k) c) :
    holds (begun E cfg ops).items (rev64 k) = ((Spec.PMap.empty cfg.itemFn).run E.H ops).1.m (k, c) := by
  have h := congrArg (fun p => p.1.m (k, c)) hcl.refines.2.2
  simp only at h
  rw [← h]
  show _ = (lookup (run E (initSt cfg) ops).1.items k c).map (·.val)
  unfold holds lookup
  show (liveAt (run E (initSt cfg) ops).1.items (rev64 k)).map _ = _
  cases hl : liveAt (run E (initSt cfg) ops).1.items (rev64 k) with
  | none => rfl
  | some x =>
    obtain ⟨h1, h2, h3⟩ := liveAt_some_mem hl
    have := (hc x h1 h3).2
    simp [Option.filter, this]

/-- C92, for executions in which (`Orderly`): when a Set inserts the key, no other Set of the key is looking for it; no Delete of the key marks an entry
that another one has marked since it was found; no Set of the key gives up (C33), the order is kept, no call of the key locates a bucket that is being made; no other
key has the same primary hash, and it is no boundary (`Clear`).  Any number of Sets that find the key, Deletes and Gets of it, and calls on other keys, splits and Ranges may
overlap. -/
theorem C92_partial (pk : PkOk Pk) {E : Env} {cfg : Cfg} {ops : List Op} (hcl : Clean E cfg ops) {σ : Nat → CSt} {γ : Nat → Tid} {n : Nat} {k c : U64}
    (h0 : σ 0 = begun E cfg ops) (ex : Exec Pk (Orderly (rev64 k) c) σ γ n) (hc : Clear (σ n) (rev64 k) c) :
    Linearizable σ n (rev64 k) c (((Spec.PMap.empty cfg.itemFn).run E.H ops).1.m (k, c)) := by
  have hc0 : Clear (σ 0) (rev64 k) c := ex.clear hc n 0 (by omega)
  have := linear pk ex (by rw [h0]; exact fun _ => rfl) (by rw [h0]; exact begun_linInv hcl _ _) hc
  rw [h0] at hc0
  rw [← begun_holds hcl hc0, ← h0]
  exact this

/-- The same with conditions on the calls (`Polite`): the Sets of the key do not overlap each other, the Deletes of the key do not overlap each other.  A Set and a
Delete may overlap, Gets anything. -/
theorem C92_apart_partial (pk : PkOk Pk) {E : Env} {cfg : Cfg} {ops : List Op} (hcl : Clean E cfg ops) {σ : Nat → CSt} {γ : Nat → Tid} {n : Nat} {k c : U64}
    (h0 : σ 0 = begun E cfg ops) (ex : Exec Pk (Polite (rev64 k) c) σ γ n) (hc : Clear (σ n) (rev64 k) c) :
    Linearizable σ n (rev64 k) c (((Spec.PMap.empty cfg.itemFn).run E.H ops).1.m (k, c)) :=
  C92_partial pk hcl h0 (ex.polite pk (by rw [h0]; exact begun_j1 E cfg ops) (by rw [h0]; exact fun _ => rfl)) hc

/-! ### Executions with indices from executions -/

theorem CSteps.exec {P : CSt → Tid → CSt → Prop} {a b : CSt} (h : CSteps Pk P a b) : ∃ σ γ n, Exec Pk P σ γ n ∧ σ 0 = a ∧ σ n = b := by
  induction h with
  | refl => exact ⟨fun _ => a, fun _ => 0, 0, fun i hi => absurd hi (Nat.not_lt_zero _), rfl, rfl⟩
  | @step b' d g h1 st hp ih =>
    obtain ⟨σ, γ, n, hex, h2, h3⟩ := ih
    refine ⟨fun i => if i ≤ n then σ i else d, fun i => if i < n then γ i else g, n + 1, ?_, by simpa using h2, by simp⟩
    intro i hi
    by_cases hin : i < n
    · have h4 : i ≤ n := by omega
      have h5 : i + 1 ≤ n := by omega
      simp only [hin, h4, h5, if_true]
      exact hex i hin
    · have h4 : i = n := by omega
      subst h4
      simp only [le_refl, lt_irrefl, if_true, if_false, Nat.not_succ_le_self]
      rw [h3]; exact ⟨st, hp⟩

theorem Exec.append {P : CSt → Tid → CSt → Prop} {σ σ' : Nat → CSt} {γ γ' : Nat → Tid} {n n' : Nat} (h : Exec Pk P σ γ n) (h' : Exec Pk P σ' γ' n')
    (he : σ n = σ' 0) : Exec Pk P (fun i => if i ≤ n then σ i else σ' (i - n)) (fun i => if i < n then γ i else γ' (i - n)) (n + n') := by
  intro i hi
  by_cases hin : i < n
  · have h4 : i ≤ n := by omega
    have h5 : i + 1 ≤ n := by omega
    simp only [hin, h4, h5, if_true]
    exact h i hin
  · have h5 : ¬ i + 1 ≤ n := by omega
    simp only [hin, h5, if_false]
    have := h' (i - n) (by omega)
    have e1 : i + 1 - n = (i - n) + 1 := by omega
    rw [e1]
    by_cases hh : i ≤ n
    · have : i = n := by omega
      subst this
      simp only [le_refl, if_true, Nat.sub_self] at *
      rw [he]; exact this
    · simp only [hh, if_false]; exact this

theorem Step.to_pick {s s' : CSt} {g : Tid} {cl : Call} (st : Step Pk s g s') (h : s'.pc g = .pick cl) : s.pc g = .idle := by
  cases st <;> simp only [setPC_same] at h <;> try cases h
  case begin h1 _ => exact h1
  case beginSplit h1 _ => exact h1
  case lookHit => split at h <;> cases h
  case lookAdv => split at h <;> cases h
  case findAdv => split at h <;> cases h
  case rangeAdv => split at h <;> cases h

/-- A goroutine that was idle, was then seen at the start of a call and has returned in the end has performed this call. -/
theorem Exec.performed {P : CSt → Tid → CSt → Prop} {σ : Nat → CSt} {γ : Nat → Tid} {n : Nat} (ex : Exec Pk P σ γ n) {g : Tid} {cl : Call} {res : Res} {i : Nat}
    (hi : i ≤ n) (h0 : (σ 0).pc g = .idle) (h1 : (σ i).pc g = .pick cl) (h2 : (σ n).pc g = .ret res) :
    ∃ d, Performed σ n d ∧ d.g = g ∧ d.cl = cl ∧ d.res = res := by
  have hb : ∀ j, j ≤ n → (σ j).pc g = .pick cl → ∃ b, b < j ∧ (σ b).pc g = .idle ∧ (σ (b + 1)).pc g = .pick cl := by
    intro j
    induction j with
    | zero => intro _ h; rw [h0] at h; cases h
    | succ j ih =>
      intro hj h
      have st := (ex j (by omega)).1
      by_cases hg : g = γ j
      · subst hg; exact ⟨j, by omega, st.to_pick h, h⟩
      · rw [st.others hg] at h
        obtain ⟨b, hb, h3⟩ := ih (by omega) h
        exact ⟨b, by omega, h3⟩
  obtain ⟨b, hb1, hb2, hb3⟩ := hb i hi h1
  have hr : ∀ j, b + 1 ≤ j → j ≤ n → ∀ res, (σ j).pc g = .ret res → ∃ r, b < r ∧ r < j ∧ (∀ res', (σ r).pc g ≠ .ret res') ∧ (σ (r + 1)).pc g = .ret res := by
    intro j hj
    induction j, hj using Nat.le_induction with
    | base => intro _ res h; rw [hb3] at h; cases h
    | succ j hj ih =>
      intro hjn res h
      have st := (ex j (by omega)).1
      by_cases hg : g = γ j
      · subst hg; exact ⟨j, by omega, by omega, fun res' => st.not_ret res', h⟩
      · rw [st.others hg] at h
        obtain ⟨r, hr1, hr2, h3⟩ := ih (by omega) res h
        exact ⟨r, hr1, by omega, h3⟩
  obtain ⟨r, hr1, hr2, hr3, hr4⟩ := hr n (by omega) (le_refl _) res h2
  exact ⟨⟨g, cl, res, b, r⟩, ⟨hr1, hr2, hb2, hb3, hr3, hr4⟩, rfl, rfl, rfl⟩

theorem Steps.any {a b : CSt} (h : Steps Pk a b) : CSteps Pk (fun _ _ _ => True) a b := by
  induction h with
  | refl => exact .refl _
  | step _ st ih => exact .step ih st trivial

/-! ### C92 fails for all schedules -/

/-- Two goroutines begin a Delete of the same key, -/
def both1 : CSt := sched modeNested laterCalls (begun exE exCfg exOps) [(3, 1), (6, 1)]
/-- both find the entry, both mark it. -/
def both2 : CSt := sched modeNested laterCalls both1 [(3, 4), (6, 200), (3, 200)]

/-- C92 fails for all schedules: of two overlapping Deletes of one key both answer true, with nothing else going on; one after the other, the
second would answer false. -/
theorem C92_refuted : ¬ C92_statement := by
  intro hst
  have hi1 : ∀ u, 7 ≤ u → both1.pc u = .idle := sched_idle _ _ _ 7 _ (by decide) (fun _ _ => rfl)
  have hi2 : ∀ u, 7 ≤ u → both2.pc u = .idle := sched_idle _ _ _ 7 _ (by decide) hi1
  have k1 : both1.pc 3 = .pick (.del 0x0515b759ede5c930#64 0xa6#64) ∧ both1.pc 6 = .pick (.del 0x0515b759ede5c930#64 0xa6#64) := by decide +kernel
  have k2 : both2.pc 3 = .ret (.bool true) ∧ both2.pc 6 = .ret (.bool true) ∧ Clear both2 0x0515b759ede5c930#64 0xa6#64 ∧
      ∀ u, u < 7 → u ≠ 3 → u ≠ 6 → both2.pc u = .idle := by decide +kernel
  obtain ⟨σ1, γ1, n1, ex1, a1, b1⟩ := (sched_steps modeNested laterCalls (begun exE exCfg exOps) [(3, 1), (6, 1)]).any.exec
  obtain ⟨σ2, γ2, n2, ex2, a2, b2⟩ := (sched_steps modeNested laterCalls both1 [(3, 4), (6, 200), (3, 200)]).any.exec
  have hj : σ1 n1 = σ2 0 := by rw [a2]; exact b1
  have ex := ex1.append ex2 hj
  have e0 : (fun i => if i ≤ n1 then σ1 i else σ2 (i - n1)) 0 = begun exE exCfg exOps := by simpa using a1
  have em : (fun i => if i ≤ n1 then σ1 i else σ2 (i - n1)) n1 = both1 := by
    simp only [le_refl, if_true]; exact b1
  have en : (fun i => if i ≤ n1 then σ1 i else σ2 (i - n1)) (n1 + n2) = both2 := by
    by_cases h : n2 = 0
    · subst h; simp only [Nat.add_zero, le_refl, if_true]; rw [hj]; exact b2
    · have h1 : ¬ n1 + n2 ≤ n1 := by omega
      simp only [h1, if_false, Nat.add_sub_cancel_left]; exact b2
  generalize (fun i => if i ≤ n1 then σ1 i else σ2 (i - n1)) = σ at ex e0 em en
  generalize (fun i => if i < n1 then γ1 i else γ2 (i - n1)) = γ at ex
  have hrr : rev64 (rev64 0x0515b759ede5c930#64) = 0x0515b759ede5c930#64 := by decide +kernel
  obtain ⟨L, hL1, hL2, _, hL4⟩ := hst modeNested exE exCfg exOps exClean σ γ (n1 + n2) (rev64 0x0515b759ede5c930#64) 0xa6#64 e0 ex
    (by rw [hrr, en]; exact k2.2.2.1)
  rw [hrr] at hL2
  have perf : ∀ g, both1.pc g = .pick (.del 0x0515b759ede5c930#64 0xa6#64) → both2.pc g = .ret (.bool true) →
      ∃ d ∈ L, d.g = g := by
    intro g h1 h2
    obtain ⟨d, hd, h3, h4, _⟩ := ex.performed (i := n1) (g := g) (by omega) (by rw [e0]; rfl) (by rw [em]; exact h1) (by rw [en]; exact h2)
    exact ⟨d, (hL2 d).2 ⟨hd, by rw [h4]; rfl⟩, h3⟩
  have all : ∀ d ∈ L, d.cl = .del 0x0515b759ede5c930#64 0xa6#64 ∧ d.res = .bool true := by
    intro d hd
    obtain ⟨hp, ht⟩ := (hL2 d).1 hd
    have hfin := ex.stays (i := d.r + 1) (j := n1 + n2) hp.le (le_refl _) hp.returned
    rw [en] at hfin
    have hg : d.g = 3 ∨ d.g = 6 := by
      by_contra hno
      have hidle : both2.pc d.g = .idle := by
        by_cases h7 : d.g < 7
        · exact k2.2.2.2 d.g h7 (fun e => hno (Or.inl e)) (fun e => hno (Or.inr e))
        · exact hi2 d.g (Nat.le_of_not_lt h7)
      rw [hidle] at hfin; cases hfin
    have fin : both2.pc d.g = .ret (.bool true) ∧ both1.pc d.g = .pick (.del 0x0515b759ede5c930#64 0xa6#64) := by
      rcases hg with h | h
      · rw [h]; exact ⟨k2.1, k1.1⟩
      · rw [h]; exact ⟨k2.2.1, k1.2⟩
    obtain ⟨d', hp', h5, h6, h7⟩ := ex.performed (i := n1) (g := d.g) (by omega) (by rw [e0]; rfl) (by rw [em]; exact fin.2) (by rw [en]; exact fin.1)
    have hrr' : d.r = d'.r := by
      rcases Nat.lt_trichotomy d.r d'.r with h | h | h
      · have := ex.stays (i := d.r + 1) (j := d'.r) h (Nat.le_of_lt hp'.le) hp.returned
        rw [← h5] at this; exact absurd this (hp'.busy _)
      · exact h
      · have := ex.stays (i := d'.r + 1) (j := d.r) h (Nat.le_of_lt hp.le) hp'.returned
        rw [h5] at this; exact absurd this (hp.busy _)
    have := hp.unique ex hp' hrr'
    rw [this]; exact ⟨h6, h7⟩
  obtain ⟨d3, m3, g3⟩ := perf 3 k1.1 k2.1
  obtain ⟨d6, m6, g6⟩ := perf 6 k1.2 k2.2.1
  match L, all, m3, m6, hL4 with
  | [], _, m3, _, _ => cases m3
  | [d], _, m3, m6, _ =>
    rw [List.mem_singleton] at m3 m6
    rw [m3] at g3; rw [m6, g3] at g6; cases g6
  | a :: b :: rest, all, _, _, hL4 =>
    have ha := all a (by simp)
    have hb := all b (by simp)
    simp only [List.map_cons, cellRun, List.cons.injEq, ha.1, hb.1, hb.2] at hL4
    generalize ((Spec.PMap.empty exCfg.itemFn).run exE.H exOps).1.m (rev64 0x0515b759ede5c930#64, 0xa6#64) = v at hL4
    cases v <;> simp [cell] at hL4

/-! ### A schedule that meets the conditions -/

def seeksB (t : U64) (p : PC) : Bool :=
  match p with
  | .pick _ => false
  | .hit _ _ => false
  | p => inSetB t p

theorem seeksB_iff {t : U64} {p : PC} : seeksB t p = true ↔ Seeks t p := by
  cases p <;> simp only [seeksB, Seeks, inSetB_iff, Bool.false_eq_true]

def orderlyB (k : Nat) (t c : U64) (s : CSt) (g : Tid) (s' : CSt) : Bool :=
  aloneB k s g && !(isLost (s'.pc g)) &&
  (match s.pc g with
    | .link e _ => !(decide (e.rev = t)) || e.dummy || (List.range k).all (fun u => decide (u = g) || !(seeksB t (s.pc u)))
    | .hit (.del t' _) r => !(decide (t' = t)) || s.items.any (fun x => decide (x.ref = r) && !x.ignored)
    | .check e r => checkOk s.items e r
    | _ => true) &&
  (match s'.pc g with | .pick (.set t' c' _ _) => !(decide (t' = t)) || decide (c' = c) | _ => true)

theorem orderlyB_sound {k : Nat} {t c : U64} : ∀ s g s', (∀ u, k ≤ u → s.pc u = .idle) → orderlyB k t c s g s' = true → Orderly t c s g s' := by
  intro s g s' hi h
  simp only [orderlyB, Bool.and_eq_true] at h
  obtain ⟨⟨⟨h1, h2⟩, h3⟩, h4⟩ := h
  refine ⟨aloneB_sound hi h1, ?_, ?_, ?_, ?_, ?_⟩
  · intro cl p r hp; rw [hp] at h2; simp [isLost] at h2
  · intro e r hp h5 h6 u hu hs
    rw [hp] at h3
    simp only [h5, h6, decide_true, Bool.not_true, Bool.false_or, List.all_eq_true, List.mem_range, Bool.or_eq_true, decide_eq_true_eq] at h3
    by_cases hk : u < k
    · rcases h3 u hk with h | h
      · exact hu h
      · rw [seeksB_iff.2 hs] at h; cases h
    · rw [hi u (Nat.le_of_not_lt hk)] at hs; exact hs
  · intro c' r hp
    rw [hp] at h3
    simp only [decide_true, Bool.not_true, Bool.false_or, List.any_eq_true, Bool.and_eq_true, decide_eq_true_eq, Bool.not_eq_true'] at h3
    obtain ⟨x, hx, h5, h6⟩ := h3
    exact ⟨x, hx, h5, h6⟩
  · intro _ c' key v hp
    rw [hp] at h4
    simpa using h4
  · intro e r hp _ _
    rw [hp] at h3; exact h3

/-- Three Sets of one key with different values, four Gets, a Delete. -/
def turnsOf : Tid → Call
  | 0 => setCall 4 (exV 1)
  | 1 => getCall 4
  | 2 => delCall 4
  | 3 => setCall 4 (exV 8)
  | 4 => getCall 4
  | 5 => getCall 4
  | 6 => setCall 4 (exV 7)
  | _ => getCall 4

/-- The conditions of C92_partial are met: two Sets, two Gets and a Delete have found the entry of the key; it is deleted; another Get finds nothing; the first Set writes 1 to
the deleted entry and the first Get reads 1; a third Set inserts the key again with 7; the second Set writes 8 to the deleted entry and the second Get reads 8; the last
Get reads 7.  The order: the two late Sets and their Gets, the Delete, the Get that finds nothing, the third Set, the last Get. -/
example : ∃ s, CSteps (pkExact modeNested) (Orderly 0x0515b759ede5c930#64 0xa6#64) (begun exE exCfg exOps) s ∧ Clear s 0x0515b759ede5c930#64 0xa6#64 ∧
    s.pc 0 = .ret (.bool true) ∧ s.pc 1 = .ret (.val (exV 1) true) ∧ s.pc 2 = .ret (.bool true) ∧ s.pc 3 = .ret (.bool true) ∧
    s.pc 4 = .ret (.val (exV 8) true) ∧ s.pc 5 = .ret (.val none false) ∧ s.pc 6 = .ret (.bool true) ∧ s.pc 7 = .ret (.val (exV 7) true) := by
  have hi : ∀ u, 8 ≤ u → (begun exE exCfg exOps).pc u = .idle := fun _ _ => rfl
  have key : ((schedC (fun s u s' => orderlyB 8 0x0515b759ede5c930#64 0xa6#64 s u s') modeNested turnsOf 8 (begun exE exCfg exOps)
      [(0, 5), (1, 5), (2, 5), (3, 5), (4, 5), (2, 1), (5, 200), (0, 1), (1, 1), (6, 200), (3, 1), (4, 1), (7, 200)]).map (fun s =>
        decide (Clear s 0x0515b759ede5c930#64 0xa6#64) && decide (s.pc 0 = .ret (.bool true)) && decide (s.pc 1 = .ret (.val (exV 1) true)) &&
        decide (s.pc 2 = .ret (.bool true)) && decide (s.pc 3 = .ret (.bool true)) && decide (s.pc 4 = .ret (.val (exV 8) true)) &&
        decide (s.pc 5 = .ret (.val none false)) && decide (s.pc 6 = .ret (.bool true)) && decide (s.pc 7 = .ret (.val (exV 7) true)))) = some true := by decide +kernel
  obtain ⟨s, h1, h2⟩ := Option.map_eq_some_iff.1 key
  simp only [Bool.and_eq_true, decide_eq_true_eq] at h2
  obtain ⟨⟨⟨⟨⟨⟨⟨⟨k0, k1⟩, k2⟩, k3⟩, k4⟩, k5⟩, k6⟩, k7⟩, k8⟩ := h2
  exact ⟨s, (schedC_sound orderlyB_sound h1 hi).1, k0, k1, k2, k3, k4, k5, k6, k7, k8⟩

def inDelB (t : U64) (p : PC) : Bool :=
  match callOf p with
  | some (.del t' _) => decide (t' = t)
  | _ => false

theorem inDelB_iff {t : U64} {p : PC} : inDelB t p = true ↔ InDel t p := by
  unfold inDelB InDel
  cases callOf p with
  | none => simp
  | some cl => cases cl <;> simp

def politeB (k : Nat) (t c : U64) (s : CSt) (g : Tid) (s' : CSt) : Bool :=
  aloneB k s g && !(isLost (s'.pc g)) &&
  (!(decide (s.pc g = .idle)) || !(inSetB t (s'.pc g)) || (List.range k).all (fun u => decide (u = g) || !(inSetB t (s.pc u)))) &&
  (!(decide (s.pc g = .idle)) || !(inDelB t (s'.pc g)) || (List.range k).all (fun u => decide (u = g) || !(inDelB t (s.pc u)))) &&
  (match s.pc g with | .check e r => checkOk s.items e r | _ => true) &&
  (match s'.pc g with | .pick (.set t' c' _ _) => !(decide (t' = t)) || decide (c' = c) | _ => true)

theorem politeB_sound {k : Nat} {t c : U64} : ∀ s g s', (∀ u, k ≤ u → s.pc u = .idle) → politeB k t c s g s' = true → Polite t c s g s' := by
  intro s g s' hi h
  simp only [politeB, Bool.and_eq_true] at h
  obtain ⟨⟨⟨⟨⟨h1, h2⟩, h3⟩, h4⟩, h5⟩, h6⟩ := h
  refine ⟨aloneB_sound hi h1, ?_, ?_, ?_, ?_, ?_⟩
  · intro cl p r hp; rw [hp] at h2; simp [isLost] at h2
  · intro hid hw u hu hs
    rw [← inSetB_iff] at hw hs
    simp only [hid, hw, decide_true, Bool.not_true, Bool.false_or, List.all_eq_true, List.mem_range, Bool.or_eq_true, decide_eq_true_eq] at h3
    by_cases hk : u < k
    · rcases h3 u hk with h | h
      · exact hu h
      · rw [hs] at h; cases h
    · rw [hi u (Nat.le_of_not_lt hk)] at hs; cases hs
  · intro hid hw u hu hs
    rw [← inDelB_iff] at hw hs
    simp only [hid, hw, decide_true, Bool.not_true, Bool.false_or, List.all_eq_true, List.mem_range, Bool.or_eq_true, decide_eq_true_eq] at h4
    by_cases hk : u < k
    · rcases h4 u hk with h | h
      · exact hu h
      · rw [hs] at h; cases h
    · rw [hi u (Nat.le_of_not_lt hk)] at hs; cases hs
  · intro _ c' key v hp
    rw [hp] at h6
    simpa using h6
  · intro e r hp _ _
    rw [hp] at h5; exact h5

/-- A Set of a key, a Set of another key, Gets, a Delete, a second Set with another value. -/
def turnsOf2 : Tid → Call
  | 0 => setCall 4 (exV 1)
  | 1 => setCall 20 (exV 2)
  | 2 => getCall 4
  | 3 => delCall 4
  | 4 => getCall 4
  | 5 => setCall 4 (exV 7)
  | _ => getCall 4

/-- The conditions of C92_apart_partial are met: the key is stored (50); a Get of it (goroutine 2), a Delete of it (3) and the Set of a key whose entry comes right behind it (1)
are under way when it is set to 1; the Get answers 1; another Get of the key is under way (4) while it is deleted, it finds nothing; then it is set to 7, and read. -/
example : ∃ s, CSteps (pkExact modeNested) (Polite 0x0515b759ede5c930#64 0xa6#64) (begun exE exCfg exOps) s ∧ Clear s 0x0515b759ede5c930#64 0xa6#64 ∧
    s.pc 0 = .ret (.bool true) ∧ s.pc 1 = .ret (.bool true) ∧ s.pc 2 = .ret (.val (exV 1) true) ∧ s.pc 3 = .ret (.bool true) ∧
    s.pc 4 = .ret (.val none false) ∧ s.pc 5 = .ret (.bool true) ∧ s.pc 6 = .ret (.val (exV 7) true) := by
  have hi : ∀ u, 7 ≤ u → (begun exE exCfg exOps).pc u = .idle := fun _ _ => rfl
  have key : ((schedC (fun s u s' => politeB 7 0x0515b759ede5c930#64 0xa6#64 s u s') modeNested turnsOf2 7 (begun exE exCfg exOps)
      [(1, 20), (2, 5), (4, 1), (3, 3), (0, 200), (2, 200), (4, 1), (1, 200), (3, 200), (4, 200), (5, 300), (6, 200)]).map (fun s =>
        decide (Clear s 0x0515b759ede5c930#64 0xa6#64) && decide (s.pc 0 = .ret (.bool true)) && decide (s.pc 1 = .ret (.bool true)) &&
        decide (s.pc 2 = .ret (.val (exV 1) true)) && decide (s.pc 3 = .ret (.bool true)) && decide (s.pc 4 = .ret (.val none false)) &&
        decide (s.pc 5 = .ret (.bool true)) && decide (s.pc 6 = .ret (.val (exV 7) true)))) = some true := by decide +kernel
  obtain ⟨s, h1, h2⟩ := Option.map_eq_some_iff.1 key
  simp only [Bool.and_eq_true, decide_eq_true_eq] at h2
  obtain ⟨⟨⟨⟨⟨⟨⟨k0, k1⟩, k2⟩, k3⟩, k4⟩, k5⟩, k6⟩, k7⟩ := h2
  exact ⟨s, (schedC_sound politeB_sound h1 hi).1, k0, k1, k2, k3, k4, k5, k6, k7⟩

end SLM.Conc
