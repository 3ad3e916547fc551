import Verif.Props.Conc6
/-!
C93: the map as a whole is linearizable, under the conditions of C92 for every key.  The specification is `cells` (SpecCell.lean), a plain map.
-/
set_option autoImplicit false
set_option maxRecDepth 100000
namespace SLM.Conc
open History

variable {Pk : CSt → Call → Ref → Prop}

/-- The finished Set, Get and Delete calls on keys in `K`, all of them and no others, can be put into one order such that no call comes before a call that had
returned when it began, and such that each of them answers as it would if they were made one after the other in this order on a plain map that is `m0` at first. -/
def MapLinearizable (σ : Nat → CSt) (n : Nat) (K : U64 × U64 → Prop) (m0 : U64 × U64 → Option IVal) : Prop :=
  ∃ L : List Done, L.Nodup ∧ (∀ d, d ∈ L ↔ Performed σ n d ∧ ∃ k, d.cl.target = some k ∧ K k) ∧ L.Pairwise (fun a b => ¬ b.r < a.b) ∧
    cellsRun m0 (L.map (·.cl)) = L.map (·.res)

/-- What a plain map holds after the history `ops`, by reversed hash and conflict hash. -/
def plainAfter (E : Env) (cfg : Cfg) (ops : List Op) (k : U64 × U64) : Option IVal := ((Spec.PMap.empty cfg.itemFn).run E.H ops).1.m (rev64 k.1, k.2)

/-- C93 in full: every execution after a clean history; no two keys of `K` share the primary hash, none lies on a boundary. -/
def C93_statement : Prop :=
  ∀ (m : Mode) (E : Env) (cfg : Cfg) (ops : List Op), Clean E cfg ops → ∀ (σ : Nat → CSt) (γ : Nat → Tid) (n : Nat) (K : U64 × U64 → Prop), σ 0 = begun E cfg ops →
    Exec (pkExact m) (fun _ _ _ => True) σ γ n → (∀ k, K k → Clear (σ n) k.1 k.2) → MapLinearizable σ n K (plainAfter E cfg ops)

/-- C93, for executions in which every key of `K` satisfies the conditions of C92_partial. -/
theorem C93_partial (pk : PkOk Pk) {E : Env} {cfg : Cfg} {ops : List Op} (hcl : Clean E cfg ops) {σ : Nat → CSt} {γ : Nat → Tid} {n : Nat} {K : U64 × U64 → Prop}
    (h0 : σ 0 = begun E cfg ops) (ex : Exec Pk (fun s g s' => ∀ k, K k → Orderly k.1 k.2 s g s') σ γ n) (hc : ∀ k, K k → Clear (σ n) k.1 k.2) :
    MapLinearizable σ n K (plainAfter E cfg ops) := by
  refine linear_map pk ex (by rw [h0]; exact fun _ => rfl) (fun k _ => by rw [h0]; exact begun_linInv hcl _ _) hc (fun k hk => ?_)
  have hc0 : Clear (σ 0) k.1 k.2 := ex.clear (hc k hk) n 0 (by omega)
  rw [h0] at hc0 ⊢
  have := begun_holds hcl (k := rev64 k.1) (c := k.2) (by rw [rev64_rev64]; exact hc0)
  rw [rev64_rev64] at this
  exact this

/-- The same with conditions on the calls: the Sets of a key of `K` do not overlap each other, the Deletes of a key of `K` do not overlap each other. -/
theorem C93_apart_partial (pk : PkOk Pk) {E : Env} {cfg : Cfg} {ops : List Op} (hcl : Clean E cfg ops) {σ : Nat → CSt} {γ : Nat → Tid} {n : Nat} {K : U64 × U64 → Prop}
    (h0 : σ 0 = begun E cfg ops) (ex : Exec Pk (fun s g s' => ∀ k, K k → Polite k.1 k.2 s g s') σ γ n) (hc : ∀ k, K k → Clear (σ n) k.1 k.2) :
    MapLinearizable σ n K (plainAfter E cfg ops) := by
  refine C93_partial pk hcl h0 (fun i hi => ⟨(ex i hi).1, fun k hk => ?_⟩) hc
  have exk : Exec Pk (Polite k.1 k.2) σ γ n := fun i hi => ⟨(ex i hi).1, (ex i hi).2 k hk⟩
  exact (exk.polite pk (by rw [h0]; exact begun_j1 E cfg ops) (by rw [h0]; exact fun _ => rfl) i hi).2

theorem cellsRun_one {m : U64 × U64 → Option IVal} {k : U64 × U64} (l : List Call) (h : ∀ cl ∈ l, cl.target = some k) : cellsRun m l = cellRun (m k) l := by
  induction l generalizing m with
  | nil => rfl
  | cons cl l ih =>
    have e : cells m cl = (fun k' => if k' = k then (cell (m k) cl).1 else m k', (cell (m k) cl).2) := by
      unfold cells; rw [h cl (by simp)]
    simp only [cellsRun, cellRun, e]
    rw [ih (fun c' h' => h c' (by simp [h']))]
    simp

/-- C93 fails for all schedules, already for one key: two overlapping Deletes (C92_refuted). -/
theorem C93_refuted : ¬ C93_statement := by
  intro hst
  apply C92_refuted
  intro m E cfg ops hcl σ γ n k c h0 ex hc
  obtain ⟨L, h1, h2, h3, h4⟩ := hst m E cfg ops hcl σ γ n (fun k' => k' = (rev64 k, c)) h0 ex (by rintro k' rfl; exact hc)
  have hm : ∀ d, d ∈ L ↔ Performed σ n d ∧ d.cl.target = some (rev64 k, c) := by
    intro d; rw [h2]; simp
  refine ⟨L, h1, hm, h3, ?_⟩
  rw [cellsRun_one (k := (rev64 k, c)) _ (by
    intro cl hcl
    obtain ⟨d, hd, rfl⟩ := List.mem_map.1 hcl
    exact ((hm d).1 hd).2)] at h4
  have e : plainAfter E cfg ops (rev64 k, c) = ((Spec.PMap.empty cfg.itemFn).run E.H ops).1.m (k, c) := by
    unfold plainAfter; rw [rev64_rev64]
  rw [← e]; exact h4

/-- Calls on two keys, 4 (stored) and 20 (not stored, its entry comes right behind the one of 4). -/
def twoKeys : Tid → Call
  | 0 => setCall 4 (exV 1)
  | 1 => setCall 20 (exV 2)
  | 2 => getCall 4
  | 3 => delCall 4
  | 4 => getCall 20
  | 5 => setCall 4 (exV 7)
  | 6 => delCall 20
  | _ => getCall 20

/-- The conditions are met for the two keys together: a Set of each key, Gets of both and a Delete overlap; then key 4 is set again while 20 is deleted and read. -/
example : ∃ s, CSteps (pkExact modeNested) (fun s g s' => ∀ k, (k = (0x0515b759ede5c930#64, 0xa6#64) ∨ k = (0x0d15b759ede5c930#64, 0xb6#64)) → Orderly k.1 k.2 s g s')
      (begun exE exCfg exOps) s ∧
    (∀ k, (k = (0x0515b759ede5c930#64, 0xa6#64) ∨ k = (0x0d15b759ede5c930#64, 0xb6#64)) → Clear s k.1 k.2) ∧
    s.pc 0 = .ret (.bool true) ∧ s.pc 1 = .ret (.bool true) ∧ s.pc 2 = .ret (.val (exV 1) true) ∧ s.pc 3 = .ret (.bool true) ∧
    s.pc 4 = .ret (.val none false) ∧ s.pc 5 = .ret (.bool true) ∧ s.pc 6 = .ret (.bool true) ∧ s.pc 7 = .ret (.val (exV 2) true) := by
  have hi : ∀ u, 8 ≤ u → (begun exE exCfg exOps).pc u = .idle := fun _ _ => rfl
  have key : ((schedC (fun s u s' => orderlyB 8 0x0515b759ede5c930#64 0xa6#64 s u s' && orderlyB 8 0x0d15b759ede5c930#64 0xb6#64 s u s') modeNested twoKeys 8 (begun exE exCfg exOps)
      [(1, 20), (2, 5), (3, 3), (4, 200), (0, 200), (2, 200), (1, 200), (3, 200), (7, 5), (6, 200), (5, 300), (7, 200)]).map (fun s =>
        decide (Clear s 0x0515b759ede5c930#64 0xa6#64) && decide (Clear s 0x0d15b759ede5c930#64 0xb6#64) && decide (s.pc 0 = .ret (.bool true)) && decide (s.pc 1 = .ret (.bool true)) &&
        decide (s.pc 2 = .ret (.val (exV 1) true)) && decide (s.pc 3 = .ret (.bool true)) && decide (s.pc 4 = .ret (.val none false)) &&
        decide (s.pc 5 = .ret (.bool true)) && decide (s.pc 6 = .ret (.bool true)) && decide (s.pc 7 = .ret (.val (exV 2) true)))) = some true := by decide +kernel
  obtain ⟨s, h1, h2⟩ := Option.map_eq_some_iff.1 key
  simp only [Bool.and_eq_true, decide_eq_true_eq] at h2
  obtain ⟨⟨⟨⟨⟨⟨⟨⟨⟨k0, k0'⟩, k1⟩, k2⟩, k3⟩, k4⟩, k5⟩, k6⟩, k7⟩, k8⟩ := h2
  refine ⟨s, (schedC_sound (P := fun s g s' => ∀ k, (k = (0x0515b759ede5c930#64, 0xa6#64) ∨ k = (0x0d15b759ede5c930#64, 0xb6#64)) → Orderly k.1 k.2 s g s') ?_ h1 hi).1, ?_, k1, k2, k3, k4, k5, k6, k7, k8⟩
  · intro s g s' hid h k hk
    rw [Bool.and_eq_true] at h
    rcases hk with rfl | rfl
    · exact orderlyB_sound s g s' hid h.1
    · exact orderlyB_sound s g s' hid h.2
  · rintro k (rfl | rfl)
    · exact k0
    · exact k0'

end SLM.Conc
