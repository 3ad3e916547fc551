import Verif.Proofs.Locate
import Verif.Props.Static
import Verif.Props.Crash
/-!
C97: FindBucket answers with the nearest bucket: of all buckets in the bucket list the one with the greatest boundary not above the bit-reversed
hash.  (`st.blist` is the bucket list, `[]` the root whose sentinel closes the item list with boundary 2^64 - 1; `(st.mem p).rev` is the boundary of the
bucket `p`.  FindBucket may answer with a child 0 that stands for its parent and has its boundary.)
-/
set_option autoImplicit false
set_option maxRecDepth 20000
namespace SLM
open History

/-- The bucket `b` is the nearest at or below `r`. -/
def Nearest (st : St) (r : U64) (b : Path) : Prop :=
  (st.mem b).rev ≤ r ∧ ∀ q ∈ st.blist, q ≠ [] → (st.mem q).rev ≤ r → (st.mem q).rev ≤ (st.mem b).rev

theorem nearest_owner {st : St} (h : Inv st) (r : U64) : Nearest st r (findBucket st.mem r) ↔
    ∀ q ∈ st.blist, q ≠ [] → bval q ≤ r.toNat → bval q ≤ bval (basePath st.mem (findBucket st.mem r)) := by
  obtain ⟨h1, h2, h3⟩ := findBucket_spec h.bi.ti r
  have hb : (st.mem (findBucket st.mem r)).rev.toNat = bval (basePath st.mem (findBucket st.mem r)) := by
    rw [(owner_val h.bi r).2]; exact (h.bi.ti.val _ h2 h1).1
  constructor
  · rintro ⟨_, h4⟩ q hq hn hle
    have e := h.bi.rev_toNat hq hn
    have := h4 q hq hn (by rw [BitVec.le_def, e]; exact hle)
    rw [BitVec.le_def, e, hb] at this
    exact this
  · intro h4
    refine ⟨h3, fun q hq hn hle => ?_⟩
    have e := h.bi.rev_toNat hq hn
    rw [BitVec.le_def, e] at hle
    rw [BitVec.le_def, e, hb]
    exact h4 q hq hn hle

theorem Reachable.nz {E : Env} {st : St} (h : Reachable E st) : NZ st.mem := by
  obtain ⟨c, ops, rfl⟩ := h
  exact run_nz E (inv_init c) (init_nz c) ops

/-- C97, exactly where it holds: in every reachable map and for every reversed hash `r`, FindBucket answers with the nearest bucket if and only if no
boundary lies strictly above the last multiple of sixteen and not above `r`. -/
theorem C97_iff {E : Env} {st : St} (h : Reachable E st) (r : U64) :
    Nearest st r (findBucket st.mem r) ↔
      ¬ ∃ q ∈ st.blist, q ≠ [] ∧ r.toNat / 16 * 16 < (st.mem q).rev.toNat ∧ (st.mem q).rev ≤ r := by
  have hi := h.inv
  have e : (∃ q ∈ st.blist, q ≠ [] ∧ r.toNat / 16 * 16 < (st.mem q).rev.toNat ∧ (st.mem q).rev ≤ r) ↔ Inner st r := by
    constructor
    · rintro ⟨q, hq, hn, h1, h2⟩
      rw [BitVec.le_def, hi.bi.rev_toNat hq hn] at h2
      rw [hi.bi.rev_toNat hq hn] at h1
      exact ⟨q, hq, hn, h1, h2⟩
    · rintro ⟨q, hq, hn, h1, h2⟩
      refine ⟨q, hq, hn, ?_, ?_⟩
      · rw [hi.bi.rev_toNat hq hn]; exact h1
      · rw [BitVec.le_def, hi.bi.rev_toNat hq hn]; exact h2
  rw [e, nearest_owner hi]
  constructor
  · rintro h1 ⟨q, hq, hn, h2, h3⟩
    have := h1 q hq hn h3
    rw [inner_low hi ⟨q, hq, hn, h2, h3⟩] at this
    omega
  · intro h1
    exact (owner_flat hi.bi h.nz ((flat_iff hi r).2 h1)).2.2.2

/-- C97 for the first `MaxPefBucket + 56` stores of a map, whatever their keys and values. -/
theorem C97_partial {E : Env} {cfg : Cfg} {ops : List Op} (hD : maxSplits E.H cfg ops ≤ 56) (r : U64) :
    Nearest (run E (initSt cfg) ops).1 r (findBucket (run E (initSt cfg) ops).1.mem r) := by
  have key : ∀ (ops : List Op) (st : St) (n t : Nat) (m : Int), Inv st → DepthInv st n → st.maxPer = m → n + stores E.H ops ≤ t →
      ((t : Int) - m).toNat ≤ 56 → ∀ q ∈ (run E st ops).1.blist, 16 ∣ bval q := by
    intro ops
    induction ops with
    | nil =>
      intro st n t m hi hd hm hn hD q hq
      have hs := few_splits hd hm (show n ≤ t by omega)
      have hc : Coarse st.blist ((t : Int) - m).toNat := (hd.coarse (by omega)).mono hs
      exact dvd_trans (pow_dvd_pow 2 (show 4 ≤ 60 - ((t : Int) - m).toNat by omega)) (hc.dvd q hq)
    | cons op ops ih =>
      intro st n t m hi hd hm hn hD
      rw [stores_cons] at hn
      obtain ⟨hd', hm'⟩ := step_depth E hi hd op
      exact ih _ _ t m (step_inv E hi op) hd' (hm'.trans hm) (by omega) hD
  rw [C97_iff (E := E) ⟨cfg, ops, rfl⟩]
  rintro ⟨q, hq, hn, h1, h2⟩
  have hi := run_inv E (inv_init cfg) ops
  have hd := key ops _ 0 (stores E.H ops) cfg.maxPer (inv_init cfg) (depth_init cfg) (initSt_maxPer cfg) (by omega) hD q hq
  rw [BitVec.le_def, hi.bi.rev_toNat hq hn] at h2
  rw [hi.bi.rev_toNat hq hn] at h1
  omega

theorem panic_at {E : Env} {p : Panic} {st : St} {ops : List Op} (h : Out.panic p ∈ (run E st ops).2) :
    ∃ pre op, (step E (run E st pre).1 op).2 = .panic p := by
  induction ops generalizing st with
  | nil => cases h
  | cons op ops ih =>
    rw [run_cons] at h
    rcases List.mem_cons.1 h with h | h
    · exact ⟨[], op, h.symm⟩
    · obtain ⟨pre, o, h1⟩ := ih h
      exact ⟨op :: pre, o, h1⟩

/-- C97 fails in general: in the history of C15_refuted a bucket with the boundary 2^64 - 2 comes to be, and FindBucket of 2^64 - 2 answers with another
one. -/
theorem C97_refuted : ∃ (E : Env) (cfg : Cfg) (ops : List Op) (r : U64),
    ¬ Nearest (run E (initSt cfg) ops).1 r (findBucket (run E (initSt cfg) ops).1.mem r) := by
  have h := List.contains_iff_mem.1 C15_refuted
  obtain ⟨pre, op, h1⟩ := panic_at h
  refine ⟨exE, { maxPer := 0 }, pre, maxU64 - 1, ?_⟩
  have hi := run_inv exE (inv_init { maxPer := 0 }) pre
  rw [C97_iff (E := exE) ⟨{ maxPer := 0 }, pre, rfl⟩, not_not]
  have hc : ∃ p ∈ (run exE (initSt { maxPer := 0 }) pre).1.blist, ((run exE (initSt { maxPer := 0 }) pre).1.mem p).rev = maxU64 - 1 := by
    rcases step_eff exE hi op with x | ⟨e, nv, b, x⟩ | ⟨key, e, x⟩ | ⟨st2, k, c, e, x⟩
    · exact x.crash h1
    · rw [x.res] at h1; cases h1
    · rw [x.res] at h1; cases h1
    · rw [x.out] at h1; cases h1
  obtain ⟨p, hp, hr⟩ := hc
  refine ⟨p, hp, ?_, by rw [hr]; decide, by rw [hr]; simp⟩
  rintro rfl
  rw [hi.bi.ti.root.1] at hr
  revert hr
  decide

/-- The condition of C97_partial is met by a history that splits seven buckets. -/
example : maxSplits exH exCfg exOps = 9 ∧ (run exE (initSt exCfg) exOps).1.blist.length = 24 := by
  refine ⟨?_, ?_⟩ <;> decide +kernel

end SLM
