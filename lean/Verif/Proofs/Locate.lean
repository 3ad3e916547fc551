import Verif.Proofs.Depth
import Verif.Proofs.EmbTrie
/-! Which bucket the lookup of the map (without embedded pools) finds: the listed one with the greatest boundary not above the key, as long as
no bucket is at the last trie level. -/
set_option autoImplicit false
namespace SLM
open History

theorem NZ.congr {m m' : Path → Bkt} (h : NZ m) (e : ∀ p, V m' p ↔ V m p) : NZ m' := by
  intro p hp h1
  obtain ⟨i, h2, h3⟩ := h p hp ((e _).1 h1)
  exact ⟨i, h2, (e _).2 h3⟩

theorem NewBucket.nz {st st' : St} {A B : List Path} {n b c : Path} (x : NewBucket st st' A B n b c) (h : NZ st.mem) : NZ st'.mem := by
  cases b with
  | nil => exact absurd rfl x.ne
  | cons i q => exact Emb.NewBkt_nz (idx := i) (b := q) (by simpa using x.hd) h x.vch

theorem step_nz (E : Env) {st : St} (h : Inv st) (hz : NZ st.mem) (op : Op) : NZ (step E st op).1.mem := by
  rcases step_eff E h op with x | ⟨e, nv, b, x⟩ | ⟨key, e, x⟩ | ⟨st2, k, c, e, x⟩
  · obtain ⟨b, hb⟩ := x.same
    rw [hb]; exact hz
  · rw [x.res]; exact hz
  · rw [x.res]; exact hz
  · have hm : NZ (setMid st2 k (findBucket st.mem (rev64 k)) e).mem := by
      apply hz.congr
      intro p
      have := (setMid_eqL st2 k (findBucket st.mem (rev64 k)) e).fields p
      unfold V
      rw [this.1, x.mem]
    rcases x.grow with hg | ⟨A, B, n, b, c', hb⟩
    · rw [hg]; exact hm
    · exact hb.nz hm

theorem run_nz (E : Env) {st : St} (h : Inv st) (hz : NZ st.mem) (ops : List Op) : NZ (run E st ops).1.mem := by
  induction ops generalizing st with
  | nil => exact hz
  | cons op ops ih => exact ih (step_inv E h op) (step_nz E h hz op)

theorem init_nz (cfg : Cfg) : NZ (initSt cfg).mem := by rw [initSt_mem]; exact Emb.initMem_nz

/-- Boundaries that are multiples of 16 are those of buckets above the last level. -/
theorem shallow_of {st : St} (h : Inv st) (hz : NZ st.mem) (hd : ∀ p ∈ st.blist, 16 ∣ bval p) : Shallow st.mem := by
  have key : ∀ i q, i ≠ 0 → V st.mem (i :: q) → (i :: q).length ≤ 15 := by
    intro i q hi hv
    have hval := h.bi.ti.val _ (by simp) hv
    by_contra hc
    have hl : q.length = 15 := by simp at hc hval; omega
    have hm : i :: q ∈ st.blist := by
      rw [h.bi.mem_iff _ (by simp)]
      refine ⟨hv, ?_⟩
      cases ha : (st.mem (i :: q)).isAlias with
      | false => rfl
      | true => exact absurd ((h.bi.ti.ali _ _ hv).1 ha).1 hi
    have h1 := hd _ hm
    rw [bval, if_neg (by simp)] at h1
    simp only [pathVal, hl] at h1
    have h2 := pathVal_dvd q (by omega)
    rw [hl] at h2
    have h3 := (Nat.dvd_add_right (by simpa using h2)).1 h1
    have h4 : i < 16 := hval.2.2.2.2 i (by simp)
    simp at h3
    omega
  intro p hp hv
  cases p with
  | nil => exact absurd rfl hp
  | cons i q =>
    by_cases hi : i = 0
    · subst hi
      by_cases hq : q = []
      · subst hq; simp
      · obtain ⟨j, hj, hvj⟩ := hz q hq hv
        simpa using key j q hj hvj
    · exact key i q hi hv


/-- A boundary strictly inside the block of sixteen of `r`, not above `r`. -/
def Inner (st : St) (r : U64) : Prop := ∃ q ∈ st.blist, q ≠ [] ∧ r.toNat / 16 * 16 < bval q ∧ bval q ≤ r.toNat

theorem flat_iff {st : St} (h : Inv st) (r : U64) : Flat st.mem r ↔ ¬ Inner st r := by
  have ep := pathVal_pref r 15 (by omega)
  have en : nib r 16 = r.toNat % 16 := by rw [nib_eq]; simp
  constructor
  · rintro hf ⟨q, hq, hn, h1, h2⟩
    have hv := ((h.bi.mem_iff q hn).1 hq).1
    have hval := h.bi.ti.val q hn hv
    have hqv : bval q = pathVal q := by simp [bval, hn]
    rw [hqv] at h1 h2
    rcases below_or_ext h.bi.ti r 15 (by omega) hn hv h2 with hc | ⟨q', hq', rfl⟩
    · rw [ep] at hc; simp at hc; omega
    · have hlen := hval.2.2.1
      rw [List.length_append, pref_length] at hlen
      obtain ⟨x, rfl⟩ : ∃ x, q' = [x] := by
        cases q' with
        | nil => exact absurd rfl hq'
        | cons x q'' =>
          cases q'' with
          | nil => exact ⟨x, rfl⟩
          | cons y z => simp at hlen
      simp only [List.cons_append, List.nil_append] at hv h1 h2
      have e : pathVal (x :: pref r 15) = pathVal (pref r 15) + x := by simp [pathVal]
      rw [e, ep] at h1 h2
      simp at h1 h2
      exact hf x (by omega) (by omega) hv
  · intro hi x hx hle hv
    apply hi
    have hm : x :: pref r 15 ∈ st.blist := by
      rw [h.bi.mem_iff _ (by simp)]
      refine ⟨hv, ?_⟩
      cases ha : (st.mem (x :: pref r 15)).isAlias with
      | false => rfl
      | true => exact absurd ((h.bi.ti.ali _ _ hv).1 ha).1 hx
    refine ⟨_, hm, by simp, ?_⟩
    have e : bval (x :: pref r 15) = pathVal (pref r 15) + x := by simp [bval, pathVal]
    rw [e, ep]
    simp
    omega

/-- Where there is such a boundary the lookup stays below it. -/
theorem inner_low {st : St} (h : Inv st) {r : U64} (hi : Inner st r) : bval (basePath st.mem (findBucket st.mem r)) = r.toNat / 16 * 16 := by
  have hv : V st.mem (pref r 15) := by
    have := mt (flat_iff h r).1 (by simpa using hi)
    unfold Flat at this
    push_neg at this
    obtain ⟨x, _, _, hv⟩ := this
    exact (h.bi.ti.parent _ _ (pref_ne_nil r 15 (by omega)) hv).1
  rw [(owner_val h.bi r).2, show findBucket st.mem r = pref r 15 from descend_valid h.bi.ti r 14 1 (by omega) rfl hv, pathVal_pref r 15 (by omega)]
  simp

end SLM
