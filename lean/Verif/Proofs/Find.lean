import Verif.Proofs.MakeBucket
/-! Bucket lookup and the head of a bucket. -/
set_option autoImplicit false
namespace SLM
variable {m : Path → Bkt} {bl : List Path}

theorem scanDown_some {ok : Nat → Bool} {n i : Nat} (h : scanDown ok n = some i) : i ≤ n ∧ ok i = true := by
  induction n with
  | zero =>
    simp only [scanDown] at h
    split at h
    · injection h with h; subst h; exact ⟨le_refl _, by assumption⟩
    · cases h
  | succ n ih =>
    simp only [scanDown] at h
    split at h
    · injection h with h; subst h; exact ⟨le_refl _, by assumption⟩
    · have := ih h; exact ⟨by omega, this.2⟩

theorem scanDown_none {ok : Nat → Bool} {n : Nat} (h : scanDown ok n = none) : ∀ i, i ≤ n → ok i = false := by
  induction n with
  | zero =>
    simp only [scanDown] at h
    split at h
    · cases h
    · rename_i hn; intro i hi; rw [Nat.le_zero.1 hi]; simpa using hn
  | succ n ih =>
    simp only [scanDown] at h
    split at h
    · cases h
    · rename_i hn
      intro i hi
      by_cases h1 : i = n + 1
      · subst h1; simpa using hn
      · exact ih h i (by omega)

theorem largestDown_spec (f : Nat) (p : Path) (hv : V m p) : ∃ q, largestDown m f p = q ++ p ∧ V m (q ++ p) := by
  induction f generalizing p with
  | zero => exact ⟨[], rfl, hv⟩
  | succ f ih =>
    simp only [largestDown]
    split
    · exact ⟨[], rfl, hv⟩
    · split
      · rename_i i hi
        have := (scanDown_some hi).2
        have hvi : V m (i :: p) := by
          intro hc; rw [hc] at this; simp at this
        obtain ⟨q, h1, h2⟩ := ih (i :: p) hvi
        exact ⟨q ++ [i], by simp [h1], by simpa using h2⟩
      · exact ⟨[], rfl, hv⟩

theorem descend_spec (t : TI m) (r : U64) : ∀ (f l : Nat), 1 ≤ l → l + f ≤ 16 → V m (pref r l) →
    let q := descend m r f (l + 1) (pref r l)
    V m q ∧ q ≠ [] ∧ pathVal q ≤ r.toNat := by
  intro f
  induction f with
  | zero =>
    intro l hl hf hv
    exact ⟨hv, pref_ne_nil r l hl, pathVal_pref_le r l (by omega)⟩
  | succ f ih =>
    intro l hl hf hv
    have hhere : V m (pref r l) ∧ pref r l ≠ [] ∧ pathVal (pref r l) ≤ r.toNat :=
      ⟨hv, pref_ne_nil r l hl, pathVal_pref_le r l (by omega)⟩
    simp only [descend]
    split
    · exact hhere
    · rename_i hcap
      have hd := t.down _ (pref_ne_nil r l hl) hv
      have hlen : 0 < (m (pref r l)).downLen := by
        by_contra h0
        exact hcap (hd.2.2.1 (by omega))
      split
      · rename_i hcond
        split
        · rename_i i hi
          obtain ⟨h1, h2⟩ := scanDown_some hi
          have hvi : V m (i :: pref r l) := by
            intro hc; rw [hc] at h2; simp at h2
          have hlt : i < nib r (l + 1) := by
            split at h1
            · omega
            · rcases hcond with h3 | h3
              · omega
              · have : i ≠ nib r (l + 1) := by rintro rfl; exact hvi h3
                omega
          obtain ⟨q, hq1, hq2⟩ := largestDown_spec (m := m) 16 _ hvi
          simp only [hq1]
          refine ⟨hq2, by simp, ?_⟩
          have hval := t.val _ (by simp) hq2
          have hx := pathVal_ext q (i :: pref r l) hval.2.2.2.2 hval.2.2.1
          have hpos : 0 < 16 ^ (16 - (q ++ i :: pref r l).length) := Nat.pos_of_ne_zero (by simp)
          have hp := pathVal_pref_le r (l + 1) (by omega)
          simp only [pref, pathVal, pref_length, List.length_cons] at hp hx
          have e1 : 16 - (l + 1) = 15 - l := by omega
          rw [e1] at hx
          have : (i + 1) * 16 ^ (15 - l) ≤ nib r (l + 1) * 16 ^ (15 - l) := Nat.mul_le_mul_right _ hlt
          rw [Nat.add_mul] at this
          omega
        · exact hhere
      · rename_i hcond
        have hv' : V m (pref r (l + 1)) := by
          intro hc
          exact hcond (Or.inr hc)
        have := ih (l + 1) (by omega) (by omega) hv'
        exact this

/-- `findBucket` returns an initialised bucket whose boundary is not above the key. -/
theorem findBucket_spec (t : TI m) (r : U64) :
    V m (findBucket m r) ∧ findBucket m r ≠ [] ∧ (m (findBucket m r)).rev ≤ r := by
  have h1 : V m (pref r 1) := t.top _ (nib_lt r 1)
  have := descend_spec t r 14 1 (le_refl _) (by omega) h1
  have hq : findBucket m r = descend m r 14 2 (pref r 1) := rfl
  rw [hq]
  refine ⟨this.1, this.2.1, ?_⟩
  rw [BitVec.le_def, (t.val _ this.2.1 this.1).1]
  exact this.2.2

/-- The head used by an initialised bucket is a listed bucket with the same boundary. -/
theorem basePath_spec (h : BI m bl) (p : Path) (hv : V m p) : basePath m p ∈ bl ∧ bvRev (basePath m p) = (m p).rev := by
  induction p with
  | nil => exact ⟨h.nil_mem, (h.rev_eq h.nil_mem).symm⟩
  | cons i p ih =>
    cases ha : (m (i :: p)).isAlias with
    | false =>
      have hm := (h.mem_iff (i :: p) (by simp)).2 ⟨hv, ha⟩
      simp only [basePath, ha]
      exact ⟨hm, (h.rev_eq hm).symm⟩
    | true =>
      obtain ⟨hi, hp⟩ := (h.ti.ali i p hv).1 ha
      subst hi
      have hvp := (h.ti.parent 0 p hp hv).1
      obtain ⟨h1, h2⟩ := ih hvp
      simp only [basePath, ha]
      refine ⟨h1, ?_⟩
      simp only [if_true]
      rw [h2]
      apply BitVec.eq_of_toNat_eq
      rw [(h.ti.val p hp hvp).1, (h.ti.val (0 :: p) (by simp) hv).1]
      simp [pathVal]

/-- Neighbour of a bucket in the list. -/
theorem prevAsB_valid {st : St} (h : BI st.mem st.blist) {b : Path} (hv : V st.mem b) : V st.mem (st.prevAsB b) := by
  unfold St.prevAsB
  split
  · cases hg : (st.blist.takeWhile (fun q => decide (q ≠ b))).getLast? with
    | none => exact hv
    | some q =>
      have hq : q ∈ st.blist := (List.takeWhile_sublist _).subset (List.mem_of_getLast? hg)
      show V st.mem q
      by_cases hn : q = []
      · subst hn; exact h.ti.root.2
      · exact ((h.mem_iff q hn).1 hq).1
  · exact hv

theorem bucketForKey_valid {st : St} (h : BI st.mem st.blist) (t : U64) : V st.mem (bucketForKey st t) := by
  have hf := (findBucket_spec h.ti t).1
  unfold bucketForKey
  split
  · simp only
    split
    · exact prevAsB_valid h hf
    · exact hf
  · exact hf

theorem head_spec {st : St} (h : Inv st) {b : Path} (hv : V st.mem b) :
    ∃ p, p ∈ st.blist ∧ st.head b = .dummy p ∧ bvRev p = (st.mem b).rev ∧ dummyEntry p (bvRev p) ∈ st.items := by
  obtain ⟨h1, h2⟩ := basePath_spec h.bi b hv
  exact ⟨_, h1, rfl, h2, h.ii.has _ h1⟩

/-- Position where `_set` puts a new item whose hash is not above 2^64 - 2. -/
theorem setInsert_eq {st : St} (h : Inv st) {b : Path} (hv : V st.mem b) {e : Entry} (hle : (st.mem b).rev ≤ e.rev)
    (hlt : e.rev < maxU64) : setInsert st b e.rev e = insAt e st.items := by
  obtain ⟨p, hp, hh, hr, hm⟩ := head_spec h hv
  have hbig : ∃ x ∈ st.items, e.rev < x.rev := by
    refine ⟨_, h.ii.has [] h.bi.nil_mem, ?_⟩
    show e.rev < bvRev []
    rw [← h.bi.rev_eq h.bi.nil_mem, h.bi.ti.root.1]; exact hlt
  have hhd : ∃ d ∈ st.items, d.ref = st.head b ∧ d.rev ≤ e.rev :=
    ⟨_, hm, by rw [hh]; rfl, by show bvRev p ≤ _; rw [hr]; exact hle⟩
  unfold setInsert
  apply add2_insAt h.ii.sorted h.ii.nodup _ hbig
  split
  · exact hhd
  · rename_i en hen
    have h1 := List.find?_some hen
    have : ¬ en.rev < e.rev := by simp at h1; bv_omega
    rw [if_neg this]
    split
    · rename_i pe hpe
      split
      · refine ⟨pe, ?_, rfl, by bv_omega⟩
        have := List.mem_of_getLast? hpe
        exact (List.takeWhile_sublist _).subset this
      · exact hhd
    · exact hhd

end SLM
