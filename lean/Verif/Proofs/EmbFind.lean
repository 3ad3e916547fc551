import Verif.Proofs.Find
/-! `findBucket` returns the greatest boundary not above the key, as long as no bucket is at the last trie level. -/
set_option autoImplicit false
namespace SLM
variable {m : Path → Bkt} {bl : List Path}

/-- A bucket with a child 0 has another child. -/
def NZ (m : Path → Bkt) : Prop := ∀ p, p ≠ [] → V m (0 :: p) → ∃ i, i ≠ 0 ∧ V m (i :: p)

/-- No bucket at the last trie level. -/
def Shallow (m : Path → Bkt) : Prop := ∀ p, p ≠ [] → V m p → p.length ≤ 15

/-- No bucket of the last trie level lies at or below `r` in `r`'s block of sixteen (but for the block's first). -/
def Flat (m : Path → Bkt) (r : U64) : Prop := ∀ x, x ≠ 0 → x ≤ nib r 16 → ¬ V m (x :: pref r 15)

theorem Shallow.flat (h : Shallow m) (r : U64) : Flat m r := by
  intro x _ _ hv
  have := h _ (by simp) hv
  simp at this

theorem scanDown_max {ok : Nat → Bool} {n i : Nat} (h : scanDown ok n = some i) : ∀ j, i < j → j ≤ n → ok j = false := by
  induction n with
  | zero => intro j h1 h2; omega
  | succ n ih =>
    simp only [scanDown] at h
    split at h
    · injection h with h; intro j h1 h2; omega
    · rename_i hn
      intro j h1 h2
      by_cases hj : j = n + 1
      · subst hj; simpa using hn
      · exact ih h j h1 (by omega)

/-- Subtrees of smaller digits lie below. -/
theorem pathVal_lt_of_digit (q p : Path) (i j : Nat) (hd : Digits (q ++ j :: p)) (hl : (q ++ j :: p).length ≤ 16)
    (hij : j < i) : pathVal (q ++ j :: p) < pathVal (i :: p) := by
  have hx := pathVal_ext q (j :: p) hd hl
  have hpos : 0 < 16 ^ (16 - (q ++ j :: p).length) := Nat.pos_of_ne_zero (by simp)
  simp only [pathVal, List.length_cons] at hx ⊢
  have e1 : 16 - (p.length + 1) = 15 - p.length := by omega
  rw [e1] at hx
  have : (j + 1) * 16 ^ (15 - p.length) ≤ i * 16 ^ (15 - p.length) := Nat.mul_le_mul_right _ hij
  rw [Nat.add_mul] at this
  omega

theorem TI.child_of_ext (t : TI m) {q p : Path} (hp : p ≠ []) (hv : V m (q ++ p)) (hq : q ≠ []) :
    ∃ q' j, q = q' ++ [j] ∧ V m (j :: p) ∧ j < (m p).downLen := by
  obtain ⟨q', j, rfl⟩ : ∃ q' j, q = q' ++ [j] := ⟨q.dropLast, q.getLast hq, (List.dropLast_append_getLast hq).symm⟩
  have h1 : V m (j :: p) := by
    apply t.valid_suffix q' (j :: p) (by simp)
    simpa using hv
  exact ⟨q', j, rfl, h1, (t.parent j p hp h1).2⟩

theorem largestDown_max (t : TI m) (nz : NZ m) : ∀ (f : Nat) (p : Path), p ≠ [] → V m p → 16 ≤ f + p.length →
    ∀ q, V m (q ++ p) → pathVal (q ++ p) ≤ pathVal (largestDown m f p) := by
  intro f
  induction f with
  | zero =>
    intro p hp hv hl q hq
    have := (t.val _ (by simp [hp]) hq).2.2.1
    simp at this
    have : q = [] := List.eq_nil_of_length_eq_zero (by omega)
    subst this; simp [largestDown]
  | succ f ih =>
    intro p hp hv hl q hq
    simp only [largestDown]
    split
    · rename_i h0
      by_cases hqn : q = []
      · subst hqn; simp
      · obtain ⟨_, _, _, _, h⟩ := t.child_of_ext hp hq hqn; omega
    · rename_i h0
      have hd := t.down p hp hv
      have hV0 := (hd.2.2.2 (by omega)).2
      split
      · rename_i i hi
        obtain ⟨h1, h2⟩ := scanDown_some hi
        have hvi : V m (i :: p) := by
          intro hc; rw [hc] at h2; simp at h2
        have hself := ih (i :: p) (by simp) hvi (by simp; omega) [] (by simpa using hvi)
        simp only [List.nil_append] at hself
        by_cases hqn : q = []
        · subst hqn
          simp only [List.nil_append]
          refine le_trans ?_ hself
          simp [pathVal]
        · obtain ⟨q', j, rfl, hvj, hjl⟩ := t.child_of_ext hp hq hqn
          have hval := t.val _ (by simp [hp]) hq
          rw [List.append_assoc, List.singleton_append] at hq hval ⊢
          rcases lt_trichotomy j i with hji | hji | hji
          · exact le_trans (Nat.le_of_lt (pathVal_lt_of_digit q' p i j hval.2.2.2.2 hval.2.2.1 hji)) hself
          · subst hji
            exact ih (j :: p) (by simp) hvi (by simp; omega) q' hq
          · have hnot := scanDown_max hi j hji (by omega)
            have hjv := t.val (j :: p) (by simp) hvj
            simp only [Bool.not_eq_false', Bool.or_eq_true, beq_iff_eq] at hnot
            rcases hnot with h | h
            · exact absurd h hvj
            · rw [h] at hjv
              have h00 := hjv.1
              simp only [pathVal] at h00
              have : 0 < j * 16 ^ (15 - p.length) := Nat.mul_pos (by omega) (Nat.pos_of_ne_zero (by simp))
              simp at h00
              omega
      · rename_i hn
        obtain ⟨i, hi0, hvi⟩ := nz p hp hV0
        have hil := (t.parent i p hp hvi).2
        have := scanDown_none hn i (by omega)
        simp only [Bool.not_eq_false', Bool.or_eq_true, beq_iff_eq] at this
        rcases this with h | h
        · exact absurd h hvi
        · have hjv := t.val (i :: p) (by simp) hvi
          rw [h] at hjv
          have h00 := hjv.1
          simp only [pathVal] at h00
          have : 0 < i * 16 ^ (15 - p.length) := Nat.mul_pos (by omega) (Nat.pos_of_ne_zero (by simp))
          simp at h00
          omega

/-- A bucket not above `r` is not above the block of the first `l` digits of `r`, or lies below that block's bucket. -/
theorem below_or_ext (t : TI m) (r : U64) (l : Nat) (hl : l ≤ 16) {q : Path} (hq : q ≠ []) (hv : V m q)
    (hle : pathVal q ≤ r.toNat) : pathVal q ≤ pathVal (pref r l) ∨ ∃ q', q' ≠ [] ∧ q = q' ++ pref r l := by
  have hval := t.val q hq hv
  have hpow : 0 < 16 ^ (16 - l) := Nat.pos_of_ne_zero (by simp)
  by_cases hlen : q.length ≤ l
  · left
    rw [pathVal_pref r l hl]
    have hdv : 16 ^ (16 - l) ∣ pathVal q := dvd_trans (pow_dvd_pow 16 (by omega)) (pathVal_dvd q hval.2.2.1)
    obtain ⟨x, hx⟩ := hdv
    rw [hx] at hle ⊢
    have : x ≤ r.toNat / 16 ^ (16 - l) := by
      rw [Nat.le_div_iff_mul_le hpow]; rw [Nat.mul_comm]; exact hle
    rw [Nat.mul_comm]; exact Nat.mul_le_mul_right _ this
  · by_cases hgt : pathVal q ≤ pathVal (pref r l)
    · exact Or.inl hgt
    · right
      have hlt := pathVal_lt q hval.2.2.2.2 hval.2.2.1
      have e : (BitVec.ofNat 64 (pathVal q)).toNat = pathVal q := by rw [BitVec.toNat_ofNat, Nat.mod_eq_of_lt hlt]
      have hup : r.toNat < pathVal (pref r l) + 16 ^ (16 - l) := by
        rw [pathVal_pref r l hl]
        have := Nat.lt_div_mul_add hpow (a := r.toNat)
        exact this
      have h1 := pref_of_block (pref r l) (pref_digits r l) (by simpa using hl) (BitVec.ofNat 64 (pathVal q))
        (by rw [e]; omega) (by rw [e, pref_length]; omega)
      rw [pref_length] at h1
      have h2 := pref_pathVal q hval.2.2.2.2 hval.2.2.1
      obtain ⟨q', hq'⟩ := pref_take (BitVec.ofNat 64 (pathVal q)) q.length l (by omega)
      rw [h2, h1] at hq'
      refine ⟨q', ?_, hq'⟩
      rintro rfl
      have := congrArg List.length hq'
      simp at this; omega

theorem descend_max (t : TI m) (nz : NZ m) {r : U64} (hs : Flat m r) : ∀ (f l : Nat), 1 ≤ l → l + f = 15 → V m (pref r l) →
    ∀ q, q ≠ [] → V m q → pathVal q ≤ r.toNat → pathVal q ≤ pathVal (descend m r f (l + 1) (pref r l)) := by
  intro f
  induction f with
  | zero =>
    intro l hl hf hv q hq hvq hle
    simp only [descend]
    rcases below_or_ext t r l (by omega) hq hvq hle with h | ⟨q', hq', rfl⟩
    · exact h
    · have hl15 : l = 15 := by omega
      subst hl15
      have hval := t.val _ hq hvq
      have hlen := hval.2.2.1
      rw [List.length_append, pref_length] at hlen
      obtain ⟨x, rfl⟩ : ∃ x, q' = [x] := by
        cases q' with
        | nil => exact absurd rfl hq'
        | cons x q'' =>
          cases q'' with
          | nil => exact ⟨x, rfl⟩
          | cons y z => simp at hlen
      simp only [List.cons_append, List.nil_append] at hvq hle hval ⊢
      have e : pathVal (x :: pref r 15) = pathVal (pref r 15) + x := by simp [pathVal]
      have ep := pathVal_pref r 15 (by omega)
      have hx16 : x < 16 := hval.2.2.2.2 x (by simp)
      by_cases hx : x = 0
      · rw [e, hx]; simp
      · exfalso
        refine hs x hx ?_ hvq
        rw [nib_eq]
        rw [e, ep] at hle
        simp at hle ⊢
        omega
  | succ f ih =>
    intro l hl hf hv q hq hvq hle
    have hne := pref_ne_nil r l hl
    have hd := t.down _ hne hv
    simp only [descend]
    split
    · rename_i hcap
      rcases below_or_ext t r l (by omega) hq hvq hle with h | ⟨q', hq', rfl⟩
      · exact h
      · obtain ⟨_, j, _, _, hj⟩ := t.child_of_ext hne hvq hq'
        have := (hd.2.2.2 (by omega)).1
        omega
    · rename_i hcap
      have hlen : 0 < (m (pref r l)).downLen := by
        by_contra h0
        exact hcap (hd.2.2.1 (by omega))
      have hV0 := (hd.2.2.2 hlen).2
      split
      · rename_i hcond
        have hninv : ¬ V m (nib r (l + 1) :: pref r l) := by
          intro hc
          have := (t.parent _ _ hne hc).2
          rcases hcond with h | h
          · omega
          · exact hc h
        have h0idx : nib r (l + 1) ≠ 0 := by
          intro h0; rw [h0] at hninv; exact hninv hV0
        split
        · rename_i i hi
          obtain ⟨h1, h2⟩ := scanDown_some hi
          have hvi : V m (i :: pref r l) := by
            intro hc; rw [hc] at h2; simp at h2
          have hmax := largestDown_max t nz 16 (i :: pref r l) (by simp) hvi (by omega)
          have hself := hmax [] (by simpa using hvi)
          simp only [List.nil_append] at hself
          rcases below_or_ext t r l (by omega) hq hvq hle with h | ⟨q', hq', rfl⟩
          · refine le_trans h (le_trans ?_ hself)
            simp [pathVal]
          · obtain ⟨q2, j, rfl, hvj, hjl⟩ := t.child_of_ext hne hvq hq'
            have hval := t.val _ hq hvq
            rw [List.append_assoc, List.singleton_append] at hvq hval hle ⊢
            have hji : j ≤ i := by
              by_contra hcon
              -- j is a valid child above i, hence above the digit of r
              have hjn : j ≠ nib r (l + 1) := by rintro rfl; exact hninv hvj
              have hgt : nib r (l + 1) < j := by
                by_contra hc2
                have hjle : j ≤ (if nib r (l + 1) > (m (pref r l)).downLen - 1 then (m (pref r l)).downLen - 1 else nib r (l + 1)) := by
                  split <;> omega
                have := scanDown_max hi j (by omega) hjle
                simp only [Bool.not_eq_false', beq_iff_eq] at this
                exact hvj this
              have hx := pathVal_ext q2 (j :: pref r l) hval.2.2.2.2 hval.2.2.1
              have hp := pathVal_pref r (l + 1) (by omega)
              have hup : r.toNat < pathVal (pref r (l + 1)) + 16 ^ (16 - (l + 1)) := by
                rw [hp]
                exact Nat.lt_div_mul_add (Nat.pos_of_ne_zero (by simp))
              simp only [pref, pathVal, pref_length] at hup hx
              have e1 : 16 - (l + 1) = 15 - l := by omega
              rw [e1] at hup
              have : (nib r (l + 1) + 1) * 16 ^ (15 - l) ≤ j * 16 ^ (15 - l) := Nat.mul_le_mul_right _ hgt
              rw [Nat.add_mul] at this
              omega
            rcases Nat.lt_or_eq_of_le hji with h | h
            · exact le_trans (Nat.le_of_lt (pathVal_lt_of_digit q2 _ i j hval.2.2.2.2 hval.2.2.1 h)) hself
            · subst h
              exact hmax q2 hvq
        · rename_i hn
          exfalso
          have := scanDown_none hn 0 (by omega)
          simp only [Bool.not_eq_false', beq_iff_eq] at this
          exact hV0 this
      · rename_i hcond
        have hv' : V m (pref r (l + 1)) := by
          intro hc
          exact hcond (Or.inr hc)
        exact ih (l + 1) (by omega) (by omega) hv' q hq hvq hle

theorem findBucket_max (t : TI m) (nz : NZ m) {r : U64} (hs : Flat m r) {q : Path} (hq : q ≠ []) (hv : V m q)
    (hle : pathVal q ≤ r.toNat) : pathVal q ≤ pathVal (findBucket m r) :=
  descend_max t nz hs 14 1 (le_refl _) rfl (t.top _ (nib_lt _ _)) q hq hv hle

theorem basePath_ne_nil (t : TI m) {p : Path} (hv : V m p) (hp : p ≠ []) : basePath m p ≠ [] := by
  induction p with
  | nil => exact absurd rfl hp
  | cons i p ih =>
    cases ha : (m (i :: p)).isAlias with
    | false => simp [basePath, ha]
    | true =>
      obtain ⟨hi, hp'⟩ := (t.ali i p hv).1 ha
      simp only [basePath, ha, if_true]
      exact ih (t.parent i p hp' hv).1 hp'

theorem owner_val (h : BI m bl) (r : U64) : basePath m (findBucket m r) ≠ [] ∧ bval (basePath m (findBucket m r)) = pathVal (findBucket m r) := by
  obtain ⟨h1, h2, h3⟩ := findBucket_spec h.ti r
  obtain ⟨h4, h5⟩ := basePath_spec h _ h1
  have hbn := basePath_ne_nil h.ti h1 h2
  refine ⟨hbn, ?_⟩
  have hval := h.ti.val _ h2 h1
  have e := h.rev_toNat h4 hbn
  rw [h.rev_eq h4, h5] at e
  rw [← hval.1]; exact e.symm

/-- The bucket that serves `r`: the listed one with the greatest boundary not above `r`. -/
theorem owner_flat (h : BI m bl) (nz : NZ m) {r : U64} (hs : Flat m r) :
    let b := basePath m (findBucket m r)
    b ∈ bl ∧ b ≠ [] ∧ bval b ≤ r.toNat ∧ ∀ q ∈ bl, q ≠ [] → bval q ≤ r.toNat → bval q ≤ bval b := by
  intro b
  obtain ⟨h1, h2, h3⟩ := findBucket_spec h.ti r
  obtain ⟨h4, h5⟩ := basePath_spec h _ h1
  obtain ⟨hbn, hbv⟩ := owner_val h r
  change b ≠ [] at hbn
  change bval b = _ at hbv
  refine ⟨h4, hbn, ?_, ?_⟩
  · have hval := h.ti.val _ h2 h1
    rw [BitVec.le_def, hval.1] at h3
    rw [hbv]; exact h3
  · intro q hq hqn hle
    rw [hbv]
    have hv := ((h.mem_iff q hqn).1 hq).1
    have hqv : bval q = pathVal q := by simp [bval, hqn]
    rw [hqv] at hle ⊢
    exact findBucket_max h.ti nz hs hqn hv hle

theorem owner_spec (h : BI m bl) (nz : NZ m) (hs : Shallow m) (r : U64) :
    let b := basePath m (findBucket m r)
    b ∈ bl ∧ b ≠ [] ∧ bval b ≤ r.toNat ∧ ∀ q ∈ bl, q ≠ [] → bval q ≤ r.toNat → bval q ≤ bval b :=
  owner_flat h nz (hs.flat r)

/-- Along initialised buckets the lookup goes down to level 15. -/
theorem descend_valid (t : TI m) (r : U64) : ∀ (f l : Nat), 1 ≤ l → l + f = 15 → V m (pref r 15) → descend m r f (l + 1) (pref r l) = pref r 15 := by
  intro f
  induction f with
  | zero =>
    intro l _ hf _
    have : l = 15 := by omega
    subst this
    rfl
  | succ f ih =>
    intro l hl hf hv
    have hne := pref_ne_nil r l hl
    have hv1 : V m (nib r (l + 1) :: pref r l) := t.valid_pref r 15 (l + 1) (by omega) (by omega) hv
    have hp := t.parent _ _ hne hv1
    have hd := t.down _ hne hp.1
    simp only [descend]
    rw [if_neg (by have := (hd.2.2.2 (by omega)).1; omega), if_neg (by
      rintro (h1 | h1)
      · omega
      · exact hv1 h1)]
    exact ih (l + 1) (by omega) (by omega) hv

end SLM
