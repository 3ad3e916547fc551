import Verif.Proofs.Trie
import Verif.Proofs.Levels
import Mathlib.Data.List.Chain
/-! The state invariant and its preservation by bucket creation. -/
set_option autoImplicit false
namespace SLM

/-- Upper end of the bucket list is 2^64; other buckets have the boundary spelled by their path. -/
def bval (p : Path) : Nat := if p = [] then 2 ^ 64 else pathVal p

/-- The stored boundary of a listed bucket. -/
def bvRev (p : Path) : U64 := if p = [] then maxU64 else BitVec.ofNat 64 (pathVal p)

/-- Neighbours `n` (larger) and `c` in the bucket list: the interval has power-of-two size, is aligned, and the trie
already holds every prefix of `c` that a split needs. -/
def DyR (m : Path → Bkt) (n c : Path) : Prop :=
  ∃ k, bval c + 2 ^ k = bval n ∧ 2 ^ k ∣ bval c ∧
    ∀ l, 1 ≤ l → l ≤ 15 - (k - 1) / 4 → V m (pref (BitVec.ofNat 64 (bval c)) l)

structure BI (m : Path → Bkt) (bl : List Path) : Prop where
  ti : TI m
  head : ∃ rest, bl = [] :: rest
  desc : bl.Pairwise (fun p q => bval q < bval p)
  mem_iff : ∀ p, p ≠ [] → (p ∈ bl ↔ V m p ∧ (m p).isAlias = false)
  lt : ∀ p ∈ bl, p ≠ [] → bval p < 2 ^ 64 - 1
  dy : bl.IsChain (DyR m)

structure II (items : List Entry) (nextId : Nat) (bl : List Path) : Prop where
  sorted : Sorted items
  nodup : (refs items).Nodup
  dum : ∀ e ∈ items, ∀ p, e.ref = .dummy p → p ∈ bl ∧ e = dummyEntry p (bvRev p)
  itm : ∀ e ∈ items, ∀ n, e.ref = .item n → e.dummy = false ∧ n < nextId
  has : ∀ p ∈ bl, dummyEntry p (bvRev p) ∈ items

structure Inv (st : St) : Prop where
  bi : BI st.mem st.blist
  ii : II st.items st.nextId st.blist
  lv : LvOk st.mem st.lv

/-! ### digits -/

theorem pathVal_dvd (p : Path) (h : p.length ≤ 16) : 16 ^ (16 - p.length) ∣ pathVal p := by
  induction p with
  | nil => simp [pathVal]
  | cons d p ih =>
    simp only [List.length_cons] at h
    simp only [pathVal, List.length_cons]
    have h1 := ih (by omega)
    have h2 : 16 - (p.length + 1) = 15 - p.length := by omega
    rw [h2]
    apply Nat.dvd_add
    · exact dvd_trans (pow_dvd_pow 16 (by omega)) h1
    · exact Dvd.intro_left _ rfl

/-- A value inside the digit block of `p` starts with the digits of `p`. -/
theorem pref_of_block (p : Path) (hd : Digits p) (hl : p.length ≤ 16) (r : U64)
    (h1 : pathVal p ≤ r.toNat) (h2 : r.toNat < pathVal p + 16 ^ (16 - p.length)) : pref r p.length = p := by
  induction p with
  | nil => rfl
  | cons d p ih =>
    have hdp : Digits p := fun x hx => hd x (List.mem_cons_of_mem _ hx)
    have hdd : d < 16 := hd d (by simp)
    simp only [List.length_cons] at hl h2 ⊢
    have hb := pathVal_ext [d] p hd hl
    simp only [List.cons_append, List.nil_append, List.length_cons] at hb
    have hih := ih hdp (by omega) (by omega) (by omega)
    simp only [pref, hih]
    congr 1
    rw [nib_eq]
    have hdv := pathVal_dvd p (by omega)
    obtain ⟨x, hx⟩ := hdv
    simp only [pathVal] at h1 h2
    have e1 : 16 - (p.length + 1) = 15 - p.length := by omega
    have e2 : 16 - p.length = (15 - p.length) + 1 := by omega
    rw [e1] at h2 ⊢
    rw [e2, pow_succ] at hx
    generalize 16 ^ (15 - p.length) = q at *
    have hq : 0 < q := by
      rcases Nat.eq_zero_or_pos q with h | h
      · subst h; omega
      · exact h
    have : r.toNat / q = 16 * x + d := by
      have hy : (16 * x + d) * q = pathVal p + d * q := by rw [hx]; ring
      rw [Nat.div_eq_iff hq]
      constructor
      · omega
      · omega
    rw [this]; omega

theorem pref_pathVal (p : Path) (hd : Digits p) (hl : p.length ≤ 16) :
    pref (BitVec.ofNat 64 (pathVal p)) p.length = p := by
  have h := pathVal_lt p hd hl
  have e : (BitVec.ofNat 64 (pathVal p)).toNat = pathVal p := by
    rw [BitVec.toNat_ofNat, Nat.mod_eq_of_lt h]
  apply pref_of_block p hd hl
  · rw [e]
  · rw [e]; have : 0 < 16 ^ (16 - p.length) := Nat.pos_of_ne_zero (by simp); omega

theorem pref_take (r : U64) (l j : Nat) (h : j ≤ l) : ∃ q, pref r l = q ++ pref r j := by
  induction l with
  | zero => exact ⟨[], by rw [Nat.le_zero.1 h]; rfl⟩
  | succ l ih =>
    by_cases hj : j = l + 1
    · subst hj; exact ⟨[], rfl⟩
    · obtain ⟨q, hq⟩ := ih (by omega)
      exact ⟨nib r (l + 1) :: q, by simp [pref, hq]⟩

theorem TI.valid_suffix {m : Path → Bkt} (t : TI m) (q p : Path) (hp : p ≠ []) (h : V m (q ++ p)) : V m p := by
  induction q with
  | nil => exact h
  | cons d q ih => exact ih (t.parent d (q ++ p) (by simp [hp]) h).1

theorem TI.valid_pref {m : Path → Bkt} (t : TI m) (r : U64) (l j : Nat) (hj : 1 ≤ j) (h : j ≤ l) (hv : V m (pref r l)) :
    V m (pref r j) := by
  obtain ⟨q, hq⟩ := pref_take r l j h
  rw [hq] at hv
  exact t.valid_suffix q _ (pref_ne_nil r j hj) hv

theorem pref_congr (r s : U64) (l : Nat) (h : ∀ j, j ≤ l → 1 ≤ j → r.toNat / 16 ^ (16 - j) = s.toNat / 16 ^ (16 - j)) :
    pref r l = pref s l := by
  induction l with
  | zero => rfl
  | succ l ih =>
    simp only [pref, nib_eq, h (l + 1) (le_refl _) (by omega)]
    rw [ih (fun j h1 h2 => h j (by omega) h2)]

/-! ### consequences of BI -/

theorem BI.congr {m m' : Path → Bkt} {bl : List Path} (hE : EqL m m') (h : BI m bl) : BI m' bl := by
  constructor
  · exact h.ti.congr hE
  · exact h.head
  · exact h.desc
  · intro p hp
    rw [hE.V, (hE.fields p).2.2.2.2.2.2]; exact h.mem_iff p hp
  · exact h.lt
  · refine h.dy.imp ?_
    rintro a b ⟨k, h1, h2, h3⟩
    exact ⟨k, h1, h2, fun l x y => (hE.V _).2 (h3 l x y)⟩


variable {m : Path → Bkt} {bl : List Path}

theorem BI.nil_mem (h : BI m bl) : [] ∈ bl := by obtain ⟨r, hr⟩ := h.head; simp [hr]

theorem BI.rev_eq (h : BI m bl) {p : Path} (hp : p ∈ bl) : (m p).rev = bvRev p := by
  unfold bvRev
  split
  · subst_vars; exact h.ti.root.1
  · rename_i hne
    have hv := ((h.mem_iff p hne).1 hp).1
    have := h.ti.val p hne hv
    apply BitVec.eq_of_toNat_eq
    rw [this.1, BitVec.toNat_ofNat, Nat.mod_eq_of_lt (pathVal_lt p this.2.2.2.2 this.2.2.1)]

theorem BI.rev_toNat (h : BI m bl) {p : Path} (hp : p ∈ bl) (hne : p ≠ []) : (m p).rev.toNat = bval p := by
  have hv := ((h.mem_iff p hne).1 hp).1
  rw [(h.ti.val p hne hv).1, bval, if_neg hne]

theorem BI.root_toNat (h : BI m bl) : (m []).rev.toNat = 2 ^ 64 - 1 := by
  rw [h.ti.root.1]; rfl

theorem bval_nil : bval [] = 2 ^ 64 := by simp [bval]

/-- Order of stored boundaries is the order of `bval`. -/
theorem BI.rev_lt_iff (h : BI m bl) {p q : Path} (hp : p ∈ bl) (hq : q ∈ bl) : (m p).rev < (m q).rev ↔ bval p < bval q := by
  rw [BitVec.lt_def]
  by_cases h1 : p = [] <;> by_cases h2 : q = []
  · subst h1 h2; simp
  · subst h1
    have := h.lt q hq h2
    rw [h.root_toNat, h.rev_toNat hq h2, bval_nil]; omega
  · subst h2
    have := h.lt p hp h1
    rw [h.root_toNat, h.rev_toNat hp h1, bval_nil]; omega
  · rw [h.rev_toNat hq h2, h.rev_toNat hp h1]

theorem BI.top_mem (h : BI m bl) {i : Nat} (hi : i < 16) : [i] ∈ bl := by
  rw [h.mem_iff _ (by simp)]
  have hv := h.ti.top i hi
  refine ⟨hv, ?_⟩
  have := h.ti.ali i [] hv
  cases ha : (m [i]).isAlias
  · rfl
  · simp [ha] at this

theorem bval_top (i : Nat) : bval [i] = i * 2 ^ 60 := by
  simp [bval, pathVal]

theorem desc_nodup (hd : bl.Pairwise (fun p q => bval q < bval p)) : bl.Nodup :=
  hd.imp (fun {a b} h hc => by subst hc; omega)

/-- Nothing lies strictly between neighbours. -/
theorem desc_gap {A B : List Path} {n c p : Path} (hd : (A ++ n :: c :: B).Pairwise (fun p q => bval q < bval p))
    (hp : p ∈ A ++ n :: c :: B) : bval p ≤ bval c ∨ bval n ≤ bval p := by
  rw [List.pairwise_append] at hd
  obtain ⟨_, h2, h3⟩ := hd
  rw [List.pairwise_cons] at h2
  obtain ⟨_, h5⟩ := h2
  rw [List.pairwise_cons] at h5
  simp only [List.mem_append, List.mem_cons] at hp
  rcases hp with h | rfl | rfl | h
  · right; exact Nat.le_of_lt (h3 p h n (by simp))
  · right; exact Nat.le_refl _
  · left; exact Nat.le_refl _
  · left; exact Nat.le_of_lt (h5.1 p h)

theorem BI.neighbours (h : BI m bl) {A B : List Path} {n c : Path} (hbl : bl = A ++ n :: c :: B) :
    DyR m n c ∧ bval c < bval n ∧ c ≠ [] ∧ (n = [] ↔ A = []) := by
  have hd := h.dy
  rw [hbl, List.isChain_append] at hd
  have h2 := hd.2.1
  rw [List.isChain_cons_cons] at h2
  have hlt : bval c < bval n := by
    have := h.desc
    rw [hbl, List.pairwise_append] at this
    exact (List.pairwise_cons.1 this.2.1).1 c (by simp)
  have hnd := desc_nodup h.desc
  obtain ⟨rest, hr⟩ := h.head
  refine ⟨h2.1, hlt, ?_, ?_⟩
  · rintro rfl
    rw [hbl] at hr hnd
    cases A with
    | nil =>
      simp at hr
      have : bval ([] : Path) < bval n := hlt
      rw [hr.1] at this; omega
    | cons a A =>
      simp at hr
      rw [hr.1] at hnd
      simp at hnd
  · constructor
    · rintro rfl
      cases A with
      | nil => rfl
      | cons a A =>
        rw [hbl] at hr hnd
        simp at hr
        rw [hr.1] at hnd
        simp at hnd
    · rintro rfl
      rw [hbl] at hr
      simp at hr; exact hr.1

/-- Intervals are at most 2^60 wide. -/
theorem BI.width (h : BI m bl) {A B : List Path} {n c : Path} (hbl : bl = A ++ n :: c :: B) {k : Nat}
    (hk : bval c + 2 ^ k = bval n) : k ≤ 60 := by
  obtain ⟨_, hlt, hc, _⟩ := h.neighbours hbl
  have hcm : c ∈ bl := by rw [hbl]; simp
  have hcl := h.lt c hcm hc
  have hup : bval n ≤ (bval c / 2 ^ 60 + 1) * 2 ^ 60 := by
    by_cases hi : bval c / 2 ^ 60 + 1 < 16
    · have hm := h.top_mem hi
      have := desc_gap (hbl ▸ h.desc) (hbl ▸ hm)
      rw [bval_top] at this
      have h3 : bval c < (bval c / 2 ^ 60 + 1) * 2 ^ 60 := by omega
      omega
    · have hm := h.nil_mem
      have := desc_gap (hbl ▸ h.desc) (hbl ▸ hm)
      rw [bval_nil] at this
      omega
  by_contra hgt
  have : 2 ^ 61 ≤ 2 ^ k := Nat.pow_le_pow_right (by omega) (by omega)
  omega

/-! ### climb -/

theorem climb_spec (h : BI m bl) (er : U64) : ∀ (rest : List Path) (n c : Path) (B : List Path),
    bl = rest.reverse ++ n :: c :: B → (m c).rev ≤ er →
    ∃ A' c' n' B', climb m er c (n :: rest) = (c', n') ∧ bl = A' ++ n' :: c' :: B' ∧ (m c').rev ≤ er ∧
      (er < (m n').rev ∨ A' = []) := by
  intro rest
  induction rest with
  | nil =>
    intro n c B hbl hc
    exact ⟨[], c, n, B, by simp [climb], by simpa using hbl, hc, Or.inr rfl⟩
  | cons a rest ih =>
    intro n c B hbl hc
    simp only [climb]
    by_cases hgt : (m n).rev > er
    · rw [if_pos hgt]
      exact ⟨(a :: rest).reverse, c, n, B, rfl, hbl, hc, Or.inl hgt⟩
    · rw [if_neg hgt]
      have hn : n ∈ bl := by rw [hbl]; simp
      have hcm : c ∈ bl := by rw [hbl]; simp
      have hlt := (h.rev_lt_iff hcm hn).2 (h.neighbours hbl).2.1
      have hle : (m n).rev ≤ er := by bv_omega
      rw [if_pos ⟨hle, hlt⟩]
      exact ih a n (c :: B) (by rw [hbl]; simp) hle

/-- The pair found by the climb of makeBucket. -/
theorem climb_start (h : BI m bl) (er : U64) {c0 : Path} (hc0 : c0 ∈ bl) (hlt : (m c0).rev < er) :
    ∃ A c n B, climb m er c0 (c0 :: (bl.takeWhile (fun q => decide (q ≠ c0))).reverse) = (c, n) ∧
      bl = A ++ n :: c :: B ∧ (m c).rev ≤ er ∧ (er < (m n).rev ∨ A = []) := by
  obtain ⟨A, B, hbl⟩ := List.append_of_mem hc0
  have hnd := desc_nodup h.desc
  have hA : c0 ∉ A := by
    rw [hbl, List.nodup_append] at hnd
    exact fun hc => hnd.2.2 c0 hc c0 (by simp) rfl
  have htw : bl.takeWhile (fun q => decide (q ≠ c0)) = A := by
    rw [hbl, List.takeWhile_append_of_pos]
    · simp
    · intro x hx
      have : x ≠ c0 := by rintro rfl; exact hA hx
      simpa using this
  rw [htw]
  have hc0n : c0 ≠ [] := by
    rintro rfl
    have := h.root_toNat
    bv_omega
  cases hA' : A.reverse with
  | nil =>
    have : A = [] := by simpa using hA'
    subst this
    obtain ⟨r, hr⟩ := h.head
    rw [hbl] at hr; simp at hr
    exact absurd hr.1 hc0n
  | cons a rest =>
    have hA2 : A = rest.reverse ++ [a] := by
      have := congrArg List.reverse hA'; simpa using this
    simp only [climb]
    rw [if_neg (by bv_omega), if_neg (by
      rintro ⟨_, h⟩; bv_omega)]
    exact climb_spec h er rest a c0 B (by rw [hbl, hA2]; simp) (by bv_omega)

/-! ### the new boundary -/

theorem newBoundary_eq (h : BI m bl) {A B : List Path} {n c : Path} (hbl : bl = A ++ n :: c :: B) {k : Nat}
    (hk : bval c + 2 ^ k = bval n) (hdv : 2 ^ k ∣ bval c) :
    (newBoundary (m c).rev (m n).rev (decide (c = n))).toNat = bval c + 2 ^ k / 2 := by
  obtain ⟨_, hlt, hc, hn⟩ := h.neighbours hbl
  have hw := h.width hbl hk
  have hcm : c ∈ bl := by rw [hbl]; simp
  have hnm : n ∈ bl := by rw [hbl]; simp
  have hcn : c ≠ n := by rintro rfl; omega
  have hcr := h.rev_toNat hcm hc
  have hcl := h.lt c hcm hc
  have hp60 : 2 ^ k ≤ 2 ^ 60 := Nat.pow_le_pow_right (by omega) hw
  unfold newBoundary
  by_cases hnn : n = []
  · subst hnn
    rw [h.ti.root.1]
    rw [bval_nil] at hk
    have hc0 : (m c).rev ≠ 0 := by
      intro h0
      rw [h0] at hcr
      simp at hcr
      omega
    rw [if_neg (fun hc => hc0 hc.2), if_neg (by simpa using hcn), if_pos rfl]
    have hk1 : 1 ≤ k := by
      rcases Nat.eq_zero_or_pos k with h0 | h0
      · subst h0; omega
      · exact h0
    obtain ⟨j, rfl⟩ : ∃ j, k = j + 1 := ⟨k - 1, by omega⟩
    rw [pow_succ] at *
    have e1 : ((m c).rev / 2).toNat = bval c / 2 := by
      rw [BitVec.toNat_udiv, hcr]; rfl
    have e2 : (maxU64 / 2 : U64).toNat = 2 ^ 63 - 1 := by decide +kernel
    rw [BitVec.toNat_add, BitVec.toNat_add, e1, e2]
    show ((_ % 2 ^ 64) + 1) % 2 ^ 64 = _
    omega
  · have hnl := h.lt n hnm hnn
    have hnr := h.rev_toNat hnm hnn
    have hnM : (m n).rev ≠ maxU64 := by
      intro h0
      rw [h0] at hnr
      have : maxU64.toNat = 2 ^ 64 - 1 := rfl
      omega
    rw [if_neg (by simp [hnM]), if_neg (by simpa using hcn), if_neg hnM]
    have := (half_between (m c).rev (m n).rev (by rw [BitVec.le_def, hcr, hnr]; omega)).2.2
    rw [this, hcr, hnr]
    omega

end SLM
