import Verif.Model.Util
import Mathlib.Tactic.Ring
/-! Helper lemmas about Model/Util.lean. -/
set_option autoImplicit false
namespace SLM

theorem intPow_two (i : Nat) (h : i < 62) : intPow 2 i = 2 ^ i := by
  induction i with
  | zero => rfl
  | succ n ih =>
    have : (2:Int) ^ n < 2 ^ 61 := by exact_mod_cast Nat.pow_lt_pow_right (by omega) (by omega : n < 61)
    have h0 : (0:Int) < 2 ^ n := by exact_mod_cast Nat.two_pow_pos n
    simp only [intPow, ih (by omega), wrapInt]
    rw [Int.bmod_eq_of_le (by omega) (by omega)]; ring

/-- The result of the shift loop: the least power of two above `len`, for `0 ≤ len < 2^59`. -/
theorem capLoop_spec (len : Int) (h0 : 0 ≤ len) (fuel : Nat) (hf : fuel ≤ 60) (h1 : len < 2 ^ 59)
    (hlow : ∀ j, j < 60 - fuel → (2:Int) ^ j ≤ len) (hpos : 0 < fuel) :
    ∃ i, i < 60 ∧ capLoop len fuel = 2 ^ i ∧ len < 2 ^ i ∧ (∀ j, j < i → (2:Int) ^ j ≤ len) := by
  induction fuel with
  | zero => omega
  | succ f ih =>
    simp only [capLoop]
    have hsh : len >>> (60 - (f + 1)) = 0 ↔ len < 2 ^ (60 - (f+1)) := by
      generalize 60 - (f + 1) = k
      rw [Int.shiftRight_eq_div_pow]
      have : (0:Int) < ((2 ^ k : Nat) : Int) := by exact_mod_cast Nat.two_pow_pos _
      constructor
      · intro h
        have := Int.lt_mul_ediv_self_add this (x := len)
        rw [h] at this; push_cast at this; omega
      · intro h
        exact Int.ediv_eq_zero_of_lt h0 (by push_cast; omega)
    split
    · rename_i h
      refine ⟨60 - (f+1), by omega, intPow_two _ (by omega), hsh.1 h, hlow⟩
    · rename_i h
      have hge : (2:Int) ^ (60 - (f+1)) ≤ len := by
        have := mt hsh.2 h; omega
      by_cases hz : f = 0
      · subst hz; simp at hge; omega
      · refine ih (by omega) ?_ (by omega)
        intro j hj
        by_cases hj2 : j < 60 - (f+1)
        · exact hlow j hj2
        · have : j = 60 - (f+1) := by omega
          subst this; exact hge


theorem poolCap_small (n : Int) (h2 : 2 ≤ n) (h : n < 256) :
    ∃ i, i < 60 ∧ poolCap n = 2 ^ i ∧ n < 2 ^ i ∧ (∀ j, j < i → (2:Int) ^ j ≤ n) := by
  have := capLoop_spec n (by omega) 60 (by omega) (by omega) (by omega) (by omega)
  unfold poolCap
  simp only [show ¬ n < 2 by omega, show ¬ n ≥ 256 by omega, if_false]
  exact this

theorem poolCap_big (n : Int) (h : 256 ≤ n) (h2 : n < 2 ^ 63 - 64) : poolCap n = 64 * (1 + n / 64) := by
  unfold poolCap
  simp only [show ¬ n < 2 by omega, show n ≥ 256 by omega, if_false, if_true]
  rw [Int.tdiv_eq_ediv_of_nonneg (by omega : (0:Int) ≤ 256), show (256:Int) / 4 = 64 from rfl,
    Int.tdiv_eq_ediv_of_nonneg (by omega : 0 ≤ n)]
  unfold wrapInt
  rw [Int.bmod_eq_of_le (n := 1 + n/64) (by omega) (by omega)]
  rw [Int.bmod_eq_of_le (by omega) (by omega)]

theorem two_pow_mono {i j : Nat} (h : i ≤ j) : (2:Int) ^ i ≤ 2 ^ j := by
  exact_mod_cast Nat.pow_le_pow_right (by omega) h

theorem poolCap_bounds (n : Int) (h2 : n < 2 ^ 63 - 64) :
    n < poolCap n ∧ 2 ≤ poolCap n ∧ (1 ≤ n → poolCap n ≤ max (2 * n) (n + 64)) := by
  by_cases h : n < 2
  · have : poolCap n = 2 := by unfold poolCap; simp [h]
    omega
  · by_cases h3 : n < 256
    · obtain ⟨i, hi, he, hl, hlow⟩ := poolCap_small n (by omega) h3
      rw [he]
      obtain ⟨k, rfl⟩ : ∃ k, i = k + 1 := ⟨i - 1, by
        rcases i with _ | i
        · simp at hl; omega
        · rfl⟩
      have := hlow k (by omega)
      rw [Int.pow_succ] at *
      omega
    · rw [poolCap_big n (by omega) h2]; omega

theorem poolCap_mono (m n : Int) (hmn : m ≤ n) (h2 : n < 2 ^ 63 - 64) : poolCap m ≤ poolCap n := by
  have hn := poolCap_bounds n h2
  by_cases h : m < 2
  · have : poolCap m = 2 := by unfold poolCap; simp [h]
    omega
  · by_cases h3 : n < 256
    · obtain ⟨i, hi, he, hl, hlow⟩ := poolCap_small m (by omega) (by omega)
      obtain ⟨j, hj, he', hl', hlow'⟩ := poolCap_small n (by omega) h3
      rw [he, he']
      apply two_pow_mono
      by_contra hc
      have := hlow j (by omega)
      omega
    · rw [poolCap_big n (by omega) h2]
      by_cases h4 : m < 256
      · obtain ⟨i, hi, he, hl, hlow⟩ := poolCap_small m (by omega) (by omega)
        rw [he]
        have : i ≤ 8 := by
          by_contra hc
          have := hlow 8 (by omega)
          omega
        have := two_pow_mono this
        omega
      · rw [poolCap_big m (by omega) (by omega)]; omega

/-! ### uint64 helpers -/

theorem half_between (a b : U64) (h : a ≤ b) : a ≤ half a b ∧ half a b ≤ b ∧ (half a b).toNat = (a.toNat + b.toNat) / 2 := by
  have hs : half a b = a + (b - a) / 2 := by
    unfold half
    have : ¬ a > b := by bv_omega
    simp [this]
  have h2 : ((b - a) / 2).toNat = (b.toNat - a.toNat) / 2 := by
    rw [BitVec.toNat_udiv]; have : (b - a).toNat = b.toNat - a.toNat := by bv_omega
    rw [this]; rfl
  rw [hs]
  have hb := b.isLt
  have : (a + (b - a) / 2).toNat = a.toNat + (b.toNat - a.toNat) / 2 := by
    rw [BitVec.toNat_add, h2, Nat.mod_eq_of_lt (by have : a.toNat ≤ b.toNat := h; omega)]
  have hab : a.toNat ≤ b.toNat := h
  refine ⟨?_, ?_, ?_⟩
  · show a.toNat ≤ _; omega
  · show _ ≤ b.toNat; omega
  · omega

theorem half_comm (a b : U64) : half a b = half b a := by
  unfold half
  by_cases h : a > b
  · have : ¬ b > a := by bv_omega
    simp [h, this]
  · by_cases h' : b > a
    · simp [h, h']
    · have : a = b := by bv_omega
      subst this; rfl

theorem absDiff_toNat (x y : U64) : (absDiff x y).toNat = (x.toNat - y.toNat) + (y.toNat - x.toNat) := by
  unfold absDiff; split <;> bv_omega

theorem rev64_rev64 (x : U64) : rev64 (rev64 x) = x := BitVec.reverse_reverse_eq

theorem rev64_inj {x y : U64} (h : rev64 x = rev64 y) : x = y := by
  rw [← rev64_rev64 x, h, rev64_rev64]

end SLM
