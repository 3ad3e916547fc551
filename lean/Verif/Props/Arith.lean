import Verif.Model.Map
import Verif.Proofs.Util
/-!
C18, C20, C46, C48: hashing contract, pool growth, hash-order arithmetic, error numbers.
-/
set_option autoImplicit false
namespace SLM

/-! ## C18 Key hashing contract -/

/-- The 64-bit extension Go's conversion to `uint64` gives an integer-like key. -/
inductive ExtendsTo : Key → U64 → Prop
  | nil : ExtendsTo .nil 0
  | u64 k : ExtendsTo (.u64 k) k
  | int (k : BitVec 64) : ExtendsTo (.int k) k
  | int64 (k : BitVec 64) : ExtendsTo (.int64 k) k
  | byte (k : BitVec 8) (w : U64) (h : w.toNat = k.toNat) : ExtendsTo (.byte k) w
  | u32 (k : BitVec 32) (w : U64) (h : w.toNat = k.toNat) : ExtendsTo (.u32 k) w
  | int32 (k : BitVec 32) (w : U64) (h : w.toInt = k.toInt) : ExtendsTo (.int32 k) w

/-- Keys of the same integer type. -/
inductive SameIntType : Key → Key → Prop
  | u64 a b : SameIntType (.u64 a) (.u64 b)
  | int a b : SameIntType (.int a) (.int b)
  | int64 a b : SameIntType (.int64 a) (.int64 b)
  | byte a b : SameIntType (.byte a) (.byte b)
  | u32 a b : SameIntType (.u32 a) (.u32 b)
  | int32 a b : SameIntType (.int32 a) (.int32 b)

/-- Two keys address the same entry: every operation that takes a key treats them alike in every state
(`Set` of a key that is not present additionally needs a string, map.go:688, and keeps the key itself). -/
def SameEntry (E : Env) (a b : Key) : Prop :=
  ∀ st : St, opGet E st a = opGet E st b ∧ opLoadItem E st a = opLoadItem E st b ∧ opDelete E st a = opDelete E st b

/-- Hash of an integer-like key: its 64-bit extension, secondary hash 0. -/
theorem C18_integer_hash (H : HashFns) (k : Key) (w : U64) (h : ExtendsTo k w) : keyToHash H k = some (w, 0) := by
  cases h with
  | nil => rfl
  | u64 => rfl
  | int => rfl
  | int64 => rfl
  | byte k _ h =>
    have : k.zeroExtend 64 = w := BitVec.eq_of_toNat_eq (by simp [h]; omega)
    simp [keyToHash, this]
  | u32 k _ h =>
    have : k.zeroExtend 64 = w := BitVec.eq_of_toNat_eq (by simp [h]; omega)
    simp [keyToHash, this]
  | int32 k _ h =>
    have : k.signExtend 64 = w := BitVec.eq_of_toInt_eq (by rw [BitVec.toInt_signExtend_of_le (by omega), h])
    simp [keyToHash, this]

/-- Distinct integers of one type never share a primary hash. -/
theorem C18_integers_injective (H : HashFns) (a b : Key) (hs : SameIntType a b) (hne : a ≠ b) :
    ∃ x y, keyToHash H a = some (x, 0) ∧ keyToHash H b = some (y, 0) ∧ x ≠ y := by
  cases hs with
  | u64 a b => exact ⟨a, b, rfl, rfl, by simpa using hne⟩
  | int a b => exact ⟨a, b, rfl, rfl, by simpa using hne⟩
  | int64 a b => exact ⟨a, b, rfl, rfl, by simpa using hne⟩
  | byte a b =>
    refine ⟨a.zeroExtend 64, b.zeroExtend 64, rfl, rfl, fun h => hne ?_⟩
    have := congrArg BitVec.toNat h
    simp at this
    rw [BitVec.eq_of_toNat_eq (x := a) (y := b) (by omega)]
  | u32 a b =>
    refine ⟨a.zeroExtend 64, b.zeroExtend 64, rfl, rfl, fun h => hne ?_⟩
    have := congrArg BitVec.toNat h
    simp at this
    rw [BitVec.eq_of_toNat_eq (x := a) (y := b) (by omega)]
  | int32 a b =>
    refine ⟨a.signExtend 64, b.signExtend 64, rfl, rfl, fun h => hne ?_⟩
    have := congrArg BitVec.toInt h
    rw [BitVec.toInt_signExtend_of_le (by omega), BitVec.toInt_signExtend_of_le (by omega)] at this
    rw [BitVec.eq_of_toInt_eq this]

theorem sameEntry_of_hash (E : Env) (a b : Key) (h : keyToHash E.H a = keyToHash E.H b) : SameEntry E a b := by
  intro st
  simp only [opGet, opLoadItem, opDelete, h, and_self]

/-- A string and a byte slice with the same bytes address the same entry. -/
theorem C18_string_bytes_same_entry (E : Env) (s : List (BitVec 8)) : SameEntry E (.str s) (.bytes s) :=
  sameEntry_of_hash E _ _ rfl

/-- Integer-like keys of any types with equal 64-bit extension address the same entry; in particular nil and 0. -/
theorem C18_equal_extension_same_entry (E : Env) (a b : Key) (w : U64) (ha : ExtendsTo a w) (hb : ExtendsTo b w) :
    SameEntry E a b :=
  sameEntry_of_hash E _ _ (by rw [C18_integer_hash _ _ _ ha, C18_integer_hash _ _ _ hb])

/-- Every operation taking a key of an unsupported type panics and leaves the map as it was. -/
theorem C18_unsupported_panics (E : Env) (st : St) (t : Nat) (v : IVal) :
    step E st (.set (.other t) v) = (st, .panic .unsupportedKey) ∧
    step E st (.get (.other t)) = (st, .panic .unsupportedKey) ∧
    step E st (.loadItem (.other t)) = (st, .panic .unsupportedKey) ∧
    step E st (.delete (.other t)) = (st, .panic .unsupportedKey) ∧
    (∀ kd r c, step E st (.storeItem ⟨kd, .other t, v, r, c⟩) = (st, .panic .unsupportedKey)) :=
  ⟨rfl, rfl, rfl, rfl, fun _ _ _ => rfl⟩

/-- Every other key is hashed (no panic). -/
theorem C18_supported_hashed (H : HashFns) (k : Key) (h : ∀ t, k ≠ .other t) : ∃ x c, keyToHash H k = some (x, c) := by
  cases k <;> first | exact ⟨_, _, rfl⟩ | exact absurd rfl (h _)

example : ExtendsTo (.int32 (-1)) maxU64 ∧ ExtendsTo (.int (-1)) maxU64 ∧ ExtendsTo (.byte 7) 7 ∧ ExtendsTo (.u32 7) 7 :=
  ⟨.int32 _ _ (by decide), .int _, .byte _ _ rfl, .u32 _ _ rfl⟩
example : SameIntType (.byte 3) (.byte 4) ∧ Key.byte 3 ≠ Key.byte 4 := ⟨.byte _ _, by decide⟩

/-! ## C20 Pool growth makes progress -/

/-- Strict growth, lower and upper bound, for every length short of the `int` overflow. -/
theorem C20_growth (n : Int) (h : n < 2 ^ 63 - 64) :
    n < poolCap n ∧ 2 ≤ poolCap n ∧ (1 ≤ n → poolCap n ≤ max (2 * n) (n + 64)) := poolCap_bounds n h

theorem C20_monotone (m n : Int) (hmn : m ≤ n) (h : n < 2 ^ 63 - 64) : poolCap m ≤ poolCap n :=
  poolCap_mono m n hmn h

/-- The bound on `n` is sharp: at the last 64 lengths below 2^63 the product overflows and `PoolCap` is negative. -/
theorem C20_overflow_refuted : ∃ n : Int, 0 ≤ n ∧ n < 2 ^ 63 ∧ ¬ n < poolCap n :=
  ⟨2 ^ 63 - 64, by decide, by decide, by decide +kernel⟩

/-- Growing a full pool again and again reaches every size: each step adds at least one slot. -/
theorem C20_growth_iterates (n : Int) (k : Nat) (hb : ∀ j < k, poolCap^[j] n < 2 ^ 63 - 64) :
    n + k ≤ poolCap^[k] n := by
  induction k with
  | zero => simp
  | succ k ih =>
    have h1 := ih (fun j hj => hb j (by omega))
    have h2 := (poolCap_bounds _ (hb k (by omega))).1
    rw [Function.iterate_succ_apply']
    push_cast; omega

example : (0:Int) ≤ 300 ∧ (300:Int) < 2 ^ 63 - 64 ∧ poolCap 300 = 320 ∧ poolCap 100 = 128 := by decide +kernel

/-! ## C46 Hash order arithmetic -/

theorem C46_reverse_involution (x : U64) : rev64 (rev64 x) = x := rev64_rev64 x

/-- Reversal moves bit `i` to bit `63 - i`. -/
theorem C46_reverse_bits (x : U64) (i : Nat) (h : i < 64) : (rev64 x).getLsbD i = x.getLsbD (63 - i) := by
  simp only [rev64, BitVec.getLsbD_reverse, BitVec.getMsbD_eq_getLsbD, h, decide_true, Bool.true_and]

/-- The sorted list of initial boundaries is `0, 2^60, 2·2^60, ..., 15·2^60`. -/
theorem C46_initial_boundaries :
    topReverses = (List.range 16).map (fun i => BitVec.ofNat 64 (i * 2 ^ 60)) := by decide +kernel

/-- The midpoint is the floor of the average, whatever the argument order: no overflow, between the arguments. -/
theorem C46_midpoint (a b : U64) :
    (half a b).toNat = (a.toNat + b.toNat) / 2 := by
  by_cases h : a ≤ b
  · exact (half_between a b h).2.2
  · rw [half_comm, (half_between b a (by bv_omega)).2.2, Nat.add_comm]

theorem C46_midpoint_between (a b : U64) (h : a < b) : a ≤ half a b ∧ half a b < b := by
  have := C46_midpoint a b
  constructor <;> bv_omega

/-- The nearest-bucket choice: one of the two, at minimal distance, computed without overflow; ties go to the first. -/
theorem C46_nearest (a b t : U64) :
    let d := fun x : U64 => (x.toNat - t.toNat) + (t.toNat - x.toNat)
    (near a b t = a ∧ d a ≤ d b) ∨ (near a b t = b ∧ d b < d a) := by
  intro d
  have h1 := absDiff_toNat a t
  have h2 := absDiff_toNat b t
  unfold near
  split
  · rename_i h
    right; exact ⟨rfl, by simp only [d]; have : (absDiff b t).toNat < (absDiff a t).toNat := h; omega⟩
  · rename_i h
    left; exact ⟨rfl, by simp only [d]; have : ¬ (absDiff b t).toNat < (absDiff a t).toNat := h; omega⟩

example : half (3 <<< 60) (2 <<< 60) = 0x2800000000000000#64 ∧ near 10 20 16 = 20 := by decide +kernel

/-! ## C48 Error identity -/

/-- Each error number is a single bit, hence non-zero. -/
theorem C48_single_bit (k : ErrKind) : ∃ i, i < 16 ∧ ∀ j, j < 16 → (k.num.getLsbD j = true ↔ j = i) := by
  refine ⟨k.iota, by cases k <;> decide, ?_⟩
  intro j hj
  have hk : k.iota < 16 := by cases k <;> decide
  simp only [ErrKind.num, BitVec.getLsbD_shiftLeft, BitVec.getLsbD_one]
  simp only [Bool.and_eq_true, Bool.not_eq_true', decide_eq_true_eq, decide_eq_false_iff_not]
  omega

theorem C48_nonzero (k : ErrKind) : k.num ≠ 0 := by cases k <;> decide

theorem C48_distinct (a b : ErrKind) (h : a ≠ b) : a.num ≠ b.num := by
  cases a <;> cases b <;> first | exact absurd rfl h | decide

example : ErrKind.num .bucketInvalidOrder = 16#16 := rfl

end SLM
