/-
Model of util.go, hashfn.go, error.go, the mask helpers of map.go and the bit tests of maphead.go.

`uint64` is `BitVec 64` (wrapping arithmetic, unsigned order).  `int` is `Int` with the 64-bit wrap
applied explicitly where an overflow is possible.
-/
set_option autoImplicit false
namespace SLM

/-- Go `uint64`. -/
abbrev U64 := BitVec 64

/-- `^uint64(0)`. -/
def maxU64 : U64 := BitVec.allOnes 64

/-- Go `int` arithmetic result on a 64-bit platform: two's complement wrap. -/
def wrapInt (x : Int) : Int := Int.bmod x (2 ^ 64)

/-- `math/bits.Reverse64` (Go standard library): bit reversal. -/
def rev64 (x : U64) : U64 := x.reverse

/-- util.go:14-19 `absDiffUint64`. -/
def absDiff (x y : U64) : U64 := if x < y then y - x else x - y

/-- util.go:21-26 `nearUint64`. -/
def near (a b dst : U64) : U64 := if absDiff a dst > absDiff b dst then b else a

/-- util.go:28-41 `halfUint64`: `s + diff/2` on both branches. -/
def half (os oe : U64) : U64 :=
  let s := if os > oe then oe else os
  let e := if os > oe then os else oe
  let diff := e - s
  if diff = 0 then s + diff / 2 else s + diff / 2

/-- util.go:83-89 `intPow`: `b` multiplications by `a` with 64-bit wrap. -/
def intPow (a : Int) : Nat → Int
  | 0 => 1
  | b + 1 => wrapInt (intPow a b * a)

/-- util.go:59-63: the loop `for i := 0; i < 60; i++ { if (len >> i) == 0 { return intPow(2, i) } }; return 512`,
from index `60 - fuel` on.  `len >> i` on a non-negative `int` is `len / 2^i`; on a negative one it is the
arithmetic shift, `Int.shiftRight`. -/
def capLoop (len : Int) : Nat → Int
  | 0 => 512
  | fuel + 1 =>
    let i := 60 - (fuel + 1)
    if len >>> i = 0 then intPow 2 i else capLoop len fuel

/-- util.go:48-65 `PoolCap`, with map.go:65-68 `conf` (minCapItems = 2, thresholdCap = 256; nothing in the
package changes them).  Go's `/` truncates; `len ≥ threshold > 0` on that branch, so `Int.tdiv` is exact. -/
def poolCap (len : Int) : Int :=
  let min : Int := 2
  let threshold : Int := 256
  if len < min then min
  else if len ≥ threshold then
    wrapInt (threshold.tdiv 4 * wrapInt (1 + len.tdiv (threshold.tdiv 4)))
  else capLoop len 60

/-- util.go:67-81 `calcCap`. -/
def calcCap (len : Int) : Int :=
  if len > 1024 then wrapInt (len + len.tdiv 4) else capLoop len 60

/-- util.go:91-102 `maxInts` (0 on the empty argument list). -/
def maxInts : List Int → Int
  | [] => 0
  | x :: xs => xs.foldl (fun m y => if m < y then y else m) x

/-- map.go:512-518 `levelMask`: `level` rounds of `mask = (mask << 4) | 0xf`. -/
def levelMask : Nat → U64
  | 0 => 0
  | n + 1 => (levelMask n <<< 4) ||| 0xf#64

/-- map.go:1127-1137 `toMask`. -/
def toMask : Nat → U64
  | 0 => 0
  | n + 1 => let m := toMask n
             if m = 0 then 0xf#64 else (m <<< 4) ||| 0xf#64

/-- map.go:1139-1149 `toMaskR`: rounds `i = 0 .. level`; `0xf << 64 = 0` in `uint64`, so round 0 leaves 0. -/
def toMaskRLoop : Nat → U64
  | 0 => 0
  | i + 1 =>               -- state after rounds 0..i
    let m := toMaskRLoop i
    let bit : U64 := 0xf#64 <<< ((16 - i) * 4)
    if m = 0 then bit else m ||| bit

def toMaskR (level : Nat) : U64 := toMaskRLoop (level + 1)

/-- map.go:1151-1155 `reverse2Index`. -/
def reverse2Index (level : Nat) (r : U64) : U64 := (r &&& toMaskR level) >>> ((16 - level) * 4)

/-- The hex digit of `r` at trie level `l` (1 = most significant):
`(reverse >> (4 * (16 - l))) & 0xf`, map.go:1718, 1787, map_embedded.go:147; for `l = 1` also
`reverse >> (4*15)`, map.go:1698, 1783. -/
def nib (r : U64) (l : Nat) : Nat := ((r >>> (4 * (16 - l))) &&& 0xf#64).toNat

/-- map.go:1774-1777, map_embedded.go:136-139: `for cur := bits.Reverse64(reverse); cur != 0; cur >>= 4 { level++ }`.
A 64-bit value is exhausted after 16 rounds, which is the fuel. -/
def nibLoop : Nat → U64 → Nat
  | 0, _ => 0
  | f + 1, cur => if cur = 0 then 0 else nibLoop f (cur >>> 4) + 1

def levelOf (reverse : U64) : Nat := nibLoop 16 (rev64 reverse)

/-! ### hashfn.go -/

/-- The keys `KeyToHash` distinguishes (hashfn.go:28-53).  Strings and byte slices are byte lists.
`other` stands for every dynamic type not in the type switch. -/
inductive Key where
  | nil
  | u64 (k : U64)
  | str (s : List (BitVec 8))
  | bytes (s : List (BitVec 8))
  | byte (k : BitVec 8)
  | int (k : BitVec 64)
  | int32 (k : BitVec 32)
  | u32 (k : BitVec 32)
  | int64 (k : BitVec 64)
  | other (tag : Nat)
  deriving DecidableEq, Repr

/-- The two external hash functions: `runtime.memhash` with seed 0 and `xxhash.Sum64`. They see only the bytes. -/
structure HashFns where
  mem : List (BitVec 8) → U64
  xx  : List (BitVec 8) → U64

/-- hashfn.go:28-53 `KeyToHash`; `none` is the panic "Key type not supported".
`uint64(int32)` sign-extends, `uint64(byte)`/`uint64(uint32)` zero-extend. -/
def keyToHash (H : HashFns) : Key → Option (U64 × U64)
  | .nil => some (0, 0)
  | .u64 k => some (k, 0)
  | .str s => some (H.mem s, H.xx s)
  | .bytes s => some (H.mem s, H.xx s)
  | .byte k => some (k.zeroExtend 64, 0)
  | .int k => some (k, 0)
  | .int32 k => some (k.signExtend 64, 0)
  | .u32 k => some (k.zeroExtend 64, 0)
  | .int64 k => some (k, 0)
  | .other _ => none

/-! ### error.go -/

/-- error.go:9-19: the error kinds, `1 << iota`. -/
inductive ErrKind where
  | itemInvalidAdd | bucketNotFound | bucketAllocatedFail | bucketInvalid | bucketInvalidOrder
  | bucketAlreadyExist | indexOverflow | poolAlreadyDeleted | poolExpandFail
  deriving DecidableEq, Repr

def ErrKind.iota : ErrKind → Nat
  | .itemInvalidAdd => 0 | .bucketNotFound => 1 | .bucketAllocatedFail => 2 | .bucketInvalid => 3
  | .bucketInvalidOrder => 4 | .bucketAlreadyExist => 5 | .indexOverflow => 6 | .poolAlreadyDeleted => 7
  | .poolExpandFail => 8

/-- error.go:56-58 `ErrorNum`. -/
def ErrKind.num (k : ErrKind) : BitVec 16 := 1#16 <<< k.iota

end SLM
