import Verif.Model.Map
/-
Sequential model of `Map` with `UseEmbeddedPool(true)` (map_embedded.go and the `isEmbededItemInBucket` branches of
map.go): every bucket owns a sorted array of slots, and Get/Set work on that array by binary search.

Abstractions (see DESIGN.md):
* The trie of buckets is the `Path → Bkt` memory of Model/Map.lean.  The embedded code neither reads nor writes
  `cntOfActiveLevels` and `state` of the buckets it makes; the model keeps them as ghosts (`cnt = downLen`, a made
  bucket has `state ≠ 0`) so that the trie lemmas of the other mode apply.  No operation below reads them.
* The linked item list is in Model/EmbList.lean (`Range`, `First`, `Last`), not here: Get, Set, Delete and Purge read it in
  one place only, `pos != nil` in `add2` (map.go:974), which holds iff the item's reverse is below that of the last
  sentinel, `^uint64(0)`.
* Every deleted slot inside the array counts as linked (`!mItem.Empty()`, map_embedded.go:284): `Delete` leaves the node
  in the item list and `Purge` puts it into the free list.
* A negative `MaxPefBucket` panics in `make` (map.go:270, pool2.go:149), so `maxPer` is a natural number.
-/
set_option autoImplicit false
namespace SLM.Emb

/-- One `SampleItem` of a pool's array (sample_hmap_entry.go:17-21, maphead.go:19-24); the default is Go's zero value.
`K` is a string. -/
structure Slot where
  rev : U64 := 0
  conflict : U64 := 0
  deleted : Bool := false
  key : List (BitVec 8) := []
  val : IVal := none
  deriving DecidableEq, Repr

/-- samepleItemPool.items: the backing array up to the capacity, and the slice length.  Slots beyond `len` keep whatever
was written to them.  `len` can become negative (map_embedded.go:721). -/
structure Pool where
  arr : List Slot
  len : Int
  deriving DecidableEq, Repr

def Pool.cap (p : Pool) : Nat := p.arr.length
def Pool.slot (p : Pool) (i : Nat) : Slot := p.arr.getD i {}

/-- Ways in which an operation does not come back (or not in a defined way). -/
inductive Crash where
  | stackOverflow   -- bucket.go:136: itemPool() of a bucket without pool and parent calls itself
  | livelock        -- map_embedded.go:483-495, 440, 501: retry with nothing changed
  | oob             -- map_embedded.go:790: slot index -1
  | makeslice       -- map_embedded.go:574: `make` with cap < len
  | relink          -- map_embedded.go:82: Init() of a bucket that is linked in the bucket list
  | nilBucket       -- map_embedded.go:214: bucketFromPoolEmbedded(0)
  deriving DecidableEq, Repr

structure St where
  maxPer : Nat
  len : Int
  mem : Path → Bkt
  blist : List Path
  pools : Path → Option Pool

/-! ### Slot array -/

/-- Go's `sort.Search(n, f)`: binary search on `[i, j)`; `fuel ≥ j - i` suffices. -/
def goSearch (f : Nat → Bool) : Nat → Nat → Nat → Nat
  | 0, i, _ => i
  | fuel + 1, i, j =>
    if i < j then
      let h := (i + j) / 2
      if f h then goSearch f fuel i h else goSearch f fuel (h + 1) j
    else i

/-- map_embedded.go:795-804: walk back over deleted slots; slot 0 ends the walk even if deleted. -/
def skipBack (arr : List Slot) : Nat → Nat
  | 0 => 0
  | i + 1 => if (arr.getD (i + 1) {}).deleted then skipBack arr i else i + 1

/-- map_embedded.go:33-43: the index returned by the binary search.  For `i < l` the `_at` calls never answer nil. -/
def Pool.bsearch (p : Pool) (r : U64) : Option Nat :=
  let l := p.len.toNat
  let idx := goSearch (fun i => decide (r ≤ (p.slot (skipBack p.arr i)).rev)) l 0 l
  if (idx : Int) < p.len ∧ (p.slot idx).rev = r then some (skipBack p.arr idx) else none

/-- map.go:497-504 (and 460): the slot found must carry both hashes. -/
def Pool.lookup (p : Pool) (r c : U64) : Option Nat :=
  match p.bsearch r with
  | none => none
  | some i => if (p.slot i).rev = r ∧ (p.slot i).conflict = c then some i else none

/-- map_embedded.go:454-465: the last slot that is not deleted. -/
def lastActive (arr : List Slot) : Nat → Option Nat
  | 0 => none
  | n + 1 => if (arr.getD n {}).deleted then lastActive arr n else some n

/-- map_embedded.go:271-289 `bsearchFromFreeList`. -/
def Pool.findFree (p : Pool) (r : U64) (tail : Option Nat) : Option Nat :=
  match tail with
  | none => none
  | some t =>
    let idx := goSearch (fun i => decide (r < (p.slot i).rev)) t 0 t
    if idx ≤ 1 ∨ t < idx then none
    else if (p.slot (idx - 1)).deleted then some (idx - 1) else none

/-- map_embedded.go:301-320 `appendLast`. -/
def Pool.appendLast (p : Pool) : Option (Pool × Nat) :=
  if p.len ≥ p.cap then none else some ({ p with len := p.len + 1 }, p.len.toNat)

/-- map_embedded.go:348-354: the first slot that is not deleted and not below `r`. -/
def Pool.firstGE (p : Pool) (r : U64) : Option Nat :=
  (List.range p.len.toNat).find? (fun i => !(p.slot i).deleted && decide (r ≤ (p.slot i).rev))

/-- map_embedded.go:322-443 `insertToPool`: a new array with a zero slot at the place. -/
def Pool.insertAt (p : Pool) (i : Nat) : Pool :=
  let n := p.len.toNat
  { arr := p.arr.take i ++ {} :: (p.arr.take n).drop i ++ List.replicate (max p.cap (n + 1) - (n + 1)) {},
    len := p.len + 1 }

/-- map_embedded.go:547-614 `expand`: a new array of capacity `PoolCap(len)` with the same items. -/
def Pool.expand (p : Pool) : Except Crash Pool :=
  let nc := poolCap p.len
  if nc < p.len then .error .makeslice
  else .ok { p with arr := p.arr.take p.len.toNat ++ List.replicate (nc - p.len).toNat {} }

/-- map_embedded.go:446-545 `getWithFn` (and 247-269 `state4get`): pool and index of the slot handed out.
Two rounds are enough: a second `getNoCap`, a failed append or a failed insert repeats forever with nothing changed. -/
def Pool.getSlot : Nat → Pool → U64 → Except Crash (Pool × Nat)
  | 0, _, _ => .error .livelock
  | fuel + 1, p, r =>
    let tail := lastActive p.arr p.len.toNat
    let append : Except Crash (Pool × Nat) := match p.appendLast with
      | some x => .ok x
      | none => .error .livelock
    if p.len = 0 then append
    else match p.findFree r tail with
    | some i =>
      let s := p.slot i
      .ok ({ p with arr := p.arr.set i { s with rev := 0, conflict := 0, deleted := false } }, i)
    | none =>
      if (p.cap : Int) = p.len then
        match p.expand with
        | .error c => .error c
        | .ok q => Pool.getSlot fuel q r
      else match tail with
      | none => .error .oob
      | some t =>
        if (p.slot t).rev < r then append
        else match p.firstGE r with
        | some i => .ok (p.insertAt i, i)
        | none => .error .livelock

/-- map_embedded.go:629-641 `findIdx`. -/
def Pool.findIdx (p : Pool) (r : U64) : Option Nat := p.firstGE r

/-- map_embedded.go:647-680 `_split`: the upper part becomes a pool of its own, the lower one has no free capacity. -/
def Pool.split (p : Pool) (idx : Nat) : Pool × Pool :=
  ({ arr := p.arr.take idx, len := idx }, { arr := p.arr.drop idx, len := p.len - idx })

/-- map_embedded.go:712-728 `shrinkLen`: one round at most, because the length drops below the next index. -/
def Pool.shrinkLen (p : Pool) : Pool :=
  if 0 < p.len ∧ (p.slot (p.len - 1).toNat).deleted then { p with len := p.len - 2 } else p

/-! ### Buckets -/

def upool (f : Path → Option Pool) (p : Path) (x : Pool) : Path → Option Pool := fun q => if q = p then some x else f q

/-- bucket.go:192-213 `prevAsB`, as in Model/Map.lean. -/
def prevAsB (bl : List Path) (b : Path) : Path :=
  if b ∈ bl then ((bl.takeWhile (fun q => decide (q ≠ b))).getLast?).getD b else b

/-- map_embedded.go:151-186: first use of `b.downLevels`; child 0 shares `b`. -/
def allocDownsE (m : Path → Bkt) (b : Path) : Path → Bkt :=
  if (m b).downCap = 0 then
    let m1 := upd m b { m b with cnt := 1, downLen := 1, downCap := 16 }
    upd m1 (0 :: b) { m1 (0 :: b) with level := (m b).level + 1, rev := (m b).rev, isAlias := true, state := 1 }
  else m

/-- map_embedded.go:188-197: the length of `b.downLevels` becomes at least `idx + 1`. -/
def growDowns (m : Path → Bkt) (b : Path) (idx : Nat) : Path → Bkt :=
  if (m b).downLen ≤ idx then upd m b { m b with downLen := idx + 1, cnt := idx + 1 } else m

/-- map_embedded.go:141-213, the rounds `l ≥ 2`; `f` rounds left. -/
def bfpLoopE (r : U64) : Nat → Nat → (Path → Bkt) → Path → (Path → Bkt) × Path
  | 0, _, m, b => (m, b)
  | f + 1, l, m, b =>
    let idx := nib r l
    let m1 := growDowns (allocDownsE m b) b idx
    if (m1 (idx :: b)).level = 0 then
      (upd m1 (idx :: b) { m1 (idx :: b) with
        level := (m1 b).level + 1, rev := (m1 b).rev ||| (BitVec.ofNat 64 idx <<< (4 * (16 - l))), state := 2 }, idx :: b)
    else bfpLoopE r f (l + 1) m1 (idx :: b)

/-- map_embedded.go:134-220 `bucketFromPoolEmbedded` for `reverse ≠ 0`. -/
def bucketFromPoolE (m : Path → Bkt) (r : U64) : (Path → Bkt) × Path := bfpLoopE r (levelOf r - 1) 2 m [nib r 1]

/-- map.go:1192-1209 `addBucket` and 1183: link before the first smaller boundary; an equal one keeps it out. -/
def addBucket (m : Path → Bkt) (bl : List Path) (b : Path) : List Path :=
  let hi := bl.takeWhile (fun q => decide ((m q).rev > (m b).rev))
  match bl.dropWhile (fun q => decide ((m q).rev > (m b).rev)) with
  | [] => bl
  | t :: lo => if (m t).rev = (m b).rev then bl else hi ++ b :: t :: lo

/-- bucket.go:114-121 `len`: the pool's length, or the `_len` counter of a bucket without a pool of its own. -/
def blen (pools : Path → Option Pool) (m : Path → Bkt) (b : Path) : Int :=
  match pools b with
  | some p => p.len
  | none => (m b).len

/-- map_embedded.go:68-71: the boundary of the new bucket. -/
def newRevE (next c : U64) : U64 :=
  let r := next / 2 + c / 2
  if r &&& 1 > 0 then r + 1 else r

/-- map_embedded.go:61-132 `makeBucket2`.  Each nested call is for an interval of half the width, so 64 levels are
enough.  Level lists and the `_len` counters of buckets with a pool are not modelled. -/
def makeBucket2 : Nat → St → Path → Except Crash St
  | 0, _, _ => .error .livelock
  | fuel + 1, st, c =>
    let nr := newRevE (st.mem (prevAsB st.blist c)).rev (st.mem c).rev
    if nr = 0 then .error .nilBucket
    else
      let (m1, b) := bucketFromPoolE st.mem nr
      let st1 := { st with mem := m1 }
      if (m1 b).rev = 0 ∧ (m1 b).level > 1 then .ok st1
      else if b ∈ st.blist then .error .relink
      else match st.pools (basePath m1 c) with
      | none => .error .stackOverflow
      | some p =>
        match p.findIdx nr with
        | none => .ok st1                       -- map_embedded.go:87: the bucket stays without pool and unlinked
        | some 0 => .ok st1
        | some (i + 1) =>
          let (lo, hi) := p.split (i + 1)
          let st2 := { st1 with
            pools := upool (upool st.pools (basePath m1 c) lo) (basePath m1 b) hi, blist := addBucket m1 st.blist b }
          if hi.len > st.maxPer then makeBucket2 fuel st2 b
          else if lo.len > st.maxPer then makeBucket2 fuel st2 c
          else .ok st2

/-! ### Public operations -/

inductive Out where
  | bool (b : Bool)
  | val (v : IVal) (ok : Bool)                       -- Get, GetByHash
  | item (r : Option (List (BitVec 8) × IVal))       -- LoadItem(ByHash): Key() and Value() of the item, if found
  | num (n : Int)
  | panic (p : Panic)
  | crash (c : Crash)
  deriving DecidableEq, Repr

/-- map.go:478-481, 1389-1390: bucket, pool and slot for a hash pair.  Outer `none`: stack overflow. -/
def find (st : St) (k c : U64) : Option (Path × Pool × Option Nat) :=
  let base := basePath st.mem (findBucket st.mem (rev64 k))
  match st.pools base with
  | none => none
  | some p => some (base, p, p.lookup (rev64 k) c)

/-- map.go:543-549, 447-465 `GetByHash`. -/
def opGetByHash (st : St) (k c : U64) : Out :=
  match find st k c with
  | none => .crash .stackOverflow
  | some (_, _, none) => .val none false
  | some (_, p, some i) => .val (p.slot i).val true

/-- map.go:535-541 `Get`. -/
def opGet (H : HashFns) (st : St) (key : Key) : Out :=
  match keyToHash H key with
  | none => .panic .unsupportedKey
  | some (k, c) => opGetByHash st k c

/-- map.go:557-561 `LoadItemByHash`. -/
def opLoadItemByHash (st : St) (k c : U64) : Out :=
  match find st k c with
  | none => .crash .stackOverflow
  | some (_, _, none) => .item none
  | some (_, p, some i) => .item (some ((p.slot i).key, (p.slot i).val))

/-- map.go:552-555 `LoadItem`. -/
def opLoadItem (H : HashFns) (st : St) (key : Key) : Out :=
  match keyToHash H key with
  | none => .panic .unsupportedKey
  | some (k, c) => opLoadItemByHash st k c

def setSlot (st : St) (b : Path) (p : Pool) (i : Nat) (s : Slot) : St :=
  { st with pools := upool st.pools b { p with arr := p.arr.set i s } }

/-- map.go:606-609, 306-308: update of a present key. -/
def update (st : St) (b : Path) (p : Pool) (i : Nat) (v : IVal) : St × Out :=
  match setValue .sample (p.slot i).val v with
  | .error e => (st, .panic e)
  | .ok (nv, r) => (setSlot st b p i { p.slot i with val := nv }, .bool r)

/-- map.go:642-647: the compare-and-swaps keep non-zero fields of the slot. -/
def claim (s : Slot) (r c : U64) : Slot :=
  { s with rev := if s.rev = 0 then r else s.rev, conflict := if s.conflict = 0 then c else s.conflict }

/-- map.go:329-435 `_set` and 928-1004 `add2` for a linked item with reverse `r`: counters, and the split of `b` when it
is over-full. -/
def link (st : St) (b : Path) (r : U64) (ignored : Bool) : Except Crash St :=
  let split := r < maxU64 ∧ ignored = false ∧ blen st.pools st.mem b > st.maxPer
  match (if split then makeBucket2 64 st b else .ok st) with
  | .error c => .error c
  | .ok st1 =>
    .ok { st1 with
      len := st1.len + 1,
      mem := if (st1.mem b).level > 0 then upd st1.mem b { st1.mem b with len := (st1.mem b).len + 1 } else st1.mem }

def finish (st : St) : Except Crash St → St × Out
  | .ok st' => (st', .bool true)
  | .error c => (st, .crash c)

/-- map.go:591-705 `Set`.  A key that is not a string panics after the slot was reserved (map.go:688). -/
def opSet (H : HashFns) (st : St) (key : Key) (v : IVal) : St × Out :=
  match keyToHash H key with
  | none => (st, .panic .unsupportedKey)
  | some (k, c) =>
    match find st k c with
    | none => (st, .crash .stackOverflow)
    | some (b, p, some i) => update st b p i v
    | some (b, p, none) =>
      match Pool.getSlot 2 p (rev64 k) with
      | .error e => (st, .crash e)
      | .ok (q, i) =>
        let s := claim (q.slot i) (rev64 k) c
        match key with
        | .str str =>
          match setValue .sample s.val v with
          | .error e => (setSlot st b q i { s with key := str }, .panic e)
          | .ok (nv, _) =>
            let s2 := { s with key := str, val := nv }
            finish st (link (setSlot st b q i s2) b s2.rev s2.deleted)
        | _ => (setSlot st b q i s, .panic .keyNotString)

/-- map.go:708-717 `StoreItem` of a SampleItem: the item is linked, but put into no slot, and (map.go:331) its hash
fields are not set. -/
def opStoreItem (H : HashFns) (st : St) (str : List (BitVec 8)) (v : IVal) (rev0 : U64) : St × Out :=
  let k := H.mem str
  let c := H.xx str
  match find st k c with
  | none => (st, .crash .stackOverflow)
  | some (b, p, some i) => update st b p i v
  | some (_, _, none) => finish st (link st (findBucket st.mem (rev64 k)) rev0 false)

/-- map.go:1550-1559 `Delete`, sample_hmap_entry.go:83-85. -/
def opDelete (H : HashFns) (st : St) (key : Key) : St × Out :=
  match keyToHash H key with
  | none => (st, .panic .unsupportedKey)
  | some (k, c) =>
    match find st k c with
    | none => (st, .crash .stackOverflow)
    | some (_, _, none) => (st, .bool false)
    | some (b, p, some i) => (setSlot st b p i { p.slot i with deleted := true }, .bool true)

/-- map.go:1569-1613 `purgeInEmbedded`: the last slot is given back by shortening the array, any other goes to the free
list (which nothing reads). -/
def opPurge (H : HashFns) (st : St) (key : Key) : St × Out :=
  match keyToHash H key with
  | none => (st, .panic .unsupportedKey)
  | some (k, c) =>
    match find st k c with
    | none => (st, .crash .stackOverflow)
    | some (_, _, none) => (st, .bool false)
    | some (b, p, some i) =>
      let q := { p with arr := p.arr.set i { p.slot i with deleted := true } }
      if (i : Int) = p.len - 1 then ({ st with pools := upool st.pools b ({ q with len := p.len - 1 } : Pool).shrinkLen }, .bool true)
      else ({ st with pools := upool st.pools b q }, .bool true)

/-! ### Construction and histories -/

/-- map.go:222-304 `initBeforeSet` with `isEmbededItemInBucket`: sixteen top buckets, each with an empty array of
capacity `maxPerBucket * 3 / 2`. -/
def initSt (maxPer : Nat) : St :=
  let s := SLM.initSt {}
  { maxPer := maxPer, len := 0, mem := s.mem, blist := s.blist,
    pools := fun p => if p ≠ [] ∧ p ∈ s.blist then some { arr := List.replicate (maxPer * 3 / 2) {}, len := 0 } else none }

inductive Op where
  | set (key : Key) (v : IVal)
  | get (key : Key)
  | getByHash (k c : U64)
  | loadItem (key : Key)
  | loadItemByHash (k c : U64)
  | storeItem (str : List (BitVec 8)) (v : IVal) (rev0 : U64)
  | delete (key : Key)
  | purge (key : Key)
  | len
  deriving DecidableEq, Repr

def step (H : HashFns) (st : St) : Op → St × Out
  | .set key v => opSet H st key v
  | .get key => (st, opGet H st key)
  | .getByHash k c => (st, opGetByHash st k c)
  | .loadItem key => (st, opLoadItem H st key)
  | .loadItemByHash k c => (st, opLoadItemByHash st k c)
  | .storeItem str v r => opStoreItem H st str v r
  | .delete key => opDelete H st key
  | .purge key => opPurge H st key
  | .len => (st, .num st.len)

/-- After a crash nothing is claimed; the state shown is the one before the crashed operation. -/
def run (H : HashFns) (st : St) : List Op → St × List Out
  | [] => (st, [])
  | op :: ops =>
    let (st1, o) := step H st op
    let (st2, os) := run H st1 ops
    (st2, o :: os)

end SLM.Emb
