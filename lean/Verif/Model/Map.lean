import Verif.Model.Util
/-
Sequential model of `Map` without the embedded pool (map.go, bucket.go, item.go, maphead.go,
sample_hmap_entry.go).

Abstractions (see DESIGN.md, trusted base):
* The item list (elist_head) is the list of its nodes between the two terminators, in `Next` order; a node is
  identified by its `Ref`, which stands for the pointer.  `InsertBefore` is list insertion.
* The bucket list (list_head) is the list of bucket addresses in `Next` order (decreasing boundary).
* Bucket memory is `Path → Bkt`: the bucket reached from `h.buckets[i]` through `downLevels[j]`, ... is at path
  `[..., j, i]` (deepest digit first).  `[]` is the extra bucket with boundary `^uint64(0)` made by initBeforeSet.
  Unwritten slots are the zero `Bkt`, like freshly made Go slices.
* The per-level bucket lists are `lv l`, the buckets of `h.levels[l-1]`'s list between its two terminators in `Next`
  order.  Whether the (absent) list_head package's `Empty()` is true of a node that is in no list is the parameter
  `loneEmpty`: theorems hold for both answers.
* With `UsePool` the item's memory comes from a pool slot instead of a fresh allocation (pool2.go, modelled in
  Model/Pool.lean: slots are never handed out twice); here a new item always has a new identity.
* Log output, statistics and the `IsDebug` branches (CurrentLogLevel is the constant LogInfo) have no effect.
-/
set_option autoImplicit false
namespace SLM

/-- A non-nil interface value: dynamic type and payload. -/
structure Val where
  ty : Nat
  v : Nat
  deriving DecidableEq, Repr

/-- Go `interface{}`: `none` is nil. -/
abbrev IVal := Option Val

/-- Concrete item types: `entryHMap` (item.go:14-19) and `SampleItem` (sample_hmap_entry.go:17-21). -/
inductive Kind where
  | entry | sample
  deriving DecidableEq, Repr

/-- Address of a bucket: hex digits from the deepest level up to the top level. -/
abbrev Path := List Nat

/-- Address of a node of the item list. -/
inductive Ref where
  | dummy (p : Path)     -- `bucket.dummy`, bucket.go:23
  | item (n : Nat)
  deriving DecidableEq, Repr

/-- A node of the item list: `MapHead` (maphead.go:19-24) plus key and value.
`state` has the two bits mapIsDummy and mapIsDeleted (maphead.go:14-17). -/
structure Entry where
  ref : Ref
  kind : Kind
  key : Key
  val : IVal
  rev : U64
  conflict : U64
  dummy : Bool
  deleted : Bool
  deriving DecidableEq, Repr

/-- maphead.go:32-34 `IsIgnored`: `state > 0`. -/
def Entry.ignored (e : Entry) : Bool := e.dummy || e.deleted

/-- bucket.go:19-45, the fields that matter without the embedded pool.
`downLen`/`downCap` are len/cap of `downLevels`; `cnt` is cntOfActiveLevels; `state` 0 none, 1 init, 2 active;
`isAlias` is `_parent != nil`. -/
structure Bkt where
  level : Nat := 0
  len : Int := 0
  rev : U64 := 0
  cnt : Nat := 0
  downLen : Nat := 0
  downCap : Nat := 0
  state : Nat := 0
  isAlias : Bool := false
  deriving DecidableEq, Repr

/-- map.go:28-40 search modes. -/
abbrev Mode := Nat
def modeNested : Mode := 1
def modeCombine : Mode := 2
def modeCombine2 : Mode := 3
def modeCombine4 : Mode := 5

/-- map.go:44-63 `Map`. -/
structure St where
  maxPer : Int
  mode : Mode
  itemFn : Kind
  pool : Bool
  len : Int
  items : List Entry
  mem : Path → Bkt
  blist : List Path
  lv : Nat → List Path
  loneEmpty : Bool
  nextId : Nat

/-- Parameters: the hash functions. -/
structure Env where
  H : HashFns

def upd (m : Path → Bkt) (p : Path) (b : Bkt) : Path → Bkt := fun q => if q = p then b else m q

/-! ### List positions -/

/-- The nodes from `r` on (in `Next` order). -/
def fromRef (r : Ref) (l : List Entry) : List Entry := l.dropWhile (fun e => decide (e.ref ≠ r))
/-- The nodes before `r`. -/
def beforeRef (r : Ref) (l : List Entry) : List Entry := l.takeWhile (fun e => decide (e.ref ≠ r))
/-- elist_head `InsertBefore`. -/
def insBefore (r : Ref) (e : Entry) (l : List Entry) : List Entry := beforeRef r l ++ e :: fromRef r l

/-- The nodes from `r` on in `Prev` order: `r` itself, its predecessor, ... -/
def backFrom (r : Ref) (l : List Entry) : List Entry :=
  match fromRef r l with
  | [] => []
  | e :: _ => e :: (beforeRef r l).reverse

/-- bucket.go:373-417 `head()` without pool: a child with `_parent` uses its parent's head. -/
def basePath (m : Path → Bkt) : Path → Path
  | [] => []
  | i :: p => if (m (i :: p)).isAlias then basePath m p else i :: p

def St.head (st : St) (b : Path) : Ref := .dummy (basePath st.mem b)

/-- bucket.go:192-213 `prevAsB`: the bucket before `b` in the bucket list (next larger boundary), or `b` itself
if there is none; a child with `_parent` is in no list and is its own neighbour. -/
def St.prevAsB (st : St) (b : Path) : Path :=
  if b ∈ st.blist then ((st.blist.takeWhile (fun q => decide (q ≠ b))).getLast?).getD b else b

/-! ### Level lists -/

/-- bucket.go:215-225 `NextOnLevel`: the next bucket of the level list, or `b` itself at the end of the list or when it
is in no list. -/
def St.nextOnLevel (st : St) (b : Path) : Path :=
  match (st.lv (st.mem b).level).dropWhile (fun q => decide (q ≠ b)) with
  | _ :: n :: _ => n
  | _ => b

/-- map.go:1223-1232: the loop of `findNextLevelBucket` over the level list, which does not look at the last bucket;
`cnt` rounds done. -/
def findLevelLoop (m : Path → Bkt) (r : U64) : Nat → List Path → Option Path
  | cnt, q :: q' :: rest =>
    if cnt + 1 > 1000 then some q
    else if r > (m q).rev then some q
    else findLevelLoop m r (cnt + 1) (q' :: rest)
  | _, _ => none

/-- map.go:1211-1241 `findNextLevelBucket`; `bl` is the bucket list, `none` the end terminator of an empty level list. -/
def findNextLevel (loneEmpty : Bool) (m : Path → Bkt) (bl : List Path) (r : U64) (l : List Path) : Option Path :=
  match findLevelLoop m r 0 l with
  | some q => some q
  | none =>
    match l with
    | [] => none
    | [q] => some q
    | q :: q' :: _ => if loneEmpty && !decide (q ∈ bl) then some q else some q'

/-- map.go:868-896: put the new bucket `b` into the list of its level: before the bucket found if that has a smaller
boundary, behind it if it has a larger one, not at all if the boundaries are equal.  (An empty list would make the code
read memory in front of the list terminator; see `level_list_nonempty` in Proofs/Levels.lean for why it is not.) -/
def levelInsert (loneEmpty : Bool) (m : Path → Bkt) (bl : List Path) (b : Path) (l : List Path) : List Path :=
  match findNextLevel loneEmpty m bl (m b).rev l with
  | none => [b]
  | some n =>
    let front := l.takeWhile (fun q => decide (q ≠ n))
    let back := (l.dropWhile (fun q => decide (q ≠ n))).drop 1
    if (m n).rev < (m b).rev then front ++ b :: n :: back
    else if (m n).rev ≠ (m b).rev then front ++ n :: b :: back
    else l

/-- map.go:1802-1814: put the new child 0, `a`, of a bucket with boundary `r` into a level list: before the first bucket
with a smaller boundary, or before the last one. -/
def aliasInsert (m : Path → Bkt) (r : U64) (a : Path) : List Path → List Path
  | [] => [a]
  | [q] => [a, q]
  | q :: q' :: rest => if (m q).rev < r then a :: q :: q' :: rest else q :: aliasInsert m r a (q' :: rest)

def setLv (lv : Nat → List Path) (l : Nat) (x : List Path) : Nat → List Path := fun l' => if l' = l then x else lv l'

/-! ### Bucket lookup -/

/-- map.go:1726-1741 / bucket.go:321-334: highest child index `≤ n` accepted by `ok`. -/
def scanDown (ok : Nat → Bool) : Nat → Option Nat
  | 0 => if ok 0 then some 0 else none
  | n + 1 => if ok (n + 1) then some (n + 1) else scanDown ok n

/-- bucket.go:315-336 `largestDown(false, false)`; fuel 16 = maximal depth of the trie. -/
def largestDown (m : Path → Bkt) : Nat → Path → Path
  | 0, p => p
  | f + 1, p =>
    if (m p).downLen = 0 then p
    else
      match scanDown (fun i => !((m (i :: p)).level == 0 || (m (i :: p)).rev == 0)) ((m p).downLen - 1) with
      | some i => largestDown m f (i :: p)
      | none => p

/-- map.go:1696-1757, the rounds `l ≥ 2` of the loop in `_findBucket(reverse, false, false)`; `f` rounds left.
The wait for `len > 0` (map.go:1712-1716) never waits sequentially (`downCap > 0` implies `downLen > 0`). -/
def descend (m : Path → Bkt) (r : U64) : Nat → Nat → Path → Path
  | 0, _, b => b
  | f + 1, l, b =>
    if (m b).downCap = 0 then b
    else
      let idx := nib r l
      if (m b).downLen ≤ idx ∨ (m (idx :: b)).level = 0 then
        let nidx := if idx > (m b).downLen - 1 then (m b).downLen - 1 else idx
        match scanDown (fun i => !((m (i :: b)).level == 0)) nidx with
        | some i => largestDown m 16 (i :: b)
        | none => b
      else descend m r f (l + 1) (idx :: b)

/-- map.go:1673-1762 `_findBucket` (`for l := 1; l < 16`); the deferred function only logs. -/
def findBucket (m : Path → Bkt) (r : U64) : Path := descend m r 14 2 [nib r 1]

/-! ### Search -/

/-- map.go:1494-1521: forward walk. -/
def fwdSearch (t : U64) (ign : Bool) : List Entry → Option Entry
  | [] => none
  | e :: es =>
    if ign && e.ignored then fwdSearch t ign es
    else if e.rev < t then fwdSearch t ign es
    else if e.rev = t then some e
    else none

/-- map.go:1525-1544: backward walk. -/
def bwdSearch (t : U64) (ign : Bool) : List Entry → Option Entry
  | [] => none
  | e :: es =>
    if ign && e.ignored then bwdSearch t ign es
    else if e.rev > t then bwdSearch t ign es
    else if e.rev = t then some e
    else none

/-- map.go:1467-1547 `_searchBybucket`. -/
def searchByBucket (E : Env) (st : St) (b : Path) (t : U64) (ign : Bool) : Option Entry :=
  let n := if st.mode = modeCombine2 ∧ (st.mem b).rev > t then st.nextOnLevel b else b
  if (st.mem n).rev < t then fwdSearch t ign (fromRef (st.head n) st.items)
  else bwdSearch t ign (backFrom (st.head n) st.items)

/-- map.go:1401-1424 `searchBucket4update` (`_itemPool == nil` without embedded pool) and
map.go:1426-1435 `searchBucket4Key4`. -/
def bucketForKey (st : St) (t : U64) : Path :=
  let b := findBucket st.mem t
  if st.mode ≠ modeCombine then
    let p := st.prevAsB b
    if near (st.mem p).rev (st.mem b).rev t ≠ (st.mem b).rev then p else b
  else b

/-- map.go:447-465 `_get`. -/
def getEntry (E : Env) (st : St) (k c : U64) : Option Entry :=
  match searchByBucket E st (bucketForKey st (rev64 k)) (rev64 k) true with
  | none => none
  | some e => if e.rev ≠ rev64 k ∨ e.conflict ≠ c then none else some e

/-- map.go:467-506 `getWithBucket`: found item and the bucket where an insert would go. -/
def getWithBucket (E : Env) (st : St) (k c : U64) : Option Entry × Path :=
  let b := findBucket st.mem (rev64 k)
  match searchByBucket E st b (rev64 k) true with
  | none => (none, b)
  | some e => if e.rev ≠ rev64 k then (none, b) else if e.conflict ≠ c then (none, b) else (some e, b)

/-! ### Insertion -/

/-- util.go:108-125 `inserBeforeWithCheck` for an unlinked `c`; `none` is the error (nothing inserted). -/
def insertCheck (right : Ref) (c : Entry) (l : List Entry) : Option (List Entry) :=
  match fromRef right l with
  | [] => none
  | re :: _ =>
    if re.rev < c.rev then none
    else
      match (beforeRef right l).getLast? with
      | some le => if c.rev < le.rev then none else some (insBefore right c l)
      | none => some (insBefore right c l)

/-- map.go:928-1034 `add2`.  `opt` is `WithBucket(b)`: head of `b` and head of `b.prevAsB()`.
Errors of inserBeforeWithCheck are only logged (the item is then not inserted). -/
def add2 (l : List Entry) (start : Ref) (e : Entry) (opt : Option (Ref × Ref)) : List Entry :=
  match (fromRef start l).find? (fun x => decide (e.rev < x.rev)) with
  | some pos => (insertCheck pos.ref e l).getD l
  | none =>
    match opt with
    | some (hd, phd) =>
      match fromRef hd l with
      | [] => l
      | d :: rest =>
        let nextE := (rest.head?).getD d                      -- nextAsE, map.go:1303-1312
        let target := if nextE.rev ≤ d.rev then phd else nextE.ref
        (insertCheck target e l).getD l
    | none =>
      match l.getLast? with                                   -- h.tail.Prev()
      | some last => (insertCheck last.ref e l).getD l
      | none => l

/-- map.go:389-425: where `_set` starts looking, and the insertion. -/
def setInsert (st : St) (b : Path) (rk : U64) (e : Entry) : List Entry :=
  let hd := st.head b
  let tStart :=
    match (fromRef hd st.items).find? (fun x => decide (rk ≤ x.rev)) with
    | none => hd
    | some en =>
      if en.rev < rk then en.ref
      else
        match (beforeRef en.ref st.items).getLast? with
        | some pe => if pe.rev < rk then pe.ref else hd
        | none => hd          -- predecessor is the list terminator; reached only for rk = 0, where `< rk` is false
  add2 st.items tStart e (some (hd, st.head (st.prevAsB b)))

/-! ### Bucket creation -/

inductive Panic where
  | unsupportedKey      -- hashfn.go:51
  | keyNotString        -- map.go:688 type assertion
  | valueType           -- sync/atomic.Value.Store of an inconsistently typed value
  | bucketHeadEmpty     -- map.go:865
  | nilBucket           -- map.go:811, 824: bucketFromPool(0) returns nil, which is then dereferenced
  | livelock            -- map.go:1822, 1884: goto RETRY with nothing to change the condition
  deriving DecidableEq, Repr

/-- What `onOk` will do: map.go:1847-1868 (`extend`), map.go:1907-1911 (`activate`).  For an already existing bucket
the stored closure is run again, which changes nothing. -/
inductive OkFn where
  | none
  | extend (b : Path) (idx : Nat)
  | activate (p : Path)
  deriving DecidableEq, Repr

def activate (m : Path → Bkt) (p : Path) : Path → Bkt :=
  if (m p).state = 1 then upd m p { m p with state := 2 } else m

def runOk (m : Path → Bkt) : OkFn → (Path → Bkt)
  | .none => m
  | .extend b idx =>
    let m1 := if (m b).downLen > idx ∨ (m b).downCap ≤ idx then m else upd m b { m b with downLen := idx + 1 }
    activate m1 (idx :: b)
  | .activate p => activate m p

/-- map.go:1789-1819: first use of `b.downLevels`: allocate, make child 0 an alias of `b`. -/
def allocDowns (m : Path → Bkt) (b : Path) : Path → Bkt :=
  if (m b).cnt = 0 then
    let m1 := upd m b { m b with cnt := 1, downLen := 1, downCap := 16 }
    upd m1 (0 :: b) { m1 (0 :: b) with level := (m b).level + 1, rev := (m b).rev, isAlias := true, state := 1 }
  else m

/-- map.go:1781-1930, the rounds `l ≥ 2` of `bucketFromPool(reverse, useOnOk(true))`; `f` rounds left.
`none`: the code spins forever. -/
def bfpLoop (r : U64) : Nat → Nat → (Path → Bkt) → Path → Option ((Path → Bkt) × Path × OkFn)
  | 0, _, m, b => some (m, b, .none)
  | f + 1, l, m, b =>
    let idx := nib r l
    let m1 := allocDowns m b
    if (m1 b).downLen = 0 then none
    else if (m1 b).cnt ≤ idx then
      if (m1 b).cnt = (m1 b).downLen then
        let m2 := upd m1 b { m1 b with cnt := idx + 1 }
        let m3 := upd m2 (idx :: b)
          { m2 (idx :: b) with
            rev := (m2 b).rev ||| (BitVec.ofNat 64 idx <<< (4 * (16 - l))), level := (m2 b).level + 1, state := 1 }
        some (m3, idx :: b, .extend b idx)
      else none
    else if (m1 b).downLen ≤ idx then none
    else if idx ≠ 0 ∧ (m1 (idx :: b)).state = 0 then
      let m2 := upd m1 (idx :: b)
        { m1 (idx :: b) with
          state := 1, level := (m1 b).level + 1,
          rev := (m1 b).rev ||| (BitVec.ofNat 64 idx <<< (4 * (16 - l))) }
      some (m2, idx :: b, .activate (idx :: b))
    else bfpLoop r f (l + 1) m1 (idx :: b)

/-- map.go:1802-1814: the level list when `allocDowns` makes child 0 of `b` in round `l`. -/
def allocLv (m : Path → Bkt) (lv : Nat → List Path) (b : Path) (l : Nat) : Nat → List Path :=
  if (m b).cnt = 0 then setLv lv l (aliasInsert m (m b).rev (0 :: b) (lv l)) else lv

/-- The effect of the rounds of `bfpLoop` (map.go:1781-1930) on the level lists: only the allocation of a child 0
touches them. -/
def bfpLevels (r : U64) : Nat → Nat → (Path → Bkt) → Path → (Nat → List Path) → (Nat → List Path)
  | 0, _, _, _, lv => lv
  | f + 1, l, m, b, lv =>
    let idx := nib r l
    let m1 := allocDowns m b
    let lv1 := allocLv m lv b l
    if (m1 b).downLen = 0 ∨ (m1 b).cnt ≤ idx ∨ (m1 b).downLen ≤ idx ∨ (idx ≠ 0 ∧ (m1 (idx :: b)).state = 0) then lv1
    else bfpLevels r f (l + 1) m1 (idx :: b) lv1

/-- map.go:1766-1951 `bucketFromPool` for `reverse ≠ 0` (so `level ≥ 1`); for 0 it returns nil, see makeBucketAt. -/
def bucketFromPool (m : Path → Bkt) (r : U64) : Option ((Path → Bkt) × Path × OkFn) :=
  bfpLoop r (levelOf r - 1) 2 m [nib r 1]

/-- The level lists after `bucketFromPool`. -/
def poolLevels (m : Path → Bkt) (r : U64) (lv : Nat → List Path) : Nat → List Path :=
  bfpLevels r (levelOf r - 1) 2 m [nib r 1] lv

/-- map.go:520-532 `searchBucket` on the reversed key: from the top-level bucket downwards, the first boundary `< r`. -/
def St.searchBucket (st : St) (r : U64) : Option Path :=
  (st.blist.dropWhile (fun q => decide (q ≠ [nib r 1]))).find? (fun q => decide ((st.mem q).rev < r))

/-- map.go:783-792: climb from `c0` towards larger boundaries (the argument list starts with `c0`). -/
def climb (m : Path → Bkt) (er : U64) : Path → List Path → Path × Path
  | c, [] => (c, c)
  | c, [last] => (c, last)
  | c, n :: m1 :: rest =>
    if (m n).rev > er then (c, n)
    else climb m er (if (m n).rev ≤ er ∧ (m n).rev > (m c).rev then n else c) (m1 :: rest)

/-- map.go:797-807: the boundary of the new bucket. -/
def newBoundary (c next : U64) (same : Bool) : U64 :=
  if next = maxU64 ∧ c = 0 then rev64 1
  else if same then c / 2
  else if next = maxU64 then c / 2 + maxU64 / 2 + 1
  else half c next

/-- map.go:851-857: nodes counted from the old bucket's sentinel up to and including the first one beyond `r`. -/
def countTo (r : U64) : List Entry → Nat
  | [] => 0
  | e :: es => if e.rev > r then 1 else countTo r es + 1

/-- map.go:1159-1162: the sentinel of bucket `p`. -/
def dummyEntry (p : Path) (r : U64) : Entry :=
  { ref := .dummy p, kind := .entry, key := .nil, val := none, rev := r, conflict := 0, dummy := true, deleted := false }

/-- map.go:849-859: `b._len` grows by the nodes counted, and the result is taken off the split bucket's `_len`. -/
def moveLen (m : Path → Bkt) (b c : Path) (n : Nat) : Path → Bkt :=
  let bl := (m b).len + n
  let m1 := upd m b { m b with len := bl }
  upd m1 c { m1 c with len := (m1 c).len - bl }

/-- map.go:1192-1209 `addBucket` and map.go:1157-1190 `_InsertBefore`: find the place in the bucket list (before the
first boundary not above the new one), insert the sentinel by `add2` starting at that bucket's sentinel, link the
bucket; then the level list (map.go:868-900); then `onOk`.  When the boundary is already taken nothing is inserted and
map.go:864-866 panics. -/
def linkBucket (st : St) (m : Path → Bkt) (b : Path) (ok : OkFn) : Except Panic St :=
  let hi := st.blist.takeWhile (fun q => decide ((m q).rev > (m b).rev))
  match st.blist.dropWhile (fun q => decide ((m q).rev > (m b).rev)) with
  | [] => .error .bucketHeadEmpty
  | t :: lo =>
    if (m t).rev = (m b).rev then .error .bucketHeadEmpty
    else
      let items := add2 st.items (.dummy (basePath m t)) (dummyEntry b (m b).rev) none
      let bl := hi ++ b :: t :: lo
      let lv := setLv st.lv (m b).level (levelInsert st.loneEmpty m bl b (st.lv (m b).level))
      .ok { st with mem := runOk m ok, blist := bl, items := items, lv := lv }

/-- map.go:771-913 `makeBucket(item, _)`; `er` is the reverse of the item's predecessor.
Returns the unchanged state where the code returns an error
before creating anything. -/
def makeBucketAt (st : St) (er : U64) : Except Panic St :=
  match st.searchBucket er with
  | none => .ok st                                                -- ErrBucketNotFound
  | some c0 =>
    if (st.mem c0).rev > er then .ok st
    else
      let (c, next) := climb st.mem er c0 (c0 :: (st.blist.takeWhile (fun q => decide (q ≠ c0))).reverse)
      if (st.mem next).rev < er ∨ (st.mem c).rev > er then .ok st
      else
        let nr := newBoundary (st.mem c).rev (st.mem next).rev (decide (c = next))
        if nr = 0 then .error .nilBucket
        else match bucketFromPool st.mem nr with
        | none => .error .livelock
        | some (m1, b, ok) =>
          let lv := poolLevels st.mem nr st.lv
          if st.items.any (fun e => decide (e.ref = .dummy (basePath m1 b))) then
            .ok { st with mem := runOk m1 ok, lv := lv }                   -- ErrBucketAlreadyExit
          else
            let m2 := if (m1 b).rev ≠ nr then upd m1 b { m1 b with rev := nr, len := 0 } else m1
            if (m2 b).rev = 0 ∧ (m2 b).level > 1 then .ok { st with mem := runOk m2 ok, lv := lv }
            else
              linkBucket { st with lv := lv } (moveLen m2 b c (countTo (m2 b).rev (fromRef (.dummy (basePath m2 c)) st.items))) b ok

/-- map.go:775-778: the node before the item just stored; an item that was not linked (insert refused) is its own
predecessor (`Init` makes it self-linked). -/
def makeBucket (st : St) (e : Entry) : Except Panic St :=
  if st.items.any (fun x => decide (x.ref = e.ref)) then
    match (beforeRef e.ref st.items).getLast? with
    | some pe => makeBucketAt st pe.rev
    | none => .ok st        -- not reachable: the sentinel of boundary 0 is always first
  else makeBucketAt st e.rev

/-- map.go:329-435 `_set(k, conflict, btable, item)` with `btable` from the preceding lookup. -/
def setNew (st : St) (k : U64) (b : Path) (e : Entry) : Except Panic St :=
  let items := setInsert st b (rev64 k) e
  let mem := if (st.mem b).level > 0 then upd st.mem b { st.mem b with len := (st.mem b).len + 1 } else st.mem
  let st1 := { st with items := items, len := st.len + 1, mem := mem }
  if (st1.mem b).len > st1.maxPer then makeBucket st1 e else .ok st1

/-! ### Public operations -/

/-- An argument of `StoreItem`: a SampleItem or an entryHMap, not in any list, with possibly pre-set `reverse` and
`conflict` fields (0 for a fresh item). -/
structure NewItem where
  kind : Kind
  key : Key
  val : IVal
  rev0 : U64 := 0
  conflict0 : U64 := 0
  deriving DecidableEq, Repr

/-- sample_hmap_entry.go:87-89, item.go:85-87 `KeyHash`. A SampleItem's key is a string. -/
def NewItem.keyHash (H : HashFns) (it : NewItem) : Option (U64 × U64) := keyToHash H it.key

inductive Out where
  | bool (b : Bool)
  | val (v : IVal) (ok : Bool)                       -- Get, GetByHash
  | item (r : Option (Option Key × IVal))            -- LoadItem(ByHash): Key() and Value() of the item, if found
  | num (n : Int)
  | seq (l : List (Option Key × IVal))               -- Range
  | panic (p : Panic)
  deriving DecidableEq, Repr

/-- `Key()` through the item type in force (`ItemFn`): with the wrong type the memory is misread (`none`).
`Value()` reads the same two words for both types. -/
def viewKey (fn : Kind) (e : Entry) : Option Key := if e.kind = fn then some e.key else none

def view (fn : Kind) (e : Entry) : Option Key × IVal := (viewKey fn e, e.val)

/-- `SetValue` through the item type in force.  entryHMap: item.go:58-61.  SampleItem: sample_hmap_entry.go:59-65;
`atomic.Value.Store` panics when the dynamic type differs from the stored one. -/
def setValue (fn : Kind) (old new : IVal) : Except Panic (IVal × Bool) :=
  match fn with
  | .entry => .ok (new, true)
  | .sample =>
    match new with
    | none => .ok (old, false)
    | some v =>
      match old with
      | none => .ok (some v, true)
      | some o => if o.ty = v.ty then .ok (some v, true) else .error .valueType

def setVal (r : Ref) (v : IVal) (l : List Entry) : List Entry :=
  l.map (fun x => if x.ref = r then { x with val := v } else x)

/-- map.go:306-308 `_update`. -/
def update (st : St) (e : Entry) (v : IVal) : St × Out :=
  match setValue st.itemFn e.val v with
  | .error p => (st, .panic p)
  | .ok (nv, b) => ({ st with items := setVal e.ref nv st.items }, .bool b)

/-- `Delete()` of the item: item.go:80-83, sample_hmap_entry.go:83-85. -/
def markDeleted (fn : Kind) (r : Ref) (l : List Entry) : List Entry :=
  l.map (fun x => if x.ref = r then
      { x with deleted := true, key := match fn with | .entry => .nil | .sample => x.key } else x)

/-- Result of `_set` as an operation result. After a `bucketHeadEmpty` panic or a livelock the map is out of service;
the state shown is the one before the call and no theorem speaks about later operations. -/
def finish (st : St) : Except Panic St → St × Out
  | .ok st' => (st', .bool true)
  | .error p => (st, .panic p)

/-- map.go:591-705 `Set`. -/
def opSet (E : Env) (st : St) (key : Key) (v : IVal) : St × Out :=
  match keyToHash E.H key with
  | none => (st, .panic .unsupportedKey)
  | some (k, c) =>
    match getWithBucket E st k c with
    | (some e, _) => update st e v
    | (none, b) =>
      let st1 := if st.pool = false ∧ st.mode = modeCombine4 then { st with pool := true } else st
      match key with
      | .str _ =>
        let e : Entry := { ref := .item st.nextId, kind := .sample, key := key, val := v, rev := rev64 k, conflict := c,
                           dummy := false, deleted := false }
        finish st1 (setNew { st1 with itemFn := .sample, nextId := st.nextId + 1 } k b e)
      | _ => (st1, .panic .keyNotString)

/-- map.go:708-717 `StoreItem`; the compare-and-swaps of map.go:332-337 keep a non-zero pre-set field. -/
def opStoreItem (E : Env) (st : St) (it : NewItem) : St × Out :=
  match it.keyHash E.H with
  | none => (st, .panic .unsupportedKey)
  | some (k, c) =>
    match getWithBucket E st k c with
    | (some e, _) => update st e it.val
    | (none, b) =>
      let e : Entry := { ref := .item st.nextId, kind := it.kind, key := it.key, val := it.val,
                         rev := if it.rev0 = 0 then rev64 k else it.rev0,
                         conflict := if it.conflict0 = 0 then c else it.conflict0,
                         dummy := false, deleted := false }
      finish st (setNew { st with nextId := st.nextId + 1 } k b e)

/-- map.go:543-549 `GetByHash`. -/
def opGetByHash (E : Env) (st : St) (k c : U64) : Out :=
  match getEntry E st k c with
  | none => .val none false
  | some e => .val e.val true

/-- map.go:535-541 `Get`. -/
def opGet (E : Env) (st : St) (key : Key) : Out :=
  match keyToHash E.H key with
  | none => .panic .unsupportedKey
  | some (k, c) => opGetByHash E st k c

/-- map.go:552-555 `LoadItem` (`_loadItem(0, 0, key)`; a nil key has hashes 0, 0 either way). -/
def opLoadItem (E : Env) (st : St) (key : Key) : Out :=
  match keyToHash E.H key with
  | none => .panic .unsupportedKey
  | some (k, c) => .item (((getWithBucket E st k c).1).map (view st.itemFn))

/-- map.go:557-561 `LoadItemByHash`. -/
def opLoadItemByHash (E : Env) (st : St) (k c : U64) : Out :=
  .item ((getEntry E st k c).map (view st.itemFn))

/-- The item `LoadItem` hands to the caller (map.go:552-555, item.go:63-78, sample_hmap_entry.go:46-48): the node's
address and the item type it is viewed through. -/
def loadRef (E : Env) (st : St) (key : Key) : Option (Ref × Kind) :=
  match keyToHash E.H key with
  | none => none
  | some (k, c) => ((getWithBucket E st k c).1).map (fun e => (e.ref, st.itemFn))

/-- `Value()` of an item the caller holds (item.go:54-56, sample_hmap_entry.go:55-57). -/
def heldValue (st : St) (it : Ref × Kind) : Option IVal := (st.items.find? (fun e => decide (e.ref = it.1))).map (·.val)

/-- `SetValue(v)` called by the user on an item it holds. -/
def heldSetValue (st : St) (it : Ref × Kind) (v : IVal) : St × Out :=
  match st.items.find? (fun e => decide (e.ref = it.1)) with
  | none => (st, .bool false)
  | some e =>
    match setValue it.2 e.val v with
    | .error p => (st, .panic p)
    | .ok (nv, b) => ({ st with items := setVal it.1 nv st.items }, .bool b)

/-- map.go:1550-1559 `Delete`, and map.go:1562-1567 `Purge` without embedded pool. -/
def opDelete (E : Env) (st : St) (key : Key) : St × Out :=
  match keyToHash E.H key with
  | none => (st, .panic .unsupportedKey)
  | some (k, c) =>
    match (getWithBucket E st k c).1 with
    | none => (st, .bool false)
    | some e => ({ st with items := markDeleted st.itemFn e.ref st.items }, .bool true)

/-- map.go:1617-1632 `RangeItem`: the items on which `f` is called, for a callback that may depend on what it saw
before (`f seen e` = continue). -/
def rangeItems (f : List Entry → Entry → Bool) : List Entry → List Entry → List Entry
  | seen, [] => seen
  | seen, e :: es =>
    if e.ignored then rangeItems f seen es
    else if f seen e then rangeItems f (seen ++ [e]) es
    else seen ++ [e]

def St.rangeItem (st : St) (f : List Entry → Entry → Bool) : List Entry := rangeItems f [] st.items

/-- map.go:1636-1641 `Range` with a callback that never stops. -/
def opRange (st : St) : Out := .seq ((st.rangeItem (fun _ _ => true)).map (view st.itemFn))

/-- map.go:1643-1651 `First`, `Last`. -/
def St.first (st : St) : Option Entry := st.items.head?
def St.last (st : St) : Option Entry := st.items.getLast?

/-- map.go:1374-1393 `SearchKey` with `ignoreBucketEntry(ign)`. -/
def opSearchKey (E : Env) (st : St) (k : U64) (ign : Bool) : Option Entry :=
  searchByBucket E st (bucketForKey st (rev64 k)) (rev64 k) ign

/-! ### Construction -/

/-- `sort.Slice` on distinct `uint64`s (map.go:252): insertion sort gives the same list. -/
def insertAsc (x : U64) : List U64 → List U64
  | [] => [x]
  | y :: ys => if x ≤ y then x :: y :: ys else y :: insertAsc x ys

/-- map.go:248-253: the sorted reversed nibbles. -/
def topReverses : List U64 := ((List.range 16).map (fun k => rev64 (BitVec.ofNat 64 k))).foldr insertAsc []

/-- One round of the loop map.go:255-295: sentinel before the last sentinel, bucket right after the `^0` bucket. -/
def initRound (acc : List Entry × List Path × (Path → Bkt)) (ir : Nat × U64) : List Entry × List Path × (Path → Bkt) :=
  let (items, bl, m) := acc
  let (i, r) := ir
  (insBefore (.dummy []) (dummyEntry [i] r) items,
   (match bl with | [] => [] | top :: rest => top :: [i] :: rest),
   upd m [i] { level := 1, rev := r, state := 2 })

/-- map.go:160-193 `NewHMap` (options applied first) and map.go:222-304 `initBeforeSet`. -/
structure Cfg where
  maxPer : Int := 32
  mode : Mode := modeNested
  itemFn : Kind := .entry
  pool : Bool := false
  loneEmpty : Bool := true      -- not an option: the parameter `loneEmpty` of the list package, see the head comment

/-- map.go:242-243, 287-293: level 16 holds the bucket of the upper end; each top-level bucket goes before the previous
one in the list of level 1. -/
def initLv : Nat → List Path :=
  setLv (setLv (fun _ => []) 16 [[]]) 1 ((List.range 16).foldl (fun l i => [i] :: l) [])

def initSt (c : Cfg) : St :=
  let m0 : Path → Bkt := upd (fun _ => {}) [] { level := 16, rev := maxU64, state := 2 }
  let (items, bl, m) := ((List.range 16).zip topReverses).foldl initRound ([dummyEntry [] maxU64], [[]], m0)
  { maxPer := c.maxPer, mode := c.mode, itemFn := c.itemFn, pool := c.pool, len := 0,
    items := items, mem := m, blist := bl, lv := initLv, loneEmpty := c.loneEmpty, nextId := 0 }

/-! ### Histories -/

inductive Op where
  | set (key : Key) (v : IVal)
  | storeItem (it : NewItem)
  | get (key : Key)
  | getByHash (k c : U64)
  | loadItem (key : Key)
  | loadItemByHash (k c : U64)
  | delete (key : Key)
  | len
  | range
  deriving DecidableEq, Repr

def step (E : Env) (st : St) : Op → St × Out
  | .set key v => opSet E st key v
  | .storeItem it => opStoreItem E st it
  | .get key => (st, opGet E st key)
  | .getByHash k c => (st, opGetByHash E st k c)
  | .loadItem key => (st, opLoadItem E st key)
  | .loadItemByHash k c => (st, opLoadItemByHash E st k c)
  | .delete key => opDelete E st key
  | .len => (st, .num st.len)
  | .range => (st, opRange st)

def run (E : Env) (st : St) : List Op → St × List Out
  | [] => (st, [])
  | op :: ops =>
    let (st1, o) := step E st op
    let (st2, os) := run E st1 ops
    (st2, o :: os)

end SLM
