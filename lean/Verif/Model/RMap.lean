import Verif.Model.Map
/-!
Sequential model of `RMap` (rmap/rmap.go): an immutable read map in front of a dirty `Map`.

* The dirty map is the `Map` of Model/Map.lean with the configuration of `initDirty`.
* `readMap.m` is a Go map from primary hash to an `atomic.Value` **stored by value**; it is an association list here (one
  pair per hash; iteration order is not observable).  The `atomic.Value` holds a `*SampleItem`; the item's fields never
  change once it is in a read map, because promotion always replaces the dirty map the item was in.
* `onNewStores` is never filled in by the package, so `ensure` does nothing.
* A panic leaves the state as it was at the panicking call; no lock is held then.  A deadlocked call never returns: the
  state shown is irrelevant and no theorem speaks about later operations.
-/
set_option autoImplicit false
namespace SLM.RMap

/-- The SampleItem a read map entry points to (sample_hmap_entry.go:17-21); `val` is the content of its `V`. -/
structure RItem where
  key : List (BitVec 8)
  conflict : U64
  val : IVal
  deriving DecidableEq, Repr

/-- rmap.go:25-28 `readMap`. -/
structure ReadMap where
  m : List (U64 × RItem) := []
  amended : Bool := false
  deriving DecidableEq, Repr

/-- `m[k]` on a Go map. -/
def mget (m : List (U64 × RItem)) (k : U64) : Option RItem := (m.find? (fun p => decide (p.1 = k))).map (·.2)

/-- `m[k] = v` on a Go map. -/
def mput (m : List (U64 × RItem)) (k : U64) (it : RItem) : List (U64 × RItem) := (k, it) :: m.filter (fun p => decide (p.1 ≠ k))

/-- rmap.go:11-23 `RMap`; `read` is `none` until the first Set stores a `*readMap`. -/
structure RSt where
  read : Option ReadMap
  dirty : St
  misses : Nat

/-- rmap.go:263-271 `initDirty`: CombineSearch, MaxPefBucket(16), ItemFn SampleItem. -/
def dirtyCfg : Cfg := { maxPer := 16, mode := modeCombine, itemFn := .sample, pool := false }

/-- rmap.go:30-39 `New`. -/
def init : RSt := { read := none, dirty := initSt dirtyCfg, misses := 0 }

/-- What Get returns as value: nil, a plain value, or (rmap.go:163 `v = e.V`) a copy of the item's `atomic.Value` struct. -/
inductive RVal where
  | plain (v : IVal)
  | atomicValue (v : IVal)
  deriving DecidableEq, Repr

inductive RPanic where
  | nilRead          -- rmap.go:155, 183-184: no read map stored yet
  | nilItem          -- rmap.go:68: Value() on a nil MapItem
  | casNil           -- rmap.go:205: atomic.Value.CompareAndSwap with a nil new value
  | map (p : Panic)  -- a panic inside the dirty map
  deriving DecidableEq, Repr

inductive ROut where
  | bool (b : Bool)
  | got (v : RVal) (ok : Bool)
  | num (n : Int)
  | panic (p : RPanic)
  | deadlock
  deriving DecidableEq, Repr

/-- A SampleItem's `K`; items of the dirty map are SampleItems with string keys. -/
def keyBytes : Key → List (BitVec 8)
  | .str s => s
  | _ => []

/-- rmap.go:235-244: the entry an item of the dirty map gets in the new read map, keyed by `KeyInHmap()`
(maphead.go:28-30). -/
def readEntry (e : Entry) : U64 × RItem := (rev64 e.rev, { key := keyBytes e.key, conflict := e.conflict, val := e.val })

/-- rmap.go:222-244: a copy of the old read map, then every item RangeItem visits. -/
def merged (old : List (U64 × RItem)) (dirty : St) : List (U64 × RItem) :=
  (dirty.rangeItem (fun _ _ => true)).foldl (fun m e => mput m (readEntry e).1 (readEntry e).2) old

/-- rmap.go:214-261 `storeReadFromDirty(amended)`. -/
def promote (R : RSt) (amended : Bool) : RSt :=
  let old := R.read.getD {}
  let m := merged old.m R.dirty
  if m.isEmpty then R
  else { R with read := some { m := m, amended := amended || old.m.isEmpty }, dirty := initSt dirtyCfg }

/-- rmap.go:131-137 `isNotRestoreRead`. -/
def notRestore (R : RSt) : Bool :=
  decide ((R.misses : Int) ≤ ((R.read.getD {}).m.length : Int)) && decide ((R.misses : Int) < R.dirty.len)

/-- rmap.go:139-146 `missLocked`. -/
def missLocked (R : RSt) : RSt :=
  let R1 := { R with misses := R.misses + 1 }
  if notRestore R1 then R1 else { promote R1 false with misses := 0 }

/-- The item rmap.go:102-104 stores into the dirty map. -/
def newItem (s : List (BitVec 8)) (v : IVal) : NewItem := { kind := .sample, key := .str s, val := v }

/-- rmap.go:49-112 `Set`, `Set2`.  `store2` (rmap.go:273-286) compares and swaps a local copy of the `atomic.Value`, so a
key of the read map answers true and keeps its item. -/
def set (E : Env) (R : RSt) (s : List (BitVec 8)) (v : IVal) : RSt × ROut :=
  let k := E.H.mem s
  let c := E.H.xx s
  let read := R.read.getD {}
  let R := { R with read := some read }
  match mget read.m k with
  | some _ => (R, .bool true)
  | none =>
    match getEntry E R.dirty k c with
    | some e =>
      match update R.dirty e v with
      | (_, .panic p) => (R, .panic (.map p))
      | (d, _) => ({ R with dirty := d }, .bool true)
    | none =>
      let R1 := if read.amended then R else promote R true
      match opStoreItem E R1.dirty (newItem s v) with
      | (_, .panic p) => (R1, .panic (.map p))
      | (d, _) =>
        let R2 := { R1 with dirty := d }
        (if read.m.length = 0 then promote R2 true else R2, .bool true)

/-- rmap.go:148-178 `Get`, `Get2`. -/
def get (E : Env) (R : RSt) (s : List (BitVec 8)) : RSt × ROut :=
  let k := E.H.mem s
  let c := E.H.xx s
  match R.read with
  | none => (R, .panic .nilRead)
  | some read =>
    match mget read.m k with
    | some it =>
      if it.conflict = c then (R, .got (.atomicValue it.val) true)
      else (R, .got (.plain none) read.amended)      -- rmap.go:171: `av, ok = read.m[k]` sets ok again
    | none =>
      if read.amended then
        match getEntry E R.dirty k c with
        | none => (R, .panic .nilItem)
        | some e => (missLocked R, .got (.plain e.val) true)
      else (R, .got (.plain none) false)

/-- rmap.go:180-209 `Delete`.  `missLocked` runs while the lock is held, so a promotion deadlocks (`Lock` in
storeReadFromDirty on the already locked, non-reentrant mutex). -/
def delete (E : Env) (R : RSt) (s : List (BitVec 8)) : RSt × ROut :=
  let k := E.H.mem s
  let c := E.H.xx s
  match R.read with
  | none => (R, .panic .nilRead)
  | some read =>
    match mget read.m k with
    | some _ => (R, .panic .casNil)
    | none =>
      if read.amended then
        let R1 :=
          match getEntry E R.dirty k c with
          | none => R
          | some e => { R with dirty := { R.dirty with len := R.dirty.len - 1,
                                                       items := markDeleted R.dirty.itemFn e.ref R.dirty.items } }
        let R2 := { R1 with misses := R1.misses + 1 }
        if notRestore R2 then (R2, .bool false) else (R2, .deadlock)
      else (R, .bool false)

/-- rmap.go:210-212 `Len`. -/
def len (R : RSt) : Int := R.dirty.len

inductive ROp where
  | set (s : List (BitVec 8)) (v : IVal)
  | get (s : List (BitVec 8))
  | delete (s : List (BitVec 8))
  | len
  deriving DecidableEq, Repr

def step (E : Env) (R : RSt) : ROp → RSt × ROut
  | .set s v => set E R s v
  | .get s => get E R s
  | .delete s => delete E R s
  | .len => (R, .num (len R))

def run (E : Env) (R : RSt) : List ROp → RSt × List ROut
  | [] => (R, [])
  | op :: ops =>
    let (R1, o) := step E R op
    let (R2, os) := run E R1 ops
    (R2, o :: os)

end SLM.RMap
