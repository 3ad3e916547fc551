import Verif.Model.Embedded
/-!
A map with `UseEmbeddedPool(true)` used by several goroutines, across splits of buckets: Set and Get of any number of goroutines on all buckets, with the per-bucket
locks `muPool` and with `makeBucket2` step by step (map_embedded.go:61-132), including its nested calls.

Abstractions (see DESIGN.md):
* A bucket is named by its boundary `reverse` (child 0 of a bucket has its parent's boundary and pool, `toBase`, map_embedded.go:221-227).  `findBucket` is "the
  reachable bucket with the greatest boundary that is not above the key" (for one goroutine this is a theorem about the trie walk: `findBucket_max` in
  Proofs/EmbFind.lean).
* A key is its bit-reversed primary hash; conflict hashes, values and Delete are left out (Model/EConc.lean has them for one bucket).
* What happens inside one bucket between `Lock` and the new item being in the array is one step, as is a binary search (Model/EConc.lean takes them apart, below the
  split threshold).  The order of the slots is the order of the keys.
* The linked item list and the level lists are left out.
-/
set_option autoImplicit false
namespace SLM.ESplit

abbrev Tid := Nat

inductive Call where
  | set (r : U64)
  | get (r : U64)
  deriving DecidableEq, Repr

/-- Where a goroutine is.  `r` is the key; `h` the bucket whose lock it holds; `x` the bucket being split and `m` the new one. -/
inductive PC where
  | idle
  | gFind (r : U64)                                       -- map_embedded.go:52-56 `findBucket`
  | gRead (r b : U64)                                     -- map_embedded.go:23-43: itemPool() and binary search
  | sFind (r : U64)                                       -- map.go:478-480: getWithBucket
  | sLook (r b : U64)                                     -- map.go:481
  | uLock (r b : U64)                                     -- map.go:606: found; TryLock, else look again
  | sLock (r b : U64)                                     -- map.go:628-633: not found; getWithFn locks and inserts
  | added (r h : U64)                                     -- map.go:982: is the bucket too full?
  | pub (r h x : U64)                                     -- map_embedded.go:64-84
  | idx (r h x m : U64)                                   -- map_embedded.go:86-89 findIdx
  | cut (r h x m : U64) (i : Nat)                         -- map_embedded.go:92 _split
  | setP (r h x m : U64) (l : Option (List U64))          -- map_embedded.go:94 setItemPool
  | lst (r h x m : U64)                                   -- map_embedded.go:98 addBucket
  | again (r h x m : U64)                                 -- map_embedded.go:125-129: nested makeBucket2
  | unl (r h : U64)                                       -- map.go:607, 631: the deferred unlock, then return
  | done (b : Bool)
  deriving DecidableEq, Repr

/-- `reach`: boundaries of the buckets `findBucket` can return; `listed`: those linked in the bucket list; `pool b`: the keys in the array of `b`, `none` while `b` has
no pool; `broken`: the goroutine running makeBucket2 has panicked or the bucket list has been destroyed; `acked`: ghost, the keys of the Sets that have answered. -/
structure St where
  reach : List U64
  listed : List U64
  pool : U64 → Option (List U64)
  lock : U64 → Bool
  broken : Bool
  acked : List U64
  pc : Tid → PC

def setPC (s : St) (t : Tid) (p : PC) : St := { s with pc := fun u => if u = t then p else s.pc u }
def setPool (s : St) (b : U64) (l : List U64) : St := { s with pool := fun c => if c = b then some l else s.pool c }
def setLock (s : St) (b : U64) (v : Bool) : St := { s with lock := fun c => if c = b then v else s.lock c }

/-- map.go:1668-1760 `findBucket`. -/
def find (s : St) (r : U64) : U64 := (s.reach.filter (fun b => decide (b ≤ r))).foldl (fun a b => if a < b then b else a) 0

/-- bucket.go:192-213 `prevAsB` of a linked bucket: the next greater boundary; the last sentinel has `^uint64(0)` (map.go:226-241). -/
def next (s : St) (x : U64) : U64 := (s.listed.filter (fun b => decide (x < b))).foldl (fun a b => if b < a then b else a) maxU64

/-- map_embedded.go:64-71: the boundary of the new bucket.  A bucket that is not linked yet (its ListHead points to itself) is its own neighbour. -/
def mid (s : St) (x : U64) : U64 := Emb.newRevE (if x ∈ s.listed then next s x else x) x

/-- The array with one more key, in order. -/
def ins (r : U64) : List U64 → List U64
  | [] => [r]
  | a :: l => if r ≤ a then r :: a :: l else a :: ins r l

/-- map_embedded.go:629-641 `findIdx`. -/
def findIdx (m : U64) (l : List U64) : Nat := (l.takeWhile (fun a => decide (a < m))).length

/-- One step of goroutine `t`; `none`: it waits (a lock is taken, or bucket.go:136 spins because the bucket has no pool). -/
def go (max : Nat) (s : St) (t : Tid) : Option St :=
  match s.pc t with
  | .idle | .done _ => none
  | .gFind r => some (setPC s t (.gRead r (find s r)))
  | .gRead r b => (s.pool b).map fun l => setPC s t (.done (decide (r ∈ l)))
  | .sFind r => some (setPC s t (.sLook r (find s r)))
  | .sLook r b => (s.pool b).map fun l => setPC s t (if r ∈ l then .uLock r b else .sLock r b)
  | .uLock r b => some (if s.lock b then setPC s t (.sFind r) else setPC (setLock s b true) t (.unl r b))
  | .sLock r b =>
    if s.lock b then none
    else (s.pool b).map fun l => setPC (setPool (setLock s b true) b (ins r l)) t (.added r b)
  | .added r h => (s.pool h).map fun l => setPC s t (if r < maxU64 ∧ l.length > max then .pub r h h else .unl r h)
  | .pub r h x =>
    let m := mid s x
    some { setPC s t (.idx r h x m) with
      reach := m :: s.reach
      broken := s.broken || (decide (m ≠ x) && decide (m ∈ s.listed)) }       -- map_embedded.go:82 Init() of a linked bucket
  | .idx r h x m => (s.pool x).map fun l =>
    let i := findIdx m l
    setPC s t (if i = 0 ∨ l.length ≤ i then .unl r h else .cut r h x m i)     -- map_embedded.go:87-89: return, `m` stays without pool
  | .cut r h x m i => (s.pool x).map fun l =>
    if l.length ≤ i then setPC s t (.setP r h x m none)                       -- map_embedded.go:650-652: nPool is nil
    else setPC (setPool s x (l.take i)) t (.setP r h x m (some (l.drop i)))
  | .setP r h x m none => some { setPC s t (.lst r h x m) with broken := true } -- bucket.go:149-156: nil pool, nil dereference now or endless recursion at the next itemPool()
  | .setP r h x m (some l) =>
    some (setPC (match s.pool m with
      | none => setPool s m l
      | some _ => s) t (.lst r h x m))                                        -- bucket.go:149-152: `itemPool` keeps returning the pool linked first
  | .lst r h x m => some { setPC s t (.again r h x m) with listed := m :: s.listed }
  | .again r h x m =>
    some (setPC s t (if ((s.pool m).getD []).length > max then .pub r h m
      else if ((s.pool x).getD []).length > max then .pub r h x else .unl r h))
  | .unl r h => some { setPC (setLock s h false) t (.done true) with acked := r :: s.acked }

/-- Where a call begins. -/
def Call.start : Call → PC
  | .set r => .sFind r
  | .get r => .gFind r

inductive Move where
  | call (t : Tid) (c : Call)
  | step (t : Tid)
  deriving DecidableEq, Repr

/-- A goroutine whose last call has returned makes a new one, or a goroutine takes a step. -/
def exec (max : Nat) (s : St) : Move → Option St
  | .call t c =>
    match s.pc t with
    | .idle | .done _ => some (setPC s t c.start)
    | _ => none
  | .step t => go max s t

/-- An execution all of whose moves satisfy `P`. -/
inductive Run (max : Nat) (P : St → Move → Prop) : St → St → Prop
  | refl (s : St) : Run max P s s
  | step {a b c : St} (mv : Move) : Run max P a b → P b mv → exec max b mv = some c → Run max P a c

def runL (max : Nat) : St → List Move → Option St
  | s, [] => some s
  | s, mv :: l => (exec max s mv).bind fun s' => runL max s' l

/-- map.go:255-294: the sixteen top buckets, with empty pools. -/
def tops : List U64 := (List.range 16).map fun i => BitVec.ofNat 64 i <<< 60

def init : St :=
  { reach := tops, listed := tops, pool := fun b => if b ∈ tops then some [] else none, lock := fun _ => false, broken := false, acked := [], pc := fun _ => .idle }

end SLM.ESplit
