import Verif.Model.Map
/-!
Concurrent use of a map without the embedded pool: a small-step machine, any number of goroutines, every interleaving.

One step is one atomic access to shared memory: one evaluation of a node (its `reverse` is immutable once it is linked), one
`Next()`/`Prev()`, one access to the package-wide search option, one check, one link, one store of a value or of the state word.

Abstractions:
* A goroutine of the machine performs one call; a goroutine that performs several is several of them, scheduled one after
  the other.  Calls carry the hashes of their key: `t` is the reversed primary hash, `c` the conflict hash.
* `elist_head`: `Next`, `Prev` and `InsertBefore` are atomic and take effect on the list as it is then (the documented
  contract of that package, which is not in this repository).
* The bucket a call starts from is chosen by the parameter `Pk` (a relation between the state, the call and a sentinel).
  Theorems about all schedules hold for every `Pk` that chooses linked sentinels; witnesses use `pkExact`, the bucket
  the code chooses.
* A bucket split (map.go:771-911) is seen as what it does to the item list: the insertion of a sentinel.  Any goroutine may
  start one at any time, with any boundary.
* Locating the bucket is one step.  While a split is in progress it may find the new bucket before its sentinel is linked (`Window`).
* Items are SampleItems (`ItemFn` as `Set` leaves it, map.go:691-695).
-/
set_option autoImplicit false
namespace SLM.Conc

abbrev Tid := Nat

/-- `cur` of a loop, looked up in the list. -/
def node (l : List Entry) (r : Ref) : Option Entry := (fromRef r l).head?
/-- elist_head `Next()`; `none` is the terminator. -/
def nx (l : List Entry) (r : Ref) : Option Ref := ((fromRef r l).tail.head?).map (·.ref)
/-- elist_head `Prev()`; `none` is the terminator. -/
def pv (l : List Entry) (r : Ref) : Option Ref := ((beforeRef r l).getLast?).map (·.ref)

/-- What a goroutine was asked to do.  `split` links the sentinel of bucket `p` with boundary `t` (map.go:1157-1190
`_InsertBefore`); `range` is map.go:1617-1632; `foreign` is a `find` on another map of the same process. -/
inductive Call where
  | get (t c : U64)
  | set (t c : U64) (key : Key) (v : IVal)
  | del (t c : U64)
  | split (t : U64) (p : Path)
  | range
  | foreign
  deriving DecidableEq, Repr

/-- What a call returned. -/
inductive Res where
  | val (v : IVal) (ok : Bool)
  | bool (b : Bool)
  | seen (l : List Ref)
  | panic
  deriving DecidableEq, Repr

/-- Program points. -/
inductive PC where
  | idle
  | pick (cl : Call)                                            -- about to locate the bucket
  /-- `_searchBybucket` (map.go:1467-1547) at node `cur`; `adv`: the node was judged "continue". -/
  | look (cl : Call) (fwd : Bool) (b cur : Ref) (adv : Bool)
  /-- The bucket `p` with boundary `r` was located, but its sentinel is not linked yet. -/
  | lost (cl : Call) (p : Path) (r : U64)
  | hit (cl : Call) (r : Ref)                                   -- a node with the hash was found
  | miss (cl : Call) (b : Ref)                                  -- getWithBucket reports "not found"
  /-- `find` (map.go:740-769): first statement, the loop, the deferred restore.  `second` is the `find` in add2 (map.go:938-944),
  otherwise it is the one of `_set` (map.go:389-392); `b` is the bucket given to add2, if any. -/
  | fOpt (second : Bool) (e : Entry) (b : Option Ref) (start : Ref)
  | fLoop (second : Bool) (e : Entry) (b : Option Ref) (prev : Bool) (cur : Ref) (adv : Bool)
  | fEnd (second : Bool) (e : Entry) (b : Option Ref) (prev : Bool) (res : Option Ref)
  | start2 (e : Entry) (b : Ref) (res : Option Ref)             -- map.go:395-414: where add2 starts
  | target (e : Entry) (b : Option Ref) (res : Option Ref)      -- map.go:972-1032: the node to insert before
  | check (e : Entry) (right : Ref)                             -- util.go:108-123
  | link (e : Entry) (right : Ref)                              -- util.go:124
  | walk (cur : Ref) (seen : List Ref) (adv : Bool)             -- RangeItem
  | foreign (prev : Bool)                                       -- inside a `find` on another map
  | ret (r : Res)
  deriving DecidableEq, Repr

/-- Shared memory and program points.  `opt` is `_sharedSearchOpt._ignoreBucketEntry` (map.go:1325-1339); `used` are the
buckets a split was started for (the compare-and-swaps of bucketFromPool hand a bucket to one goroutine only). -/
structure CSt where
  items : List Entry
  opt : Bool
  nextId : Nat
  used : List Path
  pc : Tid → PC

def setPC (s : CSt) (t : Tid) (c : PC) : CSt := { s with pc := fun u => if u = t then c else s.pc u }

/-- The item made by `Set` for a new key (map.go:684-689, 332-337). -/
def newItem (n : Nat) (t c : U64) (key : Key) (v : IVal) : Entry :=
  { ref := .item n, kind := .sample, key := key, val := v, rev := t, conflict := c, dummy := false, deleted := false }

/-- The entry a goroutine is going to link. -/
def PC.newE : PC → Option Entry
  | .fOpt _ e _ _ => some e
  | .fLoop _ e _ _ _ _ => some e
  | .fEnd _ e _ _ _ => some e
  | .start2 e _ _ => some e
  | .target e _ _ => some e
  | .check e _ => some e
  | .link e _ => some e
  | _ => none

/-- map.go:1894-1919 (and 801-856): a new bucket between existing buckets of its group (a group grows only when its last
bucket is ready, map.go:1832-1870) is found by lookups as soon as its level is stored; its sentinel is linked later.  Here: some
goroutine is about to link the sentinel of `p`, and a later bucket of the group is linked. -/
def Window (s : CSt) (p : Path) (r : U64) : Prop :=
  (∃ u, (s.pc u).newE = some (dummyEntry p r)) ∧
  ∃ i j q, p = i :: q ∧ q ≠ [] ∧ 0 < i ∧ i < j ∧ ∃ d ∈ s.items, d.ref = .dummy (j :: q)

/-- The reversed hash a call looks for. -/
def Call.target : Call → Option (U64 × U64)
  | .get t c => some (t, c)
  | .set t c _ _ => some (t, c)
  | .del t c => some (t, c)
  | _ => none

/-- map.go:758-762 and 389-392 / 938-943: the loop skips the node if the option says so and it is ignored; otherwise it
stops if the condition holds. -/
def stops (second : Bool) (e x : Entry) (opt : Bool) : Bool :=
  !(opt && x.ignored) && (if second then decide (e.rev < x.rev) else decide (e.rev ≤ x.rev))

/-- util.go:108-123: the tests before `InsertBefore`. -/
def checkOk (l : List Entry) (e : Entry) (right : Ref) : Bool :=
  match node l right with
  | none => false
  | some re =>
    if re.rev < e.rev then false
    else match (beforeRef right l).getLast? with
      | some le => !decide (e.rev < le.rev)
      | none => true

/-- map.go:395-414: from where add2 searches. -/
def tStart (l : List Entry) (e : Entry) (b : Ref) : Option Ref → Ref
  | none => b
  | some en =>
    match (beforeRef en l).getLast? with
    | some pe => if pe.rev < e.rev then pe.ref else b
    | none => b

/-- map.go:972-1032 when `find` found nothing: before the successor of the bucket's sentinel (or before the sentinel of the next
bucket `phd`), or before the last node if no bucket was given. -/
def fallback (l : List Entry) (phd : Ref) : Option Ref → Option Ref
  | some hd =>
    match fromRef hd l with
    | [] => none
    | d :: rest => some (if ((rest.head?).getD d).rev ≤ d.rev then phd else ((rest.head?).getD d).ref)
  | none => (l.getLast?).map (·.ref)

/-- One atomic step of goroutine `g`. -/
inductive Step (Pk : CSt → Call → Ref → Prop) : CSt → Tid → CSt → Prop
  /-- A call starts. -/
  | begin (s : CSt) (g : Tid) (cl : Call) (t c : U64) : s.pc g = .idle → cl.target = some (t, c) → Step Pk s g (setPC s g (.pick cl))
  | beginSplit (s : CSt) (g : Tid) (t : U64) (p : Path) : s.pc g = .idle → p ∉ s.used →
      Step Pk s g (setPC { s with used := p :: s.used } g (.pick (.split t p)))
  /-- map.go:467-486 / 1388-1393: locate the bucket, choose the direction. -/
  | pickKey (s : CSt) (g : Tid) (cl : Call) (t c : U64) (b : Ref) (d : Entry) : s.pc g = .pick cl → cl.target = some (t, c) →
      Pk s cl b → node s.items b = some d → Step Pk s g (setPC s g (.look cl (decide (d.rev < t)) b b false))
  /-- map.go:1668-1760, 1401-1409: the bucket located is one whose sentinel is not linked yet: its boundary is the largest at or
  below the hash. -/
  | pickLost (s : CSt) (g : Tid) (cl : Call) (t c : U64) (p : Path) (r : U64) : s.pc g = .pick cl → cl.target = some (t, c) →
      Window s p r → r ≤ t → (∀ d ∈ s.items, d.dummy = true → d.rev ≤ t → d.rev < r) → Step Pk s g (setPC s g (.lost cl p r))
  /-- bucket.go:373-401 `head()` looks a hundred times; at one of them the sentinel was linked. -/
  | lostFound (s : CSt) (g : Tid) (cl : Call) (t c : U64) (p : Path) (r : U64) (d : Entry) : s.pc g = .lost cl p r →
      cl.target = some (t, c) → node s.items (.dummy p) = some d → d.rev = r →
      Step Pk s g (setPC s g (.look cl (decide (r < t)) (.dummy p) (.dummy p) false))
  /-- bucket.go:275-290: not linked at any of them, `entry` answers nil.  map.go:1523-1524: with the boundary equal to the hash, the
  nil is used. -/
  | lostPanic (s : CSt) (g : Tid) (cl : Call) (t c : U64) (p : Path) (r : U64) : s.pc g = .lost cl p r → cl.target = some (t, c) →
      r = t → Step Pk s g (setPC s g (.ret .panic))
  /-- map.go:1479-1521: otherwise the loop over the nodes is left out, the key is not found. -/
  | lostGet (s : CSt) (g : Tid) (t c : U64) (p : Path) (r : U64) : s.pc g = .lost (.get t c) p r → r < t →
      Step Pk s g (setPC s g (.ret (.val none false)))
  | lostDel (s : CSt) (g : Tid) (t c : U64) (p : Path) (r : U64) : s.pc g = .lost (.del t c) p r → r < t →
      Step Pk s g (setPC s g (.ret (.bool false)))
  /-- map.go:684-704, 389-414, 938-944, 1025-1031: a new item; the searches from the unlinked sentinel end at once (their effect on
  the search option is left out), and the item goes before the last node. -/
  | lostSet (s : CSt) (g : Tid) (t c : U64) (key : Key) (v : IVal) (p : Path) (r : U64) : s.pc g = .lost (.set t c key v) p r → r < t →
      Step Pk s g (setPC { s with nextId := s.nextId + 1 } g (.target (newItem s.nextId t c key v) none none))
  /-- ... unless the sentinel is linked by then. -/
  | lostSetLate (s : CSt) (g : Tid) (t c : U64) (key : Key) (v : IVal) (p : Path) (r : U64) (d : Entry) :
      s.pc g = .lost (.set t c key v) p r → r < t → node s.items (.dummy p) = some d → d.rev = r →
      Step Pk s g (setPC { s with nextId := s.nextId + 1 } g (.fOpt false (newItem s.nextId t c key v) (some (.dummy p)) (.dummy p)))
  /-- map.go:1192-1209, 1157-1172: the sentinel to start from. -/
  | pickSplit (s : CSt) (g : Tid) (t : U64) (p : Path) (b : Ref) : s.pc g = .pick (.split t p) → Pk s (.split t p) b →
      Step Pk s g (setPC s g (.fOpt true (dummyEntry p t) none b))
  /-- map.go:1494-1521 and 1525-1544: judge the node. -/
  | lookCont (s : CSt) (g : Tid) (cl : Call) (t c : U64) (fwd : Bool) (b cur : Ref) (x : Entry) : s.pc g = .look cl fwd b cur false →
      cl.target = some (t, c) → node s.items cur = some x → (x.ignored = true ∨ (if fwd then x.rev < t else x.rev > t)) →
      Step Pk s g (setPC s g (.look cl fwd b cur true))
  | lookHit (s : CSt) (g : Tid) (cl : Call) (t c : U64) (fwd : Bool) (b cur : Ref) (x : Entry) : s.pc g = .look cl fwd b cur false →
      cl.target = some (t, c) → node s.items cur = some x → x.ignored = false → x.rev = t →
      Step Pk s g (setPC s g (if x.conflict = c then .hit cl cur else .miss cl b))
  | lookMiss (s : CSt) (g : Tid) (cl : Call) (t c : U64) (fwd : Bool) (b cur : Ref) (x : Entry) : s.pc g = .look cl fwd b cur false →
      cl.target = some (t, c) → node s.items cur = some x → x.ignored = false → (if fwd then t < x.rev else x.rev < t) →
      Step Pk s g (setPC s g (.miss cl b))
  | lookAdv (s : CSt) (g : Tid) (cl : Call) (fwd : Bool) (b cur : Ref) : s.pc g = .look cl fwd b cur true →
      Step Pk s g (setPC s g (match (if fwd then nx s.items cur else pv s.items cur) with
        | some r => .look cl fwd b r false
        | none => .miss cl b))
  /-- map.go:535-549: Get reads the value. -/
  | hitGet (s : CSt) (g : Tid) (t c : U64) (r : Ref) (x : Entry) : s.pc g = .hit (.get t c) r → node s.items r = some x →
      Step Pk s g (setPC s g (.ret (.val x.val true)))
  /-- map.go:306-308 `_update`. -/
  | hitSet (s : CSt) (g : Tid) (t c : U64) (key : Key) (v : IVal) (r : Ref) (x : Entry) (nv : IVal) (ok : Bool) :
      s.pc g = .hit (.set t c key v) r → node s.items r = some x → setValue .sample x.val v = .ok (nv, ok) →
      Step Pk s g (setPC { s with items := setVal r nv s.items } g (.ret (.bool ok)))
  | hitSetPanic (s : CSt) (g : Tid) (t c : U64) (key : Key) (v : IVal) (r : Ref) (x : Entry) (p : Panic) :
      s.pc g = .hit (.set t c key v) r → node s.items r = some x → setValue .sample x.val v = .error p →
      Step Pk s g (setPC s g (.ret .panic))
  /-- map.go:1550-1559, sample_hmap_entry.go:83-85. -/
  | hitDel (s : CSt) (g : Tid) (t c : U64) (r : Ref) : s.pc g = .hit (.del t c) r →
      Step Pk s g (setPC { s with items := markDeleted .sample r s.items } g (.ret (.bool true)))
  | missGet (s : CSt) (g : Tid) (t c : U64) (b : Ref) : s.pc g = .miss (.get t c) b → Step Pk s g (setPC s g (.ret (.val none false)))
  | missDel (s : CSt) (g : Tid) (t c : U64) (b : Ref) : s.pc g = .miss (.del t c) b → Step Pk s g (setPC s g (.ret (.bool false)))
  /-- map.go:684-704: a new item; `_set` with the bucket of the lookup. -/
  | missSet (s : CSt) (g : Tid) (t c : U64) (key : Key) (v : IVal) (b : Ref) : s.pc g = .miss (.set t c key v) b →
      Step Pk s g (setPC { s with nextId := s.nextId + 1 } g (.fOpt false (newItem s.nextId t c key v) (some b) b))
  /-- map.go:742-743, 1356-1373: under the option's lock, remember the old value and store false. -/
  | findOpt (s : CSt) (g : Tid) (second : Bool) (e : Entry) (b : Option Ref) (start : Ref) : s.pc g = .fOpt second e b start →
      Step Pk s g (setPC { s with opt := false } g (.fLoop second e b s.opt start false))
  | findStop (s : CSt) (g : Tid) (second : Bool) (e : Entry) (b : Option Ref) (prev : Bool) (cur : Ref) (x : Entry) :
      s.pc g = .fLoop second e b prev cur false → node s.items cur = some x → stops second e x s.opt = true →
      Step Pk s g (setPC s g (.fEnd second e b prev (some cur)))
  | findCont (s : CSt) (g : Tid) (second : Bool) (e : Entry) (b : Option Ref) (prev : Bool) (cur : Ref) (x : Entry) :
      s.pc g = .fLoop second e b prev cur false → node s.items cur = some x → stops second e x s.opt = false →
      Step Pk s g (setPC s g (.fLoop second e b prev cur true))
  | findAdv (s : CSt) (g : Tid) (second : Bool) (e : Entry) (b : Option Ref) (prev : Bool) (cur : Ref) :
      s.pc g = .fLoop second e b prev cur true →
      Step Pk s g (setPC s g (match nx s.items cur with
        | some r => .fLoop second e b prev r false
        | none => .fEnd second e b prev none))
  /-- map.go:744-749: the deferred restore. -/
  | findEnd1 (s : CSt) (g : Tid) (e : Entry) (b : Ref) (prev : Bool) (res : Option Ref) : s.pc g = .fEnd false e (some b) prev res →
      Step Pk s g (setPC { s with opt := prev } g (.start2 e b res))
  | findEnd2 (s : CSt) (g : Tid) (e : Entry) (b : Option Ref) (prev : Bool) (res : Option Ref) : s.pc g = .fEnd true e b prev res →
      Step Pk s g (setPC { s with opt := prev } g (.target e b res))
  | start2 (s : CSt) (g : Tid) (e : Entry) (b : Ref) (res : Option Ref) : s.pc g = .start2 e b res →
      Step Pk s g (setPC s g (.fOpt true e (some b) (tStart s.items e b res)))
  | targetPos (s : CSt) (g : Tid) (e : Entry) (b : Option Ref) (r : Ref) : s.pc g = .target e b (some r) →
      Step Pk s g (setPC s g (.check e r))
  | targetFall (s : CSt) (g : Tid) (e : Entry) (b : Option Ref) (phd r : Ref) : s.pc g = .target e b none →
      (node s.items phd).isSome → fallback s.items phd b = some r → Step Pk s g (setPC s g (.check e r))
  | checkOk (s : CSt) (g : Tid) (e : Entry) (r : Ref) : s.pc g = .check e r → checkOk s.items e r = true → Step Pk s g (setPC s g (.link e r))
  /-- map.go:984-987: the error is only logged, and Set answers true. -/
  | checkFail (s : CSt) (g : Tid) (e : Entry) (r : Ref) : s.pc g = .check e r → checkOk s.items e r = false →
      Step Pk s g (setPC s g (.ret (.bool true)))
  | link (s : CSt) (g : Tid) (e : Entry) (r : Ref) : s.pc g = .link e r →
      Step Pk s g (setPC { s with items := insBefore r e s.items } g (.ret (.bool true)))
  /-- map.go:1617-1632 with a callback that always continues. -/
  | rangeStart (s : CSt) (g : Tid) (x : Entry) : s.pc g = .idle → s.items.head? = some x → Step Pk s g (setPC s g (.walk x.ref [] false))
  | rangeSee (s : CSt) (g : Tid) (cur : Ref) (seen : List Ref) (x : Entry) : s.pc g = .walk cur seen false → node s.items cur = some x →
      Step Pk s g (setPC s g (.walk cur (if x.ignored then seen else seen ++ [cur]) true))
  | rangeAdv (s : CSt) (g : Tid) (cur : Ref) (seen : List Ref) : s.pc g = .walk cur seen true →
      Step Pk s g (setPC s g (match nx s.items cur with
        | some r => .walk r seen false
        | none => .ret (.seen seen)))
  /-- A `find` on another map touches only the shared option. -/
  | foreignOpt (s : CSt) (g : Tid) : s.pc g = .idle → Step Pk s g (setPC { s with opt := false } g (.foreign s.opt))
  | foreignEnd (s : CSt) (g : Tid) (prev : Bool) : s.pc g = .foreign prev → Step Pk s g (setPC { s with opt := prev } g (.ret (.bool true)))

/-- Executions. -/
inductive Steps (Pk : CSt → Call → Ref → Prop) : CSt → CSt → Prop
  | refl (s : CSt) : Steps Pk s s
  | step {a b c : CSt} {g : Tid} : Steps Pk a b → Step Pk b g c → Steps Pk a c

/-- The map as a sequential history left it, no call in progress. -/
def ofSt (st : St) : CSt :=
  { items := st.items, opt := true, nextId := st.nextId,
    used := st.items.filterMap (fun e => match e.ref with | .dummy p => some p | .item _ => none), pc := fun _ => .idle }

/-- The sentinel with the largest boundary among those accepted by `ok`. -/
def bestBelow (ok : U64 → Bool) : List Entry → Option Entry
  | [] => none
  | e :: es =>
    match bestBelow ok es with
    | none => if e.dummy && ok e.rev then some e else none
    | some d => if e.dummy && ok e.rev && decide (d.rev < e.rev) then some e else some d

/-- The sentinel with the smallest boundary above `r`. -/
def bestAbove (r : U64) : List Entry → Option Entry
  | [] => none
  | e :: es =>
    match bestAbove r es with
    | none => if e.dummy && decide (r < e.rev) then some e else none
    | some d => if e.dummy && decide (r < e.rev) && decide (e.rev < d.rev) then some e else some d

/-- The bucket the code uses.  map.go:1668-1760 `findBucket`: the largest boundary at or below the hash.  Get (map.go:1426-1435)
takes the next bucket up if it is nearer, unless the mode is CombineSearch.  A split starts at the largest boundary below the new
one (map.go:1192-1209).  `C96_bucket_partial` (Props/Sim.lean) says where this is what the sequential map does; it differs for a Get
whose bucket is a child 0 (bucket.go:192-213: such a bucket has no neighbours, the Get stays with it), for hashes behind a boundary that is
no multiple of sixteen (C97), and in CombineSearch2 mode. -/
def pkBucket (m : Mode) (l : List Entry) : Call → Option Ref
  | .get t _ =>
    match bestBelow (fun r => decide (r ≤ t)) l with
    | none => none
    | some d =>
      match bestAbove d.rev l with
      | none => some d.ref
      | some p => some (if m ≠ modeCombine ∧ near p.rev d.rev t ≠ d.rev then p.ref else d.ref)
  | .set t _ _ _ | .del t _ => (bestBelow (fun r => decide (r ≤ t)) l).map (·.ref)
  | .split t _ => (bestBelow (fun r => decide (r < t)) l).map (·.ref)
  | _ => none

def pkExact (m : Mode) (s : CSt) (cl : Call) (b : Ref) : Prop := pkBucket m s.items cl = some b

/-- The condition on `Pk` under which theorems about all schedules hold: a linked sentinel, for a Set one whose boundary is not
above the hash. -/
structure PkOk (Pk : CSt → Call → Ref → Prop) : Prop where
  linked : ∀ s cl b, Pk s cl b → ∃ d ∈ s.items, d.ref = b ∧ d.dummy = true ∧ ∀ t c key v, cl = .set t c key v → d.rev ≤ t

end SLM.Conc
