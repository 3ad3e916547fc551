import Verif.Model.RMap
/-!
`RMap` (rmap/rmap.go) used by several goroutines.

One step of a goroutine is one access to what the goroutines share: the `atomic.Value` `read`, the pointer `dirty`, one call on a dirty
map, one access to an item's value, `Lock`, `Unlock`.  Between two of them a goroutine only works on its own data (a published `readMap`
never changes: rmap.go writes to `nread.m` before the CompareAndSwap only).

* A call on a dirty `Map` is one step.  What it answers is a `Choice`: in `Step` it may answer anything that the items of that map allow (it may
  miss items, link a new item or lose it), which covers the defects of `Map` proved elsewhere (C01-C05, C33-C35); in `XStep` the dirty map
  behaves as a faultless map.  Every `XStep` is a `Step`.
* `misses` is read and written without synchronisation; whether `missLocked` promotes is a `Choice` in `Step`.
* `onNewStores` is never filled in by the package.
* A panic ends the call (`ret` with the panic); no lock is held at the points that can panic.
-/
set_option autoImplicit false
namespace SLM.RConc
open RMap (RPanic)

abbrev Tid := Nat
abbrev Str := List (BitVec 8)

/-- A SampleItem: key, content of `V`, mark of `Delete()`. -/
structure Itm where
  key : Str
  val : IVal
  deleted : Bool := false
  deriving DecidableEq, Repr

/-- rmap.go:25-28 `readMap`; `id` stands for the pointer; `m` maps primary hashes to items. -/
structure RM where
  id : Nat
  m : List (U64 × Nat)
  amended : Bool
  deriving DecidableEq, Repr

inductive Call where
  | set (s : Str) (v : IVal)
  | get (s : Str)
  | delete (s : Str)
  deriving DecidableEq, Repr

/-- Answers.  `copy` tells whether Get hands out a copy of the item's `atomic.Value` (rmap.go:163) or the value itself. -/
inductive Res where
  | bool (b : Bool)
  | got (v : IVal) (copy ok : Bool)
  | panic (p : RPanic)
  deriving DecidableEq, Repr

/-- What follows `storeReadFromDirty`. -/
inductive Cont where
  | store (s : Str) (v : IVal) (rm : RM)      -- rmap.go:96-98
  | ret (cl : Call) (r : Res)                 -- rmap.go:105-107
  | miss (cl : Call) (r : Res)                -- rmap.go:144-145
  deriving DecidableEq, Repr

inductive PC where
  | idle
  | ret (cl : Call) (r : Res)
  -- Set
  | s0 (s : Str) (v : IVal)                   -- rmap.go:72: about to load `read`
  | s1 (s : Str) (v : IVal)                   -- rmap.go:74: about to store an empty read map
  | s2 (s : Str) (v : IVal)                   -- rmap.go:75: about to load `read` again
  | s4 (s : Str) (v : IVal) (rm : RM)         -- rmap.go:91, 56: about to read `m.dirty`
  | s5 (s : Str) (v : IVal) (rm : RM) (d : Nat)   -- rmap.go:56: LoadItemByHash
  | s6 (s : Str) (v : IVal) (i : Nat)         -- rmap.go:94: SetValue
  | s7 (s : Str) (v : IVal) (rm : RM)         -- rmap.go:103: about to read `m.dirty`
  | s8 (s : Str) (v : IVal) (rm : RM) (d : Nat)   -- rmap.go:103: StoreItem
  -- storeReadFromDirty
  | p0 (am : Bool) (k : Cont)                 -- rmap.go:216: Lock
  | p1 (am : Bool) (k : Cont)                 -- rmap.go:220: about to load `read`
  | p2 (am : Bool) (k : Cont) (o : RM)        -- rmap.go:235: about to read `m.dirty`
  | p3 (am : Bool) (k : Cont) (o : RM) (d : Nat)  -- rmap.go:235: RangeItem
  | p4 (am : Bool) (k : Cont) (o : RM) (m : List (U64 × Nat))   -- rmap.go:252: CompareAndSwap
  | p5 (k : Cont)                             -- rmap.go:253: Unlock
  | p6 (k : Cont)                             -- rmap.go:254: initDirty
  | p7 (k : Cont)                             -- rmap.go:255: Lock
  | p8 (k : Cont)                             -- rmap.go:217: deferred Unlock
  -- Get
  | g0 (s : Str)                              -- rmap.go:155: about to load `read`
  | g1 (s : Str) (i : Nat)                    -- rmap.go:163: about to copy the item's value
  | g2 (s : Str)                              -- rmap.go:170: about to load `read` again
  | g3 (s : Str)                              -- rmap.go:173, 56: about to read `m.dirty`
  | g4 (s : Str) (d : Nat)                    -- rmap.go:56: LoadItemByHash
  | g5 (s : Str) (i : Nat)                    -- rmap.go:68: Value()
  | g6 (cl : Call) (r : Res)                  -- rmap.go:140-141: misses, and the decision to promote
  | g7 (cl : Call) (r : Res)                  -- rmap.go:145: misses = 0
  -- Delete
  | d0 (s : Str)                              -- rmap.go:183: about to load `read`
  | d1 (s : Str)                              -- rmap.go:186: Lock
  | d2 (s : Str)                              -- rmap.go:188: about to load `read` again
  | d3 (s : Str)                              -- rmap.go:192, 56: about to read `m.dirty`
  | d4 (s : Str) (d : Nat)                    -- rmap.go:56: LoadItemByHash
  | d5 (s : Str) (d i : Nat)                  -- rmap.go:194: AddLen(-1)
  | d6 (s : Str) (i : Nat)                    -- rmap.go:195: Delete()
  | d7 (s : Str)                              -- rmap.go:198, 140-141: misses, and the decision to promote
  | d8 (s : Str)                              -- rmap.go:187: deferred Unlock
  deriving DecidableEq, Repr

/-- `dirty d` are the items linked in the dirty map with address `d`, `dlen d` its `len`; `cur` is `m.dirty`; `sets` and `dels` record the arguments of all Sets
and Deletes called so far (no part of the program). -/
structure St where
  read : Option RM
  nextRM : Nat
  cur : Nat
  nextD : Nat
  dirty : Nat → List Nat
  dlen : Nat → Int
  item : Nat → Itm
  nextI : Nat
  lock : Option Tid
  misses : Nat
  sets : List (Str × IVal)
  dels : List Str
  pc : Tid → PC

def setPC (s : St) (t : Tid) (p : PC) : St := { s with pc := fun u => if u = t then p else s.pc u }

/-- `m[k]` and `m[k] = v` on a Go map. -/
def mget (m : List (U64 × Nat)) (k : U64) : Option Nat := (m.find? (fun p => decide (p.1 = k))).map (·.2)
def mput (m : List (U64 × Nat)) (k : U64) (i : Nat) : List (U64 × Nat) := (k, i) :: m.filter (fun p => decide (p.1 ≠ k))

/-- rmap.go:222-244: the copy of the old read map with the items visited. -/
def merge (H : HashFns) (item : Nat → Itm) (m : List (U64 × Nat)) (l : List Nat) : List (U64 × Nat) :=
  l.foldl (fun m i => mput m (H.mem (item i).key) i) m

/-- What the shared parts outside `RMap`'s own fields answer: the item found, whether StoreItem links, the items visited, whether to
promote. -/
structure Choice where
  found : Option Nat := none
  link : Bool := true
  visit : List Nat := []
  restore : Bool := false

/-- rmap.go:72-90 from the loaded read map on: `store2` swaps a copy of the `atomic.Value` (rmap.go:273-286), which has no effect. -/
def afterLoad (H : HashFns) (s : Str) (v : IVal) (rm : RM) : PC :=
  if (mget rm.m (H.mem s)).isSome then .ret (.set s v) (.bool true) else .s4 s v rm

def resume : Cont → PC
  | .store s v rm => .s7 s v rm
  | .ret cl r => .ret cl r
  | .miss cl r => .g7 cl r

/-- `SetValue` of a SampleItem: `setValue .sample` of Model/Map.lean (sample_hmap_entry.go:59-65). -/
def store (s : St) (i : Nat) (v : IVal) : St := { s with item := fun j => if j = i then { s.item i with val := v } else s.item j }

/-- One step of goroutine `t`; `none`: it has nothing to do or is blocked. -/
def step (H : HashFns) (ch : Choice) (st : St) (t : Tid) : Option St :=
  match st.pc t with
  | .idle => none
  | .ret _ _ => none
  | .s0 s v =>
    match st.read with
    | none => some (setPC st t (.s1 s v))
    | some rm => some (setPC st t (afterLoad H s v rm))
  | .s1 s v => some (setPC { st with read := some { id := st.nextRM, m := [], amended := false }, nextRM := st.nextRM + 1 } t (.s2 s v))
  | .s2 s v =>
    match st.read with
    | none => none           -- not reachable: `read` is never reset
    | some rm => some (setPC st t (afterLoad H s v rm))
  | .s4 s v rm => some (setPC st t (.s5 s v rm st.cur))
  | .s5 s v rm _ =>
    match ch.found with
    | some i => some (setPC st t (.s6 s v i))
    | none => some (setPC st t (if rm.amended then .s7 s v rm else .p0 true (.store s v rm)))
  | .s6 s v i =>
    match setValue .sample (st.item i).val v with
    | .ok (w, _) => some (setPC (store st i w) t (.ret (.set s v) (.bool true)))
    | .error p => some (setPC st t (.ret (.set s v) (.panic (.map p))))
  | .s7 s v rm => some (setPC st t (.s8 s v rm st.cur))
  | .s8 s v rm d =>
    let next : PC := if rm.m.length = 0 then .p0 true (.ret (.set s v) (.bool true)) else .ret (.set s v) (.bool true)
    match ch.found with
    | some i =>
      match setValue .sample (st.item i).val v with
      | .ok (w, _) => some (setPC (store st i w) t next)
      | .error p => some (setPC st t (.ret (.set s v) (.panic (.map p))))
    | none =>
      some (setPC { st with
        item := fun j => if j = st.nextI then { key := s, val := v } else st.item j, nextI := st.nextI + 1,
        dirty := fun e => if e = d ∧ ch.link = true then st.dirty d ++ [st.nextI] else st.dirty e,
        dlen := fun e => if e = d then st.dlen d + 1 else st.dlen e } t next)
  | .p0 am k => if st.lock = none then some (setPC { st with lock := some t } t (.p1 am k)) else none
  | .p1 am k =>
    match st.read with
    | none => none           -- not reachable
    | some o => some (setPC st t (.p2 am k o))
  | .p2 am k o => some (setPC st t (.p3 am k o st.cur))
  | .p3 am k o _ =>
    let m := merge H st.item o.m ch.visit
    if m.length = 0 then some (setPC st t (.p8 k))
    else some (setPC st t (.p4 am k o m))
  | .p4 am k o m =>
    if st.read.map (·.id) = some o.id then
      some (setPC { st with
        read := some { id := st.nextRM, m := m, amended := am || decide (o.m.length = 0) }, nextRM := st.nextRM + 1 } t (.p5 k))
    else some (setPC st t (.p1 am k))
  | .p5 k => some (setPC { st with lock := none } t (.p6 k))
  | .p6 k => some (setPC { st with
      cur := st.nextD, nextD := st.nextD + 1, dirty := fun e => if e = st.nextD then [] else st.dirty e,
      dlen := fun e => if e = st.nextD then 0 else st.dlen e } t (.p7 k))
  | .p7 k => if st.lock = none then some (setPC { st with lock := some t } t (.p8 k)) else none
  | .p8 k => some (setPC { st with lock := none } t (resume k))
  | .g0 s =>
    match st.read with
    | none => some (setPC st t (.ret (.get s) (.panic .nilRead)))
    | some rm =>
      match mget rm.m (H.mem s) with
      | some i =>
        if H.xx (st.item i).key = H.xx s then some (setPC st t (.g1 s i))
        else some (setPC st t (if rm.amended then .g2 s else .ret (.get s) (.got none false false)))
      | none => some (setPC st t (if rm.amended then .g2 s else .ret (.get s) (.got none false false)))
  | .g1 s i => some (setPC st t (.ret (.get s) (.got (st.item i).val true true)))
  | .g2 s =>
    match st.read with
    | none => none           -- not reachable
    | some rm =>
      match mget rm.m (H.mem s) with
      | some _ => some (setPC st t (.ret (.get s) (.got none false true)))
      | none => some (setPC st t (if rm.amended then .g3 s else .ret (.get s) (.got none false false)))
  | .g3 s => some (setPC st t (.g4 s st.cur))
  | .g4 s _ =>
    match ch.found with
    | some i => some (setPC st t (.g5 s i))
    | none => some (setPC st t (.ret (.get s) (.panic .nilItem)))
  | .g5 s i => some (setPC st t (.g6 (.get s) (.got (st.item i).val false true)))
  | .g6 cl r =>
    let st1 := { st with misses := st.misses + 1 }
    if ch.restore then some (setPC st1 t (.p0 false (.miss cl r))) else some (setPC st1 t (.ret cl r))
  | .g7 cl r => some (setPC { st with misses := 0 } t (.ret cl r))
  | .d0 s =>
    match st.read with
    | none => some (setPC st t (.ret (.delete s) (.panic .nilRead)))
    | some rm =>
      if (mget rm.m (H.mem s)).isSome then some (setPC st t (.ret (.delete s) (.panic .casNil)))
      else if rm.amended then some (setPC st t (.d1 s))
      else some (setPC st t (.ret (.delete s) (.bool false)))
  | .d1 s => if st.lock = none then some (setPC { st with lock := some t } t (.d2 s)) else none
  | .d2 s =>
    match st.read with
    | none => none           -- not reachable
    | some rm => some (setPC st t (if rm.amended then .d3 s else .d8 s))
  | .d3 s => some (setPC st t (.d4 s st.cur))
  | .d4 s d =>
    match ch.found with
    | some i => some (setPC st t (.d5 s d i))
    | none => some (setPC st t (.d7 s))
  | .d5 s d i => some (setPC { st with dlen := fun e => if e = d then st.dlen d - 1 else st.dlen e } t (.d6 s i))
  | .d6 s i => some (setPC { st with item := fun j => if j = i then { st.item i with deleted := true } else st.item j } t (.d7 s))
  | .d7 s =>
    let st1 := { st with misses := st.misses + 1 }
    -- storeReadFromDirty locks again: this goroutine then waits for itself
    if ch.restore then some (setPC st1 t (.p0 false (.miss (.delete s) (.bool false)))) else some (setPC st1 t (.d8 s))
  | .d8 s => some (setPC { st with lock := none } t (.ret (.delete s) (.bool false)))

/-- The key a step searches in the dirty map `d`. -/
def seeks : PC → Option (Str × Nat)
  | .s5 s _ _ d => some (s, d)
  | .s8 s _ _ d => some (s, d)
  | .g4 s d => some (s, d)
  | .d4 s d => some (s, d)
  | _ => none

/-- The dirty map `RangeItem` visits. -/
def ranges : PC → Option Nat
  | .p3 _ _ _ d => some d
  | _ => none

/-- Answers a dirty map can give: an item found has the hashes searched for and was linked in that map; the items visited were. -/
structure Seen (H : HashFns) (st : St) (t : Tid) (ch : Choice) : Prop where
  found : ∀ s d, seeks (st.pc t) = some (s, d) → ∀ i, ch.found = some i →
    i ∈ st.dirty d ∧ H.mem (st.item i).key = H.mem s ∧ H.xx (st.item i).key = H.xx s
  visit : ∀ d, ranges (st.pc t) = some d → ∀ i ∈ ch.visit, i ∈ st.dirty d

/-- The live item with the hashes of `s` in dirty map `d`. -/
def lookup (H : HashFns) (st : St) (d : Nat) (s : Str) : Option Nat :=
  (st.dirty d).find? (fun i => decide (H.mem (st.item i).key = H.mem s ∧ H.xx (st.item i).key = H.xx s ∧ (st.item i).deleted = false))

/-- rmap.go:131-137 `isNotRestoreRead` (after `misses++`). -/
def notRestore (st : St) : Bool :=
  decide (st.misses + 1 ≤ ((st.read.map (fun r => r.m.length)).getD 0)) && decide (((st.misses + 1 : Nat) : Int) < st.dlen st.cur)

/-- What faultless dirty maps answer. -/
def exact (H : HashFns) (st : St) (t : Tid) : Choice :=
  { found := (seeks (st.pc t)).bind (fun p => lookup H st p.2 p.1), link := true,
    visit := match ranges (st.pc t) with
      | some d => (st.dirty d).filter (fun i => !(st.item i).deleted)
      | none => [],
    restore := !notRestore st }

/-- A call begins. -/
def start (st : St) (t : Tid) (cl : Call) : Option St :=
  match st.pc t with
  | .idle | .ret _ _ =>
    match cl with
    | .set s v => some (setPC { st with sets := (s, v) :: st.sets } t (.s0 s v))
    | .get s => some (setPC st t (.g0 s))
    | .delete s => some (setPC { st with dels := s :: st.dels } t (.d0 s))
  | _ => none

/-- All schedules, whatever the dirty maps answer. -/
inductive Step (H : HashFns) : St → Tid → St → Prop
  | start {s t cl s'} (h : start s t cl = some s') : Step H s t s'
  | move {s t ch s'} (hs : Seen H s t ch) (h : step H ch s t = some s') : Step H s t s'

/-- All schedules with faultless dirty maps. -/
inductive XStep (H : HashFns) : St → Tid → St → Prop
  | start {s t cl s'} (h : start s t cl = some s') : XStep H s t s'
  | move {s t s'} (h : step H (exact H s t) s t = some s') : XStep H s t s'

inductive Steps (H : HashFns) : St → St → Prop
  | refl {s} : Steps H s s
  | tail {s s1 s2 t} (h : Steps H s s1) (st : Step H s1 t s2) : Steps H s s2

inductive XSteps (H : HashFns) : St → St → Prop
  | refl {s} : XSteps H s s
  | tail {s s1 s2 t} (h : XSteps H s s1) (st : XStep H s1 t s2) : XSteps H s s2

/-- rmap.go:30-39 `New`. -/
def init : St :=
  { read := none, nextRM := 0, cur := 0, nextD := 1, dirty := fun _ => [], dlen := fun _ => 0, item := fun _ => { key := [], val := none },
    nextI := 0, lock := none, misses := 0, sets := [], dels := [], pc := fun _ => .idle }

/-! ### A scheduler for witnesses -/

inductive Cmd where
  | start (t : Tid) (cl : Call)
  | move (t : Tid) (n : Nat)     -- up to `n` steps of goroutine `t`, faultless dirty maps

def moveN (H : HashFns) (s : St) (t : Tid) : Nat → St
  | 0 => s
  | n + 1 => match step H (exact H s t) s t with
    | some s' => moveN H s' t n
    | none => s

def exec (H : HashFns) (s : St) : List Cmd → St
  | [] => s
  | .start t cl :: l => exec H ((start s t cl).getD s) l
  | .move t n :: l => exec H (moveN H s t n) l

end SLM.RConc
