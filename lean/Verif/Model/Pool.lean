import Verif.Model.Map
/-!
The item pool of pool2.go (used by `Set` when `UsePool(true)` is in effect and `UseGoroutineInPool` is false, its default).

Part 1: `samepleItemPool.Get` as a small-step machine: any number of goroutines, every interleaving of the atomic
operations.  Nothing in the package puts items back (`Put` has no caller), so the free list stays empty.

Part 2: the pooler seen by one goroutine, with item addresses, on top of the map of Model/Map.lean.
-/
set_option autoImplicit false
namespace SLM.Pool

/-! ### Part 1: concurrent allocation -/

abbrev Tid := Nat

/-- pool2.go:113-119 `samepleItemPool`: the slice header `items` (`arr` names the backing array), whether
`freeHead`/`freeTail` were initialised, and the holder of `mu`. -/
structure PoolObj where
  inited : Bool
  arr : Nat
  len : Int
  cap : Int
  owner : Option Tid
  deriving DecidableEq, Repr

/-- Program points of one goroutine inside `Pool.Get`/`samepleItemPool.Get`; `p` is the pool object, `i` the slot index. -/
inductive PC where
  | idle
  | start (p : Nat)                       -- pool2.go:200: is the pool initialised?
  | ini (p : Nat)                         -- pool2.go:201: about to run init()
  | check (p : Nat)                       -- pool2.go:218: Cap() <= Len() ?
  | readLen (p : Nat)                     -- pool2.go:221: i = Len()
  | lock (p : Nat) (i : Int)              -- pool2.go:224: mu.Lock() for the last slot
  | cas (p : Nat) (i : Int) (held : Bool) -- pool2.go:231
  | at (p : Nat) (i : Int) (held : Bool)  -- pool2.go:239: at(i), Init()
  | expand (p : Nat)                      -- pool2.go:288: mu.Lock() in _expand
  | got (p : Nat) (arr : Nat) (i : Int) (held : Bool) -- back in Set; the lock is released when Set returns (map.go:658-667)
  | crashed                               -- nil pointer dereference
  deriving DecidableEq, Repr

/-- `pools n` for `n < count` are the pool objects made so far; `cur` is the one linked in the list; `arrs` counts backing
arrays; `log` records the slots handed out (newest first). -/
structure CSt where
  pools : Nat → PoolObj
  count : Nat
  cur : Nat
  arrs : Nat
  pc : Tid → PC
  log : List (Tid × Nat × Int)

def setPC (s : CSt) (t : Tid) (c : PC) : CSt := { s with pc := fun u => if u = t then c else s.pc u }
def setPool (s : CSt) (p : Nat) (o : PoolObj) : CSt := { s with pools := fun q => if q = p then o else s.pools q }

/-- One atomic step of goroutine `t`. -/
inductive Step : CSt → Tid → CSt → Prop
  /-- pool2.go:71-80: take the pool linked in the list. -/
  | enter (s : CSt) (t : Tid) : s.pc t = .idle → Step s t (setPC s t (.start s.cur))
  /-- pool2.go:200-202. -/
  | startInit (s : CSt) (t : Tid) (p : Nat) : s.pc t = .start p → (s.pools p).inited = false → Step s t (setPC s t (.ini p))
  | startReady (s : CSt) (t : Tid) (p : Nat) : s.pc t = .start p → (s.pools p).inited = true → Step s t (setPC s t (.check p))
  /-- pool2.go:141-154 `init`: a new backing array of 64 slots; the three words of the slice header are written at once here
  (the code may even tear them). -/
  | doInit (s : CSt) (t : Tid) (p : Nat) : s.pc t = .ini p →
      Step s t (setPC { setPool s p { s.pools p with inited := true, arr := s.arrs, len := 0, cap := 64 } with arrs := s.arrs + 1 }
        t (.check p))
  | full (s : CSt) (t : Tid) (p : Nat) : s.pc t = .check p → (s.pools p).cap ≤ (s.pools p).len → Step s t (setPC s t (.expand p))
  | notFull (s : CSt) (t : Tid) (p : Nat) : s.pc t = .check p → ¬ (s.pools p).cap ≤ (s.pools p).len → Step s t (setPC s t (.readLen p))
  /-- pool2.go:218-222; the length is read a second time. -/
  | readLast (s : CSt) (t : Tid) (p : Nat) : s.pc t = .readLen p → (s.pools p).len + 1 = (s.pools p).cap →
      Step s t (setPC s t (.lock p (s.pools p).len))
  | readMid (s : CSt) (t : Tid) (p : Nat) : s.pc t = .readLen p → (s.pools p).len + 1 ≠ (s.pools p).cap →
      Step s t (setPC s t (.cas p (s.pools p).len false))
  /-- pool2.go:223-230; `Cap()` is compared again. -/
  | lockOk (s : CSt) (t : Tid) (p : Nat) (i : Int) : s.pc t = .lock p i → (s.pools p).owner = none → i + 1 = (s.pools p).cap →
      Step s t (setPC (setPool s p { s.pools p with owner := some t }) t (.cas p i true))
  | lockRetry (s : CSt) (t : Tid) (p : Nat) (i : Int) : s.pc t = .lock p i → (s.pools p).owner = none → i + 1 ≠ (s.pools p).cap →
      Step s t (setPC s t (.start p))
  /-- pool2.go:231. -/
  | casOk (s : CSt) (t : Tid) (p : Nat) (i : Int) (h : Bool) : s.pc t = .cas p i h → (s.pools p).len = i →
      Step s t (setPC (setPool s p { s.pools p with len := i + 1 }) t (.at p i h))
  /-- pool2.go:231-238: the loser starts again; a lock taken in line 224 is **not** released. -/
  | casFail (s : CSt) (t : Tid) (p : Nat) (i : Int) (h : Bool) : s.pc t = .cas p i h → (s.pools p).len ≠ i → Step s t (setPC s t (.start p))
  /-- pool2.go:239-246 with map_embedded.go:776-792. -/
  | atOk (s : CSt) (t : Tid) (p : Nat) (i : Int) (h : Bool) : s.pc t = .at p i h → i < (s.pools p).len → i < (s.pools p).cap →
      Step s t { setPC s t (.got p (s.pools p).arr i h) with log := (t, (s.pools p).arr, i) :: s.log }
  | atNil (s : CSt) (t : Tid) (p : Nat) (i : Int) (h : Bool) : s.pc t = .at p i h →
      ((s.pools p).len ≤ i ∨ (s.pools p).cap ≤ i) → Step s t (setPC s t .crashed)
  /-- pool2.go:286-363 `_expand` under the lock, then `nPool.Get()` (pool2.go:263).  A goroutine that expands a pool which
  was already replaced either crashes with "already deleted" or makes one more pool: what list_head does there is not in
  this repository, so both are allowed. -/
  | expandOk (s : CSt) (t : Tid) (p : Nat) : s.pc t = .expand p → (s.pools p).owner = none →
      Step s t (setPC { setPool s s.count { inited := true, arr := s.arrs, len := (s.pools p).len, cap := poolCap (s.pools p).len, owner := none }
        with count := s.count + 1, cur := s.count, arrs := s.arrs + 1 } t (.start s.count))
  | expandCrash (s : CSt) (t : Tid) (p : Nat) : s.pc t = .expand p → (s.pools p).owner = none → p ≠ s.cur → Step s t (setPC s t .crashed)
  /-- map.go:658-667: Set returns, the deferred function unlocks. -/
  | finish (s : CSt) (t : Tid) (p : Nat) (a : Nat) (i : Int) (h : Bool) : s.pc t = .got p a i h →
      Step s t (setPC (if h then setPool s p { s.pools p with owner := none } else s) t .idle)

/-- pool2.go:44-56 `newPool`: one pool object, not initialised. -/
def cinit : CSt :=
  { pools := fun _ => { inited := false, arr := 0, len := 0, cap := 0, owner := none }, count := 1, cur := 0, arrs := 1,
    pc := fun _ => .idle, log := [] }

/-- The pool after one goroutine finished a first `Get` alone. -/
def warm : CSt :=
  { pools := fun _ => { inited := true, arr := 1, len := 1, cap := 64, owner := none }, count := 1, cur := 0, arrs := 2,
    pc := fun _ => .idle, log := [(0, 1, 0)] }

inductive Steps : CSt → CSt → Prop
  | refl (s : CSt) : Steps s s
  | step {a b c : CSt} {t : Tid} : Steps a b → Step b t c → Steps a c

/-! ### Part 2: one goroutine, addresses -/

/-- One of the eight pools: how often it was expanded, length and capacity. -/
structure SeqPool where
  gen : Nat := 0
  len : Int := 0
  cap : Int := 64
  deriving DecidableEq, Repr

/-- pool2.go:199-266 `Get` without concurrency: a slot of the current array, or of a larger copy. -/
def SeqPool.alloc (p : SeqPool) : SeqPool × (Nat × Int) :=
  if p.cap ≤ p.len then
    ({ gen := p.gen + 1, len := p.len + 1, cap := poolCap p.len }, (p.gen + 1, p.len))
  else ({ p with len := p.len + 1 }, (p.gen, p.len))

/-- pool2.go:73: which pool serves a reversed hash. -/
def poolIdx (r : U64) : Nat := (r >>> 60).toNat % 8

/-- A map with its pooler; `addr` tells which pool slot an item has (`none`: allocated outside). -/
structure PSt where
  st : St
  pools : Nat → SeqPool
  addr : Nat → Option (Nat × Int)

/-- A pointer to an item, as a caller of LoadItem holds it: the item, the type it is viewed through, and the generation of
the pool array it points into (`none`: not in a pool). -/
structure Held where
  ref : Ref
  kind : Kind
  gen : Option Nat

def PSt.genOf (s : PSt) : Ref → Option Nat
  | .item n => (s.addr n).map (fun a => (s.pools a.1).gen)
  | .dummy _ => none

/-- `LoadItem` (map.go:552-555) and the address it returns. -/
def PSt.load (E : Env) (s : PSt) (key : Key) : Option Held :=
  (loadRef E s.st key).map (fun x => { ref := x.1, kind := x.2, gen := s.genOf x.1 })

/-- `SetValue` by the user: an item of an array that was replaced is no longer in the list (pool2.go:316-343), the write goes
to the old copy; its result is the one of a store of the same type (true for a non-nil value; a change of dynamic type, which panics, is not modelled here). -/
def PSt.heldSet (s : PSt) (h : Held) (v : IVal) : PSt × Out :=
  if h.gen = s.genOf h.ref then
    let (st', o) := heldSetValue s.st (h.ref, h.kind) v
    ({ s with st := st' }, o)
  else (s, .bool v.isSome)

/-- A map operation; a Set that stores a new item takes a slot first when pooling is on (map.go:648-667, 615-617). -/
def PSt.step (E : Env) (s : PSt) (op : Op) : PSt × Out :=
  let (st', o) := SLM.step E s.st op
  match op, (storedHash op) with
  | .set _ _, some k =>
    if s.st.nextId < st'.nextId ∧ st'.pool = true then
      let pi := poolIdx (rev64 k)
      let (p', slot) := (s.pools pi).alloc
      ({ st := st', pools := fun q => if q = pi then p' else s.pools q,
         addr := fun n => if n = s.st.nextId then some (pi, slot.2) else s.addr n }, o)
    else ({ s with st := st' }, o)
  | _, _ => ({ s with st := st' }, o)
where storedHash : Op → Option U64
  | .set key _ => (keyToHash E.H key).map (·.1)
  | _ => none

def PSt.run (E : Env) (s : PSt) : List Op → PSt × List Out
  | [] => (s, [])
  | op :: ops =>
    let (s1, o) := s.step E op
    let (s2, os) := PSt.run E s1 ops
    (s2, o :: os)

def pinit (cfg : Cfg) : PSt := { st := initSt cfg, pools := fun _ => {}, addr := fun _ => none }

/-- pool2.go:286-363 `_expand`: the new pool's contents and capacity. -/
def expandItems {α : Type} (items : List α) : List α × Int := (items, poolCap items.length)

end SLM.Pool
