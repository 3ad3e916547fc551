import Verif.Model.Embedded
/-
Goroutines on one embedded bucket: Set, Get, Delete and Purge of several goroutines on one slot array
(map_embedded.go, map.go:563-705, 1550-1613), with the per-bucket lock `muPool` (bucket.go:36).

Abstractions (see DESIGN.md):
* One bucket, below its split threshold: `makeBucket2` and the trie are not modelled here (Model/Embedded.lean models
  them for one goroutine).  The linked item list is not modelled.
* A step is one of the atomic blocks below.  Everything done to the array between `Lock` and publication of a new array
  is two blocks (copy, publish); a binary search is one block.  `Choice` lets a search or a classification answer
  anything it could see, which covers every interleaving inside those blocks; `exact` gives the answers of an undisturbed
  search.
* A key is its pair of hashes; the string `K` and the type check of `SetValue` are left out.
* The lock is a boolean: `trylock.Mutex` wraps sync.Mutex; `Unlock` of a free one is a fatal error of the Go runtime.
-/
set_option autoImplicit false
namespace SLM.EConc
open Emb (Slot Pool)

abbrev Tid := Nat

/-- The public calls. -/
inductive Call where
  | set (r c : U64) (v : IVal)
  | get (r c : U64)
  | del (r c : U64)
  | purge (r c : U64)
  deriving DecidableEq, Repr

def Call.rev : Call → U64
  | .set r _ _ | .get r _ | .del r _ | .purge r _ => r
def Call.conf : Call → U64
  | .set _ c _ | .get _ c | .del _ c | .purge _ c => c

inductive Res where
  | bool (b : Bool)
  | val (v : IVal) (ok : Bool)
  deriving DecidableEq, Repr

/-- Activation of `getWithFn(reverse, mu)` (map_embedded.go:446): whether `mu` is non-nil, and the `fn` an enclosing
`getNoCap` activation is going to return instead of the inner one (map_embedded.go:502). -/
structure Fr where
  r : U64
  c : U64
  v : IVal
  mu : Bool
  ov : Option Bool
  deriving DecidableEq, Repr

inductive Verdict where
  | append | expand | free | insert
  deriving DecidableEq, Repr

/-- Where a goroutine is.  `a` is the identity of a backing array and `i` an index into it: a Go pointer to an item. -/
inductive PC where
  | idle
  | look (cl : Call)                                         -- map.go:599 / 566 / 1552: search
  | lockUpd (cl : Call) (a i : Nat)                          -- map.go:606, 570: TryLock with the item in hand
  | upd (cl : Call) (a i : Nat)                              -- map.go:608; 1576-1612
  | getV (cl : Call) (a i : Nat)                             -- map.go:443: e.Value()
  | mark (cl : Call) (a i : Nat)                             -- map.go:1556: item.Delete()
  | gw (f : Fr)                                              -- map_embedded.go:450-465
  | gw2 (f : Fr) (tail : Option Nat) (olen ocap : Nat)       -- map_embedded.go:247-269
  | app (f : Fr) | app2 (f : Fr)                             -- map_embedded.go:301-320
  | ins (f : Fr) | ins2 (f : Fr) | ins3 (f : Fr) (n i : Nat) -- map_embedded.go:322-443
  | exp (f : Fr) | exp2 (f : Fr) | exp3 (f : Fr) (n : Nat)   -- map_embedded.go:547-614
  | free (f : Fr) (tail : Option Nat)                        -- map_embedded.go:504 TryLock
  | freeW (f : Fr) (tail : Option Nat)                       -- map_embedded.go:505 Lock
  | freeW2 (f : Fr) (tail : Option Nat)                      -- map_embedded.go:506 Unlock
  | free2 (f : Fr) (tail : Option Nat)                       -- map_embedded.go:509-533
  | clR (f : Fr) (fn : Bool) (a i : Nat)                     -- map.go:642
  | clC (f : Fr) (fn : Bool) (a i : Nat)                     -- map.go:645
  | wr (f : Fr) (fn : Bool) (a i : Nat)                      -- map.go:688-689
  | ret (fn : Bool) (res : Res)                              -- deferred unlock (map.go:607, 632, 1577) and return
  | done (res : Res)
  deriving DecidableEq, Repr

inductive Ev where
  | acq (t : Tid)
  | rel (t : Tid)
  deriving DecidableEq, Repr

structure St where
  arrs : Nat → List Slot       -- the backing arrays by identity, each up to its capacity
  next : Nat                   -- identities from here on are unused
  cur : Nat                    -- sp.items: which array, and the slice length
  len : Nat
  lock : Bool                  -- bucket.muPool
  fatal : Bool                 -- "sync: unlock of unlocked mutex"
  log : List Ev                -- ghost: the lock operations so far, oldest first
  pc : Tid → PC

def setPC (s : St) (t : Tid) (p : PC) : St := { s with pc := fun u => if u = t then p else s.pc u }
def pool (s : St) : Pool := { arr := s.arrs s.cur, len := s.len }
def slotOf (s : St) (a i : Nat) : Slot := (s.arrs a).getD i {}
def cap (s : St) : Nat := (s.arrs s.cur).length

def setArr (s : St) (a : Nat) (l : List Slot) : St := { s with arrs := fun b => if b = a then l else s.arrs b }
def setSlot (s : St) (a i : Nat) (x : Slot) : St := setArr s a ((s.arrs a).set i x)

def acquire (s : St) (t : Tid) : St := { s with lock := true, log := s.log ++ [.acq t] }
/-- sync.Mutex.Unlock. -/
def release (s : St) (t : Tid) : St :=
  if s.lock then { s with lock := false, log := s.log ++ [.rel t] } else { s with fatal := true, log := s.log ++ [.rel t] }

/-- `mu.Lock()` unless `mu == nil` (map_embedded.go:303, 323, 549): blocks while the lock is taken. -/
def lockIf (s : St) (t : Tid) (mu : Bool) : Option St :=
  if mu then (if s.lock then none else some (acquire s t)) else some s

/-- What a search or classification saw. -/
structure Choice where
  item : Option (Nat × Nat)
  verdict : Verdict

/-- The function value handed to `defer` by Set (map.go:631): the enclosing activation's, or the local one. -/
def Fr.fn (f : Fr) (loc : Bool) : Bool := f.ov.getD loc

/-- Recursive activation with `mu = nil` (map_embedded.go:483-495, 440, 501). -/
def Fr.inner (f : Fr) : Fr := { f with mu := false }

/-- One step of goroutine `t`; `none`: it cannot move (blocked on the lock, finished, or dead of a panic). -/
def step (ch : Choice) (s : St) (t : Tid) : Option St :=
  if s.fatal then none else
  match s.pc t with
  | .idle => none
  -- map.go:598-612 and 566-576: the item found is a pointer into the array seen by the search
  | .look cl =>
    match cl, ch.item with
    | .set _ _ _, some (a, i) => some (setPC s t (.lockUpd cl a i))
    | .purge _ _, some (a, i) => some (setPC s t (.lockUpd cl a i))
    | .get _ _, some (a, i) => some (setPC s t (.getV cl a i))
    | .del _ _, some (a, i) => some (setPC s t (.mark cl a i))
    | .set r c v, none => some (setPC s t (.gw { r := r, c := c, v := v, mu := true, ov := none }))
    | .get _ _, none => some (setPC s t (.done (.val none false)))
    | .del _ _, none => some (setPC s t (.done (.bool false)))
    | .purge _ _, none => some (setPC s t (.done (.bool false)))
  | .lockUpd cl a i =>
    if s.lock then some (setPC s t (.look cl)) else some (setPC (acquire s t) t (.upd cl a i))
  -- map.go:608 `_update`; map.go:1576-1612: mark, then give the slot back if it is the last one
  | .upd cl a i =>
    match cl with
    | .set _ _ v => some (setPC (setSlot s a i { slotOf s a i with val := v }) t (.ret true (.bool true)))
    | _ =>
      let s1 := setSlot s a i { slotOf s a i with deleted := true }
      if a = s.cur ∧ i + 1 = s.len then
        some (setPC { s1 with len := ({ arr := s1.arrs s.cur, len := (s.len : Int) - 1 } : Pool).shrinkLen.len.toNat } t
          (.ret true (.bool true)))
      else some (setPC s1 t (.ret true (.bool true)))
  | .getV _ a i => some (setPC s t (.done (.val (slotOf s a i).val true)))
  | .mark _ a i => some (setPC (setSlot s a i { slotOf s a i with deleted := true }) t (.done (.bool true)))
  | .gw f => some (setPC s t (.gw2 f (Emb.lastActive (s.arrs s.cur) s.len) s.len (cap s)))
  | .gw2 f tail _ _ =>
    match ch.verdict with
    | .append => some (setPC s t (.app f))
    | .expand => some (setPC s t (.exp f))
    | .free => some (setPC s t (.free f tail))
    | .insert => some (setPC s t (.ins f))
  | .app f => (lockIf s t f.mu).map (fun s => setPC s t (.app2 f))
  | .app2 f =>
    if cap s ≤ s.len then some (setPC s t (.gw f.inner))
    else some (setPC { s with len := s.len + 1 } t (.clR f (f.fn f.mu) s.cur s.len))
  | .ins f => (lockIf s t f.mu).map (fun s => setPC s t (.ins2 f))
  | .ins2 f =>
    match (pool s).firstGE f.r with
    | none => some (setPC s t (.gw f.inner))
    | some i => some (setPC { setArr s s.next ((pool s).insertAt i).arr with next := s.next + 1 } t (.ins3 f s.next i))
  | .ins3 f n i => some (setPC { s with cur := n, len := s.len + 1 } t (.clR f (f.fn true) n i))
  | .exp f => (lockIf s t f.mu).map (fun s => setPC s t (.exp2 f))
  | .exp2 f =>
    match (pool s).expand with
    | .error _ => none
    | .ok q => some (setPC { setArr s s.next q.arr with next := s.next + 1 } t (.exp3 f s.next))
  | .exp3 f n => some (setPC { s with cur := n } t (.gw { f with mu := false, ov := some (f.fn f.mu) }))
  | .free f tail =>
    if f.mu then
      if s.lock then some (setPC s t (.freeW f tail)) else some (setPC (acquire s t) t (.free2 f tail))
    else some (setPC s t (.free2 f tail))
  | .freeW f tail => if s.lock then none else some (setPC (acquire s t) t (.freeW2 f tail))
  | .freeW2 f tail => some (setPC (release s t) t (.free2 f tail))
  | .free2 f tail =>
    match (pool s).findFree f.r tail with
    | none => some (setPC s t (.gw f))
    | some i =>
      some (setPC (setSlot s s.cur i { slotOf s s.cur i with rev := 0, conflict := 0, deleted := false }) t
        (.clR f (f.fn f.mu) s.cur i))
  | .clR f fn a i =>
    some (setPC (setSlot s a i { slotOf s a i with rev := if (slotOf s a i).rev = 0 then f.r else (slotOf s a i).rev }) t
      (.clC f fn a i))
  | .clC f fn a i =>
    some (setPC (setSlot s a i { slotOf s a i with
      conflict := if (slotOf s a i).conflict = 0 then f.c else (slotOf s a i).conflict }) t (.wr f fn a i))
  | .wr f fn a i => some (setPC (setSlot s a i { slotOf s a i with val := f.v }) t (.ret fn (.bool true)))
  | .ret fn res => some (setPC (if fn then release s t else s) t (.done res))
  | .done _ => none

/-- map.go:478-504 on the current array, undisturbed. -/
def exactItem (s : St) (r c : U64) : Option (Nat × Nat) := ((pool s).lookup r c).map (fun i => (s.cur, i))

/-- map_embedded.go:247-269 `state4get`, undisturbed; `oob`/nil dereference cases give `none`. -/
def exactVerdict (s : St) (r : U64) (tail : Option Nat) (olen ocap : Nat) : Option Verdict :=
  if olen = 0 then some .append
  else if ((pool s).findFree r tail).isSome then some .free
  else if ocap = olen then some .expand
  else match tail with
  | none => none
  | some j => if ((pool s).slot j).rev < r then some .append else some .insert

/-- The answers goroutine `t` gets if nobody moves during its search or classification. -/
def exact (s : St) (t : Tid) : Option Choice :=
  match s.pc t with
  | .look cl => some { item := exactItem s cl.rev cl.conf, verdict := .append }
  | .gw2 f tail olen ocap => (exactVerdict s f.r tail olen ocap).map (fun w => { item := none, verdict := w })
  | _ => some { item := none, verdict := .append }

/-- A call may start on a goroutine that runs none. -/
def start (s : St) (t : Tid) (cl : Call) : Option St := if s.pc t = .idle ∧ s.fatal = false then some (setPC s t (.look cl)) else none

/-- An array that some goroutine is still filling. -/
def Hidden (s : St) (a : Nat) : Prop := ∃ u f, (∃ i, s.pc u = .ins3 f a i) ∨ s.pc u = .exp3 f a

/-- What a search may answer, whatever happened while it ran: nothing, or an item of a published array that carries both
hashes (map.go:497-504); and a classification answers `foundFree` only after it saw a deleted slot
(map_embedded.go:284). -/
structure Seen (s : St) (t : Tid) (ch : Choice) : Prop where
  item : ∀ cl a i, s.pc t = .look cl → ch.item = some (a, i) →
    a < s.next ∧ ¬ Hidden s a ∧ (slotOf s a i).rev = cl.rev ∧ (slotOf s a i).conflict = cl.conf
  verdict : ∀ f tail olen ocap, s.pc t = .gw2 f tail olen ocap → ch.verdict = .free →
    ∃ a i, (slotOf s a i).deleted = true

/-- Every schedule of every interleaving: searches and classifications may answer anything they could see. -/
inductive Step : St → Tid → St → Prop
  | start {s t cl s'} (h : start s t cl = some s') : Step s t s'
  | move {s t ch s'} (hs : Seen s t ch) (h : step ch s t = some s') : Step s t s'

/-- The schedules in which each search and each classification runs undisturbed; every one of them is a real schedule. -/
inductive XStep : St → Tid → St → Prop
  | start {s t cl s'} (h : start s t cl = some s') : XStep s t s'
  | move {s t ch s'} (hx : exact s t = some ch) (h : step ch s t = some s') : XStep s t s'

/-- map.go:270: an empty array of the given capacity; nobody runs. -/
def init (n : Nat) : St :=
  { arrs := fun a => if a = 0 then List.replicate n {} else [], next := 1, cur := 0, len := 0, lock := false, fatal := false,
    log := [], pc := fun _ => .idle }

inductive Steps : St → St → Prop
  | refl {s} : Steps s s
  | tail {s s1 s2 t} (h : Steps s s1) (st : Step s1 t s2) : Steps s s2

inductive XSteps : St → St → Prop
  | refl {s} : XSteps s s
  | tail {s s1 s2 t} (h : XSteps s s1) (st : XStep s1 t s2) : XSteps s s2

/-! ### A scheduler for witnesses -/

inductive Cmd where
  | start (t : Tid) (cl : Call)
  | move (t : Tid) (n : Nat)     -- up to `n` steps of goroutine `t`

def moveN (s : St) (t : Tid) : Nat → St
  | 0 => s
  | n + 1 => match (exact s t).bind (fun ch => step ch s t) with
    | some s' => moveN s' t n
    | none => s

def exec (s : St) : List Cmd → St
  | [] => s
  | .start t cl :: l => exec ((start s t cl).getD s) l
  | .move t n :: l => exec (moveN s t n) l

end SLM.EConc
