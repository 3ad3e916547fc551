import Verif.Model.Pool
/-!
The item pool with `UseGoroutineInPool` set (an exported variable of the package, pool2.go:27): one manager goroutine for each of the eight pools; Sets send it
requests over a channel.  Every interleaving of any number of Sets and the eight managers.

What a manager does inside `samepleItemPool.Get` are the steps of Model/Pool.lean, taken by goroutine 0 of its pool (nobody else touches the pool).  Requests to put
items back (`CmdPut`) and to stop (`CmdClose`) are never sent by the package and are left out.
-/
set_option autoImplicit false
namespace SLM.PoolMgr

abbrev Tid := Nat

/-- A goroutine that calls Set for new keys, seen from the pool. -/
inductive Client where
  | idle
  | waiting (i : Fin 8)                            -- pool2.go:82-86: in the send, or in wg.Wait (map.go:677)
  | got (i : Fin 8) (arr : Nat) (slot : Int)       -- map.go:663-671: onSuccess has been called; Set goes on with the item
  deriving DecidableEq, Repr

/-- `pool i`: the pool of manager `i`; `serving i`: the goroutine whose request it works on; `log`: the slots handed out, newest first.  `started`: whether
`startMgr` (pool2.go:58-69) found `UseGoroutineInPool` set when the option `UsePool(true)` was applied. -/
structure St where
  pool : Fin 8 → Pool.CSt
  serving : Fin 8 → Option Tid
  pc : Tid → Client
  log : List (Tid × Fin 8 × Nat × Int)
  started : Bool

def setClient (s : St) (g : Tid) (c : Client) : St := { s with pc := fun u => if u = g then c else s.pc u }
def setMgr (s : St) (i : Fin 8) (p : Pool.CSt) (o : Option Tid) : St :=
  { s with pool := fun j => if j = i then p else s.pool j, serving := fun j => if j = i then o else s.serving j }

/-- pool2.go:73: which manager a reversed hash belongs to (Go's `>>` and `%` bind equally, from the left). -/
def idx (r : U64) : Fin 8 := ⟨(r >>> 60).toNat % 8, Nat.mod_lt _ (by decide)⟩

/-- One step of a Set or of a manager. -/
inductive Step : St → St → Prop
  /-- map.go:648-660, pool2.go:71-86: a Set of a new key asks for an item. -/
  | ask (s : St) (g : Tid) (r : U64) : s.pc g = .idle → Step s (setClient s g (.waiting (idx r)))
  /-- pool2.go:390-393: a manager that is in its loop receives a request and calls `Get` of the pool linked behind its head. -/
  | recv (s : St) (i : Fin 8) (g : Tid) : s.started = true → s.serving i = none → s.pc g = .waiting i →
      Step s (setMgr s i (Pool.setPC (s.pool i) 0 (.start (s.pool i).cur)) (some g))
  /-- pool2.go:394 `p.Get()`, one atomic operation. -/
  | work (s : St) (i : Fin 8) (g : Tid) (p : Pool.CSt) : s.serving i = some g → (s.pool i).pc 0 ≠ .idle →
      (∀ q a k h, (s.pool i).pc 0 ≠ .got q a k h) → Pool.Step (s.pool i) 0 p → Step s (setMgr s i p (some g))
  /-- pool2.go:395-406: the manager unlocks the pool at once and calls onSuccess (map.go:663-671). -/
  | reply (s : St) (i : Fin 8) (g : Tid) (q a : Nat) (k : Int) (h : Bool) (p : Pool.CSt) : s.serving i = some g → (s.pool i).pc 0 = .got q a k h →
      Pool.Step (s.pool i) 0 p → Step s { setClient (setMgr s i p none) g (.got i a k) with log := (g, i, a, k) :: s.log }
  /-- map.go:690-704: Set writes and links its item and returns. -/
  | done (s : St) (g : Tid) (i : Fin 8) (a : Nat) (k : Int) : s.pc g = .got i a k → Step s (setClient s g .idle)

inductive Steps : St → St → Prop
  | refl (s : St) : Steps s s
  | step {a b c : St} : Steps a b → Step b c → Steps a c

/-- pool2.go:44-56 `newPool`, then `startMgr`. -/
def init (started : Bool) : St :=
  { pool := fun _ => Pool.cinit, serving := fun _ => none, pc := fun _ => .idle, log := [], started := started }

end SLM.PoolMgr
