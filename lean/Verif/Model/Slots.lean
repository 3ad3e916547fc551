/-!
One group of buckets (the sixteen possible children of one bucket) under concurrent splits and lookups: map.go:1765-1950
(`bucketFromPool`), map.go:806-862 (`makeBucket` around it), map.go:1674-1745 (`_findBucket`).

One step of a goroutine is one atomic access (or a block of stores nobody else can see yet).
Simplifications: the parent bucket is fixed and exists; the split asks for a child of this parent (its last level); of a bucket only
the fields below are kept; assigning the slice header `b.downLevels = …` is one step; linking the sentinel (map.go:860, `addBucket`) is one
step, its effect on the item list is in Model/Conc.lean.
-/
set_option autoImplicit false
namespace SLM.Slots

abbrev Tid := Nat

/-- bucket.go `bucketStateNone`, `bucketStateInit`, `bucketStateActive`. -/
inductive BState where
  | none | init | active
  deriving DecidableEq, Repr

/-- A child bucket: `state`, `level() != 0`, sentinel linked (`!headNoWaitEmpty().Empty()`), the function stored in `onOkFn` (`true`:
the one of map.go:1847-1868, which makes the group longer; `false`: the one of map.go:1907-1911), and how often a goroutine has passed the test of
map.go:823 and begun to set the bucket up. -/
structure Slot where
  st : BState := .none
  level : Bool := false
  linked : Bool := false
  okfn : Option Bool := .none
  setups : Nat := 0
  deriving DecidableEq, Repr

/-- The parent's fields: `cntOfActiveLevels`, `len(downLevels)` (0: not allocated), the children. -/
structure Core where
  cnt : Nat
  len : Nat
  slot : Nat → Slot

/-- Program points; `i` is the index of the child wanted or obtained. -/
inductive PC where
  | idle
  | init (i : Nat)                        -- RETRY_INITIALIZE, map.go:1788-1789
  | init2 (i : Nat)                       -- map.go:1820: about to read len(b.downLevels)
  | mk (i : Nat)                          -- map.go:1790-1819: about to store downLevels
  | setup (i : Nat)                       -- RETRY_SETUP, map.go:1829-1830: about to read cntOfActiveLevels
  | cas (i : Nat)                         -- map.go:1830: about to read len(b.downLevels)
  | cas2 (i n : Nat)                      -- map.go:1830: about to compare and swap n → i + 1
  | own (i : Nat)                         -- map.go:1831-1877: about to read cntOfActiveLevels again and fill the child in
  | chk (i : Nat)                         -- map.go:1879: about to read len(b.downLevels)
  | state (i : Nat)                       -- map.go:1894: about to compare and swap the state
  | gap (i : Nat)                         -- map.go:1898-1899
  | gap2 (i : Nat)                        -- map.go:1912
  | got (i : Nat) (k : Option Bool)       -- map.go:823: about to test whether the sentinel is linked; `k` is onOk
  | prep (i : Nat) (k : Option Bool)      -- map.go:848: about to initialise the bucket
  | link (i : Nat) (k : Option Bool)      -- map.go:859-860
  | fin (i : Nat) (k : Option Bool)       -- map.go:1849-1855: onOk, about to test the length
  | finR (i : Nat)                        -- map.go:1857: about to read the length
  | fin2 (i n : Nat)                      -- map.go:1858: about to compare and swap the length
  | fin3 (i : Nat)                        -- map.go:1865, 1908
  | ret
  | look (i : Nat)                        -- map.go:1708: a lookup
  | look2 (i : Nat)                       -- map.go:1719: about to read the length
  | lookL (i : Nat)                       -- map.go:1720: about to read the level
  | scan0 (i : Nat)                       -- map.go:1723
  | scan (i j : Nat)                      -- map.go:1726
  | ans (r : Option Nat)                  -- the child found, or the parent itself
  deriving DecidableEq, Repr

/-- A store into one child (`b.downLevels[i].… = …`, map.go:1842-1845, 1898-1912). -/
def upd (f : Nat → Slot) (i : Nat) (x : Slot) : Nat → Slot := fun j => if j = i then x else f j

/-- The next step of a goroutine: map.go:1788-1950 (`bucketFromPool`), map.go:809-860 (`makeBucket`), map.go:1708-1740 (`_findBucket`), as cited at the program
points. -/
def act (c : Core) : PC → Option (Core × PC)
  | .init i => if c.cnt = 0 then some ({ c with cnt := 1 }, .mk i) else some (c, .init2 i)
  -- map.go:1820-1828: wait for the goroutine that is at `mk`
  | .init2 i => some (c, if c.len = 0 then .init i else .setup i)
  -- child 0 stands for the parent: its sentinel is the parent's (bucket.go:395-397)
  | .mk i => some ({ c with len := 1, slot := upd c.slot 0 { st := .init, level := true, linked := true } }, .setup i)
  | .setup i => some (c, if c.cnt ≤ i then .cas i else .chk i)
  | .cas i => some (c, .cas2 i c.len)
  | .cas2 i n => if c.cnt = n then some ({ c with cnt := i + 1 }, .own i) else some (c, .chk i)
  | .own _ => some ({ c with slot := upd c.slot (c.cnt - 1) { c.slot (c.cnt - 1) with st := .init, level := true, okfn := some true } },
      .got (c.cnt - 1) (some true))
  -- map.go:1879-1892: wait for the goroutine that makes the group longer
  | .chk i => some (c, if c.len ≤ i then .setup i else .state i)
  -- map.go:1919-1945: a child that is not new is handed out as well
  | .state i => if (c.slot i).st = .none then some ({ c with slot := upd c.slot i { c.slot i with st := .init } }, .gap i)
      else some (c, .got i (c.slot i).okfn)
  | .gap i => some ({ c with slot := upd c.slot i { c.slot i with level := true } }, .gap2 i)
  | .gap2 i => some ({ c with slot := upd c.slot i { c.slot i with okfn := some false } }, .got i (some false))
  | .got i k => some (c, if (c.slot i).linked then .fin i k else .prep i k)
  | .prep i k => some ({ c with slot := upd c.slot i { c.slot i with setups := (c.slot i).setups + 1 } }, .link i k)
  | .link i k => some ({ c with slot := upd c.slot i { c.slot i with linked := true } }, .fin i k)
  | .fin i k => some (c, if k = some true then (if i < c.len then .fin3 i else .finR i) else if k = some false then .fin3 i else .ret)
  | .finR i => some (c, .fin2 i c.len)
  | .fin2 i n => some (if c.len = n then { c with len := i + 1 } else c, .fin i (some true))
  | .fin3 i => some (if (c.slot i).st = .init then { c with slot := upd c.slot i { c.slot i with st := .active } } else c, .ret)
  | .look i => some (c, if c.len = 0 then .ans .none else .look2 i)
  | .look2 i => some (c, if c.len ≤ i then .scan0 i else .lookL i)
  | .lookL i => some (c, if (c.slot i).level then .ans (some i) else .scan0 i)
  | .scan0 i => some (c, .scan i (min i (c.len - 1)))
  | .scan i j => some (c, if (c.slot j).level then .ans (some j) else match j with | 0 => .ans .none | j + 1 => .scan i j)
  | .idle => .none
  | .ret => .none
  | .ans _ => .none

/-- The group (map.go:1765-1950) and the goroutines working on it. -/
structure St where
  core : Core
  pc : Tid → PC

/-- The program counter of one goroutine moves on (Go's scheduler; no line of the code). -/
def setPC (pc : Tid → PC) (g : Tid) (p : PC) : Tid → PC := fun u => if u = g then p else pc u

/-- One step of goroutine `g`: it enters `makeBucket` (map.go:771), `_findBucket` (map.go:1674), or goes on. -/
inductive Step : St → Tid → St → Prop
  | split (s : St) (g : Tid) (i : Nat) : s.pc g = .idle → 0 < i → i < 16 → Step s g ⟨s.core, setPC s.pc g (.init i)⟩
  | look (s : St) (g : Tid) (i : Nat) : s.pc g = .idle → i < 16 → Step s g ⟨s.core, setPC s.pc g (.look i)⟩
  | run (s : St) (g : Tid) (c : Core) (p : PC) : act s.core (s.pc g) = some (c, p) → Step s g ⟨c, setPC s.pc g p⟩

/-- Any interleaving (Go's scheduler; no line of the code). -/
inductive Steps : St → St → Prop
  | refl (s : St) : Steps s s
  | step {a b c : St} {g : Tid} : Steps a b → Step b g c → Steps a c

/-- A bucket without children (the zero value of map.go:1770's `buckets`), nobody at work. -/
def fresh : St := ⟨{ cnt := 0, len := 0, slot := fun _ => {} }, fun _ => .idle⟩

end SLM.Slots
