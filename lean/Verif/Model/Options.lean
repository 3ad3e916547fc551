import Verif.Model.Util
/-
Model of the option functions of map.go (map.go:91-152).
-/
set_option autoImplicit false
namespace SLM.Opt

/-- The fields of `Map` that options touch (map.go:44-63).  `itemFn = none` is the nil function;
`pool = none` is `pooler == nil`, `some n` the pool with identity `n` (each `newPool()` gives a new one). -/
structure Config where
  maxPer : Int
  mode : Nat
  itemFn : Option Nat
  pool : Option Nat
  embedded : Bool
  nextPool : Nat := 0
  deriving DecidableEq, Repr

/-- An `OptHMap` value (map.go:91): every one the package can build is one of the five constructors applied to an
argument. -/
inductive OptHMap where
  | maxPefBucket (max : Int)
  | bucketMode (mode : Nat)
  | itemFn (fn : Option Nat)
  | usePool (enable : Bool)
  | useEmbeddedPool (enable : Bool)
  deriving DecidableEq, Repr

/-- map.go:121-132, the effect of `UsePool(enable)` on the map. -/
def setPool (enable : Bool) (c : Config) : Config :=
  if !enable then { c with pool := none }
  else match c.pool with
    | none => { c with pool := some c.nextPool, nextPool := c.nextPool + 1 }
    | some _ => c

/-- Calling the option on the map: the new configuration and the returned `OptHMap` (`none` is nil).
map.go:93-100, 102-108, 110-119, 121-132, 134-144. -/
def OptHMap.apply : OptHMap → Config → Config × Option OptHMap
  | .maxPefBucket max, c => ({ c with maxPer := max }, some (.maxPefBucket c.maxPer))
  | .bucketMode mode, c => ({ c with mode := mode }, some (.bucketMode c.mode))
  | .itemFn fn, c =>
    ({ c with itemFn := fn }, match c.itemFn with | none => none | some p => some (.itemFn (some p)))
  | .usePool enable, c => (setPool enable c, some (.usePool (!enable)))
  | .useEmbeddedPool enable, c =>
    let c1 := { c with embedded := enable }
    (if enable then setPool false c1 else c1, some (.usePool c.embedded))

/-- map.go:146-153 `Options(opts...)`: apply in order, collect the returned options. -/
def options : List OptHMap → Config → Config × List (Option OptHMap)
  | [], c => (c, [])
  | o :: os, c =>
    let (c1, p) := o.apply c
    let (c2, ps) := options os c1
    (c2, p :: ps)

end SLM.Opt
