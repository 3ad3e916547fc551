import Verif.Model.Map
/-!
Options changed on a map in use: `h.Options(BucketMode(..))` and the like between calls (map.go:91-132, 146-153).  The
option functions write one field of the map each; nothing else of the map changes.  `UseEmbeddedPool` is not covered here:
it would switch between two representations of the contents.  `ItemFn(nil)` is not covered.  The functions' results (the
previous settings) are the subject of Model/Options.lean.
-/
set_option autoImplicit false
namespace SLM

/-- map.go:93-132: the four options, as calls on a map in use. -/
inductive Knob where
  | maxPer (n : Int)        -- MaxPefBucket(n)
  | mode (m : Mode)         -- BucketMode(m)
  | pool (b : Bool)         -- UsePool(b)
  | itemFn (f : Kind)       -- ItemFn(func() MapItem { return <an empty item of that type> })
  deriving DecidableEq

/-- map.go:93-100, 102-108, 121-132, 110-119.  `UsePool(true)` on a map with a pool keeps it, otherwise takes a new one;
`UsePool(false)` drops it (items in it stay where they are). -/
def Knob.turn : Knob → St → St
  | .maxPer n, st => { st with maxPer := n }
  | .mode m, st => { st with mode := m }
  | .pool b, st => { st with pool := b }
  | .itemFn f, st => { st with itemFn := f }

/-- A call on the map, or a change of options. -/
inductive LOp where
  | call (op : Op)
  | opt (o : Knob)

/-- Running such a history (map.go:146-153 for the options); the outputs of the calls. -/
def lrun (E : Env) (st : St) : List LOp → St × List Out
  | [] => (st, [])
  | .opt o :: h => lrun E (o.turn st) h
  | .call op :: h => ((lrun E (step E st op).1 h).1, (step E st op).2 :: (lrun E (step E st op).1 h).2)

end SLM
