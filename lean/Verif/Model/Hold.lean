import Verif.Model.Map
/-!
Items in the caller's hands: what `LoadItem` returned, or what was passed to `StoreItem`, kept in variables and used later
(`Value`, `SetValue`, `Delete` of item.go and sample_hmap_entry.go), between calls on the map.  Without pools (with pools
see Model/Pool.lean).
-/
set_option autoImplicit false
namespace SLM

/-- `Delete()` called by the user on an item it holds (item.go:80-83, sample_hmap_entry.go:83-85). -/
def heldDelete (st : St) (it : Ref × Kind) : St := { st with items := markDeleted it.2 it.1 st.items }

/-- A map and the caller's variables: each holds nothing or an item (the node's address and the type it is seen through). -/
structure HSt where
  st : St
  hand : Nat → Option (Ref × Kind)

def setHand (f : Nat → Option (Ref × Kind)) (i : Nat) (x : Option (Ref × Kind)) : Nat → Option (Ref × Kind) :=
  fun j => if j = i then x else f j

inductive HOp where
  | call (op : Op)
  | load (i : Nat) (key : Key)            -- x_i, ok := m.LoadItem(key)
  | store (i : Nat) (it : NewItem)        -- x_i := &item; m.StoreItem(x_i)
  | value (i : Nat)                       -- x_i.Value()
  | setValue (i : Nat) (v : IVal)         -- x_i.SetValue(v)
  | delete (i : Nat)                      -- x_i.Delete()

/-- `LoadItem` (map.go:552-555), `StoreItem` (map.go:708-717), and the methods of the item.  If `StoreItem` finds the key
present it copies the value and the caller's item stays outside the map; the model does not follow such an item (the variable
counts as empty).  On an empty variable nothing is called. -/
def hstep (E : Env) (s : HSt) : HOp → HSt × Out
  | .call op => ({ s with st := (step E s.st op).1 }, (step E s.st op).2)
  | .load i key =>
    match keyToHash E.H key with
    | none => (s, .panic .unsupportedKey)
    | some _ => ({ s with hand := setHand s.hand i (loadRef E s.st key) }, .bool (loadRef E s.st key).isSome)
  | .store i it =>
    let r := opStoreItem E s.st it
    ({ st := r.1, hand := setHand s.hand i (if r.1.nextId = s.st.nextId then none else some (.item s.st.nextId, it.kind)) }, r.2)
  | .value i =>
    match s.hand i with
    | none => (s, .val none false)
    | some it => (s, match heldValue s.st it with | some v => .val v true | none => .val none false)
  | .setValue i v =>
    match s.hand i with
    | none => (s, .bool false)
    | some it => ({ s with st := (heldSetValue s.st it v).1 }, (heldSetValue s.st it v).2)
  | .delete i =>
    match s.hand i with
    | none => (s, .bool false)
    | some it => ({ s with st := heldDelete s.st it }, .bool true)

def hrun (E : Env) (s : HSt) : List HOp → HSt × List Out
  | [] => (s, [])
  | o :: os => ((hrun E (hstep E s o).1 os).1, (hstep E s o).2 :: (hrun E (hstep E s o).1 os).2)

/-- A new map, all variables empty. -/
def hinit (cfg : Cfg) : HSt := { st := initSt cfg, hand := fun _ => none }

end SLM
