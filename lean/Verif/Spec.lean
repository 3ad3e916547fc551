import Verif.Model.Map
/-!
The specification C01 refers to: a plain map.  Keys are identified by their hash pair (see C18 for which keys share one);
a map state is a partial function from hash pairs to values.  No lists, buckets or positions.
-/
set_option autoImplicit false
namespace SLM.Spec

/-- What a caller sees of a result, without the parts C01 does not speak about (`Len`, `Range`, `Key()` of an item). -/
inductive Ans where
  | bool (b : Bool)
  | val (v : IVal) (ok : Bool)
  | item (v : Option IVal)
  | panic (p : Panic)
  | other
  deriving DecidableEq

def ans : Out → Ans
  | .bool b => .bool b
  | .val v ok => .val v ok
  | .item r => .item (r.map (·.2))
  | .panic p => .panic p
  | .num _ => .other
  | .seq _ => .other

/-- A plain map, and the item type in force (it decides how a present key's value is overwritten). -/
structure PMap where
  m : U64 × U64 → Option IVal
  fn : Kind

def PMap.put (s : PMap) (kc : U64 × U64) (v : IVal) : PMap := { s with m := fun x => if x = kc then some v else s.m x }
def PMap.del (s : PMap) (kc : U64 × U64) : PMap := { s with m := fun x => if x = kc then none else s.m x }

/-- Overwriting the value `old` of a present key.  Generic items take anything; items of the default string type
refuse nil (answer false, nothing changes) and panic on a change of dynamic type. -/
def PMap.overwrite (s : PMap) (kc : U64 × U64) (old new : IVal) : PMap × Ans :=
  match s.fn, old, new with
  | .entry, _, v => (s.put kc v, .bool true)
  | .sample, _, none => (s, .bool false)
  | .sample, none, some v => (s.put kc (some v), .bool true)
  | .sample, some o, some v => if o.ty = v.ty then (s.put kc (some v), .bool true) else (s, .panic .valueType)

def PMap.step (H : HashFns) (s : PMap) : Op → PMap × Ans
  | .set key v =>
    match keyToHash H key with
    | none => (s, .panic .unsupportedKey)
    | some kc =>
      match s.m kc with
      | some old => s.overwrite kc old v
      | none =>
        match key with
        | .str _ => ({ s.put kc v with fn := .sample }, .bool true)
        | _ => (s, .panic .keyNotString)
  | .storeItem it =>
    match keyToHash H it.key with
    | none => (s, .panic .unsupportedKey)
    | some kc =>
      match s.m kc with
      | some old => s.overwrite kc old it.val
      | none => (s.put kc it.val, .bool true)
  | .get key =>
    match keyToHash H key with
    | none => (s, .panic .unsupportedKey)
    | some kc => (s, match s.m kc with | some v => .val v true | none => .val none false)
  | .getByHash k c => (s, match s.m (k, c) with | some v => .val v true | none => .val none false)
  | .loadItem key =>
    match keyToHash H key with
    | none => (s, .panic .unsupportedKey)
    | some kc => (s, .item (s.m kc))
  | .loadItemByHash k c => (s, .item (s.m (k, c)))
  | .delete key =>
    match keyToHash H key with
    | none => (s, .panic .unsupportedKey)
    | some kc => match s.m kc with | some _ => (s.del kc, .bool true) | none => (s, .bool false)
  | .len => (s, .other)
  | .range => (s, .other)

def PMap.run (H : HashFns) (s : PMap) : List Op → PMap × List Ans
  | [] => (s, [])
  | op :: ops =>
    let (s1, a) := s.step H op
    let (s2, as) := s1.run H ops
    (s2, a :: as)

/-- The empty map with the item type the constructor was given. -/
def PMap.empty (fn : Kind) : PMap := { m := fun _ => none, fn := fn }

end SLM.Spec
