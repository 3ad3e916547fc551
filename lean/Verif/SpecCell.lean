import Verif.Model.Conc
/-!
The specification C92 and C93 refer to: one key of a plain map, used by one call at a time.  A cell holds a value, or nothing.
Items have the default string type (the concurrent machine's items): overwriting with nil is refused (false, nothing changes), a change of the dynamic type
panics.
-/
set_option autoImplicit false
namespace SLM.Conc

/-- One call on the cell: what the cell holds afterwards, and the answer. -/
def cell : Option IVal → Call → Option IVal × Res
  | some v, .get _ _ => (some v, .val v true)
  | none, .get _ _ => (none, .val none false)
  | none, .set _ _ _ v => (some v, .bool true)
  | some o, .set _ _ _ none => (some o, .bool false)
  | some none, .set _ _ _ (some v) => (some (some v), .bool true)
  | some (some o), .set _ _ _ (some v) => if o.ty = v.ty then (some (some v), .bool true) else (some (some o), .panic)
  | some _, .del _ _ => (none, .bool true)
  | none, .del _ _ => (none, .bool false)
  | s, _ => (s, .panic)

/-- The answers of calls made one after the other. -/
def cellRun : Option IVal → List Call → List Res
  | _, [] => []
  | s, cl :: cls => (cell s cl).2 :: cellRun (cell s cl).1 cls

/-- One call on a plain map; keys are pairs of (reversed) hash and conflict hash. -/
def cells (m : U64 × U64 → Option IVal) (cl : Call) : (U64 × U64 → Option IVal) × Res :=
  match cl.target with
  | some k => (fun k' => if k' = k then (cell (m k) cl).1 else m k', (cell (m k) cl).2)
  | none => (m, .panic)

/-- The answers of calls made one after the other. -/
def cellsRun : (U64 × U64 → Option IVal) → List Call → List Res
  | _, [] => []
  | m, cl :: cls => (cells m cl).2 :: cellsRun (cells m cl).1 cls

end SLM.Conc
