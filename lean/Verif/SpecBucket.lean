import Verif.Model.EConc
/-!
The specification C95 refers to: the keys of one embedded bucket as a plain map, used by one call at a time.  Keys are pairs of (reversed) hash and conflict
hash.  The type check of Set is left out, as in Model/EConc.lean.
-/
set_option autoImplicit false
namespace SLM.EConc

/-- One call: what the map holds afterwards, and the answer. -/
def plain (m : U64 × U64 → Option IVal) : Call → (U64 × U64 → Option IVal) × Res
  | .set r c v => (fun k => if k = (r, c) then some v else m k, .bool true)
  | .get r c => (m, match m (r, c) with | some v => .val v true | none => .val none false)
  | .del r c | .purge r c => (fun k => if k = (r, c) then none else m k, .bool (m (r, c)).isSome)

/-- The answers of calls made one after the other. -/
def plainRun : (U64 × U64 → Option IVal) → List Call → List Res
  | _, [] => []
  | m, cl :: cls => (plain m cl).2 :: plainRun (plain m cl).1 cls

end SLM.EConc
