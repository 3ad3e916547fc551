import Verif.Model.EmbList
/-
`Range` of a map with `UseEmbeddedPool(true)` whose callback calls the same map.
-/
set_option autoImplicit false
namespace SLM.EList

/-- A Range that is over: the map, the pairs the callback was called with, the calls it made, and whether the loop came to the
end of the list (`false`: the callback answered false). -/
structure Walk where
  st : Emb.St
  seen : List (List (BitVec 8) × IVal)
  trace : List Emb.Op
  atEnd : Bool

/-- map.go:1617-1641 `RangeItem`, `Range` with a callback `f` that sees what it was called with so far, makes calls on the same map
and answers whether to go on.  The list walked through is the one before the first call: this describes Range only for callbacks
whose calls leave the list as it is (reads, `Delete`, which only marks, and `Set` of a key that is there; the theorems show that
they do).  Dummies and deleted items are skipped when they are come to (1624). -/
def rangeWith (H : HashFns) (f : List (List (BitVec 8) × IVal) → List (BitVec 8) × IVal → List Emb.Op × Bool) :
    List Node → Emb.St → List (List (BitVec 8) × IVal) → Walk
  | [], st, seen => ⟨st, seen, [], true⟩
  | x :: xs, st, seen =>
    match slotOf st x with
    | none => rangeWith H f xs st seen
    | some y =>
      if y.deleted then rangeWith H f xs st seen
      else
        let st' := (Emb.run H st (f seen (pairOf y)).1).1
        if (f seen (pairOf y)).2 then
          let R := rangeWith H f xs st' (seen ++ [pairOf y])
          { R with trace := (f seen (pairOf y)).1 ++ R.trace }
        else ⟨st', seen ++ [pairOf y], (f seen (pairOf y)).1, false⟩

end SLM.EList
