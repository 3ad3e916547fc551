import Verif.Model.Map
/-!
What a lookup looks at.  With `EnableStats` set, `_searchBybucket` counts every node it looks at in `DebugStats` (`CntReverseSearch` on the way towards
larger reversed hashes, `CntSearchEntry` on the way back), so the length of these lists can be read off by a caller: it is what the lookup adds to the
two counters together.  The counters of other calls (`add2` through item.go:113, `CntOfGet`) are not modelled.
-/
set_option autoImplicit false
namespace SLM

/-- map.go:1494-1521 with the counter of map.go:1505-1509: the nodes of the forward walk, in the order in which they are counted. -/
def fwdLooked (t : U64) (ign : Bool) : List Entry → List Entry
  | [] => []
  | e :: es => e :: (if (ign && e.ignored) || decide (e.rev < t) then fwdLooked t ign es else [])

/-- map.go:1524-1544 with the counter of map.go:1526-1530: the nodes of the backward walk. -/
def bwdLooked (t : U64) (ign : Bool) : List Entry → List Entry
  | [] => []
  | e :: es => e :: (if (ign && e.ignored) || decide (e.rev > t) then bwdLooked t ign es else [])

/-- map.go:1467-1547 `_searchBybucket`: the nodes counted when it starts at the bucket `b`. -/
def lookedAt (st : St) (b : Path) (t : U64) (ign : Bool) : List Entry :=
  let n := if st.mode = modeCombine2 ∧ (st.mem b).rev > t then st.nextOnLevel b else b
  if (st.mem n).rev < t then fwdLooked t ign (fromRef (st.head n) st.items)
  else bwdLooked t ign (backFrom (st.head n) st.items)

/-- map.go:437-465 `get`/`_get` (also LoadItem, Delete): the nodes counted by the lookup of the primary hash `k`. -/
def getLooked (st : St) (k : U64) : List Entry := lookedAt st (bucketForKey st (rev64 k)) (rev64 k) true

/-- map.go:467-506 `getWithBucket` (Set, StoreItem): the nodes counted by the lookup of the primary hash `k`. -/
def setLooked (st : St) (k : U64) : List Entry := lookedAt st (findBucket st.mem (rev64 k)) (rev64 k) true

end SLM
