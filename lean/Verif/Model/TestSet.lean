import Verif.Model.Map
/-!
The exported method TestSet: a store whose bucket the caller chooses (maps without embedded pool).
-/
set_option autoImplicit false
namespace SLM

/-- The item TestSet links: map.go:332-337, a field `reverse` or `conflict` that is not 0 is kept. -/
def testItem (st : St) (k c : U64) (it : NewItem) : Entry :=
  { ref := .item st.nextId, kind := it.kind, key := it.key, val := it.val,
    rev := if it.rev0 = 0 then rev64 k else it.rev0, conflict := if it.conflict0 = 0 then c else it.conflict0,
    dummy := false, deleted := false }

/-- map.go:325-327 `TestSet(k, conflict, btable, item)`: `_set` (map.go:329-435) with `btable.toBase()` (map_embedded.go:222-228), for an item that is in
no list.  Nothing is looked up before. -/
def opTestSetAt (st : St) (k c : U64) (b : Path) (it : NewItem) : St × Out :=
  finish st (setNew { st with nextId := st.nextId + 1 } k (basePath st.mem b) (testItem st k c it))

/-- `TestSet(k, conflict, FindBucket(q), item)` (map.go:1664-1666 for `FindBucket`). -/
def opTestSet (st : St) (k c q : U64) (it : NewItem) : St × Out := opTestSetAt st k c (findBucket st.mem q) it

end SLM
