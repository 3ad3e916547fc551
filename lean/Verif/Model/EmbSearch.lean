import Verif.Model.Embedded
/-
`SearchKey` of a map with `UseEmbeddedPool(true)`.
-/
set_option autoImplicit false
namespace SLM.Emb

/-- map.go:1374-1392 `SearchKey`, map_embedded.go:21-59 `searchKeyFromEmbeddedPool`, `bsearchBybucket`: the item handed out, or
nil.  Unlike `Get` and `LoadItem` (map.go:460, 497-504) nobody compares the hashes of the slot found with those asked for.
`none` of the outer `Option`: `itemPool()` of a bucket without pool calls itself until the stack is exhausted (as in `find`).
The search options (`ignoreBucketEntry`) have no effect here. -/
def opSearchKey (st : St) (k : U64) : Option (Option Slot) :=
  match st.pools (basePath st.mem (findBucket st.mem (rev64 k))) with
  | none => none
  | some p => some ((p.bsearch (rev64 k)).map p.slot)

end SLM.Emb
