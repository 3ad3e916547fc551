import Verif.Model.Embedded
/-!
What a lookup of an embedded map reads: the instrumented form of the binary search of a bucket's slot array.
-/
set_option autoImplicit false
namespace SLM.Emb

/-- Go's `sort.Search(n, f)` (called at map_embedded.go:33): the indexes at which it calls `f`, in order. -/
def probes (f : Nat → Bool) : Nat → Nat → Nat → List Nat
  | 0, _, _ => []
  | fuel + 1, i, j =>
    if i < j then
      let h := (i + j) / 2
      h :: (if f h then probes f fuel i h else probes f fuel (h + 1) j)
    else []

/-- map_embedded.go:782-806 `_at(i, true, true)`: the slots whose deletion mark it reads. -/
def backRead (arr : List Slot) : Nat → List Nat
  | 0 => [0]
  | i + 1 => (i + 1) :: (if (arr.getD (i + 1) {}).deleted then backRead arr i else [])

/-- map_embedded.go:21-52 `bsearchBybucket`: the slots read, in order; a slot read twice is listed twice.  (The slot that `_at` answers is one of
those whose mark it has read, map_embedded.go:38 reads its hash.) -/
def Pool.reads (p : Pool) (r : U64) : List Nat :=
  let l := p.len.toNat
  let f := fun i => decide (r ≤ (p.slot (skipBack p.arr i)).rev)
  let idx := goSearch f l 0 l
  (probes f l 0 l).flatMap (backRead p.arr) ++
    (if (idx : Int) < p.len then idx :: (if (p.slot idx).rev = r then backRead p.arr idx else []) else [])

/-- map.go:478-481, 1389-1390: the slots read by a lookup of the primary hash `k` (Get, GetByHash, LoadItem, LoadItemByHash, Set, Delete, SearchKey).
`none`: the lookup does not come back (`find`). -/
def lookReads (st : St) (k : U64) : Option (List Nat) :=
  (st.pools (basePath st.mem (findBucket st.mem (rev64 k)))).map (fun p => p.reads (rev64 k))

end SLM.Emb
