import Verif.Model.Map
/-!
What the dump functions print about a map without embedded pools.  Addresses are left out, and the text is taken as a list of lines with the values printed.
-/
set_option autoImplicit false
namespace SLM

/-- A line of `DumpEntry`: `key`, `k`, `reverse` and `conflict` of map.go:1115-1116.  The key is `none` where memory of an item of one type is read as
another type. -/
structure EntryLine where
  key : Option Key
  k : U64
  reverse : U64
  conflict : U64
  deriving DecidableEq, Repr

/-- map.go:1108-1116, maphead.go:102-108 `fromMapHead`: a sentinel is read as entryHMap, anything else as SampleItem, whatever it is. -/
def entryLine (e : Entry) : EntryLine :=
  { key := if e.dummy then some e.key else viewKey .sample e, k := rev64 e.rev, reverse := e.rev, conflict := e.conflict }

/-- map.go:1104-1125 `DumpEntry`: from the first node of the list to the last; nothing is left out. -/
def St.dumpEntry (st : St) : List EntryLine := st.items.map entryLine

/-- A line of `DumpBucket`: `reverse`, `len`, `level` and `down` of map.go:1065-1066. -/
structure BucketLine where
  reverse : U64
  len : Int
  level : Nat
  down : Nat
  deriving DecidableEq, Repr

/-- map.go:1060-1074 `DumpBucket`: along the list of buckets; bucket.go:114-121 `len` without pool. -/
def St.dumpBucket (st : St) : List BucketLine :=
  st.blist.map (fun b => { reverse := (st.mem b).rev, len := (st.mem b).len, level := (st.mem b).level, down := (st.mem b).downLen })

/-- map.go:1036-1042 `BackBucket`: the last bucket of the list. -/
def St.backBucket (st : St) : Option Path := st.blist.getLast?

/-- map.go:1088-1094: the lines `DumpBucketPerLevel` (map.go:1076-1102) prints for level `l`, along the list of the level.  Which levels it prints depends on what the
absent list package says about the node that heads such a list (map.go:1083, 1268-1284); what it prints for a level does not. -/
def St.levelLines (st : St) (l : Nat) : List BucketLine :=
  (st.lv l).map (fun b => { reverse := (st.mem b).rev, len := (st.mem b).len, level := (st.mem b).level, down := (st.mem b).downLen })

end SLM
