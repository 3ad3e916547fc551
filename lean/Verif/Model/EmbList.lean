import Verif.Model.Embedded
/-
The item list of a `Map` with `UseEmbeddedPool(true)`: what `Range`, `RangeItem`, `First` and `Last` read, and how `Set`,
`Delete` and `Purge` change it (map.go:329-435, 928-1034, 1150-1209; map_embedded.go:322-443, 547-614, 647-680, 712-728).

The slots are those of Model/Embedded.lean; this file adds the order in which they are linked.

Abstractions (see DESIGN.md):
* A node is the dummy entry of a bucket or a slot of a bucket's array, named by bucket and index.  When `_split` gives the
  upper part of an array to another bucket the nodes stay where they are and only their names change (`renameSplit`).
* elist_head is not part of the repository.  `InsertBefore`, `MarkForDelete` and `ReplaceNext` are taken to insert a node,
  to take a node out, and to replace everything between two nodes of a list by a chain; links are relative, so a copied array
  (`expand`) is linked as the old one was if all the neighbours of its nodes lie in the array too.
* `none` stands for a list that is not described any further: a walk that starts at a dummy entry which is in the list no
  more, links copied to a place where they point to something else, an item that is linked but lies in no array (StoreItem).
-/
set_option autoImplicit false
namespace SLM.EList
open Emb (Pool Slot)

inductive Node where
  | dummy (p : Path)              -- bucket.dummy
  | item (b : Path) (i : Nat)     -- slot i of the array of bucket b
  deriving DecidableEq, Repr

/-- MapHead.reverse of a node (map.go:1154, 643). -/
def revOf (st : Emb.St) : Node → U64
  | .dummy p => (st.mem p).rev
  | .item b i => match st.pools b with
    | some P => (P.slot i).rev
    | none => 0

/-! ### List positions -/

def fromN (r : Node) (l : List Node) : List Node := l.dropWhile (fun x => decide (x ≠ r))
def beforeN (r : Node) (l : List Node) : List Node := l.takeWhile (fun x => decide (x ≠ r))

/-- util.go:108-125 `inserBeforeWithCheck` for an unlinked node `c`.  An error is only logged: nothing is inserted. -/
def insertCheck (rev : Node → U64) (right c : Node) (l : List Node) : List Node :=
  if rev right < rev c then l
  else match (beforeN right l).getLast? with
    | some left => if rev c < rev left then l else beforeN right l ++ c :: fromN right l
    | none => beforeN right l ++ c :: fromN right l

/-- map.go:928-1034 `add2` (the list part).  `opt` is `WithBucket(b)`: the dummies of `b` and of `b.prevAsB()`. -/
def add2 (rev : Node → U64) (start c : Node) (opt : Option (Node × Node)) (l : List Node) : List Node :=
  match (fromN start l).find? (fun x => decide (rev c < rev x)) with
  | some pos => insertCheck rev pos c l
  | none =>
    match opt with
    | some (hd, phd) =>
      match fromN hd l with
      | [] => l
      | d :: rest =>
        let nextE := (rest.head?).getD d                      -- nextAsE, map.go:1303-1312
        insertCheck rev (if rev nextE ≤ rev d then phd else nextE) c l
    | none =>
      match l.getLast? with                                   -- h.tail.Prev()
      | some last => insertCheck rev last c l
      | none => l

/-- map.go:389-425 in `_set`: where the walk starts, and the insertion of `c` with reversed hash `rk` into bucket `b`. -/
def setInsert (st : Emb.St) (b : Path) (rk : U64) (c : Node) (l : List Node) : Option (List Node) :=
  let hd := Node.dummy (basePath st.mem b)
  let phd := Node.dummy (basePath st.mem (Emb.prevAsB st.blist b))
  if hd ∉ l ∨ phd ∉ l ∨ c ∈ l then none
  else
    let rev := revOf st
    let tStart :=
      match (fromN hd l).find? (fun x => decide (rk ≤ rev x)) with
      | none => hd
      | some en =>
        if rev en < rk then en
        else match (beforeN en l).getLast? with
          | some pe => if rev pe < rk then pe else hd
          | none => hd
    some (add2 rev tStart c (some (hd, phd)) l)

/-! ### Arrays -/

def ofBucket (b : Path) : Node → Bool
  | .item q _ => decide (q = b)
  | .dummy _ => false

/-- map_embedded.go:363-364, 572-573: what lies before the first slot and what after the last of an array of length `n`. -/
def cut (b : Path) (n : Nat) (l : List Node) : Option (List Node × List Node) :=
  let a := Node.item b 0
  let z := Node.item b (n - 1)
  if a ∈ l ∧ z ∈ fromN a l then some (beforeN a l, (fromN z (fromN a l)).tail) else none

/-- map_embedded.go:366-394 `insertToPool`: the slots of the new array, but for slot `i`, take the place of everything from
the old first slot to the old last one. -/
def relink (b : Path) (n i : Nat) (l : List Node) : Option (List Node) :=
  match cut b n l with
  | none => none
  | some (pre, post) =>
    if (pre ++ post).any (ofBucket b) then none
    else some (pre ++ ((List.range (n + 1)).filter (fun j => decide (j ≠ i))).map (.item b) ++ post)

/-- map_embedded.go:572-591 `expand`: the copied slots keep their (relative) links. -/
def moved (b : Path) (n : Nat) (l : List Node) : Option (List Node) :=
  match cut b n l with
  | none => none
  | some (pre, post) => if l = pre ++ (List.range n).map (.item b) ++ post then some l else none

/-- map_embedded.go:446-545 `getWithFn`, what it does to the list; the cases are those of `Pool.getSlot`. -/
def getSlot (b : Path) : Nat → Pool → U64 → List Node → Option (List Node)
  | 0, _, _, l => some l
  | fuel + 1, p, r, l =>
    let tail := Emb.lastActive p.arr p.len.toNat
    if p.len = 0 then some l
    else match p.findFree r tail with
    | some i => some (l.filter (fun x => decide (x ≠ .item b i)))      -- map_embedded.go:532
    | none =>
      if (p.cap : Int) = p.len then
        match p.expand with
        | .error _ => some l
        | .ok q => (moved b p.len.toNat l).bind (getSlot b fuel q r)
      else match tail with
      | none => some l
      | some t =>
        if (p.slot t).rev < r then some l
        else match p.firstGE r with
        | some i => relink b p.len.toNat i l
        | none => some l

/-! ### Buckets -/

/-- map_embedded.go:665-668: the slots from `idx` on now belong to `b`. -/
def renameSplit (c b : Path) (idx : Nat) : Node → Node
  | .item q i => if q = c ∧ idx ≤ i then .item b (i - idx) else .item q i
  | .dummy p => .dummy p

/-- map.go:1192-1209 `addBucket` and 1150-1177 `_InsertBefore`: the dummy of `b` is inserted behind everything that is not
above it, the walk starting at the dummy of the next lower bucket. -/
def addDummy (st : Emb.St) (bl : List Path) (b : Path) (l : List Node) : Option (List Node) :=
  match bl.dropWhile (fun q => decide ((st.mem q).rev > (st.mem b).rev)) with
  | [] => some l
  | t :: _ =>
    if (st.mem t).rev = (st.mem b).rev then some l
    else if Node.dummy (basePath st.mem t) ∉ l then none
    else some (add2 (revOf st) (.dummy (basePath st.mem t)) (.dummy b) none l)

/-- map_embedded.go:61-132 `makeBucket2`, what it does to the list; the cases are those of `Emb.makeBucket2`. -/
def makeBucket2 : Nat → Emb.St → Path → List Node → Option (List Node)
  | 0, _, _, l => some l
  | fuel + 1, st, c, l =>
    let nr := Emb.newRevE (st.mem (Emb.prevAsB st.blist c)).rev (st.mem c).rev
    if nr = 0 then some l
    else
      let (m1, b) := Emb.bucketFromPoolE st.mem nr
      let st1 := { st with mem := m1 }
      if (m1 b).rev = 0 ∧ (m1 b).level > 1 then some l
      else if b ∈ st.blist then some l
      else match st.pools (basePath m1 c) with
      | none => some l
      | some p =>
        match p.findIdx nr with
        | none => some l
        | some 0 => some l
        | some (i + 1) =>
          let (lo, hi) := p.split (i + 1)
          let st2 := { st1 with
            pools := Emb.upool (Emb.upool st.pools (basePath m1 c) lo) (basePath m1 b) hi, blist := Emb.addBucket m1 st.blist b }
          match addDummy st2 st.blist b (l.map (renameSplit (basePath m1 c) (basePath m1 b) (i + 1))) with
          | none => none
          | some l2 =>
            if hi.len > st.maxPer then makeBucket2 fuel st2 b l2
            else if lo.len > st.maxPer then makeBucket2 fuel st2 c l2
            else some l2

/-- map.go:329-435 `_set`: insertion, then the split (map.go:1000) under the condition of `Emb.link`. -/
def link (st : Emb.St) (b : Path) (rk : U64) (c : Node) (r : U64) (ignored : Bool) (l : List Node) : Option (List Node) :=
  match setInsert st b rk c l with
  | none => none
  | some l1 =>
    if r < maxU64 ∧ ignored = false ∧ Emb.blen st.pools st.mem b > st.maxPer then makeBucket2 64 st b l1 else some l1

/-! ### Public operations -/

/-- map.go:591-705 `Set`; the cases are those of `Emb.opSet`. -/
def opSet (H : HashFns) (st : Emb.St) (key : Key) (v : IVal) (l : List Node) : Option (List Node) :=
  match keyToHash H key with
  | none => some l
  | some (k, c) =>
    match Emb.find st k c with
    | none => some l
    | some (_, _, some _) => some l
    | some (b, p, none) =>
      match Pool.getSlot 2 p (rev64 k) with
      | .error _ => some l
      | .ok (q, i) =>
        match getSlot b 2 p (rev64 k) l with
        | none => none
        | some l1 =>
          let s := Emb.claim (q.slot i) (rev64 k) c
          match key with
          | .str str =>
            match setValue .sample s.val v with
            | .error _ => some l1
            | .ok (nv, _) =>
              let s2 := { s with key := str, val := nv }
              link (Emb.setSlot st b q i s2) b (rev64 k) (.item b i) s2.rev s2.deleted l1
          | _ => some l1

/-- map.go:1569-1613 `purgeInEmbedded`, 712-728 of map_embedded.go `shrinkLen`: the item leaves the list, and so does a
deleted item that then stands last in the array.  (The free list, which takes the other items, is read by nothing.) -/
def opPurge (H : HashFns) (st : Emb.St) (key : Key) (l : List Node) : List Node :=
  match keyToHash H key with
  | none => l
  | some (k, c) =>
    match Emb.find st k c with
    | none => l
    | some (_, _, none) => l
    | some (b, p, some i) =>
      let l1 := l.filter (fun x => decide (x ≠ .item b i))
      let q : Pool := { arr := p.arr.set i { p.slot i with deleted := true }, len := p.len - 1 }
      if (i : Int) = p.len - 1 ∧ 0 < q.len ∧ (q.slot (q.len - 1).toNat).deleted then
        l1.filter (fun x => decide (x ≠ .item b (q.len - 1).toNat))
      else l1

/-- map.go:708-717 `StoreItem`: an item that was not there is linked without lying in an array; not described. -/
def opStoreItem (H : HashFns) (st : Emb.St) (str : List (BitVec 8)) (l : List Node) : Option (List Node) :=
  match Emb.find st (H.mem str) (H.xx str) with
  | none => some l
  | some (_, _, some _) => some l
  | some (_, _, none) => none

/-- The list after one call.  `Delete` only marks (sample_hmap_entry.go:83-85). -/
def stepL (H : HashFns) (st : Emb.St) (l : List Node) : Emb.Op → Option (List Node)
  | .set key v => opSet H st key v l
  | .storeItem str _ _ => opStoreItem H st str l
  | .purge key => some (opPurge H st key l)
  | _ => some l

/-- A map in embedded mode and its item list. -/
structure LSt where
  st : Emb.St
  items : Option (List Node)

def step (H : HashFns) (s : LSt) (op : Emb.Op) : LSt :=
  { st := (Emb.step H s.st op).1, items := s.items.bind (fun l => stepL H s.st l op) }

def run (H : HashFns) (s : LSt) (ops : List Emb.Op) : LSt := ops.foldl (step H) s

/-- map.go:222-304 `initBeforeSet`: the dummies of the sixteen top buckets, and the sentinel `^uint64(0)`. -/
def initL (maxPer : Nat) : LSt :=
  { st := Emb.initSt maxPer, items := some ((Emb.initSt maxPer).blist.reverse.map .dummy) }

/-- The slot of a node that is no dummy. -/
def slotOf (st : Emb.St) : Node → Option Slot
  | .dummy _ => none
  | .item b i => (st.pools b).map (·.slot i)

/-- map.go:1617-1632 `RangeItem` with a callback that may depend on what it saw before (`f seen x` = go on): the slots on
which it is called.  `IsIgnored` (maphead.go:32) holds of dummies and of deleted items. -/
def rangeItems (st : Emb.St) (f : List Slot → Slot → Bool) : List Slot → List Node → List Slot
  | seen, [] => seen
  | seen, x :: xs =>
    match slotOf st x with
    | none => rangeItems st f seen xs
    | some s =>
      if s.deleted then rangeItems st f seen xs
      else if f seen s then rangeItems st f (seen ++ [s]) xs
      else seen ++ [s]

/-- Key() and Value() of an item (sample_hmap_entry.go:51-57). -/
def pairOf (x : Slot) : List (BitVec 8) × IVal := (x.key, x.val)

/-- map.go:1636-1641 `Range`: the pairs handed to the callback, which may depend on what it saw before. -/
def range (s : LSt) (f : List (List (BitVec 8) × IVal) → List (BitVec 8) × IVal → Bool) : Option (List (List (BitVec 8) × IVal)) :=
  s.items.map (fun l => (rangeItems s.st (fun seen x => f (seen.map pairOf) (pairOf x)) [] l).map pairOf)

/-- map.go:1643-1651 `First`, `Last`. -/
def first (s : LSt) : Option Node := s.items.bind List.head?
def last (s : LSt) : Option Node := s.items.bind List.getLast?

end SLM.EList
