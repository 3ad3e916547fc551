import Verif.Model.Map
/-
Going through the items of a map while it changes: `Range` and `RangeItem` with a callback that calls the same map
(map.go:1617-1641), and `Next`/`Prev` of an item the caller holds (item.go:63-68, sample_hmap_entry.go:72-77).
Modes without embedded pool; one goroutine.

Abstraction: elist_head is not part of the repository; `Next`/`Prev`/`DirectNext`/`DirectPrev` are taken to be the neighbours
in the list, and the ends of the list are where `Empty()` answers true (as in Model/Map.lean).
-/
set_option autoImplicit false
namespace SLM.Walk

/-- The nodes the loop `cur = cur.Next()` has still to come to (map.go:1622): all of them, or those behind the cursor. -/
def after : Option Ref → List Entry → List Entry
  | none, l => l
  | some r, l => (fromRef r l).tail

/-- item.go:63-65, sample_hmap_entry.go:72-74 `Next` of an item. -/
def next (st : St) (r : Ref) : Option Entry := (after (some r) st.items).head?

/-- item.go:66-68, sample_hmap_entry.go:75-77 `Prev` of an item. -/
def prev (st : St) (r : Ref) : Option Entry := (beforeRef r st.items).getLast?

inductive Status where
  | atEnd      -- the loop came to the end of the list
  | stopped    -- the callback answered false
  | running    -- the callback was called as often as the bound allows and the loop is not over
  deriving DecidableEq, Repr

/-- A Range under way or over: the map, the items the callback was called with (as they were then), the calls made. -/
structure Run where
  st : St
  seen : List Entry
  trace : List Op
  status : Status

/-- map.go:1617-1632 `RangeItem` (and 1636-1641 `Range`) with a callback `f` that sees what it was called with so far, makes
calls on the same map and answers whether to go on; at most `n` calls of `f`.  `IsIgnored` nodes are skipped (1624). -/
def rangeWith (E : Env) (f : List Entry → Entry → List Op × Bool) : Nat → St → Option Ref → List Entry → List Op → Run
  | n, st, cur, seen, tr =>
    match (after cur st.items).find? (fun x => !x.ignored) with
    | none => ⟨st, seen, tr, .atEnd⟩
    | some e =>
      match n with
      | 0 => ⟨st, seen, tr, .running⟩
      | n + 1 =>
        let st' := (run E st (f seen e).1).1
        if (f seen e).2 then rangeWith E f n st' (some e.ref) (seen ++ [e]) (tr ++ (f seen e).1)
        else ⟨st', seen ++ [e], tr ++ (f seen e).1, .stopped⟩

/-- `Range` on a map in state `st`. -/
def range (E : Env) (f : List Entry → Entry → List Op × Bool) (n : Nat) (st : St) : Run := rangeWith E f n st none [] []

end SLM.Walk
