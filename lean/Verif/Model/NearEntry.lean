import Verif.Model.Map
/-!
The exported methods NextEntry and PrevEntry of a bucket (maps without embedded pool, one goroutine).
As in Model/Walk.lean, `DirectNext`/`DirectPrev` are the neighbours in the list, and the ends of the list are where `Empty()` answers true.
-/
set_option autoImplicit false
namespace SLM

/-- bucket.go:239-255 `NextEntry`: the node behind the bucket's head (bucket.go:375-415), the head itself if there is none.  The caller gets it as an entryHMap
whatever it is (item.go:38-40); what a SampleItem's fields look like then is not modelled, the MapHead (hash, conflict, flags) is where it should be. -/
def nextEntry (st : St) (b : Path) : Option Entry :=
  match fromRef (st.head b) st.items with
  | [] => none
  | [e] => some e
  | _ :: n :: _ => some n

/-- bucket.go:257-273 `PrevEntry`: the node before the bucket's head, the head itself if there is none. -/
def prevEntry (st : St) (b : Path) : Option Entry :=
  match (beforeRef (st.head b) st.items).getLast? with
  | some e => some e
  | none => (fromRef (st.head b) st.items).head?

end SLM
