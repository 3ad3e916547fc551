import Verif.Model.Map
/-!
Side conditions on histories used by the `_partial` theorems.  Each one excludes a defect of the code that is exhibited by
a `_refuted` theorem (see DESIGN.md).
-/
set_option autoImplicit false
namespace SLM.History

/-- The hash pair a store addresses. -/
def storeHash (H : HashFns) : Op → Option (U64 × U64)
  | .set key _ => keyToHash H key
  | .storeItem it => keyToHash H it.key
  | _ => none

/-- No two stored keys share the primary hash but not the conflict hash. -/
def NoCollision (H : HashFns) (ops : List Op) : Prop :=
  ∀ a ∈ ops, ∀ b ∈ ops, ∀ k c c', storeHash H a = some (k, c) → storeHash H b = some (k, c') → c = c'

/-- Items passed to StoreItem have no hash fields set (no `Setup()` before). -/
def FreshItems (ops : List Op) : Prop := ∀ it, Op.storeItem it ∈ ops → it.rev0 = 0 ∧ it.conflict0 = 0

/-- The boundaries of the buckets existing in `st`, as reported by DumpBucket. -/
def boundaries (st : St) : List U64 := st.blist.map (fun b => (st.mem b).rev)

/-- When a key is stored that `Get` does not find, its reversed hash is not at that moment the boundary of a bucket. -/
def OffBoundary (E : Env) : St → List Op → Prop
  | _, [] => True
  | st, op :: ops =>
    (∀ k c, storeHash E.H op = some (k, c) →
      (∃ v, opGetByHash E st k c = .val v true) ∨ rev64 k ∉ boundaries st) ∧ OffBoundary E (step E st op).1 ops

/-- No operation crashed with "bucket head empty". -/
def NoCrash (E : Env) (st : St) (ops : List Op) : Prop := Out.panic .bucketHeadEmpty ∉ (run E st ops).2


/-- All side conditions together, for a map made with configuration `cfg`. -/
structure Clean (E : Env) (cfg : Cfg) (ops : List Op) : Prop where
  coll : NoCollision E.H ops
  fresh : FreshItems ops
  off : OffBoundary E (initSt cfg) ops
  crash : NoCrash E (initSt cfg) ops

/-- Number of operations that store. -/
def stores (H : HashFns) (ops : List Op) : Nat := (ops.filter (fun op => (storeHash H op).isSome)).length

end SLM.History
