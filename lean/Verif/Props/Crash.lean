import Verif.Proofs.Example
/-! C15: a history of legal calls that ends in the panic "bucket head empty" (kept in its own file: checking takes a minute). -/
set_option autoImplicit false
set_option maxRecDepth 100000
namespace SLM

/-- Store a fresh item with the integer key 2^63-1 and delete it again, `n` times. -/
def storeDelete (n : Nat) : List Op :=
  (List.replicate n [Op.storeItem { kind := .entry, key := .u64 0x7FFFFFFFFFFFFFFF, val := none },
    Op.delete (.u64 0x7FFFFFFFFFFFFFFF)]).flatten

/-- C15 fails: with MaxPefBucket(0), storing and deleting one key 60 times panics (the deleted items stay in the list, every
store splits the last bucket again, and the sixtieth split would need the boundary 2^64-1). -/
theorem C15_refuted :
    (run exE (initSt { maxPer := 0 }) (storeDelete 60)).2.contains (.panic .bucketHeadEmpty) = true := by decide +kernel

end SLM
