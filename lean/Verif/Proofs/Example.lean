import Verif.Proofs.Run
/-! A concrete environment and a checker for side conditions, used only for the non-vacuity examples and the refutations. -/
set_option autoImplicit false
namespace SLM
open History

/-- Example hash functions: polynomial, so that different short strings differ. -/
def exH : HashFns where
  mem s := s.foldl (fun a b => a * 0x9E3779B97F4A7C15#64 + b.zeroExtend 64 + 1) 0x123456789ABCDEF#64
  xx s := s.foldl (fun a b => a * 31#64 + b.zeroExtend 64 + 7) 5#64

def exE : Env := { H := exH }


/-- A one-byte string key, a string of two bytes. -/
def sk (b : BitVec 8) : Key := .str [b]
def exV (n : Nat) : IVal := some ⟨0, n⟩

def offB (E : Env) : St → List Op → Bool
  | _, [] => true
  | st, op :: ops =>
    (match storeHash E.H op with
      | none => true
      | some (k, c) => (match opGetByHash E st k c with | .val _ true => true | _ => false) || !(boundaries st).contains (rev64 k)) &&
    offB E (step E st op).1 ops

theorem offB_sound {E : Env} {st : St} {ops : List Op} (h : offB E st ops = true) : OffBoundary E st ops := by
  induction ops generalizing st with
  | nil => trivial
  | cons op ops ih =>
    simp only [offB, Bool.and_eq_true] at h
    refine ⟨?_, ih h.2⟩
    intro k c hk
    have h1 := h.1
    rw [hk] at h1
    simp only [Bool.or_eq_true, Bool.not_eq_true', List.contains_eq_mem, decide_eq_false_iff_not] at h1
    rcases h1 with h1 | h1
    · left
      split at h1
      · exact ⟨_, by assumption⟩
      · cases h1
    · exact Or.inr h1

def collB (H : HashFns) (ops : List Op) : Bool :=
  let ps := ops.filterMap (storeHash H)
  ps.all (fun p => ps.all (fun q => decide (p.1 = q.1 → p.2 = q.2)))

theorem collB_sound {H : HashFns} {ops : List Op} (h : collB H ops = true) : NoCollision H ops := by
  intro a ha b hb k c c' h1 h2
  unfold collB at h
  simp only [List.all_eq_true, decide_eq_true_eq] at h
  have := h (k, c) (List.mem_filterMap.2 ⟨a, ha, h1⟩) (k, c') (List.mem_filterMap.2 ⟨b, hb, h2⟩)
  exact this rfl

def freshB (ops : List Op) : Bool :=
  ops.all (fun op => match op with | .storeItem it => decide (it.rev0 = 0 ∧ it.conflict0 = 0) | _ => true)

theorem freshB_sound {ops : List Op} (h : freshB ops = true) : FreshItems ops := by
  intro it hit
  unfold freshB at h
  rw [List.all_eq_true] at h
  simpa using h _ hit

def cleanB (cfg : Cfg) (ops : List Op) : Bool :=
  collB exH ops && freshB ops && offB exE (initSt cfg) ops && !((run exE (initSt cfg) ops).2.contains (.panic .bucketHeadEmpty))

theorem cleanB_sound {cfg : Cfg} {ops : List Op} (h : cleanB cfg ops = true) : Clean exE cfg ops := by
  simp only [cleanB, Bool.and_eq_true, Bool.not_eq_true', List.contains_eq_mem, decide_eq_false_iff_not] at h
  exact ⟨collB_sound h.1.1.1, freshB_sound h.1.1.2, offB_sound h.1.2, h.2⟩

/-- A history with overwriting, deletion, re-insertion and two kinds of items; with `exCfg` it also splits buckets. -/
def exOps : List Op :=
  [ .storeItem { kind := .sample, key := sk 1, val := exV 10 }, .set (sk 2) (exV 20), .set (sk 3) (exV 30),
    .storeItem { kind := .entry, key := .u64 1000003, val := exV 40 }, .set (sk 4) (exV 50), .set (sk 1) (exV 11),
    .delete (sk 2), .get (sk 2), .get (sk 1), .set (sk 2) (exV 21), .set (sk 5) (exV 60), .get (sk 2),
    .loadItem (.u64 1000003), .set (sk 6) (exV 70), .delete (sk 6), .len, .range ]

def exCfg : Cfg := { maxPer := 0, itemFn := .sample }

set_option maxRecDepth 20000 in
theorem exClean : Clean exE exCfg exOps := cleanB_sound (by decide +kernel)

set_option maxRecDepth 20000 in
/-- The example is not degenerate: it creates buckets. -/
theorem ex_splits : 17 < (run exE (initSt exCfg) exOps).1.blist.length := by decide +kernel

end SLM
