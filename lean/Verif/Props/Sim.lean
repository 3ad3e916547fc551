import Verif.Proofs.Pick
import Verif.Proofs.Example
import Verif.Props.Sequential
/-!
C96: calls that do not overlap behave as the sequential map.  This ties the two models together: the machine of Model/Conc.lean (one
step per access to shared memory) and the map of Model/Map.lean (one step per call).  Vocabulary (Proofs/Sim2.lean):
* `OneByOne E st ops s L s'`: on the machine, from `s` to `s'`, the operations `ops` are made one after the other: each is begun by an
  idle goroutine (any one) and no other goroutine moves until it has returned; then the sentinels of the buckets which the sequential map
  makes during that operation are linked, each by a goroutine of its own, again alone.  `L` lists calls and answers.  Buckets are located as by
  the sequential map.
* `script E st ops`: the same list, with the answers of the sequential map (`step`) from state `st`.
* `Fits E op`: a Set of a string key whose reversed hash is not 2^64 - 1, a Get, a Delete, or a Range; with a key that can be hashed.
* `ofSt st`: the machine holding the map `st`, no call in progress.
-/
set_option autoImplicit false
set_option maxRecDepth 100000
namespace SLM.Conc

theorem sync_of {st : St} (h : Inv st) (hf : st.itemFn = .sample ∨ ∀ e ∈ st.items, e.dummy = true) : Sync st (ofSt st) :=
  ⟨h, rfl, rfl, rfl, fun _ => rfl, hf⟩

theorem ready_of {st : St} (h : Inv st) : Ready st (ofSt st) := by
  refine ⟨(ofSt_j1 h).toJ0, fun _ => trivial, ⟨0, fun _ _ => rfl⟩, ?_⟩
  intro p hp
  simp only [ofSt, List.mem_filterMap] at hp
  obtain ⟨e, he, h1⟩ := hp
  cases hr : e.ref with
  | item n => rw [hr] at h1; cases h1
  | dummy q =>
    rw [hr] at h1
    cases h1
    exact (h.ii.dum e he p hr).1

/-- C96: every history of fitting operations that does not crash the sequential map can be made on the machine one call after the other, and
however that is done the answers are the sequential map's, the item list and the allocation counter end as the sequential map's, and the
shared search option ends as it began. -/
theorem C96_partial (E : Env) (cfg : Cfg) (ops : List Op) (hf : ∀ op ∈ ops, Fits E op)
    (hc : Out.panic .bucketHeadEmpty ∉ (run E (initSt cfg) ops).2) :
    (∃ L s', OneByOne E (initSt cfg) ops (ofSt (initSt cfg)) L s') ∧
    ∀ L s', OneByOne E (initSt cfg) ops (ofSt (initSt cfg)) L s' →
      L = script E (initSt cfg) ops ∧ s'.items = (run E (initSt cfg) ops).1.items ∧ s'.nextId = (run E (initSt cfg) ops).1.nextId ∧ s'.opt = true := by
  have y := sync_of (inv_init cfg) (.inr (initSt_dummy cfg))
  refine ⟨oneByOne_exists E ops y (ready_of (inv_init cfg)) hf hc, ?_⟩
  intro L s' h
  obtain ⟨h1, h2⟩ := sim_run E h y hf hc
  exact ⟨h1, h2.items, h2.nextId, h2.opt⟩

/-- C96 from the middle: after any sequential history whose items are SampleItems. -/
theorem C96_from_partial (E : Env) (cfg : Cfg) (hist ops : List Op) (hs : (run E (initSt cfg) hist).1.itemFn = .sample)
    (hf : ∀ op ∈ ops, Fits E op) (hc : Out.panic .bucketHeadEmpty ∉ (run E (run E (initSt cfg) hist).1 ops).2) :
    (∃ L s', OneByOne E (run E (initSt cfg) hist).1 ops (ofSt (run E (initSt cfg) hist).1) L s') ∧
    ∀ L s', OneByOne E (run E (initSt cfg) hist).1 ops (ofSt (run E (initSt cfg) hist).1) L s' →
      L = script E (run E (initSt cfg) hist).1 ops ∧ s'.items = (run E (run E (initSt cfg) hist).1 ops).1.items ∧ s'.opt = true := by
  have hi := run_inv E (inv_init cfg) hist
  refine ⟨oneByOne_exists E ops (sync_of hi (.inl hs)) (ready_of hi) hf hc, ?_⟩
  intro L s' h
  obtain ⟨h1, h2⟩ := sim_run E h (sync_of hi (.inl hs)) hf hc
  exact ⟨h1, h2.items, h2.opt⟩

/-- The single call: whatever the other goroutines have done before (as long as none is inserting), a call that runs alone on a machine that
agrees with the sequential map answers as the sequential map and leaves the machine in agreement. -/
theorem C96_call_partial (E : Env) {st : St} {s s1 s2 : CSt} {op : Op} {cl : Call} {r : Res} {L : List (Call × Res)} (y : Sync st s) (hf : Fits E op)
    (hc : (step E st op).2 ≠ .panic .bucketHeadEmpty) (hcl : callFor E op = some cl) (ha : Alone1 (pkOf st) s cl r s1)
    (hsp : Splits st (splitsOf st (step E st op).1) s1 L s2) :
    r = resOf st op (step E st op).2 ∧ s2.items = (step E st op).1.items ∧ Sync (step E st op).1 s2 := by
  obtain ⟨h1, _, h3⟩ := sim_step E y hf hc hcl ha hsp
  exact ⟨h1, h3.items, h3⟩

/-- Which bucket a call starts from.  In every reachable map the sentinel the sequential map uses is the one `pkExact` takes from the item list
alone, for every Set and Delete whose reversed hash `t` is not 2^64 - 1 and has no boundary between the last multiple of sixteen and itself
(`Flat`, see C97), for every split with a new boundary, and for every such Get in CombineSearch mode or whose bucket is not a child 0 (other than in
CombineSearch2 mode). -/
theorem C96_bucket_partial {E : Env} {st : St} (h : Reachable E st) {cl : Call} (hu : Usual st cl) : bucketOf st cl = pkBucket st.mode st.items cl := by
  obtain ⟨cfg, ops, rfl⟩ := h
  exact bucketOf_exact (run_inv E (inv_init cfg) ops) (run_nz E (inv_init cfg) (init_nz cfg) ops) hu

/-- The single call with the bucket chosen from the item list alone. -/
theorem C96_exact_partial (E : Env) {st : St} {s s1 s2 : CSt} {op : Op} {cl : Call} {r : Res} {L : List (Call × Res)} (hr : Reachable E st)
    (y : Sync st s) (hf : Fits E op) (hc : (step E st op).2 ≠ .panic .bucketHeadEmpty) (hcl : callFor E op = some cl)
    (hu : Usual st cl ∨ cl = .range) (ha : Alone1 (pkExact st.mode) s cl r s1) (hsp : Splits st (splitsOf st (step E st op).1) s1 L s2) :
    r = resOf st op (step E st op).2 ∧ s2.items = (step E st op).1.items ∧ Sync (step E st op).1 s2 := by
  have nz : NZ st.mem := by
    obtain ⟨cfg, ops, rfl⟩ := hr
    exact run_nz E (inv_init cfg) (init_nz cfg) ops
  exact C96_call_partial E y hf hc hcl ((alone_exact y nz hu).1 ha) hsp

/-- What a caller of the machine sees, in the words of the plain map's specification (a panic without its message). -/
def Res.view : Res → Spec.Ans
  | .val v ok => .val v ok
  | .bool b => .bool b
  | .panic => .panic .valueType
  | .seen _ => .other

def noMsg : Spec.Ans → Spec.Ans
  | .panic _ => .panic .valueType
  | a => a

def isSplit : Call → Bool
  | .split _ _ => true
  | _ => false

theorem resOf_view {E : Env} {st : St} {op : Op} (h : Fits E op) : (resOf st op (step E st op).2).view = noMsg (Spec.ans (step E st op).2) := by
  cases op with
  | set key v =>
    show (resOf st (.set key v) (opSet E st key v).2).view = _
    change _ = noMsg (Spec.ans (opSet E st key v).2)
    have : (∃ b, (opSet E st key v).2 = .bool b) ∨ ∃ p, (opSet E st key v).2 = .panic p := by
      unfold opSet
      split
      · exact .inr ⟨_, rfl⟩
      · split
        · unfold update
          split
          · exact .inr ⟨_, rfl⟩
          · exact .inl ⟨_, rfl⟩
        · dsimp only
          split
          · unfold finish
            split
            · exact .inl ⟨_, rfl⟩
            · exact .inr ⟨_, rfl⟩
          · exact .inr ⟨_, rfl⟩
    rcases this with ⟨b, hb⟩ | ⟨p, hp⟩
    · rw [hb]; rfl
    · rw [hp]; rfl
  | get key =>
    change (resOf st (.get key) (opGet E st key)).view = noMsg (Spec.ans (opGet E st key))
    unfold opGet
    split
    · rfl
    · unfold opGetByHash; split <;> rfl
  | getByHash k c =>
    change (resOf st (.getByHash k c) (opGetByHash E st k c)).view = noMsg (Spec.ans (opGetByHash E st k c))
    unfold opGetByHash
    split <;> rfl
  | delete key =>
    change (resOf st (.delete key) (opDelete E st key).2).view = noMsg (Spec.ans (opDelete E st key).2)
    unfold opDelete
    split
    · rfl
    · split <;> rfl
  | range => rfl
  | storeItem it => exact absurd rfl h
  | loadItem k => exact absurd rfl h
  | loadItemByHash k c => exact absurd rfl h
  | len => exact absurd rfl h

theorem callFor_split {E : Env} {op : Op} {cl : Call} (h : callFor E op = some cl) : isSplit cl = false := by
  cases op with
  | set key v => rw [callFor_set] at h; cases hk : keyToHash E.H key with
    | none => rw [hk] at h; cases h
    | some kc => rw [hk] at h; cases h; rfl
  | get key => rw [callFor_get] at h; cases hk : keyToHash E.H key with
    | none => rw [hk] at h; cases h
    | some kc => rw [hk] at h; cases h; rfl
  | delete key => rw [callFor_del] at h; cases hk : keyToHash E.H key with
    | none => rw [hk] at h; cases h
    | some kc => rw [hk] at h; cases h; rfl
  | getByHash k c => cases h; rfl
  | range => cases h; rfl
  | storeItem it => cases h
  | loadItem k => cases h
  | loadItemByHash k c => cases h
  | len => cases h

theorem fits_call {E : Env} {op : Op} (h : Fits E op) : ∃ cl, callFor E op = some cl := by
  cases op with
  | set key v =>
    obtain ⟨str, k, c, rfl, hk, _⟩ := h
    rw [callFor_set, hk]
    exact ⟨_, rfl⟩
  | get key => exact Option.ne_none_iff_exists'.1 h
  | delete key => exact Option.ne_none_iff_exists'.1 h
  | getByHash k c => exact ⟨_, rfl⟩
  | range => exact ⟨_, rfl⟩
  | storeItem it => exact absurd rfl h
  | loadItem k => exact absurd rfl h
  | loadItemByHash k c => exact absurd rfl h
  | len => exact absurd rfl h

theorem script_view (E : Env) (ops : List Op) (st : St) (hf : ∀ op ∈ ops, Fits E op) :
    ((script E st ops).filter (fun c => !isSplit c.1)).map (fun c => c.2.view) = (run E st ops).2.map (fun o => noMsg (Spec.ans o)) := by
  induction ops generalizing st with
  | nil => rfl
  | cons op ops ih =>
    obtain ⟨cl, hcl⟩ := fits_call (hf op (by simp))
    have h1 : isSplit ((callFor E op).getD .range) = false := by rw [hcl]; exact callFor_split hcl
    have h2 : ((splitsOf st (step E st op).1).map (fun p => (Call.split (bvRev p) p, Res.bool true))).filter (fun c => !isSplit c.1) = [] := by
      rw [List.filter_eq_nil_iff]
      intro c hc
      obtain ⟨p, _, rfl⟩ := List.mem_map.1 hc
      simp [isSplit]
    have h3 := ih (step E st op).1 (fun o ho => hf o (by simp [ho]))
    rw [run_cons]
    simp only [script, List.cons_append, List.filter_cons, h1, Bool.not_false, if_true, List.filter_append, h2, List.nil_append, List.map_cons, h3,
      resOf_view (hf op (by simp))]

/-- C96 and C01 together: calls that do not overlap, made by however many goroutines, are answered as by a plain map (a panic's message apart),
if the history is clean in the sense of C01 (no two keys with the same primary hash, no key on a bucket boundary, no crash). -/
theorem C96_plain_partial (E : Env) (cfg : Cfg) (ops : List Op) (hf : ∀ op ∈ ops, Fits E op) (hc : History.Clean E cfg ops) {L : List (Call × Res)} {s' : CSt}
    (h : OneByOne E (initSt cfg) ops (ofSt (initSt cfg)) L s') :
    (L.filter (fun c => !isSplit c.1)).map (fun c => c.2.view) = ((Spec.PMap.empty cfg.itemFn).run E.H ops).2.map noMsg := by
  rw [((C96_partial E cfg ops hf hc.crash).2 L s' h).1, script_view E ops _ hf, ← C01_partial hc, List.map_map]
  rfl

def serialOps : List Op :=
  [.set (sk 1) (exV 5), .set (sk 2) (exV 6), .set (sk 17) (exV 7), .set (sk 33) (exV 8), .get (sk 17), .delete (sk 2), .get (sk 2), .set (sk 17) (exV 9),
   .set (sk 17) (some ⟨1, 1⟩), .get (sk 17), .range]

def setFits (E : Env) (key : Key) : Bool :=
  match key with
  | .str _ => match keyToHash E.H key with | some kc => !decide (rev64 kc.1 = maxU64) | none => false
  | _ => false

def fitsB (E : Env) (op : Op) : Bool :=
  match op with
  | .set key _ => setFits E key
  | op => (callFor E op).isSome

theorem setFits_fits {E : Env} {key : Key} {v : IVal} (h : setFits E key = true) : Fits E (.set key v) := by
  unfold setFits at h
  split at h
  · rename_i str
    split at h
    · rename_i kc hk
      exact ⟨str, kc.1, kc.2, rfl, hk, by simpa only [Bool.not_eq_true', decide_eq_false_iff_not] using h⟩
    · cases h
  · cases h

theorem fitsB_fits {E : Env} {op : Op} (h : fitsB E op = true) : Fits E op := by
  have key : ∀ op, (callFor E op).isSome = true → callFor E op ≠ none := by
    intro op h1 h2
    rw [h2] at h1
    cases h1
  cases op with
  | set key v => exact setFits_fits h
  | get k => exact key (.get k) h
  | delete k => exact key (.delete k) h
  | getByHash k c => exact key (.getByHash k c) h
  | range => exact key .range h
  | storeItem it => exact key (.storeItem it) h
  | loadItem k => exact key (.loadItem k) h
  | loadItemByHash k c => exact key (.loadItemByHash k c) h
  | len => exact key .len h

/-- The conditions of C96_partial are met by a history with Sets that split buckets, a Delete, an overwrite, a Set that panics and a Range. -/
example : (∀ op ∈ serialOps, Fits exE op) ∧ Out.panic .bucketHeadEmpty ∉ (run exE (initSt { maxPer := 1 }) serialOps).2 ∧
    ((script exE (initSt { maxPer := 1 }) serialOps).filter (fun c => isSplit c.1)).length = 2 ∧
    ((script exE (initSt { maxPer := 1 }) serialOps).filter (fun c => !isSplit c.1)).map (·.2) =
      [.bool true, .bool true, .bool true, .bool true, .val (exV 7) true, .bool true, .val none false, .bool true, .panic, .val (exV 9) true,
       .seen [.item 2, .item 0, .item 3]] := by
  refine ⟨?_, ?_, ?_, ?_⟩
  · have h : serialOps.all (fitsB exE) = true := by decide +kernel
    intro op ho
    exact fitsB_fits (List.all_eq_true.1 h op ho)
  · decide +kernel
  · decide +kernel
  · decide +kernel

set_option maxRecDepth 20000 in
/-- It is clean as well, so the conditions of C96_plain_partial are met. -/
example : History.Clean exE { maxPer := 1 } serialOps := cleanB_sound (by decide +kernel)

/-- After this history a Set, a Delete and a Get are such calls (in the default mode, the Get's bucket being no child 0). -/
def someCalls : List Call :=
  [.set (rev64 61) 0 (sk 1) (exV 1), .del (rev64 61) 0, .get (rev64 61) 0]

theorem flat_of_nib {m : Path → Bkt} {r : U64} (h : nib r 16 = 0) : Flat m r := by
  intro x h1 h2
  rw [h] at h2
  omega

example : ∀ cl ∈ someCalls, Usual (run exE (initSt { maxPer := 1 }) serialOps).1 cl := by
  have h1 : nib (rev64 61) 16 = 0 := by decide +kernel
  have h2 : rev64 61 ≠ maxU64 := by decide +kernel
  have h3 : ((run exE (initSt { maxPer := 1 }) serialOps).1.mode ≠ modeCombine2 ∧ standIn (run exE (initSt { maxPer := 1 }) serialOps).1 (rev64 61) = false) := by
    decide +kernel
  intro cl hcl
  simp only [someCalls, List.mem_cons, List.not_mem_nil, or_false] at hcl
  rcases hcl with rfl | rfl | rfl
  · exact ⟨flat_of_nib h1, h2⟩
  · exact ⟨flat_of_nib h1, h2⟩
  · exact ⟨⟨flat_of_nib h1, h2⟩, .inr h3⟩

end SLM.Conc
