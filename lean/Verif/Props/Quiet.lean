import Verif.Props.Content
/-!
C114: a call that does not answer true leaves no trace.
-/
set_option autoImplicit false
set_option maxRecDepth 20000
namespace SLM
open History

/-- The map with the pool switched on or off. -/
def St.pooled (st : St) (b : Bool) : St := { st with pool := b }

theorem linkBucket_pooled (st : St) (m : Path → Bkt) (p : Path) (ok : OkFn) (b : Bool) :
    linkBucket (st.pooled b) m p ok = (linkBucket st m p ok).map (·.pooled b) := by
  unfold linkBucket
  show (match st.blist.dropWhile (fun q => decide ((m q).rev > (m p).rev)) with | [] => _ | t :: lo => _) = _
  cases st.blist.dropWhile (fun q => decide ((m q).rev > (m p).rev)) with
  | nil => rfl
  | cons t lo =>
    simp only
    split <;> rfl

theorem makeBucketAt_pooled (st : St) (er : U64) (b : Bool) : makeBucketAt (st.pooled b) er = (makeBucketAt st er).map (·.pooled b) := by
  unfold makeBucketAt
  have h1 : (st.pooled b).searchBucket er = st.searchBucket er := rfl
  have h2 : (st.pooled b).mem = st.mem := rfl
  have h3 : (st.pooled b).blist = st.blist := rfl
  have h4 : (st.pooled b).items = st.items := rfl
  have h5 : (st.pooled b).lv = st.lv := rfl
  rw [h1, h2, h3, h4, h5]
  cases st.searchBucket er with
  | none => rfl
  | some c0 =>
    simp only
    split
    · rfl
    · split
      · rfl
      · split
        · rfl
        · split
          · rfl
          · rename_i m1 b0 ok0 _
            split
            · rfl
            · generalize (if (m1 b0).rev ≠ _ then upd m1 b0 _ else m1) = m2
              split
              · rfl
              · generalize poolLevels st.mem _ st.lv = lv
                exact linkBucket_pooled { st with lv := lv } _ _ _ b

theorem makeBucket_pooled (st : St) (e : Entry) (b : Bool) : makeBucket (st.pooled b) e = (makeBucket st e).map (·.pooled b) := by
  unfold makeBucket
  have h4 : (st.pooled b).items = st.items := rfl
  rw [h4]
  split
  · split
    · exact makeBucketAt_pooled _ _ _
    · rfl
  · exact makeBucketAt_pooled _ _ _

theorem setNew_pooled (st : St) (k : U64) (p : Path) (e : Entry) (b : Bool) : setNew (st.pooled b) k p e = (setNew st k p e).map (·.pooled b) := by
  unfold setNew
  have h1 : setInsert (st.pooled b) p (rev64 k) e = setInsert st p (rev64 k) e := rfl
  have h2 : (st.pooled b).mem = st.mem := rfl
  have h3 : (st.pooled b).maxPer = st.maxPer := rfl
  have h4 : (st.pooled b).len = st.len := rfl
  rw [h1]
  simp only [h2, h3, h4]
  generalize setInsert st p (rev64 k) e = it
  generalize (if (st.mem p).level > 0 then _ else st.mem) = m
  split
  · exact makeBucket_pooled { st with items := it, len := st.len + 1, mem := m } e b
  · rfl

theorem update_pooled (st : St) (e : Entry) (v : IVal) (b : Bool) : update (st.pooled b) e v = ((update st e v).1.pooled b, (update st e v).2) := by
  unfold update
  show (match setValue st.itemFn e.val v with | .error p => _ | .ok (nv, b) => _) = _
  cases setValue st.itemFn e.val v <;> rfl

theorem finish_pooled (st : St) (r : Except Panic St) (b : Bool) : finish (st.pooled b) (r.map (·.pooled b)) = ((finish st r).1.pooled b, (finish st r).2) := by
  cases r <;> rfl

theorem opStoreItem_pooled (E : Env) (st : St) (it : NewItem) (b : Bool) :
    opStoreItem E (st.pooled b) it = ((opStoreItem E st it).1.pooled b, (opStoreItem E st it).2) := by
  unfold opStoreItem
  have h1 : ∀ k c, getWithBucket E (st.pooled b) k c = getWithBucket E st k c := fun _ _ => rfl
  have h2 : (st.pooled b).nextId = st.nextId := rfl
  simp only [h1, h2]
  cases it.keyHash E.H with
  | none => rfl
  | some kc =>
    obtain ⟨k, c⟩ := kc
    simp only
    cases getWithBucket E st k c with
    | mk o p =>
      cases o with
      | some e => exact update_pooled st e it.val b
      | none =>
        simp only
        rw [show ({ st.pooled b with nextId := st.nextId + 1 } : St) = ({ st with nextId := st.nextId + 1 } : St).pooled b from rfl, setNew_pooled]
        exact finish_pooled st _ b

theorem finish_two (st st' : St) (r : Except Panic St) (b b' : Bool) (h : st' = st.pooled b') :
    (finish st' (r.map (·.pooled b))).2 = (finish st r).2 ∧ ∃ b2, (finish st' (r.map (·.pooled b))).1 = (finish st r).1.pooled b2 := by
  cases r with
  | error p => exact ⟨rfl, b', h⟩
  | ok s => exact ⟨rfl, b, rfl⟩

/-- The pool switch changes no answer and nothing but itself. -/
theorem step_pooled (E : Env) (st : St) (op : Op) (b : Bool) :
    (step E (st.pooled b) op).2 = (step E st op).2 ∧ ∃ b', (step E (st.pooled b) op).1 = (step E st op).1.pooled b' := by
  cases op with
  | set key v =>
    simp only [step]
    unfold opSet
    have h1 : ∀ k c, getWithBucket E (st.pooled b) k c = getWithBucket E st k c := fun _ _ => rfl
    simp only [h1]
    cases keyToHash E.H key with
    | none => exact ⟨rfl, b, rfl⟩
    | some kc =>
      obtain ⟨k, c⟩ := kc
      simp only
      cases getWithBucket E st k c with
      | mk o p =>
        cases o with
        | some e =>
          simp only
          rw [update_pooled st e v b]
          exact ⟨rfl, b, rfl⟩
        | none =>
          simp only
          have h3 : ∃ b', (if (st.pooled b).pool = false ∧ (st.pooled b).mode = modeCombine4 then { st.pooled b with pool := true } else st.pooled b)
              = (if st.pool = false ∧ st.mode = modeCombine4 then { st with pool := true } else st).pooled b' := by
            by_cases hm : st.mode = modeCombine4
            · exact ⟨true, by cases b <;> cases hp : st.pool <;> simp [St.pooled, hm]⟩
            · refine ⟨b, ?_⟩
              rw [if_neg (fun h => hm h.2), if_neg (fun h => hm h.2)]
          obtain ⟨b', h3⟩ := h3
          rw [h3]
          generalize (if st.pool = false ∧ st.mode = modeCombine4 then { st with pool := true } else st) = s1
          cases key with
          | str w =>
            simp only
            rw [show ({ s1.pooled b' with itemFn := .sample, nextId := (st.pooled b).nextId + 1 } : St) = ({ s1 with itemFn := .sample, nextId := st.nextId + 1 } : St).pooled b' from rfl, setNew_pooled,
              finish_pooled]
            exact ⟨rfl, b', rfl⟩
          | _ => exact ⟨rfl, b', rfl⟩
  | storeItem it =>
    simp only [step]
    rw [opStoreItem_pooled]
    exact ⟨rfl, b, rfl⟩
  | delete key =>
    simp only [step]
    unfold opDelete
    have h1 : ∀ k c, getWithBucket E (st.pooled b) k c = getWithBucket E st k c := fun _ _ => rfl
    simp only [h1]
    split
    · exact ⟨rfl, b, rfl⟩
    · split <;> exact ⟨rfl, b, rfl⟩
  | get key => exact ⟨rfl, b, rfl⟩
  | getByHash k c => exact ⟨rfl, b, rfl⟩
  | loadItem key => exact ⟨rfl, b, rfl⟩
  | loadItemByHash k c => exact ⟨rfl, b, rfl⟩
  | len => exact ⟨rfl, b, rfl⟩
  | range => exact ⟨rfl, b, rfl⟩

theorem run_pooled (E : Env) (ops : List Op) : ∀ (st : St) (b : Bool), (run E (st.pooled b) ops).2 = (run E st ops).2 := by
  induction ops with
  | nil => intro st b; rfl
  | cons op ops ih =>
    intro st b
    obtain ⟨h1, b', h2⟩ := step_pooled E st op b
    show (step E (st.pooled b) op).2 :: (run E (step E (st.pooled b) op).1 ops).2 = (step E st op).2 :: (run E (step E st op).1 ops).2
    rw [h1, h2, ih]

/-- What the calls made afterwards answer, whatever they are, is what they would have answered without the call. -/
def NoTrace (E : Env) (st : St) (op : Op) : Prop := ∀ ops, (run E (step E st op).1 ops).2 = (run E st ops).2

theorem setVal_self {l : List Entry} (hn : (refs l).Nodup) {e : Entry} (he : e ∈ l) : setVal e.ref e.val l = l := by
  unfold setVal
  conv_rhs => rw [← List.map_id l]
  refine List.map_congr_left ?_
  intro x hx
  by_cases h : x.ref = e.ref
  · rw [if_pos h]
    have : x = e := List.inj_on_of_nodup_map hn hx he h
    subst this; rfl
  · rw [if_neg h]; rfl

/-- **C114** for maps without embedded pools, in every state the API can reach: whatever the call was and whatever it answered, unless it
answered true (a change was reported) or broke the map (the panic of C15), no later call can tell that it was made. -/
theorem C114_partial {E : Env} {st : St} (hR : Reachable E st) (op : Op) (h1 : (step E st op).2 ≠ .bool true) (_h2 : (step E st op).2 ≠ .panic .bucketHeadEmpty) :
    NoTrace E st op := by
  intro ops
  have hI := hR.inv
  rcases step_eff E hI op with h | ⟨e, nv, b, h⟩ | ⟨key, e, h⟩ | ⟨st2, k, c, e, h⟩
  · obtain ⟨b, hb⟩ := h.same
    rw [hb]
    exact run_pooled E ops st b
  · rw [h.res] at h1 ⊢
    have hb : b = false := by
      cases b with
      | false => rfl
      | true => exact absurd rfl h1
    have hv : nv = e.val := by
      rcases h.val with hv | ⟨_, hv⟩
      · exact hv
      · rw [hb] at hv; cases hv
    rw [hv]
    simp only [setVal_self hI.ii.nodup h.mem]
  · exact absurd (by rw [h.res]) h1
  · exact absurd h.out h1

namespace Emb

def NoTrace (H : HashFns) (st : St) (op : Op) : Prop := ∀ ops, (run H (step H st op).1 ops).2 = (run H st ops).2

theorem setSlot_self {st : St} {b : Path} {p : Pool} (h : st.pools b = some p) (i : Nat) : setSlot st b p i (p.slot i) = st := by
  unfold setSlot
  have h1 : p.arr.set i (p.slot i) = p.arr := by
    apply List.ext_getElem?
    intro j
    rw [List.getElem?_set]
    split
    · rename_i hij; subst hij
      split
      · rename_i hl
        simp [Pool.slot, hl]
      · rename_i hl
        rw [List.getElem?_eq_none (by omega)]
    · rfl
  rw [h1]
  have h2 : upool st.pools b p = st.pools := by
    funext q
    unfold upool
    split
    · rename_i hq; subst hq; exact h.symm
    · rfl
  have h3 : ({ p with arr := p.arr } : Pool) = p := rfl
  rw [h3, h2]

theorem update_quiet {st : St} {b : Path} {p : Pool} (h : st.pools b = some p) {i : Nat} {v : IVal}
    (h1 : (update st b p i v).2 = .bool false) : (update st b p i v).1 = st := by
  unfold update at h1 ⊢
  cases hv : setValue .sample (p.slot i).val v with
  | error e => rfl
  | ok x =>
    obtain ⟨nv, r⟩ := x
    rw [hv] at h1
    simp only at h1 ⊢
    injection h1 with h1
    rcases setValue_val hv with hq | ⟨_, hq⟩
    · rw [hq]; exact setSlot_self h i
    · rw [h1] at hq; cases hq

theorem finish_quiet {st : St} {r : Except Crash St} : (finish st r).2 ≠ .bool false := by
  cases r <;> simp [finish]

/-- **C114** for maps with embedded pools: in any state, a call that comes back with something else than true (false, a value, an item, a number)
leaves no trace. -/
theorem C114_embedded_partial {H : HashFns} {st : St} (op : Op) (h1 : (step H st op).2 ≠ .bool true) (h2 : ∀ p, (step H st op).2 ≠ .panic p)
    (h3 : ∀ c, (step H st op).2 ≠ .crash c) : NoTrace H st op := by
  have key : (step H st op).1 = st := by
    cases op with
    | get key => rfl
    | getByHash k c => rfl
    | loadItem key => rfl
    | loadItemByHash k c => rfl
    | len => rfl
    | set key v =>
      simp only [step] at h1 h2 h3 ⊢
      unfold opSet at h1 h2 h3 ⊢
      cases hk : keyToHash H key with
      | none => rfl
      | some kc =>
        obtain ⟨k, c⟩ := kc
        simp only [hk] at h1 h2 h3 ⊢
        cases hf : find st k c with
        | none => rfl
        | some x =>
          obtain ⟨b, p, oi⟩ := x
          cases oi with
          | some i =>
            simp only [hf] at h1 h2 h3 ⊢
            refine update_quiet (find_pool hf).1 ?_
            cases ho : (update st b p i v).2 with
            | bool y => cases y with
              | false => rfl
              | true => exact absurd ho h1
            | panic q => exact absurd ho (h2 q)
            | crash q => exact absurd ho (h3 q)
            | val _ _ => unfold update at ho; split at ho <;> cases ho
            | item _ => unfold update at ho; split at ho <;> cases ho
            | num _ => unfold update at ho; split at ho <;> cases ho
          | none =>
            exfalso
            simp only [hf] at h1 h2 h3
            cases hg : Pool.getSlot 2 p (rev64 k) with
            | error e => rw [hg] at h3; exact h3 _ rfl
            | ok y =>
              obtain ⟨q, i⟩ := y
              rw [hg] at h1 h2 h3
              cases key with
              | str w =>
                simp only at h1 h2 h3
                split at h2
                · exact h2 _ rfl
                · rename_i nv r hv
                  simp only [hv] at h1 h3
                  revert h1 h3
                  generalize link _ _ _ _ = r
                  cases r with
                  | error c => intro _ h3; exact h3 _ rfl
                  | ok s => intro h1 _; exact h1 rfl
              | _ => exact h2 _ rfl
    | storeItem str v r =>
      simp only [step] at h1 h2 h3 ⊢
      unfold opStoreItem at h1 h2 h3 ⊢
      simp only at h1 h2 h3 ⊢
      cases hf : find st (H.mem str) (H.xx str) with
      | none => rfl
      | some x =>
        obtain ⟨b, p, oi⟩ := x
        cases oi with
        | some i =>
          simp only [hf] at h1 h2 h3 ⊢
          refine update_quiet (find_pool hf).1 ?_
          cases ho : (update st b p i v).2 with
          | bool y => cases y with
            | false => rfl
            | true => exact absurd ho h1
          | panic q => exact absurd ho (h2 q)
          | crash q => exact absurd ho (h3 q)
          | val _ _ => unfold update at ho; split at ho <;> cases ho
          | item _ => unfold update at ho; split at ho <;> cases ho
          | num _ => unfold update at ho; split at ho <;> cases ho
        | none =>
          exfalso
          simp only [hf] at h1 h3
          revert h1 h3
          generalize link _ _ _ _ = r
          cases r with
          | error c => intro _ h3; exact h3 _ rfl
          | ok s => intro h1 _; exact h1 rfl
    | delete key =>
      simp only [step] at h1 ⊢
      unfold opDelete at h1 ⊢
      cases hk : keyToHash H key with
      | none => rfl
      | some kc =>
        obtain ⟨k, c⟩ := kc
        simp only [hk] at h1 ⊢
        cases hf : find st k c with
        | none => rfl
        | some x =>
          obtain ⟨b, p, oi⟩ := x
          cases oi with
          | none => rfl
          | some i => rw [hf] at h1; exact absurd rfl h1
    | purge key =>
      simp only [step] at h1 ⊢
      unfold opPurge at h1 ⊢
      cases hk : keyToHash H key with
      | none => rfl
      | some kc =>
        obtain ⟨k, c⟩ := kc
        simp only [hk] at h1 ⊢
        cases hf : find st k c with
        | none => rfl
        | some x =>
          obtain ⟨b, p, oi⟩ := x
          cases oi with
          | none => rfl
          | some i =>
            simp only [hf] at h1
            split at h1 <;> exact absurd rfl h1
  intro ops
  rw [key]

/-- The full property there: a panic must leave no trace either. -/
def C114_statement (H : HashFns) (st : St) : Prop := ∀ op, (step H st op).2 ≠ .bool true → (∀ c, (step H st op).2 ≠ .crash c) → NoTrace H st op

/-- A Set of an integer key panics, but its slot stays reserved: afterwards Get finds the key. -/
theorem C114_refuted : ¬ ∀ (H : HashFns) (mp : Nat) (ops : List Op), C114_statement H (run H (initSt mp) ops).1 := by
  intro h
  have h1 := h exH 4 [] (.set (.int 5) (some ⟨0, 1⟩)) (by decide +kernel) (by intro c; cases c <;> decide +kernel) [.get (.int 5)]
  revert h1
  decide +kernel

/-- The theorem speaks of calls that find something and of calls that change nothing: a Set with nil, a Delete of an absent key. -/
theorem C114_embedded_applies :
    let st := (run exH (initSt 4) [.set (.str [1]) (some ⟨0, 1⟩)]).1
    (step exH st (.set (.str [1]) none)).2 = .bool false ∧ (step exH st (.delete (.str [2]))).2 = .bool false ∧
    (step exH st (.get (.str [1]))).2 = .val (some ⟨0, 1⟩) true := by decide +kernel

end Emb

/-- Such calls exist: a Set with nil and a Set with a value of another type on a stored key, a Set with an integer key, a Delete of an
absent key; and calls do leave traces. -/
theorem C114_applies :
    let st := (run exE (initSt {}) [.set (.str [1]) (some ⟨0, 1⟩)]).1
    (step exE st (.set (.str [1]) none)).2 = .bool false ∧ (step exE st (.set (.str [1]) (some ⟨1, 1⟩))).2 = .panic .valueType ∧
    (step exE st (.set (.int 5) none)).2 = .panic .keyNotString ∧ (step exE st (.delete (.str [2]))).2 = .bool false ∧
    ¬ NoTrace exE st (.set (.str [2]) none) := by
  refine ⟨by decide +kernel, by decide +kernel, by decide +kernel, by decide +kernel, ?_⟩
  intro h
  have h1 := h [.get (.str [2])]
  revert h1
  decide +kernel
