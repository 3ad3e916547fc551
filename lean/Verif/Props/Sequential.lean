import Verif.Proofs.Example
/-!
C01–C06, C13, C16, C17: what the answers of sequential histories are, for a map without embedded pool.

`Clean E cfg ops` (Verif/History.lean) excludes the situations the `_refuted` theorems exhibit; everything else —
hash functions, keys, values, bucket size, search mode, length of the history — is arbitrary.
-/
set_option maxRecDepth 20000
set_option autoImplicit false
namespace SLM
open Spec (PMap ans Ans)
open History

/-! ### C01 -/

/-- C01 without side conditions would say this for every configuration and history. -/
def C01_statement (E : Env) (cfg : Cfg) (ops : List Op) : Prop :=
  (run E (initSt cfg) ops).2.map ans = ((PMap.empty cfg.itemFn).run E.H ops).2

/-- C01 for clean histories: every answer is the one of a plain map. -/
theorem C01_partial {E : Env} {cfg : Cfg} {ops : List Op} (h : Clean E cfg ops) : C01_statement E cfg ops :=
  congrArg Prod.snd h.refines.2.2

example : Clean exE exCfg exOps := exClean
example : (run exE (initSt exCfg) exOps).2 =
    [.bool true, .bool true, .bool true, .bool true, .bool true, .bool true, .bool true, .val none false, .val (exV 11) true,
     .bool true, .bool true, .val (exV 21) true, .item (some (none, exV 40)), .bool true, .bool true, .num 8,
     .seq [(some (sk 4), exV 50), (some (sk 2), exV 21), (some (sk 5), exV 60), (some (sk 1), exV 11), (none, exV 40),
           (some (sk 3), exV 30)]] := by
  decide +kernel

/-- C01 fails without the boundary condition: StoreItem of the integer key 3 answers true, LoadItem does not find it. -/
theorem C01_refuted_boundary :
    ∃ ops, FreshItems ops ∧ NoCollision exH ops ∧ NoCrash exE (initSt {}) ops ∧ ¬ C01_statement exE {} ops := by
  refine ⟨[.storeItem { kind := .entry, key := .int 3, val := exV 1 }, .get (.int 3)], ?_, ?_, ?_, ?_⟩
  · exact freshB_sound (by decide +kernel)
  · exact collB_sound (by decide +kernel)
  · unfold NoCrash; decide +kernel
  · unfold C01_statement; decide +kernel

/-- C01 fails without the collision condition: a string and the integer equal to its primary hash. -/
theorem C01_refuted_collision :
    ∃ ops, FreshItems ops ∧ OffBoundary exE (initSt {}) ops ∧ NoCrash exE (initSt {}) ops ∧ ¬ C01_statement exE {} ops := by
  refine ⟨[.storeItem { kind := .sample, key := sk 1, val := exV 1 },
           .storeItem { kind := .entry, key := .u64 (exH.mem [1]), val := exV 2 }, .get (sk 1)], ?_, ?_, ?_, ?_⟩
  · exact freshB_sound (by decide +kernel)
  · exact offB_sound (by decide +kernel)
  · unfold NoCrash; decide +kernel
  · unfold C01_statement; decide +kernel

/-! ### C02 -/

/-- The key a store addresses and the value it stores. -/
def storeArgs : Op → Option (Key × IVal)
  | .set key v => some (key, v)
  | .storeItem it => some (it.key, it.val)
  | _ => none

theorem PMap.overwrite_true {s : PMap} {kc : U64 × U64} {old v : IVal} (h : (s.overwrite kc old v).2 = .bool true) :
    (s.overwrite kc old v).1.m kc = some v := by
  unfold PMap.overwrite at h ⊢
  split at h
  · simp [PMap.put]
  · cases h
  · simp [PMap.put]
  · rename_i o v' h1
    by_cases ht : o.ty = v'.ty
    · simp [ht, PMap.put]
    · rw [if_neg ht] at h; cases h

theorem PMap.store_true {H : HashFns} {s : PMap} {op : Op} {key : Key} {v : IVal} (ha : storeArgs op = some (key, v))
    (h : (s.step H op).2 = .bool true) : ∃ kc, keyToHash H key = some kc ∧ (s.step H op).1.m kc = some v := by
  cases op with
  | set key' v' =>
    simp only [storeArgs, Option.some.injEq, Prod.mk.injEq] at ha
    obtain ⟨rfl, rfl⟩ := ha
    simp only [PMap.step] at h ⊢
    cases hk : keyToHash H key' with
    | none => rw [hk] at h; cases h
    | some kc =>
      refine ⟨kc, rfl, ?_⟩
      rw [hk] at h
      simp only at h ⊢
      cases hs : s.m kc with
      | some old => rw [hs] at h; exact PMap.overwrite_true h
      | none =>
        rw [hs] at h
        cases key' with
        | str s => simp [PMap.put]
        | _ => cases h
  | storeItem it =>
    simp only [storeArgs, Option.some.injEq, Prod.mk.injEq] at ha
    obtain ⟨rfl, rfl⟩ := ha
    simp only [PMap.step] at h ⊢
    cases hk : keyToHash H it.key with
    | none => rw [hk] at h; cases h
    | some kc =>
      refine ⟨kc, rfl, ?_⟩
      rw [hk] at h
      simp only at h ⊢
      cases hs : s.m kc with
      | some old => rw [hs] at h; exact PMap.overwrite_true h
      | none => simp [PMap.put]
  | _ => cases ha

theorem ans_bool {o : Out} {b : Bool} : ans o = .bool b ↔ o = .bool b := by
  cases o <;> simp [ans]

/-- One more operation after a clean history. -/
theorem History.Clean.step {E : Env} {cfg : Cfg} {ops : List Op} {op : Op} (h : Clean E cfg (ops ++ [op])) :
    Good (SLM.step E (run E (initSt cfg) ops).1 op).1 ∧
    (absM (SLM.step E (run E (initSt cfg) ops).1 op).1, ans (SLM.step E (run E (initSt cfg) ops).1 op).2) =
      (absM (run E (initSt cfg) ops).1).step E.H op := by
  have h1 := h.left.refines
  have h2 := h.refines
  have hr : (run E (initSt cfg) (ops ++ [op])).1 = (SLM.step E (run E (initSt cfg) ops).1 op).1 := by rw [run_append]; rfl
  refine ⟨hr ▸ h2.1, ?_⟩
  have ha : AdmOp E (run E (initSt cfg) ops).1 op := by
    refine AdmOp.of h1.1 (S := storedPairs E.H (ops ++ [op])) ?_ ?_ ?_ ?_ ?_
    · rintro k c c' ⟨a, ha, h1⟩ ⟨b, hb, h2⟩
      exact h.coll a ha b hb k c c' h1 h2
    · intro x hx
      obtain ⟨k, hk, o, ho, hs⟩ := h1.2.1 x hx
      exact ⟨k, hk, o, by simp [ho], hs⟩
    · intro k c hk; exact ⟨op, by simp, hk⟩
    · intro it hit; exact h.fresh it (by simp [hit])
    · exact ((OffBoundary.append.1 h.off).2).1
  refine (step_refines h1.1 ha ?_).2
  intro hc
  apply h.crash
  rw [run_append]
  simp [run, hc]

/-- C02: a Set/StoreItem that answers true is seen by the Get right after it, with its value. -/
theorem C02_partial {E : Env} {cfg : Cfg} {ops : List Op} {op : Op} {key : Key} {v : IVal}
    (h : Clean E cfg (ops ++ [op])) (ha : storeArgs op = some (key, v))
    (ht : (step E (run E (initSt cfg) ops).1 op).2 = .bool true) :
    opGet E (step E (run E (initSt cfg) ops).1 op).1 key = .val v true ∧
    ∃ k', opLoadItem E (step E (run E (initSt cfg) ops).1 op).1 key = .item (some (k', v)) := by
  obtain ⟨g, hr⟩ := h.step
  generalize hst : (SLM.step E (run E (initSt cfg) ops).1 op) = so at *
  have h1 : absM so.1 = ((absM (run E (initSt cfg) ops).1).step E.H op).1 := congrArg Prod.fst hr
  have h2 : ans so.2 = ((absM (run E (initSt cfg) ops).1).step E.H op).2 := congrArg Prod.snd hr
  rw [ht] at h2
  obtain ⟨⟨k, c⟩, hk, hm⟩ := PMap.store_true ha h2.symm
  rw [← h1] at hm
  have hl : ∃ e, lookup so.1.items k c = some e ∧ e.val = v := by
    rw [absM_m] at hm; exact Option.map_eq_some_iff.1 hm
  obtain ⟨e, he, hv⟩ := hl
  constructor
  · unfold opGet
    simp only [hk, opGetByHash, getEntry_eq g, he, hv]
  · refine ⟨viewKey so.1.itemFn e, ?_⟩
    unfold opLoadItem
    simp only [hk, getWithBucket_eq g, he, Option.map_some, view, hv]

example : Clean exE exCfg (exOps ++ [.set (sk 9) (exV 5)]) ∧
    (step exE (run exE (initSt exCfg) exOps).1 (.set (sk 9) (exV 5))).2 = .bool true :=
  ⟨cleanB_sound (by decide +kernel), by decide +kernel⟩

/-- C02 fails in general: the integer key 3 (its reversed hash is an initial bucket boundary), and the integer key -1. -/
theorem C02_refuted :
    (let s := step exE (initSt {}) (.storeItem { kind := .entry, key := .int 3, val := exV 1 })
     s.2 = .bool true ∧ opGet exE s.1 (.int 3) = .val none false ∧ opLoadItem exE s.1 (.int 3) = .item none) ∧
    (let s1 := step exE (initSt {}) (.storeItem { kind := .entry, key := .int 31, val := exV 1 })
     let s := step exE s1.1 (.storeItem { kind := .entry, key := .int (-1), val := exV 1 })
     s.2 = .bool true ∧ opGet exE s.1 (.int (-1)) = .val none false ∧ opLoadItem exE s.1 (.int (-1)) = .item none) := by
  constructor <;> decide +kernel

/-! ### C03 -/

/-- C03 fails: with the string key stored, the integer key equal to its primary hash is acknowledged but not found. -/
theorem C03_refuted :
    let a := sk 1
    let b : Key := .u64 (exH.mem [1])
    keyToHash exH a ≠ keyToHash exH b ∧
    (let s1 := step exE (initSt {}) (.storeItem { kind := .sample, key := a, val := exV 1 })
     let s := step exE s1.1 (.storeItem { kind := .entry, key := b, val := exV 2 })
     s1.2 = .bool true ∧ s.2 = .bool true ∧
     ¬ (opGet exE s.1 a = .val (exV 1) true ∧ opGet exE s.1 b = .val (exV 2) true)) := by
  decide +kernel

/-- What is left of C03, in every reachable map: one key is never mistaken for another. Whatever Get/GetByHash finds is a
live item with exactly the two hashes asked for. -/
theorem C03_no_confusion_partial {E : Env} {st : St} (_h : Reachable E st) {k c : U64} {v : IVal}
    (hg : opGetByHash E st k c = .val v true) :
    ∃ e ∈ st.items, e.dummy = false ∧ e.deleted = false ∧ e.rev = rev64 k ∧ e.conflict = c ∧ e.val = v := by
  unfold opGetByHash at hg
  split at hg
  · simp at hg
  · rename_i e he
    obtain ⟨h1, h2, h3, h4⟩ := getEntry_mem he
    unfold Entry.ignored at h2
    simp only [Bool.or_eq_false_iff] at h2
    simp only [Out.val.injEq, and_true] at hg
    exact ⟨e, h1, h2.1, h2.2, h3, h4, hg⟩

/-- C03 for clean histories: all pairs of keys whose primary hashes differ are kept apart (instance of C01). -/
example : opGetByHash exE (run exE (initSt exCfg) exOps).1 (exH.mem [1]) (exH.xx [1]) = .val (exV 11) true ∧
    opGetByHash exE (run exE (initSt exCfg) exOps).1 (exH.mem [1]) 0 = .val none false := by decide +kernel

/-! ### C04 -/

/-- The key an operation writes. -/
def writeKey : Op → Option Key
  | .set key _ => some key
  | .storeItem it => some it.key
  | .delete key => some key
  | _ => none

theorem PMap.step_other {H : HashFns} {s : PMap} {op : Op} {kc : U64 × U64}
    (h : ∀ key, writeKey op = some key → keyToHash H key ≠ some kc) : (s.step H op).1.m kc = s.m kc := by
  have hov : ∀ (kc' : U64 × U64) (old v : IVal), kc' ≠ kc → (s.overwrite kc' old v).1.m kc = s.m kc := by
    intro kc' old v hne
    have hne' : ¬ kc = kc' := fun hc => hne hc.symm
    unfold PMap.overwrite
    split
    · simp [PMap.put, hne']
    · rfl
    · simp [PMap.put, hne']
    · split
      · simp [PMap.put, hne']
      · rfl
  cases op with
  | set key v =>
    have hk0 := h key rfl
    simp only [PMap.step]
    cases hk : keyToHash H key with
    | none => rfl
    | some kc' =>
      have hne : kc' ≠ kc := fun hc => hk0 (by rw [hk, hc])
      have hne' : ¬ kc = kc' := fun hc => hne hc.symm
      simp only
      cases hs : s.m kc' with
      | some old => exact hov _ _ _ hne
      | none => cases key <;> simp [PMap.put, hne']
  | storeItem it =>
    have hk0 := h it.key rfl
    simp only [PMap.step]
    cases hk : keyToHash H it.key with
    | none => rfl
    | some kc' =>
      have hne : kc' ≠ kc := fun hc => hk0 (by rw [hk, hc])
      have hne' : ¬ kc = kc' := fun hc => hne hc.symm
      simp only
      cases hs : s.m kc' with
      | some old => exact hov _ _ _ hne
      | none => simp [PMap.put, hne']
  | delete key =>
    have hk0 := h key rfl
    simp only [PMap.step]
    cases hk : keyToHash H key with
    | none => rfl
    | some kc' =>
      have hne' : ¬ kc = kc' := fun hc => hk0 (by rw [hk, hc])
      simp only
      cases hs : s.m kc' with
      | some old => simp [PMap.del, hne']
      | none => rfl
  | get key => simp only [PMap.step]; cases keyToHash H key <;> rfl
  | loadItem key => simp only [PMap.step]; cases keyToHash H key <;> rfl
  | getByHash k c => rfl
  | loadItemByHash k c => rfl
  | len => rfl
  | range => rfl

/-- C04: an operation that does not write the key with hashes `(k, c)` leaves what lookups of it return unchanged. -/
theorem C04_partial {E : Env} {cfg : Cfg} {ops : List Op} {op : Op} (h : Clean E cfg (ops ++ [op])) {k c : U64}
    (hne : ∀ key, writeKey op = some key → keyToHash E.H key ≠ some (k, c)) :
    opGetByHash E (step E (run E (initSt cfg) ops).1 op).1 k c = opGetByHash E (run E (initSt cfg) ops).1 k c := by
  obtain ⟨g, hr⟩ := h.step
  have h1 : absM (SLM.step E (run E (initSt cfg) ops).1 op).1 = ((absM (run E (initSt cfg) ops).1).step E.H op).1 :=
    congrArg Prod.fst hr
  rw [getByHash_absM g, getByHash_absM h.left.good, h1, PMap.step_other hne]

example : Clean exE exCfg (exOps ++ [.set (sk 9) (exV 5)]) ∧ keyToHash exH (sk 9) ≠ some (exH.mem [1], exH.xx [1]) ∧
    opGetByHash exE (run exE (initSt exCfg) exOps).1 (exH.mem [1]) (exH.xx [1]) = .val (exV 11) true :=
  ⟨cleanB_sound (by decide +kernel), by decide +kernel, by decide +kernel⟩

/-- C04 fails without the side conditions: storing a second key with the same primary hash makes the first one
unretrievable. -/
theorem C04_refuted :
    let s1 := step exE (initSt {}) (.storeItem { kind := .sample, key := sk 1, val := exV 1 })
    let s := step exE s1.1 (.storeItem { kind := .entry, key := .u64 (exH.mem [1]), val := exV 2 })
    keyToHash exH (.u64 (exH.mem [1])) ≠ keyToHash exH (sk 1) ∧
    opGet exE s1.1 (sk 1) = .val (exV 1) true ∧ opGet exE s.1 (sk 1) = .val none false := by
  decide +kernel

/-! ### C05 -/

theorem PMap.run_absent {H : HashFns} {ops : List Op} {s : PMap} {kc : U64 × U64} (h0 : s.m kc = none)
    (hno : ∀ op ∈ ops, storeHash H op ≠ some kc) : (s.run H ops).1.m kc = none := by
  induction ops generalizing s with
  | nil => exact h0
  | cons op ops ih =>
    simp only [PMap.run]
    apply ih
    · by_contra hc
      rcases PMap.step_present hc with h | h
      · exact h h0
      · exact hno op (by simp) h
    · exact fun o ho => hno o (by simp [ho])

theorem PMap.run_append (H : HashFns) (s : PMap) (a b : List Op) :
    (s.run H (a ++ b)).1 = ((s.run H a).1.run H b).1 := by
  induction a generalizing s with
  | nil => rfl
  | cons op a ih => simp only [List.cons_append, PMap.run, ih]

/-- C05: after Delete(key), and as long as nothing stores under the key's hashes, Get(key) does not find it; the next
store that answers true makes it visible again by C02. -/
theorem C05_partial {E : Env} {cfg : Cfg} {ops ops2 : List Op} {key : Key} (h : Clean E cfg (ops ++ .delete key :: ops2))
    {kc : U64 × U64} (hk : keyToHash E.H key = some kc) (hno : ∀ op ∈ ops2, storeHash E.H op ≠ some kc) :
    opGet E (run E (initSt cfg) (ops ++ .delete key :: ops2)).1 key = .val none false := by
  have hr := h.refines
  obtain ⟨k, c⟩ := kc
  have h1 : absM (run E (initSt cfg) (ops ++ .delete key :: ops2)).1 =
      ((PMap.empty cfg.itemFn).run E.H (ops ++ .delete key :: ops2)).1 := congrArg Prod.fst hr.2.2
  have h2 : (absM (run E (initSt cfg) (ops ++ .delete key :: ops2)).1).m (k, c) = none := by
    rw [h1, PMap.run_append]
    simp only [PMap.run]
    apply PMap.run_absent _ hno
    simp only [PMap.step, hk]
    split
    · simp [PMap.del]
    · assumption
  unfold opGet
  simp only [hk]
  rw [getByHash_absM hr.1, h2]

example : Clean exE exCfg (exOps ++ .delete (sk 1) :: [.get (sk 1), .set (sk 9) (exV 1)]) ∧
    opGet exE (run exE (initSt exCfg) exOps).1 (sk 1) = .val (exV 11) true :=
  ⟨cleanB_sound (by decide +kernel), by decide +kernel⟩

/-- C05 fails without the side conditions: a string A and the integer B equal to its primary hash.  B is stored twice
(the second store does not see the first), A is deleted, B is deleted, and B is still found. -/
theorem C05_refuted :
    ∃ (ops : List Op) (b : Key), (step exE (run exE (initSt {}) ops).1 (.delete b)).2 = .bool true ∧
      opGet exE (step exE (run exE (initSt {}) ops).1 (.delete b)).1 b = .val (exV 1) true := by
  refine ⟨[.storeItem { kind := .sample, key := sk 1, val := exV 0 },
           .storeItem { kind := .entry, key := .u64 (exH.mem [1]), val := exV 1 },
           .storeItem { kind := .entry, key := .u64 (exH.mem [1]), val := exV 1 }, .delete (sk 1)], .u64 (exH.mem [1]), ?_⟩
  decide +kernel

/-! ### C06 -/

/-- C06 in every reachable map, relative to LoadItem: Delete answers true exactly if LoadItem finds the key. -/
theorem C06_iff_loadItem {E : Env} {st : St} (_h : Reachable E st) (key : Key) :
    (step E st (.delete key)).2 = .bool true ↔ ∃ r, opLoadItem E st key = .item (some r) := by
  simp only [step, opDelete, opLoadItem]
  cases hk : keyToHash E.H key with
  | none => simp
  | some kc =>
    obtain ⟨k, c⟩ := kc
    simp only
    cases (getWithBucket E st k c).1 with
    | none => simp
    | some e => simp

/-- C06: when Delete answers false nothing changes at all. -/
theorem C06_false_unchanged {E : Env} {st : St} (_h : Reachable E st) (key : Key)
    (hf : (step E st (.delete key)).2 = .bool false) : (step E st (.delete key)).1 = st := by
  simp only [step, opDelete] at hf ⊢
  cases hk : keyToHash E.H key with
  | none => rfl
  | some kc =>
    obtain ⟨k, c⟩ := kc
    rw [hk] at hf
    simp only at hf ⊢
    cases hl : (getWithBucket E st k c).1 with
    | none => rfl
    | some e => rw [hl] at hf; simp at hf

/-- C06 relative to Get, for clean histories. -/
theorem C06_iff_get_partial {E : Env} {cfg : Cfg} {ops : List Op} (h : Clean E cfg ops) (key : Key) :
    (step E (run E (initSt cfg) ops).1 (.delete key)).2 = .bool true ↔
      ∃ v, opGet E (run E (initSt cfg) ops).1 key = .val v true := by
  have g := h.good
  generalize (run E (initSt cfg) ops).1 = st at *
  simp only [step, opDelete, opGet]
  cases hk : keyToHash E.H key with
  | none => simp
  | some kc =>
    obtain ⟨k, c⟩ := kc
    simp only [opGetByHash, getWithBucket_eq g, getEntry_eq g]
    cases lookup st.items k c <;> simp

example : (step exE (run exE (initSt exCfg) exOps).1 (.delete (sk 1))).2 = .bool true ∧
    (step exE (run exE (initSt exCfg) exOps).1 (.delete (sk 77))).2 = .bool false := by decide +kernel

/-! ### C13 -/

/-- C13: after a clean history, switching the search mode changes no answer of Get, LoadItem or Delete, and a search from
any initialised bucket finds the same item. -/
theorem C13_partial {E : Env} {cfg : Cfg} {ops : List Op} (h : Clean E cfg ops) (mode' : Mode) (key : Key) :
    let st := (run E (initSt cfg) ops).1
    opGet E { st with mode := mode' } key = opGet E st key ∧
    opLoadItem E { st with mode := mode' } key = opLoadItem E st key ∧
    (step E { st with mode := mode' } (.delete key)).2 = (step E st (.delete key)).2 ∧
    ∀ b b' t, (st.mem b).level ≠ 0 → (st.mem b').level ≠ 0 → searchByBucket E st b t true = searchByBucket E st b' t true := by
  have g := h.good
  intro st
  have g' : Good { st with mode := mode' } := ⟨⟨g.inv.bi, g.inv.ii, g.inv.lv⟩, g.uniq, g.pos⟩
  refine ⟨?_, ?_, ?_, ?_⟩
  · unfold opGet opGetByHash
    simp only [getEntry_eq g', getEntry_eq (st := st) g]
  · unfold opLoadItem
    simp only [getWithBucket_eq g', getWithBucket_eq (st := st) g]
  · simp only [step]
    unfold opDelete
    cases hk : keyToHash E.H key with
    | none => rfl
    | some kc =>
      obtain ⟨k, c⟩ := kc
      simp only [getWithBucket_eq g', getWithBucket_eq (st := st) g]
      cases lookup st.items k c <;> rfl
  · intro b b' t hb hb'
    rw [search_correct g hb, search_correct g hb']

/-- C13 fails without the side conditions: with a collision, the answer depends on the search mode. -/
theorem C13_refuted :
    ∃ (ops : List Op) (m m' : Mode) (key : Key),
      let st := (run exE (initSt {}) ops).1
      opGet exE { st with mode := m } key ≠ opGet exE { st with mode := m' } key := by
  refine ⟨[.storeItem { kind := .sample, key := sk 1, val := exV 1 },
           .storeItem { kind := .entry, key := .u64 (exH.mem [1]), val := exV 2 }], modeNested, modeCombine, sk 1, ?_⟩
  decide +kernel

/-! ### C16, C17: overwriting through the default item type -/

/-- C16, present key, in every reachable map: Set(key, nil) through the default item type answers false and no value,
key or list position changes. -/
theorem C16_present {E : Env} {st : St} (h : Reachable E st) (hfn : st.itemFn = .sample) {key : Key} {r}
    (hp : opLoadItem E st key = .item (some r)) :
    (step E st (.set key none)).2 = .bool false ∧ (step E st (.set key none)).1 = st := by
  simp only [opLoadItem] at hp
  cases hk : keyToHash E.H key with
  | none => rw [hk] at hp; simp at hp
  | some kc =>
    obtain ⟨k, c⟩ := kc
    rw [hk] at hp
    simp only at hp
    cases hg : (getWithBucket E st k c).1 with
    | none => rw [hg] at hp; simp at hp
    | some e =>
      have h2 : getWithBucket E st k c = (some e, (getWithBucket E st k c).2) := by rw [← hg]
      have hm := getWithBucket_mem h2
      have hop : step E st (.set key none) = update st e none := by simp only [step]; unfold opSet; simp only [hk]; rw [h2]
      rw [hop]
      unfold update
      rw [hfn]
      simp only [setValue, true_and]
      have : setVal e.ref e.val st.items = st.items := by
        unfold setVal
        conv => rhs; rw [← List.map_id st.items]
        apply List.map_congr_left
        intro x hx
        split
        · rename_i hr
          have hxe : x = e := List.inj_on_of_nodup_map h.inv.ii.nodup hx hm.1 hr
          rw [hxe]; rfl
        · rfl
      rw [this, ← hfn]

/-- C16, absent key: Set(key, nil) answers true and Get returns (nil, true). -/
theorem C16_absent_partial {E : Env} {cfg : Cfg} {ops : List Op} {s : List (BitVec 8)}
    (h : Clean E cfg (ops ++ [.set (.str s) none])) (ha : opGet E (run E (initSt cfg) ops).1 (.str s) = .val none false) :
    (step E (run E (initSt cfg) ops).1 (.set (.str s) none)).2 = .bool true ∧
    opGet E (step E (run E (initSt cfg) ops).1 (.set (.str s) none)).1 (.str s) = .val none true := by
  have g := h.left.good
  obtain ⟨_, hr⟩ := h.step
  have ht : (step E (run E (initSt cfg) ops).1 (.set (.str s) none)).2 = .bool true := by
    have h2 := congrArg Prod.snd hr
    simp only at h2
    rw [← ans_bool, h2]
    simp only [opGet] at ha
    cases hk : keyToHash E.H (.str s) with
    | none => simp [keyToHash] at hk
    | some kc =>
      obtain ⟨k, c⟩ := kc
      rw [hk] at ha
      simp only at ha
      rw [getByHash_absM g] at ha
      simp only [PMap.step, hk]
      cases hm : (absM (run E (initSt cfg) ops).1).m (k, c) with
      | none => rfl
      | some v => rw [hm] at ha; simp at ha
  exact ⟨ht, (C02_partial h rfl ht).1⟩

/-- C16 fails for an absent key whose reversed hash is the boundary of a bucket: Set(key, nil) answers true, Get does not find
it. (A hash function that gives 3 for the string.) -/
theorem C16_refuted :
    let H : HashFns := { mem := fun _ => 3, xx := fun _ => 7 }
    let s := step { H := H } (initSt {}) (.set (sk 1) none)
    opGet { H := H } (initSt {}) (sk 1) = .val none false ∧ s.2 = .bool true ∧ opGet { H := H } s.1 (sk 1) = .val none false := by
  decide +kernel

example : Clean exE exCfg (exOps ++ [.set (sk 9) none]) ∧
    opGet exE (run exE (initSt exCfg) exOps).1 (sk 9) = .val none false ∧
    (run exE (initSt exCfg) exOps).1.itemFn = .sample ∧
    opLoadItem exE (run exE (initSt exCfg) exOps).1 (sk 1) = .item (some (some (sk 1), exV 11)) :=
  ⟨cleanB_sound (by decide +kernel), by decide +kernel, by decide +kernel, by decide +kernel⟩

/-- C17, in every reachable map: Set of a present key (default item type) with a value of another dynamic type panics and
leaves the map as it was. -/
theorem C17_type_change {E : Env} {st : St} (_h : Reachable E st) (hfn : st.itemFn = .sample) {key : Key} {kv : Option Key} {o v : Val}
    (hp : opLoadItem E st key = .item (some (kv, some o))) (ht : o.ty ≠ v.ty) :
    step E st (.set key (some v)) = (st, .panic .valueType) := by
  simp only [opLoadItem] at hp
  cases hk : keyToHash E.H key with
  | none => rw [hk] at hp; simp at hp
  | some kc =>
    obtain ⟨k, c⟩ := kc
    rw [hk] at hp
    simp only at hp
    cases hg : (getWithBucket E st k c).1 with
    | none => rw [hg] at hp; simp at hp
    | some e =>
      have h2 : getWithBucket E st k c = (some e, (getWithBucket E st k c).2) := by rw [← hg]
      have hop : step E st (.set key (some v)) = update st e (some v) := by
        simp only [step]; unfold opSet; simp only [hk]; rw [h2]
      have hv : e.val = some o := by
        rw [hg] at hp
        simp only [Option.map_some, view, Out.item.injEq, Option.some.injEq, Prod.mk.injEq] at hp
        exact hp.2
      rw [hop]
      unfold update
      simp only [hfn, hv, setValue, if_neg ht]

/-- With generic items (`ItemFn` of the default configuration) the claim of C17 does not hold: the value is replaced. -/
theorem C17_refuted_entry :
    let st := (run exE (initSt {}) [.storeItem { kind := .entry, key := .u64 1000003, val := some ⟨0, 1⟩ }]).1
    (step exE st (.set (.u64 1000003) (some ⟨1, 2⟩))).2 = .bool true ∧
    opGet exE (step exE st (.set (.u64 1000003) (some ⟨1, 2⟩))).1 (.u64 1000003) = .val (some ⟨1, 2⟩) true := by
  decide +kernel

example : step exE (run exE (initSt exCfg) exOps).1 (.set (sk 1) (some ⟨7, 3⟩)) = ((run exE (initSt exCfg) exOps).1, .panic .valueType) :=
  C17_type_change ⟨exCfg, exOps, rfl⟩ (by decide +kernel) (kv := some (sk 1)) (o := ⟨0, 11⟩) (by decide +kernel) (by decide)

end SLM
