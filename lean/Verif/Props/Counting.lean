import Verif.Proofs.Example
import Verif.Proofs.Held
import Verif.Props.Structure
/-!
C07 (Len), C21 (First/Last), C45 (Setup), C47 (Key() of items), C32 (items held by the caller).
-/
set_option autoImplicit false
set_option maxRecDepth 20000
set_option linter.unusedSimpArgs false
namespace SLM
open History Spec

/-! ### C07 -/

/-- Deletes of a history that answered true, given the answers. -/
def successfulDeletes (ops : List Op) (outs : List Out) : Nat :=
  ((ops.zip outs).filter (fun p => match p with | (.delete _, .bool true) => true | _ => false)).length

theorem successfulDeletes_eq (ops : List Op) (outs : List Out) :
    successfulDeletes ops outs = (ops.zip outs).countP isDelTrue := by
  unfold successfulDeletes
  rw [List.countP_eq_length_filter]
  congr 1

/-- C07, corrected: `Len` is the number of retrievable keys plus the number of successful deletes so far (the code never
decrements it).  `L` enumerates the retrievable keys (hash pairs) without repetition. -/
theorem C07_partial {E : Env} {cfg : Cfg} {ops : List Op} (h : Clean E cfg ops) :
    ∃ L : List (U64 × U64), L.Nodup ∧
      (∀ k c, (k, c) ∈ L ↔ ∃ v, opGetByHash E (run E (initSt cfg) ops).1 k c = .val v true) ∧
      (step E (run E (initSt cfg) ops).1 .len).2 = .num (L.length + successfulDeletes ops (run E (initSt cfg) ops).2) := by
  have g := h.good
  have hc := run_count (good_init cfg) h.adm
  have h0 : liveN (initSt cfg).items = 0 := by
    unfold liveN
    rw [List.countP_eq_zero]
    intro e he
    simp [Entry.ignored, initSt_dummy cfg e he]
  rw [h0, initSt_len] at hc
  generalize hst : (run E (initSt cfg) ops).1 = st at *
  refine ⟨(st.items.filter (fun e => !e.ignored)).map (fun e => (rev64 e.rev, e.conflict)), ?_, ?_, ?_⟩
  · have hn : (st.items.filter (fun e => !e.ignored)).Nodup := by
      refine List.Nodup.filter _ ?_
      exact List.Nodup.of_map _ g.inv.ii.nodup
    refine List.Nodup.map_on ?_ hn
    intro a ha b hb hab
    simp only [List.mem_filter, Bool.not_eq_true'] at ha hb
    apply g.uniq a ha.1 b hb.1 ha.2 hb.2
    have := congrArg (fun p => rev64 p.1) hab
    simpa only [rev64_rev64] using this
  · intro k c
    rw [getByHash_absM g]
    simp only [List.mem_map, List.mem_filter, Bool.not_eq_true', Prod.mk.injEq]
    constructor
    · rintro ⟨e, ⟨h1, h2⟩, h3, h4⟩
      have : (absM st).m (k, c) = some e.val := (absM_some g.uniq).2 ⟨e, ⟨h1, h2⟩, by rw [← h3, rev64_rev64], h4, rfl⟩
      exact ⟨e.val, by rw [this]⟩
    · rintro ⟨v, hv⟩
      cases hm : (absM st).m (k, c) with
      | none => rw [hm] at hv; simp at hv
      | some w =>
        obtain ⟨e, h1, h2, h3, _⟩ := (absM_some g.uniq).1 hm
        exact ⟨e, h1, by rw [h2, rev64_rev64], h3⟩
  · simp only [step, List.length_map, successfulDeletes_eq]
    congr 1
    unfold liveN at hc
    rw [List.countP_eq_length_filter] at hc
    simp only [Nat.cast_zero, sub_zero, Int.sub_zero, zero_add] at hc
    omega

/-- Consequence: without successful deletes `Len` is exact. -/
theorem C07_no_delete_partial {E : Env} {cfg : Cfg} {ops : List Op} (h : Clean E cfg ops)
    (hd : ∀ key, Op.delete key ∉ ops) :
    ∃ L : List (U64 × U64), L.Nodup ∧
      (∀ k c, (k, c) ∈ L ↔ ∃ v, opGetByHash E (run E (initSt cfg) ops).1 k c = .val v true) ∧
      (step E (run E (initSt cfg) ops).1 .len).2 = .num L.length := by
  obtain ⟨L, h1, h2, h3⟩ := C07_partial h
  refine ⟨L, h1, h2, ?_⟩
  rw [h3]
  have : successfulDeletes ops (run E (initSt cfg) ops).2 = 0 := by
    rw [successfulDeletes_eq, List.countP_eq_zero]
    rintro ⟨op, o⟩ hp
    have := (List.of_mem_zip hp).1
    cases op with
    | delete key => exact absurd this (hd key)
    | _ => simp [isDelTrue]
  rw [this]; simp

/-- The key a store addresses. -/
def storeKey : Op → Option Key
  | .set key _ => some key
  | .storeItem it => some it.key
  | _ => none

open Classical in
/-- In every reachable map, clean or not: a store of a key LoadItem does not find adds one when it returns, and no other
operation changes `Len`. -/
theorem C07_len_steps {E : Env} {st : St} (h : Reachable E st) (op : Op) :
    (step E st op).1.len =
      if (∃ key, storeKey op = some key ∧ opLoadItem E st key = .item none) ∧ (step E st op).2 = .bool true
      then st.len + 1 else st.len := by
  have hw : (∃ kc, storeHash E.H op = some kc ∧ (getWithBucket E st kc.1 kc.2).1 = none) ↔
      ∃ key, storeKey op = some key ∧ opLoadItem E st key = .item none := by
    constructor
    · rintro ⟨⟨k, c⟩, h1, h2⟩
      cases op with
      | set key v => refine ⟨key, rfl, ?_⟩; simp only [storeHash] at h1; simp [opLoadItem, h1, h2]
      | storeItem it => refine ⟨it.key, rfl, ?_⟩; simp only [storeHash] at h1; simp [opLoadItem, h1, h2]
      | _ => simp [storeHash] at h1
    · rintro ⟨key, h1, h2⟩
      unfold opLoadItem at h2
      cases hk : keyToHash E.H key with
      | none => rw [hk] at h2; simp at h2
      | some kc =>
        rw [hk] at h2
        simp at h2
        cases op with
        | set key' v => simp [storeKey] at h1; subst h1; exact ⟨kc, hk, h2⟩
        | storeItem it => simp [storeKey] at h1; subst h1; exact ⟨kc, hk, h2⟩
        | _ => simp [storeKey] at h1
  rcases step_len E h.inv op with ⟨h1, h2, h3⟩ | ⟨h1, h2⟩
  · rw [if_pos ⟨hw.1 h1, h2⟩, h3]
  · rw [if_neg, h2]
    rintro ⟨h3, h5⟩
    obtain ⟨kc, h3, h4⟩ := hw.2 h3
    exact h1 ⟨kc, h3, h4, h5⟩

/-- C07 fails as stated: after a Set and a Delete no key is retrievable, but `Len` is 1. -/
theorem C07_refuted :
    let s := (run exE (initSt {}) [.set (sk 1) (exV 1), .delete (sk 1)])
    s.2 = [.bool true, .bool true] ∧ (∀ k c v, opGetByHash exE s.1 k c ≠ .val v true) ∧ (step exE s.1 .len).2 = .num 1 := by
  intro s
  refine ⟨by decide +kernel, ?_, by decide +kernel⟩
  intro k c v hg
  have hr : Reachable exE s.1 := ⟨{}, _, rfl⟩
  have : ∀ e ∈ s.1.items, e.ignored = true := by decide +kernel
  unfold opGetByHash at hg
  cases he : getEntry exE s.1 k c with
  | none => rw [he] at hg; simp at hg
  | some e =>
    obtain ⟨h1, h2, _⟩ := getEntry_mem he
    rw [this e h1] at h2; cases h2

/-- Not degenerate: the example history ends with 6 retrievable keys, 2 successful deletes, and `Len` 8. -/
example : (step exE (run exE (initSt exCfg) exOps).1 .len).2 = .num 8 ∧
    successfulDeletes exOps (run exE (initSt exCfg) exOps).2 = 2 := by decide +kernel

/-! ### C21 -/

/-- C21: First and Last are the sentinels with hash 0 and 2^64-1, in every reachable map. -/
theorem C21_first_last {E : Env} {st : St} (h : Reachable E st) :
    (∃ e, st.first = some e ∧ e.dummy = true ∧ e.rev = 0) ∧ (∃ e, st.last = some e ∧ e.dummy = true ∧ e.rev = maxU64) := by
  have := h.ends
  exact ⟨⟨_, this.1, rfl, rfl⟩, ⟨_, this.2, rfl, rfl⟩⟩

/-- Also after an item with hash 0 and one with hash 2^64-1 were stored. -/
example : ((run exE (initSt {}) [.storeItem { kind := .entry, key := .int 0, val := none },
    .storeItem { kind := .entry, key := .int (-1), val := none }]).1.items.filter (fun e => !e.dummy)).length = 2 := by
  decide +kernel

/-! ### C45 -/

/-- The item `SampleItem.Setup()` prepares (sample_hmap_entry.go:67-70): the hash fields hold the un-reversed hashes. -/
def setupItem (s : List (BitVec 8)) (v : IVal) (k c : U64) : NewItem :=
  { kind := .sample, key := .str s, val := v, rev0 := k, conflict0 := c }

/-- C45 fails for every key whose primary hash is not a palindrome (and not 0), in every reachable map that does not have
the key yet: StoreItem of the prepared item does not make it retrievable, although it answers true (unless it crashes). -/
theorem C45_refuted {E : Env} {st : St} (h : Reachable E st) {s : List (BitVec 8)} {v : IVal} {k c : U64}
    (hk : keyToHash E.H (.str s) = some (k, c)) (hnp : rev64 k ≠ k) (hnz : k ≠ 0)
    (habs : ∀ e ∈ st.items, e.dummy = false → e.deleted = false → ¬ (e.rev = rev64 k ∧ e.conflict = c)) :
    (step E st (.storeItem (setupItem s v k c))).2 ∈ [Out.bool true, .panic .bucketHeadEmpty] ∧
    opGet E (step E st (.storeItem (setupItem s v k c))).1 (.str s) = .val none false ∧
    opLoadItem E (step E st (.storeItem (setupItem s v k c))).1 (.str s) = .item none := by
  have hfind : ∀ st' : St, (∀ e ∈ st'.items, e.ignored = false → ¬ (e.rev = rev64 k ∧ e.conflict = c)) →
      opGet E st' (.str s) = .val none false ∧ opLoadItem E st' (.str s) = .item none := by
    intro st' h'
    constructor
    · unfold opGet
      simp only [hk, opGetByHash]
      cases hg : getEntry E st' k c with
      | none => rfl
      | some e =>
        obtain ⟨h1, h2, h3, h4⟩ := getEntry_mem hg
        exact absurd ⟨h3, h4⟩ (h' e h1 h2)
    · unfold opLoadItem
      simp only [hk]
      cases hg : (getWithBucket E st' k c).1 with
      | none => rfl
      | some e =>
        have h2 : getWithBucket E st' k c = (some e, (getWithBucket E st' k c).2) := by rw [← hg]
        obtain ⟨h1, h2, h3, h4⟩ := getWithBucket_mem h2
        exact absurd ⟨h3, h4⟩ (h' e h1 h2)
  have habs' : ∀ e ∈ st.items, e.ignored = false → ¬ (e.rev = rev64 k ∧ e.conflict = c) := by
    intro e he hi
    unfold Entry.ignored at hi
    simp only [Bool.or_eq_false_iff] at hi
    exact habs e he hi.1 hi.2
  have hnone : (getWithBucket E st k c).1 = none := by
    cases hg : (getWithBucket E st k c).1 with
    | none => rfl
    | some e =>
      have h2 : getWithBucket E st k c = (some e, (getWithBucket E st k c).2) := by rw [← hg]
      obtain ⟨h1, h2, h3, h4⟩ := getWithBucket_mem h2
      exact absurd ⟨h3, h4⟩ (habs' e h1 h2)
  have hinv := h.inv
  have hmid : Inv (setMid (storePre st) k (findBucket st.mem (rev64 k)) (newItemEntry st (setupItem s v k c) k c)) :=
    setMid_inv hinv rfl rfl rfl rfl rfl rfl rfl
  have hop : step E st (.storeItem (setupItem s v k c)) = _ := opStoreItem_new (it := setupItem s v k c) hk hnone
  rcases setNew_spec hmid with ⟨st', h1, h2, h3⟩ | ⟨h1, p, hp, h2⟩
  · rw [h1] at hop
    refine ⟨by rw [hop]; simp, ?_⟩
    rw [hop]
    apply hfind
    intro e he hi
    have hdum : e.dummy = false := by unfold Entry.ignored at hi; simp at hi; exact hi.1
    rw [Grow.mem h3 hdum] at he
    have hins : Ins (newItemEntry st (setupItem s v k c) k c) st.items
      (setMid (storePre st) k (findBucket st.mem (rev64 k)) (newItemEntry st (setupItem s v k c) k c)).items := setInsert_ins
    rcases (hins.mem e).2 he with rfl | he
    · have hr : (newItemEntry st (setupItem s v k c) k c).rev = k := by
        show (if k = 0 then rev64 k else k) = k
        exact if_neg hnz
      rintro ⟨hc, _⟩
      rw [hr] at hc
      exact hnp hc.symm
    · exact habs' e he hi
  · rw [h1] at hop
    refine ⟨by rw [hop]; simp, ?_⟩
    rw [hop]
    exact hfind st habs'

example : keyToHash exH (sk 1) = some (exH.mem [1], exH.xx [1]) ∧ rev64 (exH.mem [1]) ≠ exH.mem [1] ∧ exH.mem [1] ≠ 0 ∧
    (step exE (run exE (initSt exCfg) [.set (sk 2) (exV 1)]).1 (.storeItem (setupItem [1] (exV 5) (exH.mem [1]) (exH.xx [1])))).2 = .bool true := by
  decide +kernel

/-- What is left of C45: when the primary hash is its own bit reversal (or 0), storing the prepared item is storing the
unprepared one, so C02 applies. -/
theorem C45_palindrome_partial (E : Env) (st : St) {s : List (BitVec 8)} {v : IVal} {k c : U64}
    (hk : keyToHash E.H (.str s) = some (k, c)) (hp : rev64 k = k) :
    step E st (.storeItem (setupItem s v k c)) =
      step E st (.storeItem { kind := .sample, key := .str s, val := v }) := by
  have h1 : (if (setupItem s v k c).rev0 = 0 then rev64 k else (setupItem s v k c).rev0) = rev64 k := by
    show (if k = 0 then rev64 k else k) = rev64 k
    rw [hp]; exact ite_self _
  have h2 : (if (setupItem s v k c).conflict0 = 0 then c else (setupItem s v k c).conflict0) = c := by
    show (if c = 0 then c else c) = c
    exact ite_self _
  have hk' : (setupItem s v k c).keyHash E.H = some (k, c) := hk
  have hk2 : NewItem.keyHash E.H { kind := .sample, key := .str s, val := v } = some (k, c) := hk
  simp only [step, opStoreItem, hk', hk2, h1, h2, if_true]
  rfl

example : rev64 0x8000000000000001 = 0x8000000000000001 := by decide

/-! ### C32 -/

/-- Items that were not moved: an item obtained by LoadItem keeps denoting the entry, through any clean continuation that does not
delete the key: its Value() is what Get returns, and a SetValue on it that answers true is what Get returns afterwards
and changes no other key. -/
theorem C32_live {E : Env} {cfg : Cfg} {ops ops2 : List Op} (h : Clean E cfg (ops ++ ops2))
    {key : Key} {it : Ref × Kind}
    (hl : loadRef E (run E (initSt cfg) ops).1 key = some it)
    (hd : ∀ key', Op.delete key' ∈ ops2 → keyToHash E.H key' ≠ keyToHash E.H key) :
    let st := (run E (initSt cfg) (ops ++ ops2)).1
    (∃ v, heldValue st it = some v ∧ opGet E st key = .val v true) ∧
    (∀ v, (heldSetValue st it v).2 = .bool true →
      opGet E (heldSetValue st it v).1 key = .val v true ∧
      ∀ key', keyToHash E.H key' ≠ keyToHash E.H key → opGet E (heldSetValue st it v).1 key' = opGet E st key') := by
  intro st
  have g1 := h.left.good
  have g : Good st := h.good
  unfold loadRef at hl
  cases hk : keyToHash E.H key with
  | none => rw [hk] at hl; simp at hl
  | some kc =>
    obtain ⟨k, c⟩ := kc
    rw [hk] at hl
    simp only [Option.map_eq_some_iff] at hl
    obtain ⟨e, he, hit⟩ := hl
    have h2 : getWithBucket E (run E (initSt cfg) ops).1 k c = (some e, (getWithBucket E (run E (initSt cfg) ops).1 k c).2) := by rw [← he]
    obtain ⟨m1, m2, m3, m4⟩ := getWithBucket_mem h2
    obtain ⟨e', a1, a2, a3, a4, a5, _, _⟩ := run_held E (ops := ops2) g1.inv m1 m2 (fun key' hk' => by
      rw [m3, m4, rev64_rev64, ← hk]; exact hd key' hk')
    have hst : (run E (run E (initSt cfg) ops).1 ops2).1 = st := by simp only [st]; rw [run_append]
    rw [hst] at a1
    have hfind : st.items.find? (fun x => decide (x.ref = it.1)) = some e' := by
      have hr : it.1 = e'.ref := by rw [← hit, a2]
      cases hf : st.items.find? (fun x => decide (x.ref = it.1)) with
      | none =>
        rw [List.find?_eq_none] at hf
        exact absurd (by simp [hr]) (hf e' a1)
      | some y =>
        have hy := List.find?_some hf
        have hm := List.mem_of_find?_eq_some hf
        simp only [decide_eq_true_eq] at hy
        rw [ref_inj g.inv.ii.nodup hm a1 (by rw [hy, hr])]
    have hrev : e'.rev = rev64 k := by rw [a4, m3]
    have hcon : e'.conflict = c := by rw [a5, m4]
    have hlive : Live st.items e' := ⟨a1, a3⟩
    constructor
    · refine ⟨e'.val, by simp [heldValue, hfind], ?_⟩
      simp only [opGet, hk]
      rw [getByHash_absM g, (absM_some g.uniq).2 ⟨e', hlive, hrev, hcon, rfl⟩]
    · intro v hv
      unfold heldSetValue at hv ⊢
      rw [hfind] at hv ⊢
      simp only at hv ⊢
      cases hs : setValue it.2 e'.val v with
      | error p => rw [hs] at hv; simp at hv
      | ok x =>
        obtain ⟨nv, b⟩ := x
        rw [hs] at hv
        simp only [Out.bool.injEq] at hv
        subst hv
        have hnv : nv = v := by
          unfold setValue at hs
          split at hs
          · injection hs with hs; injection hs with hs1 _; exact hs1.symm
          · split at hs
            · injection hs with hs; injection hs with _ hs2; cases hs2
            · split at hs
              · injection hs with hs; injection hs with hs1 _; exact hs1.symm
              · split at hs
                · injection hs with hs; injection hs with hs1 _; exact hs1.symm
                · cases hs
        subst hnv
        have hr : it.1 = e'.ref := by rw [← hit, a2]
        simp only
        rw [hr]
        have g' : Good { st with items := setVal e'.ref nv st.items } :=
          g.mapAt hlive (fun x => { x with val := nv }) (fun _ => ⟨rfl, rfl, rfl⟩)
        have hmem : ∀ x, x ∈ setVal e'.ref nv st.items ↔ x = { e' with val := nv } ∨ (x ∈ st.items ∧ x ≠ e') :=
          mem_mapAt g.inv.ii.nodup a1 (fun x => { x with val := nv })
        constructor
        · simp only [opGet, hk]
          rw [getByHash_absM g', (absM_some g'.uniq).2 ⟨{ e' with val := nv }, ⟨(hmem _).2 (Or.inl rfl), a3⟩, hrev, hcon, rfl⟩]
        · intro key' hne
          simp only [opGet]
          cases hk' : keyToHash E.H key' with
          | none => rfl
          | some kc' =>
            obtain ⟨k', c'⟩ := kc'
            simp only
            rw [getByHash_absM g', getByHash_absM g]
            have : (absM { st with items := setVal e'.ref nv st.items }).m (k', c') = (absM st).m (k', c') := by
              apply Option.ext
              intro w
              rw [absM_some g'.uniq, absM_some g.uniq]
              have hno : ∀ x : Entry, x.rev = e'.rev → x.conflict = e'.conflict → x.rev = rev64 k' → x.conflict = c' → False := by
                intro x x1 x2 x3 x4
                apply hne
                rw [hk']
                have : rev64 k' = rev64 k := by rw [← x3, x1, hrev]
                have := congrArg rev64 this
                rw [rev64_rev64, rev64_rev64] at this
                rw [this, ← x4, x2, hcon]
              constructor
              · rintro ⟨x, ⟨x1, x2⟩, x3, x4, x5⟩
                rcases (hmem x).1 x1 with rfl | ⟨x6, _⟩
                · exact absurd (hno _ rfl rfl x3 x4) id
                · exact ⟨x, ⟨x6, x2⟩, x3, x4, x5⟩
              · rintro ⟨x, ⟨x1, x2⟩, x3, x4, x5⟩
                refine ⟨x, ⟨(hmem x).2 (Or.inr ⟨x1, ?_⟩), x2⟩, x3, x4, x5⟩
                rintro rfl
                exact hno x rfl rfl x3 x4
            rw [this]

example : loadRef exE (run exE (initSt exCfg) (exOps.take 4)).1 (sk 2) = some (.item 1, .sample) ∧
    Clean exE exCfg (exOps.take 4 ++ [.set (sk 4) (exV 50), .set (sk 2) (exV 11)]) ∧
    (heldSetValue (run exE (initSt exCfg) (exOps.take 4 ++ [.set (sk 4) (exV 50), .set (sk 2) (exV 11)])).1 (.item 1, .sample) (exV 9)).2 = .bool true :=
  ⟨by decide +kernel, cleanB_sound (by decide +kernel), by decide +kernel⟩

/-- C32 without pools: an item obtained by LoadItem keeps denoting the entry, through any clean continuation that does not
delete the key: its Value() is what Get returns, and a SetValue on it that answers true is what Get returns afterwards
and changes no other key. -/
theorem C32_partial {E : Env} {cfg : Cfg} {ops ops2 : List Op} (h : Clean E cfg (ops ++ ops2))
    (_hp : cfg.pool = false ∧ cfg.mode ≠ modeCombine4) {key : Key} {it : Ref × Kind}
    (hl : loadRef E (run E (initSt cfg) ops).1 key = some it)
    (hd : ∀ key', Op.delete key' ∈ ops2 → keyToHash E.H key' ≠ keyToHash E.H key) :
    let st := (run E (initSt cfg) (ops ++ ops2)).1
    (∃ v, heldValue st it = some v ∧ opGet E st key = .val v true) ∧
    (∀ v, (heldSetValue st it v).2 = .bool true →
      opGet E (heldSetValue st it v).1 key = .val v true ∧
      ∀ key', keyToHash E.H key' ≠ keyToHash E.H key → opGet E (heldSetValue st it v).1 key' = opGet E st key') :=
  C32_live h hl hd

/-! ### C47 -/

/-- All items stored are of the type `fn` and unprepared, and Set (which makes SampleItems) is used only if `fn` is that type. -/
def OneKind (fn : Kind) (ops : List Op) : Prop :=
  (∀ it, Op.storeItem it ∈ ops → it.kind = fn ∧ it.rev0 = 0 ∧ it.conflict0 = 0) ∧
  (∀ key v, Op.set key v ∈ ops → fn = .sample)

structure KeyInv (H : HashFns) (fn : Kind) (S : Key → Prop) (st : St) : Prop where
  fnEq : st.itemFn = fn
  ent : ∀ e ∈ st.items, e.dummy = false → e.deleted = false →
    e.kind = fn ∧ S e.key ∧ keyToHash H e.key = some (rev64 e.rev, e.conflict)

theorem keyInv_step {E : Env} {fn : Kind} {S : Key → Prop} {st : St} (hi : Inv st) (h : KeyInv E.H fn S st) {op : Op}
    (ho : OneKind fn [op]) (hS : ∀ key, storeKey op = some key → S key) : KeyInv E.H fn S (step E st op).1 := by
  rcases step_eff E hi op with x | ⟨e1, nv, b, x⟩ | ⟨key, e1, x⟩ | ⟨st2, k, c, e1, x⟩
  · obtain ⟨b, hb⟩ := x.same
    rw [hb]
    exact ⟨h.fnEq, h.ent⟩
  · rw [x.res]
    refine ⟨h.fnEq, ?_⟩
    intro e he h1 h2
    obtain ⟨y, hy, rfl⟩ := List.mem_map.1 he
    by_cases hr : y.ref = e1.ref
    · simp only [hr, if_true] at h1 h2 ⊢
      exact h.ent y hy h1 h2
    · simp only [hr, if_false] at h1 h2 ⊢
      exact h.ent y hy h1 h2
  · rw [x.res]
    refine ⟨h.fnEq, ?_⟩
    intro e he h1 h2
    obtain ⟨y, hy, rfl⟩ := List.mem_map.1 he
    by_cases hr : y.ref = e1.ref
    · simp [hr] at h2
    · simp only [hr, if_false] at h1 h2 ⊢
      exact h.ent y hy h1 h2
  · have hfn : (step E st op).1.itemFn = st2.itemFn := by
      rcases x.grow with hg | ⟨A, B, n, b, c', hb⟩
      · rw [hg]; rfl
      · rw [hb.same.2.2.1]; rfl
    constructor
    · rw [hfn]
      rcases x.pre with ⟨s, v, hop, h2, _⟩ | ⟨it, hop, h2, _⟩
      · rw [h2]; exact (ho.2 (.str s) v (by simp [hop])).symm
      · rw [h2]; exact h.fnEq
    · intro e he h1 h2
      rcases (x.mem_items h1).2 he with rfl | he
      · rcases x.pre with ⟨s, v, hop, _, he1⟩ | ⟨it, hop, _, he1⟩
        · have := ho.2 (.str s) v (by simp [hop])
          have hh := x.hash
          rw [hop] at hh
          rw [he1]
          refine ⟨this.symm, hS _ (by rw [hop]; rfl), ?_⟩
          simp only [newSetEntry, rev64_rev64]; exact hh
        · have := ho.1 it (by simp [hop])
          have hh := x.hash
          rw [hop] at hh
          rw [he1]
          refine ⟨this.1, hS _ (by rw [hop]; rfl), ?_⟩
          simp only [newItemEntry, this.2.1, this.2.2, if_true, rev64_rev64]; exact hh
      · exact h.ent e he h1 h2

theorem keyInv_run {E : Env} {fn : Kind} {S : Key → Prop} {ops : List Op} {st : St} (hi : Inv st) (h : KeyInv E.H fn S st)
    (ho : OneKind fn ops) (hS : ∀ op ∈ ops, ∀ key, storeKey op = some key → S key) : KeyInv E.H fn S (run E st ops).1 := by
  induction ops generalizing st with
  | nil => exact h
  | cons op ops ih =>
    refine ih (step_inv E hi op) (keyInv_step hi h ⟨fun it hit => ho.1 it ?_, fun key v hv => ho.2 key v ?_⟩ (hS op (by simp)))
      ⟨fun it hit => ho.1 it (by simp [hit]), fun key v hv => ho.2 key v (by simp [hv])⟩ (fun o ho' => hS o (by simp [ho']))
    · simp only [List.mem_singleton] at hit; simp [hit]
    · simp only [List.mem_singleton] at hv; simp [hv]

/-- C47 for maps with one item type (the configured one): an item found for `key` reports a key that was stored and that
has the same hashes; every item Range reports carries a key that was stored. Holds for all such histories (collisions,
boundary keys etc. included). -/
theorem C47_partial {E : Env} {cfg : Cfg} {ops : List Op} (ho : OneKind cfg.itemFn ops) :
    let st := (run E (initSt cfg) ops).1
    (∀ key k' v, opLoadItem E st key = .item (some (k', v)) →
      ∃ key', k' = some key' ∧ (∃ op ∈ ops, storeKey op = some key') ∧ keyToHash E.H key' = keyToHash E.H key) ∧
    (∀ p ∈ (st.rangeItem (fun _ _ => true)).map (view st.itemFn),
      ∃ key', p.1 = some key' ∧ ∃ op ∈ ops, storeKey op = some key') := by
  intro st
  have hk : KeyInv E.H cfg.itemFn (fun key => ∃ op ∈ ops, storeKey op = some key) st := by
    refine keyInv_run (inv_init cfg) ⟨rfl, ?_⟩ ho (fun op h key hk => ⟨op, h, hk⟩)
    intro e he h1
    rw [initSt_dummy cfg e he] at h1; cases h1
  constructor
  · intro key k' v hl
    unfold opLoadItem at hl
    cases hh : keyToHash E.H key with
    | none => rw [hh] at hl; simp at hl
    | some kc =>
      obtain ⟨k, c⟩ := kc
      rw [hh] at hl
      simp only [Out.item.injEq, Option.map_eq_some_iff] at hl
      obtain ⟨e, he, hv⟩ := hl
      have h2 : getWithBucket E st k c = (some e, (getWithBucket E st k c).2) := by rw [← he]
      obtain ⟨m1, m2, m3, m4⟩ := getWithBucket_mem h2
      unfold Entry.ignored at m2
      simp only [Bool.or_eq_false_iff] at m2
      obtain ⟨n1, n2, n3⟩ := hk.ent e m1 m2.1 m2.2
      refine ⟨e.key, ?_, n2, ?_⟩
      · have := congrArg Prod.fst hv
        simp only [view, viewKey, hk.fnEq, n1, if_true] at this
        exact this.symm
      · rw [n3, m3, m4, rev64_rev64]
  · intro p hp
    obtain ⟨e, he, rfl⟩ := List.mem_map.1 hp
    rw [C08_range_all (E := E) ⟨cfg, ops, rfl⟩] at he
    unfold liveItems at he
    simp only [List.mem_filter, Bool.and_eq_true, Bool.not_eq_true'] at he
    obtain ⟨n1, n2, _⟩ := hk.ent e he.1 he.2.1 he.2.2
    exact ⟨e.key, by simp [view, viewKey, hk.fnEq, n1], n2⟩

example : OneKind exCfg.itemFn [.set (sk 2) (exV 20), .storeItem { kind := .sample, key := sk 1, val := exV 10 }] ∧
    opLoadItem exE (run exE (initSt exCfg) [.set (sk 2) (exV 20), .storeItem { kind := .sample, key := sk 1, val := exV 10 }]).1 (sk 1) =
      .item (some (some (sk 1), exV 10)) :=
  ⟨⟨by simp [exCfg], by simp [exCfg]⟩, by decide +kernel⟩

/-- C47 fails when item types are mixed: a Set switches the map to SampleItem, after which the key of an entry stored
before is misread (here `none`); and with the initial ItemFn the key of a stored SampleItem is misread at once. -/
theorem C47_refuted :
    (opLoadItem exE (run exE (initSt {}) [.storeItem { kind := .entry, key := .u64 1000003, val := exV 1 }, .set (sk 1) (exV 2)]).1 (.u64 1000003) =
      .item (some (none, exV 1))) ∧
    (opLoadItem exE (run exE (initSt {}) [.storeItem { kind := .sample, key := sk 1, val := exV 1 }]).1 (sk 1) = .item (some (none, exV 1))) := by
  decide +kernel

end SLM
