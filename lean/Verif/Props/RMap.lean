import Verif.Proofs.RMap2
import Verif.Props.Counting
/-!
C39–C44: the read-mostly wrapper `RMap` (rmap/rmap.go), sequential histories, with the real `Map` model as dirty map.

Keys are strings; a key is identified by its hash pair (C18).  `Sane E ops` collects the conditions on the keys of a
history; it is about arguments only (the `Map` of C01 loses keys whose hash is a bucket boundary and confuses colliding
ones).
-/
set_option autoImplicit false
set_option maxRecDepth 20000
namespace SLM.RMap
open History

/-- No two keys of the history share the primary but not the secondary hash; the hashes are spread (see `Spread`);
`NextOnLevel` answers initialised buckets. -/
structure Sane (E : Env) (ops : List ROp) : Prop where
  coll : NoCollision E.H (setOps ops)
  spread : ∃ j M, Spread E.H j M (setOps ops)

theorem Sane.allClean {E : Env} {ops : List ROp} (h : Sane E ops) : AllClean E (setOps ops) := by
  obtain ⟨j, M, hs⟩ := h.spread
  exact allClean_of_spread h.coll hs

/-- The result of a call after a history on a new RMap. -/
def after (E : Env) (ops : List ROp) (op : ROp) : ROut := (step E (run E init ops).1 op).2

/-- Sample history for the examples. -/
def exRops : List ROp :=
  [.set [1] (exV 10), .set [2] (exV 20), .get [1], .set [3] (exV 30), .set [2] (exV 21), .get [2], .get [3], .set [4] (exV 40),
   .set [1] (exV 11), .len, .get [4], .set [5] (exV 50), .get [1]]

theorem exRops_sane : Sane exE exRops :=
  ⟨collB_sound (by decide +kernel), 8, 10, spreadB_sound (by decide +kernel)⟩

/-! ### C39 -/

theorem run_append (E : Env) (R : RSt) (a b : List ROp) : (run E R (a ++ b)).1 = (run E (run E R a).1 b).1 := by
  induction a generalizing R with
  | nil => rfl
  | cons op a ih => exact ih _

/-- C39 for histories with sane keys: once Set(s, v) has returned, Get(s) reports ok after any further Sets, Gets and Lens. -/
theorem C39_partial {E : Env} {ops ops2 : List ROp} {s : List (BitVec 8)} {v : IVal} (h : Sane E (ops ++ .set s v :: ops2))
    (hnd : ∀ t, ROp.delete t ∉ ops ++ .set s v :: ops2) (hret : after E ops (.set s v) = .bool true) :
    ∃ w, after E (ops ++ .set s v :: ops2) (.get s) = .got w true := by
  have hcl := h.allClean
  have hsub : (setOps (ops ++ [.set s v])).Sublist (setOps (ops ++ .set s v :: ops2)) := by
    rw [show ops ++ .set s v :: ops2 = (ops ++ [.set s v]) ++ ops2 by simp, setOps_append (ops ++ [ROp.set s v])]
    exact List.sublist_append_left _ _
  have hcl1 := hcl.sub hsub
  have hcl0 : AllClean E (setOps ops) := hcl1.sub (by rw [setOps_append]; exact List.sublist_append_left _ _)
  have h0 := (run_ok (done := []) (ops := ops) (fun t ht => hnd t (by simp [ht])) hcl0 (ri_init E)).1
  rw [List.nil_append] at h0
  obtain ⟨h1, _, h3⟩ := set_ok hcl1 h0
  have hp := h3 hret
  have h4 := run_ok (ops := ops2) (done := ops ++ [.set s v]) (fun t ht => hnd t (by simp [ht]))
    (by rw [List.append_assoc]; exact hcl) h1
  rw [List.append_assoc] at h4
  have hrun : (run E init (ops ++ .set s v :: ops2)).1 = (run E (set E (run E init ops).1 s v).1 ops2).1 := by
    rw [run_append]; rfl
  unfold after
  rw [hrun]
  rcases get_present hcl h4.1 (s := s) (v := v) (by simp) (h4.2 s hp) with ⟨rd, it, _, _, hg⟩ | ⟨rd, e, _, _, _, hg⟩
  · exact ⟨_, by simp only [step]; rw [hg]⟩
  · exact ⟨_, by simp only [step]; rw [hg]⟩

example : after exE exRops (.get [3]) = .got (.atomicValue (exV 30)) true := by decide +kernel
example : Sane exE exRops ∧ (∀ t, ROp.delete t ∉ exRops) := ⟨exRops_sane, by intro t; simp [exRops]⟩

/-- Hash functions under which the string "\x01" hashes to 3, which is the boundary of an initial bucket, and "\x02",
"\x03" share their primary hash. -/
def badH : HashFns where
  mem s := if s = [1] then 3 else if s = [2] ∨ s = [3] then 0xABCDEF0123456789 else exH.mem s
  xx s := exH.xx s
def badE : Env := { H := badH }

/-- C39 fails for keys whose hash is a bucket boundary (here 3; the first Set of an RMap): Set answers true, the item is
nowhere, Get crashes. -/
theorem C39_refuted :
    after badE [.set [5] (exV 5)] (.set [1] (exV 1)) = .bool true ∧
    after badE [.set [5] (exV 5), .set [1] (exV 1)] (.get [1]) = .panic .nilItem := by
  decide +kernel

/-! ### C40 -/

/-- C40, what holds: values are non-nil and of one type, keys are sane.  Set always answers true; a Get that is ok hands out
a value that was passed to Set for this key, as a plain value only if it is the one set last. -/
theorem C40_partial {E : Env} {ops : List ROp} (h : Sane E ops) (hnd : ∀ t, ROp.delete t ∉ ops) (ht : Typed ops)
    {s : List (BitVec 8)} {v : IVal} (hs : ROp.set s v ∈ ops) :
    ∃ w, (after E ops (.get s) = .got (.plain w) true ∧ lastSet E.H ops (E.H.mem s, E.H.xx s) = some w) ∨
      (after E ops (.get s) = .got (.atomicValue w) true ∧
        ∃ t, ROp.set t w ∈ ops ∧ E.H.mem t = E.H.mem s ∧ E.H.xx t = E.H.xx s) := by
  have hcl := h.allClean
  have h1 := (run_ok (done := []) (ops := ops) hnd hcl (ri_init E)).1
  have h2 := run_rv (done := []) (ops := ops) hnd ht hcl (ri_init E) (rv_init E)
  rw [List.nil_append] at h1 h2
  have hsp : storedPairs E.H (setOps ops) (E.H.mem s) (E.H.xx s) := ⟨_, mem_setOps.2 ⟨s, v, hs, rfl⟩, rfl⟩
  have hp : Present E (run E init ops).1 s := by
    by_cases hm : mget ((run E init ops).1.read.getD {}).m (E.H.mem s) = none
    · refine Or.inr ?_
      rw [h2.last (E.H.mem s, E.H.xx s) hm]
      exact lastSet_none hs
    · obtain ⟨it, hit⟩ := Option.ne_none_iff_exists'.1 hm
      left
      cases hr : (run E init ops).1.read with
      | none => rw [hr] at hit; cases hit
      | some rd => rw [hr] at hit; exact ⟨rd, it, rfl, hit⟩
  unfold after
  rcases get_present hcl h1 hs hp with ⟨rd, it, hr, hm, hg⟩ | ⟨rd, e, hr, hm, hl, hg⟩
  · refine ⟨it.val, Or.inr ⟨by simp only [step]; rw [hg], ?_⟩⟩
    obtain ⟨t, h3, h4, h5⟩ := h2.val rd hr _ (mget_mem hm)
    refine ⟨t, h3, h4.symm, ?_⟩
    have hc := h1.read rd hr _ (mget_mem hm)
    rw [← h5]
    exact collide hcl.coll hc hsp
  · refine ⟨e.val, Or.inl ⟨by simp only [step]; rw [hg], ?_⟩⟩
    rw [← h2.last (E.H.mem s, E.H.xx s) (by rw [hr]; exact hm), absM_m, hl]
    rfl

example : Typed exRops := by
  refine ⟨0, ?_⟩
  intro s v h
  simp only [exRops, List.mem_cons, ROp.set.injEq, List.not_mem_nil, or_false, reduceCtorEq, false_or] at h
  rcases h with h | h | h | h | h | h | h <;> exact ⟨_, h.2⟩

/-- C40 fails: a key that reached the read map keeps its first value for ever, although Set answers true; and Get hands out
the `atomic.Value` struct instead of the value. -/
theorem C40_refuted :
    (run exE init [.set [1] (exV 10), .set [1] (exV 11), .get [1]]).2 =
      [.bool true, .bool true, .got (.atomicValue (exV 10)) true] := by
  decide +kernel

/-- In every state whatsoever: a Set of a key of the read map changes nothing and answers true. -/
theorem C40_read_frozen (E : Env) (R : RSt) (rd : ReadMap) (it : RItem) (s : List (BitVec 8)) (v : IVal)
    (hr : R.read = some rd) (hm : mget rd.m (E.H.mem s) = some it) : set E R s v = (R, .bool true) := by
  unfold set
  simp only [hr, Option.getD_some, hm]
  cases R
  simp only at hr
  subst hr
  rfl

/-! ### C41 -/

/-- C41, what holds: Get of a key whose hash was never set does not report ok; it returns (nil, false) exactly when the read
map exists and is not marked amended, and crashes otherwise. -/
theorem C41_partial {E : Env} {ops : List ROp} (h : Sane E ops) (hnd : ∀ t, ROp.delete t ∉ ops) {s : List (BitVec 8)}
    (hs : ∀ t v, ROp.set t v ∈ ops → E.H.mem t ≠ E.H.mem s) :
    after E ops (.get s) =
      match (run E init ops).1.read with
      | none => .panic .nilRead
      | some rd => if rd.amended then .panic .nilItem else .got (.plain none) false := by
  have hcl := h.allClean
  have h1 := (run_ok (done := []) (ops := ops) hnd hcl (ri_init E)).1
  rw [List.nil_append] at h1
  have g := h1.dirty.good hcl
  have hns : ∀ c, ¬ storedPairs E.H (setOps ops) (E.H.mem s) c := by
    intro c hc
    obtain ⟨t, v, h3, h4, _⟩ := storedPairs_set hc
    exact hs t v h3 h4.symm
  unfold after
  simp only [step]
  unfold get
  dsimp only
  cases hr : (run E init ops).1.read with
  | none => rfl
  | some rd =>
    dsimp only
    cases hm : mget rd.m (E.H.mem s) with
    | some it => exact absurd (h1.read rd hr _ (mget_mem hm)) (hns _)
    | none =>
      dsimp only
      have hl : lookup (run E init ops).1.dirty.items (E.H.mem s) (E.H.xx s) = none := by
        rw [lookup_none g.uniq]
        intro e he hrev
        have := live_stored hcl h1.dirty he
        rw [hrev, rev64_rev64] at this
        exact absurd this (hns _)
      rw [getEntry_eq g, hl]
      split <;> rfl

/-- C41 fails: Get on a new RMap crashes, and Get of an absent key crashes while the read map is amended, e.g. right after
the first Set. -/
theorem C41_refuted :
    after exE [] (.get [1]) = .panic .nilRead ∧ after exE [.set [1] (exV 1)] (.get [2]) = .panic .nilItem := by
  decide +kernel

/-- The good case is reachable. -/
example : after exE [.set [1] (exV 1), .set [2] (exV 2), .get [2]] (.get [3]) = .got (.plain none) false := by decide +kernel

/-! ### C42 -/

/-- C42 fails in every state: Delete never answers true; for a key of the read map it always crashes. -/
theorem C42_refuted (E : Env) (R : RSt) (s : List (BitVec 8)) :
    (delete E R s).2 ≠ .bool true ∧
    ∀ rd it, R.read = some rd → mget rd.m (E.H.mem s) = some it → delete E R s = (R, .panic .casNil) := by
  constructor
  · unfold delete
    dsimp only
    split
    · simp
    · split
      · simp
      · split
        · split
          · split <;> simp
          · split <;> simp
        · simp
  · intro rd it hr hm
    unfold delete
    simp only [hr, hm]

/-- Concretely: after one Set, Delete of the key crashes; a key in the dirty map makes Delete deadlock. -/
theorem C42_refuted_history :
    after exE [.set [1] (exV 1)] (.delete [1]) = .panic .casNil ∧
    after exE [.set [1] (exV 1), .set [2] (exV 2)] (.delete [2]) = .deadlock := by
  decide +kernel

/-- What holds: a Delete that returns keeps the read map, and leaves the dirty map alone except for marking the key's item. -/
theorem C42_frame_partial (E : Env) (R : RSt) (s : List (BitVec 8)) (b : Bool) (h : (delete E R s).2 = .bool b) :
    b = false ∧ (delete E R s).1.read = R.read ∧
    ((delete E R s).1.dirty = R.dirty ∨
      ∃ e, getEntry E R.dirty (E.H.mem s) (E.H.xx s) = some e ∧ (delete E R s).1.dirty.len = R.dirty.len - 1 ∧
        (delete E R s).1.dirty.items = markDeleted R.dirty.itemFn e.ref R.dirty.items) := by
  unfold delete at h ⊢
  dsimp only at h ⊢
  cases hr : R.read with
  | none => rw [hr] at h; cases h
  | some rd =>
    rw [hr] at h
    dsimp only at h ⊢
    cases hm : mget rd.m (E.H.mem s) with
    | some it => rw [hm] at h; cases h
    | none =>
      rw [hm] at h
      dsimp only at h ⊢
      by_cases ha : rd.amended = true
      · rw [if_pos ha] at h ⊢
        cases hg : getEntry E R.dirty (E.H.mem s) (E.H.xx s) with
        | none =>
          rw [hg] at h
          dsimp only at h ⊢
          split at h
          · rename_i hn
            cases h
            rw [if_pos hn]
            exact ⟨rfl, hr, Or.inl rfl⟩
          · cases h
        | some e =>
          rw [hg] at h
          dsimp only at h ⊢
          split at h
          · rename_i hn
            cases h
            rw [if_pos hn]
            exact ⟨rfl, rfl, Or.inr ⟨e, rfl, rfl, rfl⟩⟩
          · cases h
      · rw [if_neg ha] at h ⊢
        cases h
        exact ⟨rfl, hr, Or.inl rfl⟩

/-- The premise is met with a key that was in the dirty map. -/
example : after exE [.set [1] (exV 1), .set [2] (exV 2), .set [3] (exV 3), .set [4] (exV 4)] (.delete [2]) = .bool false := by decide +kernel

/-! ### C43 -/

/-- C43, what holds: Len is the number of keys Get still serves as plain values, i.e. of those not yet promoted. -/
theorem C43_partial {E : Env} {ops : List ROp} (h : Sane E ops) (hnd : ∀ t, ROp.delete t ∉ ops) :
    ∃ L : List (U64 × U64), L.Nodup ∧ after E ops .len = .num L.length ∧
      (∀ kc ∈ L, ∃ s v, ROp.set s v ∈ ops ∧ kc = (E.H.mem s, E.H.xx s)) ∧
      (∀ s, (∃ w, after E ops (.get s) = .got (.plain w) true) → (E.H.mem s, E.H.xx s) ∈ L ∨
        ∃ t v, ROp.set t v ∈ ops ∧ E.H.mem t = E.H.mem s ∧ E.H.xx t ≠ E.H.xx s) := by
  have hcl := h.allClean
  have h1 := (run_ok (done := []) (ops := ops) hnd hcl (ri_init E)).1
  rw [List.nil_append] at h1
  obtain ⟨dops, hsub, hdirty⟩ := h1.dirty
  have hdc := hcl dops hsub
  obtain ⟨L, hL1, hL2, hL3⟩ := C07_no_delete_partial hdc (fun key hk => by
    obtain ⟨s, v, _, hc⟩ := mem_setOps.1 (hsub.mem hk)
    cases hc)
  rw [← hdirty] at hL2 hL3
  refine ⟨L, hL1, ?_, ?_, ?_⟩
  · simp only [SLM.step, Out.num.injEq] at hL3
    unfold after
    simp only [step, len, hL3]
  · rintro ⟨k, c⟩ hkc
    obtain ⟨v, hv⟩ := (hL2 k c).1 hkc
    rw [getByHash_absM (h1.dirty.good hcl)] at hv
    cases hm : (absM (run E init ops).1.dirty).m (k, c) with
    | none => rw [hm] at hv; simp at hv
    | some w =>
      obtain ⟨e, he, hr, hc, _⟩ := (absM_some (h1.dirty.good hcl).uniq).1 hm
      have hst := live_stored hcl h1.dirty he
      rw [hr, rev64_rev64, hc] at hst
      obtain ⟨s, v, h3, h4, h5⟩ := storedPairs_set hst
      exact ⟨s, v, h3, by rw [h4, h5]⟩
  · rintro s ⟨w, hw⟩
    unfold after at hw
    simp only [step] at hw
    unfold get at hw
    dsimp only at hw
    cases hr : (run E init ops).1.read with
    | none => rw [hr] at hw; cases hw
    | some rd =>
      rw [hr] at hw
      dsimp only at hw
      cases hm : mget rd.m (E.H.mem s) with
      | some it =>
        rw [hm] at hw
        dsimp only at hw
        split at hw
        · cases hw
        · rename_i hne
          right
          obtain ⟨t, v, h3, h4, h5⟩ := storedPairs_set (h1.read rd hr _ (mget_mem hm))
          exact ⟨t, v, h3, h4.symm, fun hc => hne (h5.trans hc)⟩
      | none =>
        rw [hm] at hw
        dsimp only at hw
        split at hw
        · left
          cases hg : getEntry E (run E init ops).1.dirty (E.H.mem s) (E.H.xx s) with
          | none => rw [hg] at hw; cases hw
          | some e => exact (hL2 _ _).2 ⟨e.val, by unfold opGetByHash; rw [hg]⟩
        · cases hw

/-- C43 fails: after the first Set, Len is 0 and the key is found. -/
theorem C43_refuted :
    after exE [.set [1] (exV 1)] .len = .num 0 ∧ after exE [.set [1] (exV 1)] (.get [1]) = .got (.atomicValue (exV 1)) true := by
  decide +kernel

/-! ### C44 -/

/-- C44 at the level of hashes, for every state: promotion keeps every entry of the read map whose hash has no live item in
the dirty map, and gives every hash with live items in the dirty map the item data of one of them. -/
theorem C44_hashes (R : RSt) (a : Bool) :
    (∀ k it, mget (R.read.getD {}).m k = some it → (∀ e, Live R.dirty.items e → e.rev ≠ rev64 k) →
      mget ((promote R a).read.getD {}).m k = some it) ∧
    (∀ e, Live R.dirty.items e → ∃ e', Live R.dirty.items e' ∧ e'.rev = e.rev ∧
      mget ((promote R a).read.getD {}).m (rev64 e.rev) = some (readEntry e').2) ∧
    ∀ k, mget ((promote R a).read.getD {}).m k ≠ none →
      mget (R.read.getD {}).m k ≠ none ∨ ∃ e, Live R.dirty.items e ∧ e.rev = rev64 k := by
  have hp : (promote R a).read.getD {} = R.read.getD {} ∧ (∀ e, ¬ Live R.dirty.items e) ∨
      ((promote R a).read.getD {}).m = merged (R.read.getD {}).m R.dirty := by
    rcases promote_cases R a with ⟨h1, _, h3⟩ | _
    · exact Or.inl ⟨by rw [h1], h3⟩
    · unfold promote
      dsimp only
      split
      · rename_i he
        rcases promote_cases R a with ⟨h1, _, h3⟩ | ⟨h1, _⟩
        · exact Or.inl ⟨rfl, h3⟩
        · right
          have hn : merged (R.read.getD {}).m R.dirty = [] := by simpa using he
          have : promote R a = R := by unfold promote; simp only [he, if_true]
          rw [this] at h1
          have hl : ∀ e, ¬ Live R.dirty.items e := by
            rw [h1]
            intro e hl
            have := initSt_dummy dirtyCfg e hl.1
            have h2 := hl.2
            simp [Entry.ignored, this] at h2
          rw [merged_eq] at hn ⊢
          have : R.dirty.items.filter (fun e => !e.ignored) = [] := by
            rw [List.eq_nil_iff_forall_not_mem]
            intro e he
            exact hl e (mem_live.1 he)
          rw [this]; rfl
      · exact Or.inr rfl
  rcases hp with ⟨h1, h2⟩ | h1
  · rw [h1]
    exact ⟨fun k it h _ => h, fun e he => absurd he (h2 e), fun k h => Or.inl h⟩
  · rw [h1]
    refine ⟨fun k it h hn => by rw [merged_none hn]; exact h, fun e he => merged_live he, ?_⟩
    intro k hk
    by_cases hl : ∃ e, Live R.dirty.items e ∧ e.rev = rev64 k
    · exact Or.inr hl
    · rw [merged_none (fun e he hr => hl ⟨e, he, hr⟩)] at hk
      exact Or.inl hk

/-- C44 for sane keys: at every point of a history, every key for which Get is ok is still ok after a promotion. -/
theorem C44_partial {E : Env} {ops : List ROp} (h : Sane E ops) (hnd : ∀ t, ROp.delete t ∉ ops) (a : Bool)
    {s : List (BitVec 8)} {v : IVal} (hs : ROp.set s v ∈ ops) (hok : ∃ w, after E ops (.get s) = .got w true) :
    ∃ w, (get E (promote (run E init ops).1 a) s).2 = .got w true := by
  have hcl := h.allClean
  have h1 := (run_ok (done := []) (ops := ops) hnd hcl (ri_init E)).1
  rw [List.nil_append] at h1
  have hp : Present E (run E init ops).1 s := by
    obtain ⟨w, hw⟩ := hok
    unfold after at hw
    simp only [step] at hw
    unfold get at hw
    dsimp only at hw
    cases hr : (run E init ops).1.read with
    | none => rw [hr] at hw; cases hw
    | some rd =>
      rw [hr] at hw
      dsimp only at hw
      cases hm : mget rd.m (E.H.mem s) with
      | some it => exact Or.inl ⟨rd, it, hr, hm⟩
      | none =>
        rw [hm] at hw
        dsimp only at hw
        split at hw
        · right
          cases hg : getEntry E (run E init ops).1.dirty (E.H.mem s) (E.H.xx s) with
          | none => rw [hg] at hw; cases hw
          | some e =>
            rw [getEntry_eq (h1.dirty.good hcl)] at hg
            rw [absM_m, hg]; simp
        · cases hw
  obtain ⟨h2, h3⟩ := promote_ok hcl h1 a
  rcases get_present hcl h2 hs (h3 s hp) with ⟨_, _, _, _, hg⟩ | ⟨_, _, _, _, _, hg⟩
  · exact ⟨_, by rw [hg]⟩
  · exact ⟨_, by rw [hg]⟩

/-- C44 fails for keys that share their primary hash: the key "\x02" is found with its value before the promotion, and
answers a nil value afterwards (the read map has one slot per primary hash, taken by "\x03"). -/
theorem C44_refuted :
    after badE [.set [5] (exV 5), .set [2] (exV 2), .set [3] (exV 3)] (.get [2]) = .got (.plain (exV 2)) true ∧
    (get badE (promote (run badE init [.set [5] (exV 5), .set [2] (exV 2), .set [3] (exV 3)]).1 true) [2]).2 =
      .got (.plain none) true := by
  decide +kernel

end SLM.RMap
