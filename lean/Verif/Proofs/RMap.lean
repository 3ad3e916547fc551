import Verif.Model.RMap
import Verif.Props.Spread
/-! Lemmas about the RMap model. -/
set_option autoImplicit false
namespace SLM.RMap
open History
open Spec (PMap ans Ans)

/-! ### Go map operations -/

theorem mget_mput_self (m : List (U64 × RItem)) (k : U64) (it : RItem) : mget (mput m k it) k = some it := by
  simp [mget, mput]

theorem mget_mput_ne (m : List (U64 × RItem)) {k k' : U64} (it : RItem) (h : k' ≠ k) : mget (mput m k it) k' = mget m k' := by
  unfold mget mput
  rw [List.find?_cons_of_neg (by simpa using h.symm), List.find?_filter]
  congr 1
  congr 1
  funext p
  by_cases hp : p.1 = k'
  · simp [hp, h]
  · simp [hp]

theorem mget_mem {m : List (U64 × RItem)} {k : U64} {it : RItem} (h : mget m k = some it) : (k, it) ∈ m := by
  unfold mget at h
  rw [Option.map_eq_some_iff] at h
  obtain ⟨p, hp, rfl⟩ := h
  have h1 := List.mem_of_find?_eq_some hp
  have h2 := List.find?_some hp
  simp only [decide_eq_true_eq] at h2
  rw [← h2]; exact h1

theorem mget_ne_nil {m : List (U64 × RItem)} {k : U64} {it : RItem} (h : mget m k = some it) : m.isEmpty = false := by
  cases m with
  | nil => cases h
  | cons a m => rfl

theorem mem_mput {m : List (U64 × RItem)} {k : U64} {it : RItem} {p : U64 × RItem} (h : p ∈ mput m k it) : p = (k, it) ∨ p ∈ m := by
  unfold mput at h
  rcases List.mem_cons.1 h with rfl | h
  · exact Or.inl rfl
  · exact Or.inr (List.mem_filter.1 h).1

/-! ### promotion -/

def addAll (m : List (U64 × RItem)) (es : List Entry) : List (U64 × RItem) :=
  es.foldl (fun m e => mput m (readEntry e).1 (readEntry e).2) m

theorem addAll_other {es : List Entry} {m : List (U64 × RItem)} {k : U64} (h : ∀ e ∈ es, rev64 e.rev ≠ k) :
    mget (addAll m es) k = mget m k := by
  induction es generalizing m with
  | nil => rfl
  | cons e es ih =>
    show mget (addAll (mput m (readEntry e).1 (readEntry e).2) es) k = _
    rw [ih (fun x hx => h x (by simp [hx])), mget_mput_ne]
    exact fun hc => h e (by simp) hc.symm

theorem addAll_some {es : List Entry} {m : List (U64 × RItem)} {k : U64} (h : ∃ e ∈ es, rev64 e.rev = k) :
    ∃ e ∈ es, rev64 e.rev = k ∧ mget (addAll m es) k = some (readEntry e).2 := by
  induction es generalizing m with
  | nil => obtain ⟨e, he, _⟩ := h; cases he
  | cons e es ih =>
    show ∃ x ∈ e :: es, rev64 x.rev = k ∧ mget (addAll (mput m (readEntry e).1 (readEntry e).2) es) k = _
    by_cases h2 : ∃ x ∈ es, rev64 x.rev = k
    · obtain ⟨x, hx, hk, hg⟩ := ih (m := mput m (readEntry e).1 (readEntry e).2) h2
      exact ⟨x, by simp [hx], hk, hg⟩
    · have he : rev64 e.rev = k := by
        obtain ⟨x, hx, hk⟩ := h
        rcases List.mem_cons.1 hx with rfl | hx
        · exact hk
        · exact absurd ⟨x, hx, hk⟩ h2
      refine ⟨e, by simp, he, ?_⟩
      rw [addAll_other (fun x hx hk => h2 ⟨x, hx, hk⟩)]
      rw [show k = (readEntry e).1 from he.symm]
      exact mget_mput_self _ _ _

theorem addAll_mem {es : List Entry} {m : List (U64 × RItem)} {p : U64 × RItem} (h : p ∈ addAll m es) :
    p ∈ m ∨ ∃ e ∈ es, p = readEntry e := by
  induction es generalizing m with
  | nil => exact Or.inl h
  | cons e es ih =>
    rcases ih (m := mput m (readEntry e).1 (readEntry e).2) h with h | ⟨x, hx, rfl⟩
    · rcases mem_mput h with rfl | h
      · exact Or.inr ⟨e, by simp, rfl⟩
      · exact Or.inl h
    · exact Or.inr ⟨x, by simp [hx], rfl⟩

theorem merged_eq (old : List (U64 × RItem)) (d : St) : merged old d = addAll old (d.items.filter (fun e => !e.ignored)) := by
  unfold merged St.rangeItem
  rw [rangeItems_true]
  rfl

theorem mem_live {d : St} {e : Entry} : e ∈ d.items.filter (fun e => !e.ignored) ↔ Live d.items e := by
  unfold Live; rw [List.mem_filter]; simp

theorem merged_none {old : List (U64 × RItem)} {d : St} {k : U64} (h : ∀ e, Live d.items e → e.rev ≠ rev64 k) :
    mget (merged old d) k = mget old k := by
  rw [merged_eq]
  apply addAll_other
  intro e he hk
  apply h e (mem_live.1 he)
  rw [← hk, rev64_rev64]

theorem merged_live {old : List (U64 × RItem)} {d : St} {e : Entry} (h : Live d.items e) :
    ∃ e', Live d.items e' ∧ e'.rev = e.rev ∧ mget (merged old d) (rev64 e.rev) = some (readEntry e').2 := by
  rw [merged_eq]
  obtain ⟨x, hx, hk, hg⟩ := addAll_some (m := old) (k := rev64 e.rev) ⟨e, mem_live.2 h, rfl⟩
  refine ⟨x, mem_live.1 hx, ?_, hg⟩
  have := congrArg rev64 hk
  rwa [rev64_rev64, rev64_rev64] at this

theorem merged_mem {old : List (U64 × RItem)} {d : St} {p : U64 × RItem} (h : p ∈ merged old d) :
    p ∈ old ∨ ∃ e, Live d.items e ∧ p = readEntry e := by
  rw [merged_eq] at h
  rcases addAll_mem h with h | ⟨e, he, rfl⟩
  · exact Or.inl h
  · exact Or.inr ⟨e, mem_live.1 he, rfl⟩

/-! ### The dirty map is a clean `Map` -/

/-- The stores a history of RMap operations can make into a dirty map. -/
def setOps (ops : List ROp) : List Op :=
  ops.filterMap (fun op => match op with | .set s v => some (.storeItem (newItem s v)) | _ => none)

theorem setOps_append (a b : List ROp) : setOps (a ++ b) = setOps a ++ setOps b := by
  unfold setOps; rw [List.filterMap_append]

theorem mem_setOps {ops : List ROp} {op : Op} : op ∈ setOps ops ↔ ∃ s v, ROp.set s v ∈ ops ∧ op = .storeItem (newItem s v) := by
  unfold setOps
  rw [List.mem_filterMap]
  constructor
  · rintro ⟨a, ha, h⟩
    cases a with
    | set s v => exact ⟨s, v, ha, by simpa using h.symm⟩
    | get s => cases h
    | delete s => cases h
    | len => cases h
  · rintro ⟨s, v, h, rfl⟩
    exact ⟨_, h, rfl⟩

/-- The dirty map was made by a sub-sequence of the stores in `L`. -/
def DirtyOk (E : Env) (L : List Op) (d : St) : Prop := ∃ dops, dops.Sublist L ∧ d = (SLM.run E (initSt dirtyCfg) dops).1

/-- Every sub-sequence of the stores in `L` is a clean history for a dirty map. -/
def AllClean (E : Env) (L : List Op) : Prop := ∀ dops, dops.Sublist L → Clean E dirtyCfg dops

theorem AllClean.sub {E : Env} {L L' : List Op} (h : AllClean E L) (hs : L'.Sublist L) : AllClean E L' :=
  fun d hd => h d (hd.trans hs)

theorem noCollision_sub {H : HashFns} {L L' : List Op} (h : NoCollision H L) (hs : L'.Sublist L) : NoCollision H L' :=
  fun a ha b hb => h a (hs.mem ha) b (hs.mem hb)

theorem spread_sub {H : HashFns} {j M : Nat} {L L' : List Op} (h : Spread H j M L) (hs : L'.Sublist L) : Spread H j M L' := by
  refine ⟨fun k => le_trans ?_ (h.few k), h.depth, fun op hop => h.large op (hs.mem hop)⟩
  unfold sharing
  exact (hs.filter _).length_le

theorem freshSets (ops : List ROp) : FreshItems (setOps ops) := by
  intro it hit
  obtain ⟨s, v, _, h⟩ := mem_setOps.1 hit
  cases h
  exact ⟨rfl, rfl⟩

theorem allClean_of_spread {E : Env} {ops : List ROp} {j M : Nat} (hc : NoCollision E.H (setOps ops))
    (hs : Spread E.H j M (setOps ops)) : AllClean E (setOps ops) := by
  intro d hd
  exact spread_clean (noCollision_sub hc hd) (fun it hit => freshSets ops it (hd.mem hit)) (spread_sub hs hd)

theorem DirtyOk.mono {E : Env} {L L' : List Op} {d : St} (h : DirtyOk E L d) (hs : L.Sublist L') : DirtyOk E L' d := by
  obtain ⟨a, ha, hd⟩ := h
  exact ⟨a, ha.trans hs, hd⟩

theorem dirtyOk_init (E : Env) (L : List Op) : DirtyOk E L (initSt dirtyCfg) := ⟨[], List.nil_sublist _, rfl⟩

theorem DirtyOk.good {E : Env} {L : List Op} {d : St} (hcl : AllClean E L) (h : DirtyOk E L d) : Good d := by
  obtain ⟨a, ha, rfl⟩ := h
  exact (hcl a ha).good

theorem PMap.fn_store (H : HashFns) (s : PMap) (it : NewItem) : (s.step H (.storeItem it)).1.fn = s.fn := by
  unfold PMap.step
  dsimp only
  split
  · rfl
  · split
    · unfold PMap.overwrite
      split
      · rfl
      · rfl
      · rfl
      · split <;> rfl
    · rfl

theorem pmap_run_append (H : HashFns) (s : PMap) (a b : List Op) :
    (s.run H (a ++ b)).1 = ((s.run H a).1.run H b).1 := by
  induction a generalizing s with
  | nil => rfl
  | cons op a ih => exact ih _

/-- Storing into the dirty map: what it does to the abstract map. -/
theorem DirtyOk.store {E : Env} {L : List Op} {d : St} {it : NewItem} (hcl : AllClean E (L ++ [.storeItem it])) (h : DirtyOk E L d) :
    DirtyOk E (L ++ [.storeItem it]) (SLM.step E d (.storeItem it)).1 ∧
    (absM (SLM.step E d (.storeItem it)).1, ans (SLM.step E d (.storeItem it)).2) = (absM d).step E.H (.storeItem it) := by
  obtain ⟨a, ha, rfl⟩ := h
  have hs : (a ++ [Op.storeItem it]).Sublist (L ++ [.storeItem it]) := ha.append (List.Sublist.refl _)
  have h1 := (hcl _ hs).refines.2.2
  have h0 := (hcl a (ha.trans (List.sublist_append_left _ _))).refines.2.2
  have hr : SLM.run E (initSt dirtyCfg) (a ++ [Op.storeItem it]) =
      ((SLM.step E (SLM.run E (initSt dirtyCfg) a).1 (.storeItem it)).1,
       (SLM.run E (initSt dirtyCfg) a).2 ++ [(SLM.step E (SLM.run E (initSt dirtyCfg) a).1 (.storeItem it)).2]) := by
    rw [run_append]; rfl
  refine ⟨⟨a ++ [.storeItem it], hs, by rw [hr]⟩, ?_⟩
  have hp : ∀ s : PMap, (s.run E.H (a ++ [Op.storeItem it])) =
      (((s.run E.H a).1.step E.H (.storeItem it)).1, (s.run E.H a).2 ++ [((s.run E.H a).1.step E.H (.storeItem it)).2]) := by
    intro s
    clear h1 h0 hr hs hcl ha
    induction a generalizing s with
    | nil => rfl
    | cons op a ih =>
      show (((s.step E.H op).1.run E.H (a ++ [Op.storeItem it])).1, (s.step E.H op).2 :: ((s.step E.H op).1.run E.H (a ++ [Op.storeItem it])).2) = _
      rw [ih]; rfl
  rw [hr, hp, ← h0] at h1
  simp only [Prod.mk.injEq, List.map_append, List.map_cons, List.map_nil] at h1
  obtain ⟨h2, h3⟩ := h1
  rw [List.append_cancel_left_eq] at h3
  simp only [List.cons.injEq, and_true] at h3
  exact Prod.ext h2 h3

theorem newItem_hash (E : Env) (s : List (BitVec 8)) (v : IVal) : keyToHash E.H (newItem s v).key = some (E.H.mem s, E.H.xx s) := rfl

/-! ### One step, abstractly -/

/-- The key is in the read map, or live in the dirty map. -/
def Present (E : Env) (R : RSt) (s : List (BitVec 8)) : Prop :=
  (∃ rd it, R.read = some rd ∧ mget rd.m (E.H.mem s) = some it) ∨ (absM R.dirty).m (E.H.mem s, E.H.xx s) ≠ none

/-- The invariant of Set/Get histories; `done` are the operations so far. -/
structure RI (E : Env) (done : List ROp) (R : RSt) : Prop where
  dirty : DirtyOk E (setOps done) R.dirty
  amended : ∀ kc, (absM R.dirty).m kc ≠ none → ∃ rd, R.read = some rd ∧ rd.amended = true
  read : ∀ rd, R.read = some rd → ∀ p ∈ rd.m, storedPairs E.H (setOps done) p.1 p.2.conflict

theorem RI.mono {E : Env} {done : List ROp} {R : RSt} (h : RI E done R) (op : ROp) : RI E (done ++ [op]) R := by
  have hs : (setOps done).Sublist (setOps (done ++ [op])) := by rw [setOps_append]; exact List.sublist_append_left _ _
  refine ⟨h.dirty.mono hs, h.amended, fun rd hr p hp => ?_⟩
  obtain ⟨o, ho, hk⟩ := h.read rd hr p hp
  exact ⟨o, hs.mem ho, hk⟩

theorem ri_init (E : Env) : RI E [] init := by
  refine ⟨dirtyOk_init E _, ?_, ?_⟩
  · intro kc h
    exact absurd (by show (absM (initSt dirtyCfg)).m kc = none; rw [absM_init]; rfl) h
  · intro rd h; cases h

theorem live_stored {E : Env} {L : List Op} {d : St} (hcl : AllClean E L) (h : DirtyOk E L d) {e : Entry} (he : Live d.items e) :
    storedPairs E.H L (rev64 e.rev) e.conflict := by
  obtain ⟨a, ha, rfl⟩ := h
  obtain ⟨k, hk, o, ho, hs⟩ := (hcl a ha).refines.2.1 e he
  rw [hk, rev64_rev64]
  exact ⟨o, ha.mem ho, hs⟩

/-- Promotion keeps every key and the invariant. -/
theorem promote_ok {E : Env} {done : List ROp} {R : RSt} (hcl : AllClean E (setOps done)) (h : RI E done R) (a : Bool) :
    RI E done (promote R a) ∧ ∀ s, Present E R s → Present E (promote R a) s := by
  have g := h.dirty.good hcl
  unfold promote
  dsimp only
  split
  · exact ⟨h, fun s hs => hs⟩
  · rename_i hne
    refine ⟨⟨dirtyOk_init E _, ?_, ?_⟩, ?_⟩
    · intro kc hk
      exact absurd (by show (absM (initSt dirtyCfg)).m kc = none; rw [absM_init]; rfl) hk
    · intro rd hrd p hp
      simp only [Option.some.injEq] at hrd
      subst hrd
      rcases merged_mem hp with hp | ⟨e, he, rfl⟩
      · cases hr : R.read with
        | none => rw [hr] at hp; cases hp
        | some rd => rw [hr] at hp; exact h.read rd hr p hp
      · exact live_stored hcl h.dirty he
    · intro s hs
      left
      have : ∃ it, mget (merged (R.read.getD {}).m R.dirty) (E.H.mem s) = some it := by
        by_cases hl : ∃ e, Live R.dirty.items e ∧ e.rev = rev64 (E.H.mem s)
        · obtain ⟨e, he, hr⟩ := hl
          obtain ⟨e', _, _, hg⟩ := merged_live (old := (R.read.getD {}).m) he
          rw [hr, rev64_rev64] at hg
          exact ⟨_, hg⟩
        · rw [merged_none (fun e he hr => hl ⟨e, he, hr⟩)]
          rcases hs with ⟨rd, it, hr, hg⟩ | hs
          · rw [hr]; exact ⟨it, hg⟩
          · exfalso
            obtain ⟨v, hv⟩ := Option.ne_none_iff_exists'.1 hs
            obtain ⟨e, he, hr, _⟩ := (absM_some g.uniq).1 hv
            exact hl ⟨e, he, hr⟩
      obtain ⟨it, hit⟩ := this
      exact ⟨_, it, rfl, hit⟩

/-- `promote` makes the dirty map empty and the read map amended if asked to, unless there was nothing at all. -/
theorem promote_cases (R : RSt) (a : Bool) :
    (promote R a = R ∧ (R.read.getD {}).m = [] ∧ ∀ e, ¬ Live R.dirty.items e) ∨
    ((promote R a).dirty = initSt dirtyCfg ∧ ∃ rd, (promote R a).read = some rd ∧ (a = true ∨ (R.read.getD {}).m = [] → rd.amended = true)) := by
  unfold promote
  dsimp only
  split
  · rename_i he
    left
    have hn : merged (R.read.getD {}).m R.dirty = [] := by simpa using he
    have hl : ∀ e, ¬ Live R.dirty.items e := by
      intro e hl
      obtain ⟨e', _, _, hg⟩ := merged_live (old := (R.read.getD {}).m) hl
      have := mget_ne_nil hg
      rw [he] at this; cases this
    refine ⟨rfl, ?_, hl⟩
    rw [merged_eq] at hn
    have : R.dirty.items.filter (fun e => !e.ignored) = [] := by
      rw [List.eq_nil_iff_forall_not_mem]
      intro e he
      exact hl e (mem_live.1 he)
    rw [this] at hn
    exact hn
  · right
    refine ⟨rfl, _, rfl, ?_⟩
    rintro (rfl | h)
    · rfl
    · simp [h]

theorem absM_ne_none_live {d : St} (hu : Uniq d.items) {kc : U64 × U64} (h : (absM d).m kc ≠ none) : ∃ e, Live d.items e := by
  obtain ⟨v, hv⟩ := Option.ne_none_iff_exists'.1 h
  obtain ⟨e, he, _⟩ := (absM_some (k := kc.1) (c := kc.2) hu).1 hv
  exact ⟨e, he⟩

/-- A store never removes a key from the abstract map. -/
theorem pmap_store_keeps {H : HashFns} {s : PMap} {it : NewItem} {kc : U64 × U64} (h : s.m kc ≠ none) :
    (s.step H (.storeItem it)).1.m kc ≠ none := by
  have hput : ∀ kc' v, (s.put kc' v).m kc ≠ none := by
    intro kc' v
    unfold PMap.put
    dsimp only
    split
    · simp
    · exact h
  unfold PMap.step
  dsimp only
  split
  · exact h
  · split
    · unfold PMap.overwrite
      split
      · exact hput _ _
      · exact h
      · exact hput _ _
      · split
        · exact hput _ _
        · exact h
    · exact hput _ _

theorem pmap_store_adds {H : HashFns} {s : PMap} {it : NewItem} {kc : U64 × U64} (hk : keyToHash H it.key = some kc)
    (h : s.m kc = none) : s.step H (.storeItem it) = (s.put kc it.val, .bool true) := by
  unfold PMap.step
  simp only [hk, h]

/-- What `set` does, with the dirty map's work expressed as a store. -/
theorem set_cases {E : Env} {done : List ROp} {R : RSt} {s : List (BitVec 8)} {v : IVal}
    (hcl : AllClean E (setOps (done ++ [.set s v]))) (h : RI E done R) :
    let rd := R.read.getD {}
    let R0 : RSt := { R with read := some rd }
    let st := fun d => SLM.step E d (.storeItem (newItem s v))
    -- in the read map
    ((mget rd.m (E.H.mem s) ≠ none ∧ set E R s v = (R0, .bool true)) ∨
    -- in the dirty map
     (mget rd.m (E.H.mem s) = none ∧ (absM R.dirty).m (E.H.mem s, E.H.xx s) ≠ none ∧
      (set E R s v).1 = { R0 with dirty := (st R.dirty).1 } ∧
      ((set E R s v).2 = .bool true ∨ ∃ p, (set E R s v).2 = .panic (.map p) ∧ (st R.dirty).1 = R.dirty)) ∨
    -- new
     (mget rd.m (E.H.mem s) = none ∧ (absM R.dirty).m (E.H.mem s, E.H.xx s) = none ∧
      ∃ R1, R1 = (if rd.amended then R0 else promote R0 true) ∧
        set E R s v = (if rd.m.length = 0 then promote { R1 with dirty := (st R1.dirty).1 } true
                        else { R1 with dirty := (st R1.dirty).1 }, .bool true))) := by
  intro rd R0 st
  have hsub : (setOps done).Sublist (setOps (done ++ [.set s v])) := by rw [setOps_append]; exact List.sublist_append_left _ _
  have hcl0 := hcl.sub hsub
  have g := h.dirty.good hcl0
  cases hm : mget rd.m (E.H.mem s) with
  | some it =>
    left
    refine ⟨by simp, ?_⟩
    unfold set
    simp only [hm, R0, rd] at hm ⊢
  | none =>
    right
    have hge : getEntry E R.dirty (E.H.mem s) (E.H.xx s) = lookup R.dirty.items (E.H.mem s) (E.H.xx s) := getEntry_eq g _ _
    cases hl : lookup R.dirty.items (E.H.mem s) (E.H.xx s) with
    | some e =>
      left
      have hst : st R.dirty = update R.dirty e v := by
        have hgw := getWithBucket_eq (E := E) g (E.H.mem s) (E.H.xx s)
        rw [hl] at hgw
        show opStoreItem E R.dirty (newItem s v) = _
        unfold opStoreItem NewItem.keyHash
        rw [newItem_hash]
        dsimp only
        generalize hgb : getWithBucket E R.dirty (E.H.mem s) (E.H.xx s) = gb at hgw
        obtain ⟨g1, g2⟩ := gb
        simp only at hgw
        subst hgw
        rfl
      refine ⟨rfl, by rw [absM_m, hl]; simp, ?_⟩
      have hset : set E R s v = match update R.dirty e v with
          | (_, .panic p) => (R0, .panic (.map p))
          | (d, _) => ({ R0 with dirty := d }, .bool true) := by
        unfold set
        dsimp only
        rw [show mget (R.read.getD {}).m (E.H.mem s) = none from hm]
        dsimp only
        rw [hge, hl]
        rfl
      rw [hset, hst]
      unfold update
      cases hsv : setValue R.dirty.itemFn e.val v with
      | error p => exact ⟨rfl, Or.inr ⟨p, rfl, rfl⟩⟩
      | ok x => obtain ⟨nv, b⟩ := x; exact ⟨rfl, Or.inl rfl⟩
    | none =>
      right
      have habs : (absM R.dirty).m (E.H.mem s, E.H.xx s) = none := by rw [absM_m, hl]; rfl
      refine ⟨rfl, habs, _, rfl, ?_⟩
      set R1 : RSt := if rd.amended then R0 else promote R0 true with hR1
      have hRI0 : RI E done R0 := by
        refine ⟨h.dirty, ?_, ?_⟩
        · intro kc hk
          obtain ⟨x, hx, ha⟩ := h.amended kc hk
          exact ⟨x, by show some (R.read.getD {}) = some x; rw [hx]; rfl, ha⟩
        · intro x hx p hp
          have hx' : rd = x := by simpa [R0] using hx
          subst hx'
          cases hr : R.read with
          | none => simp only [rd, hr] at hp; cases hp
          | some y => simp only [rd, hr] at hp; exact h.read y hr p hp
      have hd1 : DirtyOk E (setOps done) R1.dirty := by
        rw [hR1]; split
        · exact h.dirty
        · exact (promote_ok hcl0 hRI0 true).1.dirty
      have habs1 : (absM R1.dirty).m (E.H.mem s, E.H.xx s) = none := by
        rw [hR1]; split
        · exact habs
        · rcases promote_cases R0 true with ⟨hp, _⟩ | ⟨hp, _⟩
          · rw [hp]; exact habs
          · rw [hp, absM_init]; rfl
      have hcl' := hcl
      rw [setOps_append] at hcl'
      have hst := (hd1.store (it := newItem s v) hcl').2
      rw [pmap_store_adds (newItem_hash E s v) habs1] at hst
      have hans := congrArg Prod.snd hst
      simp only at hans
      unfold set
      dsimp only
      rw [show mget (R.read.getD {}).m (E.H.mem s) = none from hm]
      dsimp only
      rw [hge, hl]
      dsimp only
      have hout : (st R1.dirty).2 = .bool true := by
        have : ans (st R1.dirty).2 = .bool true := hans
        cases ho : (st R1.dirty).2 with
        | bool b => rw [ho] at this; simp only [ans, Ans.bool.injEq] at this; rw [this]
        | val _ _ => rw [ho] at this; cases this
        | item _ => rw [ho] at this; cases this
        | num _ => rw [ho] at this; cases this
        | seq _ => rw [ho] at this; cases this
        | panic _ => rw [ho] at this; cases this
      have hse : opStoreItem E R1.dirty (newItem s v) = ((st R1.dirty).1, .bool true) := by rw [← hout]; rfl
      change (match opStoreItem E R1.dirty (newItem s v) with
        | (_, .panic p) => (R1, ROut.panic (.map p))
        | (d, _) => (if rd.m.length = 0 then promote { R1 with dirty := d } true else { R1 with dirty := d }, ROut.bool true)) = _
      rw [hse]

end SLM.RMap
