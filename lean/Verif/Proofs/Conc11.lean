import Verif.Proofs.Conc10
import Verif.SpecCell
import Verif.Proofs.Refine
/-! Concurrent use: the calls on one key take effect one after the other, if no two Sets of it insert and no two Deletes delete the same entry. -/
set_option autoImplicit false
set_option linter.unusedSimpArgs false
namespace SLM.Conc
variable {Pk : CSt → Call → Ref → Prop}

/-- What the list holds for the key with this reversed hash. -/
def holds (l : List Entry) (t : U64) : Option IVal := (liveAt l t).map (·.val)

theorem holds_none {l : List Entry} {t : U64} : holds l t = none ↔ NoLive l t := by
  unfold holds
  rw [Option.map_eq_none_iff, liveAt_none]
  constructor
  · intro h x hx ht
    by_contra hc
    exact h x hx (by simpa using hc) ht
  · intro h x hx hl ht
    rw [h x hx ht] at hl; cases hl

theorem holds_some {l : List Entry} {t : U64} (nd : (refs l).Nodup) (one : AtMostOne l t) {x : Entry} (hx : x ∈ l) (ht : x.rev = t)
    (hl : x.ignored = false) : holds l t = some x.val := by
  unfold holds
  cases h : liveAt l t with
  | none => exact absurd ht (liveAt_none.1 h x hx hl)
  | some y =>
    obtain ⟨h1, h2, h3⟩ := liveAt_some_mem h
    have : y = x := List.inj_on_of_nodup_map nd h1 hx (one y h1 x hx h3 ht h2 hl)
    rw [this]; rfl

theorem holds_live {l : List Entry} {t : U64} {v : IVal} (h : holds l t = some v) : ∃ x ∈ l, x.rev = t ∧ x.ignored = false ∧ x.val = v := by
  unfold holds at h
  obtain ⟨x, hx, h2⟩ := Option.map_eq_some_iff.1 h
  obtain ⟨h3, h4, h5⟩ := liveAt_some_mem hx
  exact ⟨x, h3, h5, h4, h2⟩

/-- The call a goroutine that is going to link `e` performs. -/
def entryCall (e : Entry) : Option Call := if e.dummy then none else some (.set e.rev e.conflict e.key e.val)

/-- The call a goroutine performs. -/
def callOf : PC → Option Call
  | .pick cl => some cl
  | .look cl _ _ _ _ => some cl
  | .lost cl _ _ => some cl
  | .hit cl _ => some cl
  | .miss cl _ => some cl
  | .fOpt _ e _ _ => entryCall e
  | .fLoop _ e _ _ _ _ => entryCall e
  | .fEnd _ e _ _ _ => entryCall e
  | .start2 e _ _ => entryCall e
  | .target e _ _ => entryCall e
  | .check e _ => entryCall e
  | .link e _ => entryCall e
  | _ => none

/-- A step does not change the call, or ends it. -/
theorem step_callOf {s s' : CSt} {g : Tid} (st : Step Pk s g s') {cl : Call} (h : callOf (s.pc g) = some cl) :
    callOf (s'.pc g) = some cl ∨ (∃ t p, cl = .split t p) ∨ ∃ res, s'.pc g = .ret res := by
  cases st <;> rw [setPC_same]
  all_goals (first | (rename_i h1; rw [h1] at h) | (rename_i h1 _; rw [h1] at h) | (rename_i h1 _ _; rw [h1] at h) | (rename_i h1 _ _ _; rw [h1] at h) | (rename_i h1 _ _ _ _; rw [h1] at h))
  all_goals (simp only [callOf, reduceCtorEq] at h)
  all_goals (first | exact Or.inl h | exact Or.inr (Or.inr ⟨_, rfl⟩) | skip)
  all_goals (try (cases h))
  all_goals (first | exact Or.inr (Or.inl ⟨_, _, rfl⟩) | exact Or.inl rfl | skip)
  all_goals (split <;> first | exact Or.inl rfl | exact Or.inl h | exact Or.inr (Or.inr ⟨_, rfl⟩))

/-- The goroutine is in a Set or Delete of a key with this reversed hash. -/
def Writes (t : U64) (p : PC) : Prop := (∃ c key v, callOf p = some (.set t c key v)) ∨ ∃ c, callOf p = some (.del t c)

theorem inSet_iff {t : U64} {p : PC} : InSet t p ↔ ∃ c key v, callOf p = some (.set t c key v) := by
  cases p with
  | pick cl => cases cl <;> simp [InSet, callOf]
  | look cl _ _ _ _ => cases cl <;> simp [InSet, callOf]
  | hit cl _ => cases cl <;> simp [InSet, callOf]
  | miss cl _ => cases cl <;> simp [InSet, callOf]
  | lost cl _ _ => cases cl <;> simp [InSet, callOf]
  | _ => simp only [InSet, callOf, entryCall] <;> (try split) <;> simp_all

/-- The goroutine is in a Set of a key with this reversed hash, has located the bucket, and has not found the key. -/
def Seeks (t : U64) : PC → Prop
  | .pick _ => False
  | .hit _ _ => False
  | p => InSet t p

theorem Way.of_seeks {l : List Entry} {t : U64} {p : PC} (h : ¬ Seeks t p) : Way l t p := by
  cases p with
  | pick cl => trivial
  | hit cl r => trivial
  | _ => exact Way.trivial h

/-- The conditions of C92 on a step. -/
structure Orderly (t c : U64) (s : CSt) (g : Tid) (s' : CSt) : Prop where
  /-- check and link before a node are not interrupted by another link before the same node (the order is kept) -/
  alone : Alone s g
  /-- no call of the key locates a bucket whose sentinel is not linked yet -/
  located : ∀ cl p r, s'.pc g = .lost cl p r → ∀ c', cl.target ≠ some (t, c')
  /-- when a Set links a new entry of the key, no other Set of the key is looking for it -/
  insert : ∀ e r, s.pc g = .link e r → e.rev = t → e.dummy = false → ∀ u, u ≠ g → ¬ Seeks t (s.pc u)
  /-- no Delete of the key marks an entry that another one has marked since it was found -/
  fresh : ∀ c' r, s.pc g = .hit (.del t c') r → ∃ x ∈ s.items, x.ref = r ∧ x.ignored = false
  /-- no key with the same primary hash and another conflict hash is Set -/
  conf : s.pc g = .idle → ∀ c' key v, s'.pc g = .pick (.set t c' key v) → c' = c
  /-- no Set of the key gives up (C33) -/
  kept : ∀ e r, s.pc g = .check e r → e.rev = t → e.dummy = false → checkOk s.items e r = true

theorem Orderly.loc {t c : U64} {s s' : CSt} {g : Tid} (o : Orderly t c s g s') : Located t (s'.pc g) :=
  fun c' _ _ p r h => o.located _ p r h c' rfl

structure LinInv (s : CSt) (t c : U64) : Prop where
  j : J1 s
  ha : HitAt s
  conf : ∀ u, SetC t c (s.pc u)
  one : AtMostOne s.items t
  way : ∀ u, Way s.items t (s.pc u)

/-- Nobody but a Delete of the key takes a live entry of the key away, nobody but a Set changes its value. -/
theorem live_keep {s s' : CSt} {g : Tid} {t : U64} (nd : (refs s.items).Nodup) (ha : HitAt s) (st : Step Pk s g s') (hn : ¬ Writes t (s.pc g))
    {x : Entry} (hx : x ∈ s.items) (ht : x.rev = t) (hl : x.ignored = false) :
    ∃ y ∈ s'.items, y.ref = x.ref ∧ y.rev = t ∧ y.ignored = false ∧ y.val = x.val := by
  cases st <;> try exact ⟨x, hx, rfl, ht, hl, rfl⟩
  case hitSet t' c key v r x' nv ok h1 h2 h3 =>
    by_cases hr : x.ref = r
    · exfalso
      obtain ⟨z, hz, hz1, hz2⟩ := ha g _ r h1
      have : x = z := List.inj_on_of_nodup_map nd hx hz (hr.trans hz1.symm)
      simp only [Call.target, Option.some.injEq, Prod.mk.injEq] at hz2
      apply hn
      rw [h1]
      exact Or.inl ⟨c, key, v, by rw [← ht, this, ← hz2.1]; rfl⟩
    · exact ⟨x, List.mem_map.2 ⟨x, hx, if_neg hr⟩, rfl, ht, hl, rfl⟩
  case hitDel t' c r h1 =>
    by_cases hr : x.ref = r
    · exfalso
      obtain ⟨z, hz, hz1, hz2⟩ := ha g _ r h1
      have : x = z := List.inj_on_of_nodup_map nd hx hz (hr.trans hz1.symm)
      simp only [Call.target, Option.some.injEq, Prod.mk.injEq] at hz2
      apply hn
      rw [h1]
      exact Or.inr ⟨c, by rw [← ht, this, ← hz2.1]; rfl⟩
    · exact ⟨x, List.mem_map.2 ⟨x, hx, if_neg hr⟩, rfl, ht, hl, rfl⟩
  case link e r h1 => exact ⟨x, mem_insBefore.2 (Or.inr hx), rfl, ht, hl, rfl⟩

theorem Step.writes {s s' : CSt} {g : Tid} (st : Step Pk s g s') {t : U64} (h : Writes t (s'.pc g)) : s.pc g = .idle ∨ Writes t (s.pc g) := by
  rcases h with ⟨c, key, v, h⟩ | ⟨c, h⟩
  · exact (st.inSet (inSet_iff.2 ⟨c, key, v, h⟩)).imp id (fun h => Or.inl (inSet_iff.1 h))
  · have key : ∀ cl, callOf (s.pc g) = some cl → cl = .del t c → Writes t (s.pc g) := fun cl h1 h2 => Or.inr ⟨c, by rw [h1, h2]⟩
    have ent : ∀ e : Entry, entryCall e ≠ some (.del t c) := fun e he => by
      unfold entryCall at he; split at he <;> cases he
    cases st <;> rw [setPC_same] at h
    all_goals (first
      | (rename_i h1; exact Or.inl h1) | (rename_i h1 _; exact Or.inl h1)
      | (rename_i h1; refine Or.inr (key _ (by rw [h1]; rfl) ?_)) | (rename_i h1 _; refine Or.inr (key _ (by rw [h1]; rfl) ?_))
      | (rename_i h1 _ _; refine Or.inr (key _ (by rw [h1]; rfl) ?_)) | (rename_i h1 _ _ _; refine Or.inr (key _ (by rw [h1]; rfl) ?_))
      | (rename_i h1 _ _ _ _; refine Or.inr (key _ (by rw [h1]; rfl) ?_)) | skip)
    all_goals (first | (simp only [callOf, reduceCtorEq] at h; done) | (exact absurd h (ent _)) | skip)
    all_goals (try split at h)
    all_goals (first | (simp only [callOf, reduceCtorEq] at h; done) | (exact absurd h (ent _)) | (simp only [callOf, Option.some.injEq] at h; exact h))

theorem LinInv.step (pk : PkOk Pk) {s s' : CSt} {g : Tid} {t c : U64} (I : LinInv s t c) (st : Step Pk s g s') (o : Orderly t c s g s')
    (hc : Clear s' t c) : LinInv s' t c := by
  refine ⟨st.j1 pk o.alone I.j, I.ha.step st, ?_, ?_, ?_⟩
  · intro u
    by_cases hu : u = g
    · subst hu; exact st.setC (I.conf u) o.conf
    · rw [st.others hu]; exact I.conf u
  · cases st.eff with
    | none h1 => rw [h1]; exact I.one
    | inplace f hf h1 => rw [h1]; exact I.one.map hf
    | ins e r h1 h2 =>
      rw [h2]
      by_cases he : e.rev = t ∧ e.dummy = false
      · have hw := I.way g
        rw [h1] at hw
        have hw2 : ∀ x ∈ s.items, x.rev = t → x.ignored = true := hw he
        clear hw
        intro x hx y hy hxt hyt hxl hyl
        rcases mem_insBefore.1 hx with rfl | hx
        · rcases mem_insBefore.1 hy with rfl | hy
          · rfl
          · rw [hw2 y hy hyt] at hyl; cases hyl
        · rw [hw2 x hx hxt] at hxl; cases hxl
      · have hne : ∀ x, x.rev = t → x.ignored = false → x = e → False := by
          intro x hxt hxl hxe
          subst hxe
          simp only [Entry.ignored, Bool.or_eq_false_iff] at hxl
          exact he ⟨hxt, hxl.1⟩
        intro x hx y hy hxt hyt hxl hyl
        rcases mem_insBefore.1 hx with hxe | hx
        · exact absurd hxe (fun h => hne x hxt hxl h)
        · rcases mem_insBefore.1 hy with hye | hy
          · exact absurd hye (fun h => hne y hyt hyl h)
          · exact I.one x hx y hy hxt hyt hxl hyl
  · intro u
    by_cases hu : u = g
    · subst hu; exact Way.self pk I.j st (hc.back st.ext) (I.conf u) o.loc (I.way u)
    · rw [st.others hu]
      have hw := I.way u
      cases st.eff with
      | none h1 => rw [h1]; exact hw
      | inplace f hf h1 => rw [h1]; exact hw.map hf
      | ins e r h1 h2 =>
        rw [h2]
        by_cases he : e.rev = t ∧ e.dummy = false
        · exact Way.of_seeks (o.insert e r h1 he.1 he.2 u hu)
        · exact hw.ins he

/-- A step of a goroutine in no Set or Delete of the key does not change what the map holds for it. -/
theorem holds_other {s s' : CSt} {g : Tid} {t c : U64} (I : LinInv s t c) (I' : LinInv s' t c) (st : Step Pk s g s')
    (hn : ¬ Writes t (s.pc g)) : holds s'.items t = holds s.items t := by
  have hn' : ¬ InSet t (s.pc g) := fun h => hn (Or.inl (inSet_iff.1 h))
  cases h : holds s.items t with
  | none =>
    rw [holds_none] at h ⊢
    exact h.other I.j.nd I.ha st hn'
  | some v =>
    obtain ⟨x, hx, h1, h2, h3⟩ := holds_live h
    obtain ⟨y, hy, _, h5, h6, h7⟩ := live_keep I.j.nd I.ha st hn hx h1 h2
    rw [holds_some I'.j.nd I'.one hy h5 h6, h7, h3]

theorem cell_set {o : IVal} {t c : U64} {key : Key} {v : IVal} {nv : IVal} {ok : Bool} (h : setValue .sample o v = .ok (nv, ok)) :
    cell (some o) (.set t c key v) = (some nv, .bool ok) := by
  unfold setValue at h
  cases v with
  | none => simp only [Except.ok.injEq, Prod.mk.injEq] at h; rw [← h.1, ← h.2]; rfl
  | some v =>
    cases o with
    | none => simp only [Except.ok.injEq, Prod.mk.injEq] at h; rw [← h.1, ← h.2]; rfl
    | some o =>
      simp only at h
      split at h
      · rename_i hty
        simp only [Except.ok.injEq, Prod.mk.injEq] at h
        rw [← h.1, ← h.2]; simp [cell, hty]
      · cases h

theorem cell_panic {o : IVal} {t c : U64} {key : Key} {v : IVal} {p : Panic} (h : setValue .sample o v = .error p) :
    cell (some o) (.set t c key v) = (some o, .panic) := by
  unfold setValue at h
  cases v with
  | none => cases h
  | some v =>
    cases o with
    | none => cases h
    | some o =>
      simp only at h
      split at h
      · cases h
      · rename_i hty; simp [cell, hty]

/-- The value of a node. -/
def valAt (l : List Entry) (r : Ref) : Option IVal := (node l r).map (·.val)

theorem valAt_mem {l : List Entry} (nd : (refs l).Nodup) {x : Entry} (hx : x ∈ l) : valAt l x.ref = some x.val := by
  unfold valAt; rw [node_of_mem nd hx]; rfl

/-- What a goroutine that is about to return returns, and what its last step does. -/
inductive Last (s s' : CSt) (t c : U64) (g : Tid) (cl : Call) (res : Res) : Prop
  /-- it takes effect in this step -/
  | now : (∀ cl' r, s.pc g = .hit cl' r → ∃ x ∈ s.items, x.ref = r ∧ x.ignored = false) → cell (holds s.items t) cl = (holds s'.items t, res) → Last s s' t c g cl res
  /-- it has not found the key -/
  | absent (b : Ref) : s.pc g = .miss cl b → cell none cl = (none, res) → holds s'.items t = holds s.items t → Last s s' t c g cl res
  /-- it acts on a node that was deleted since -/
  | late (r : Ref) (x : Entry) : s.pc g = .hit cl r → x ∈ s.items → x.ref = r → x.ignored = true → cell (valAt s.items r) cl = (valAt s'.items r, res) →
      holds s'.items t = holds s.items t → Last s s' t c g cl res

/-- A deleted entry may change as it likes. -/
theorem holds_setVal {s s' : CSt} {t c : U64} (I : LinInv s t c) (I' : LinInv s' t c) {r : Ref} {nv : IVal} (h : s'.items = setVal r nv s.items)
    {x : Entry} (hx : x ∈ s.items) (hr : x.ref = r) (hd : x.ignored = true) : holds s'.items t = holds s.items t := by
  have other : ∀ y ∈ s.items, y.ignored = false → y.ref ≠ r := by
    intro y hy hl e
    have : y = x := List.inj_on_of_nodup_map I.j.nd hy hx (e.trans hr.symm)
    rw [this, hd] at hl; cases hl
  cases hh : holds s.items t with
  | none =>
    rw [holds_none] at hh ⊢
    intro y hy hyt
    rw [h] at hy
    obtain ⟨z, hz, rfl⟩ := List.mem_map.1 hy
    by_cases hzr : z.ref = r
    · rw [if_pos hzr] at hyt ⊢; exact hh z hz hyt
    · rw [if_neg hzr] at hyt ⊢; exact hh z hz hyt
  | some v =>
    obtain ⟨y, hy, h1, h2, h3⟩ := holds_live hh
    have hy' : y ∈ s'.items := by rw [h]; exact List.mem_map.2 ⟨y, hy, if_neg (other y hy h2)⟩
    rw [holds_some I'.j.nd I'.one hy' h1 h2, h3]

theorem step_last {s s' : CSt} {g : Tid} {t c : U64} (I : LinInv s t c) (I' : LinInv s' t c) (st : Step Pk s g s')
    (o : Orderly t c s g s') {cl : Call} {res : Res} (hp : callOf (s.pc g) = some cl) (ht : cl.target = some (t, c)) (hr : s'.pc g = .ret res)
    (hlost : isLost (s.pc g) = false) : Last s s' t c g cl res := by
  have hway := I.way g
  have hfresh := o.fresh
  have ent : ∀ e : Entry, entryCall e = some cl → e.rev = t ∧ e.dummy = false ∧ ∃ key, cl = .set t c key e.val := by
    intro e he
    unfold entryCall at he
    split at he
    · cases he
    · rename_i hd
      cases he
      simp only [Call.target, Option.some.injEq, Prod.mk.injEq] at ht
      exact ⟨ht.1, by simpa using hd, e.key, by rw [ht.1, ht.2]⟩
  have hit : ∀ r, s.pc g = .hit cl r → ∃ z ∈ s.items, z.ref = r ∧ z.rev = t := by
    intro r h1
    obtain ⟨z, hz, hz1, hz2⟩ := I.ha g _ r h1
    rw [ht] at hz2
    simp only [Option.some.injEq, Prod.mk.injEq] at hz2
    exact ⟨z, hz, hz1, hz2.1.symm⟩
  have live1 : ∀ r (x : Entry), s.pc g = .hit cl r → x ∈ s.items → x.ref = r → x.ignored = false →
      ∀ cl' r', s.pc g = .hit cl' r' → ∃ x ∈ s.items, x.ref = r' ∧ x.ignored = false := by
    intro r x h1 hx h2 h3 cl' r' h4
    rw [h1] at h4; cases h4; exact ⟨x, hx, h2, h3⟩
  cases st <;> simp only [setPC_same] at hr <;> try cases hr
  case lostPanic h1 _ _ => rw [h1] at hlost; cases hlost
  case lostGet h1 _ => rw [h1] at hlost; cases hlost
  case lostDel h1 _ => rw [h1] at hlost; cases hlost
  case lookHit => split at hr <;> cases hr
  case lookAdv => split at hr <;> cases hr
  case findAdv => split at hr <;> cases hr
  case hitGet t' c' r x h1 h2 =>
    rw [h1] at hp
    cases hp
    cases ht
    obtain ⟨hx1, hx2, _⟩ := node_some h2
    obtain ⟨z, hz, hz1, hz2⟩ := hit r h1
    have : x = z := List.inj_on_of_nodup_map I.j.nd hx1 hz (hx2.trans hz1.symm)
    subst this
    cases hl : x.ignored with
    | false =>
      refine .now (live1 r x h1 hx1 hx2 hl) ?_
      show cell _ _ = (holds s.items t, _)
      rw [holds_some I.j.nd I.one hx1 hz2 hl]; rfl
    | true =>
      refine .late r x h1 hx1 hx2 hl ?_ rfl
      show cell _ _ = (valAt s.items r, _)
      rw [← hx2, valAt_mem I.j.nd hx1]; rfl
  case hitSet t' c' key v r x nv ok h1 h2 h3 =>
    rw [h1] at hp
    cases hp
    cases ht
    obtain ⟨hx1, hx2, _⟩ := node_some h2
    obtain ⟨z, hz, hz1, hz2⟩ := hit r h1
    have : x = z := List.inj_on_of_nodup_map I.j.nd hx1 hz (hx2.trans hz1.symm)
    subst this
    have hy : ({ x with val := nv } : Entry) ∈ (setPC { s with items := setVal r nv s.items } g (.ret (.bool ok))).items :=
      List.mem_map.2 ⟨x, hx1, if_pos hx2⟩
    cases hl : x.ignored with
    | false =>
      refine .now (live1 r x h1 hx1 hx2 hl) ?_
      rw [holds_some I.j.nd I.one hz hz2 hl, cell_set h3]
      rw [holds_some I'.j.nd I'.one hy hz2 hl]
    | true =>
      refine .late r x h1 hx1 hx2 hl ?_ (holds_setVal I I' rfl hx1 hx2 hl)
      have e2 := valAt_mem I'.j.nd hy
      simp only [hx2] at e2
      rw [e2, ← hx2, valAt_mem I.j.nd hx1, cell_set h3]
  case hitSetPanic t' c' key v r x p h1 h2 h3 =>
    rw [h1] at hp
    cases hp
    cases ht
    obtain ⟨hx1, hx2, _⟩ := node_some h2
    obtain ⟨z, hz, hz1, hz2⟩ := hit r h1
    have : x = z := List.inj_on_of_nodup_map I.j.nd hx1 hz (hx2.trans hz1.symm)
    subst this
    cases hl : x.ignored with
    | false =>
      refine .now (live1 r x h1 hx1 hx2 hl) ?_
      show cell _ _ = (holds s.items t, _)
      rw [holds_some I.j.nd I.one hz hz2 hl, cell_panic h3]
    | true =>
      refine .late r x h1 hx1 hx2 hl ?_ rfl
      show cell _ _ = (valAt s.items r, _)
      rw [← hx2, valAt_mem I.j.nd hx1, cell_panic h3]
  case hitDel t' c' r h1 =>
    rw [h1] at hp
    cases hp
    cases ht
    obtain ⟨z, hz, hz1, hz2⟩ := hit r h1
    obtain ⟨y, hy, hy1, hz3⟩ := hfresh _ r h1
    have : y = z := List.inj_on_of_nodup_map I.j.nd hy hz (hy1.trans hz1.symm)
    subst this
    refine .now (live1 r y h1 hy hy1 hz3) ?_
    rw [holds_some I.j.nd I.one hz hz2 hz3]
    have : holds (setPC { s with items := markDeleted .sample r s.items } g (.ret (.bool true))).items t = none := by
      rw [holds_none]
      intro y hy hyt
      obtain ⟨x', hx', hxy⟩ := List.mem_map.1 hy
      by_cases hr : x'.ref = r
      · rw [if_pos hr] at hxy
        rw [← hxy]; simp [Entry.ignored]
      · rw [if_neg hr] at hxy
        subst hxy
        by_contra hl
        exact hr ((I.one x' hx' _ hz hyt hz2 (by simpa using hl) hz3).trans hz1)
    rw [this]; rfl
  case missGet t' c' b h1 =>
    rw [h1] at hp
    cases hp
    exact .absent b h1 rfl rfl
  case missDel t' c' b h1 =>
    rw [h1] at hp
    cases hp
    exact .absent b h1 rfl rfl
  case checkFail e r h1 h2 =>
    rw [h1] at hp
    obtain ⟨h3, h4, _⟩ := ent e hp
    rw [o.kept e r h1 h3 h4] at h2; cases h2
  case link e r h1 =>
    rw [h1] at hp hway
    obtain ⟨h3, h4, key, h5⟩ := ent e hp
    have hno : NoLive s.items t := hway ⟨h3, h4⟩
    have hwf := I.j.wf g e (by rw [h1]; rfl)
    refine .now (fun cl' r' h6 => by rw [h1] at h6; cases h6) ?_
    rw [holds_none.2 hno, h5]
    have hy : e ∈ (setPC { s with items := insBefore r e s.items } g (.ret (.bool true))).items := mem_insBefore.2 (Or.inl rfl)
    have hdel : e.ignored = false := by simp [Entry.ignored, h4, hwf.1]
    rw [holds_some I'.j.nd I'.one hy h3 hdel]; rfl
  case rangeAdv h1 => rw [h1] at hp; cases hp
  case foreignEnd h1 => rw [h1] at hp; cases hp

/-- What the map holds for the key changes only in the last step of a Set or Delete of the key. -/
theorem step_holds {s s' : CSt} {g : Tid} {t c : U64} (I : LinInv s t c) (I' : LinInv s' t c) (st : Step Pk s g s') (hc : Clear s' t c)
    (hne : holds s'.items t ≠ holds s.items t) : ∃ cl res, callOf (s.pc g) = some cl ∧ cl.target = some (t, c) ∧ s'.pc g = .ret res := by
  have hw : Writes t (s.pc g) := by
    by_contra h; exact hne (holds_other I I' st h)
  have hcs := hc.back st.ext
  have hit : ∀ cl r, s.pc g = .hit cl r → ∃ tc, cl.target = some tc ∧ tc = (t, c) := by
    intro cl r h1
    obtain ⟨z, hz, hz1, hz2⟩ := I.ha g _ r h1
    refine ⟨_, hz2, ?_⟩
    have hzt : z.rev = t := by
      rw [h1] at hw
      rcases hw with ⟨c1, k1, v1, hw⟩ | ⟨c1, hw⟩ <;>
        (simp only [callOf, Option.some.injEq] at hw; subst hw; simp only [Call.target, Option.some.injEq, Prod.mk.injEq] at hz2; exact hz2.1.symm)
    rw [hzt, (hcs z hz hzt).2]
  cases st <;> try exact absurd rfl hne
  case hitSet t' c' key v r x nv ok h1 h2 h3 =>
    obtain ⟨tc, h4, h5⟩ := hit _ r h1
    exact ⟨_, _, by rw [h1]; rfl, by rw [h4, h5], by rw [setPC_same]⟩
  case hitDel t' c' r h1 =>
    obtain ⟨tc, h4, h5⟩ := hit _ r h1
    exact ⟨_, _, by rw [h1]; rfl, by rw [h4, h5], by rw [setPC_same]⟩
  case link e r h1 =>
    have hy : e ∈ (setPC { s with items := insBefore r e s.items } g (.ret (.bool true))).items := mem_insBefore.2 (Or.inl rfl)
    rw [h1] at hw
    simp only [Writes, callOf, entryCall] at hw
    split at hw
    · simp at hw
    · rename_i hd
      have hrev : e.rev = t := by
        rcases hw with ⟨_, _, _, hw⟩ | ⟨_, hw⟩
        · cases hw; rfl
        · cases hw
      refine ⟨.set e.rev e.conflict e.key e.val, _, by rw [h1]; simp only [callOf, entryCall]; rw [if_neg hd], ?_, by rw [setPC_same]⟩
      show some (e.rev, e.conflict) = _
      rw [hrev, (hc e hy hrev).2]

theorem Step.not_ret {s s' : CSt} {g : Tid} (st : Step Pk s g s') (res : Res) : s.pc g ≠ .ret res := by
  intro h
  cases st <;> (first | (rename_i h1; rw [h1] at h; cases h) | (rename_i h1 _; rw [h1] at h; cases h) | (rename_i h1 _ _; rw [h1] at h; cases h) | (rename_i h1 _ _ _; rw [h1] at h; cases h) | (rename_i h1 _ _ _ _; rw [h1] at h; cases h))

/-- Backwards: a call on a key is the call of the step before, or has just begun. -/
theorem step_callOf_back {s s' : CSt} {g : Tid} (st : Step Pk s g s') {cl : Call} {tc : U64 × U64} (ht : cl.target = some tc)
    (h : callOf (s'.pc g) = some cl) : callOf (s.pc g) = some cl ∨ (s.pc g = .idle ∧ s'.pc g = .pick cl) := by
  cases st <;> rw [setPC_same] at h ⊢
  case begin h1 _ => cases h; exact Or.inr ⟨h1, rfl⟩
  case beginSplit h1 _ => cases h; cases ht
  case lookHit h1 _ _ _ _ => left; rw [h1]; split at h <;> exact h
  case lookAdv h1 => left; rw [h1]; split at h <;> exact h
  case findAdv h1 => left; rw [h1]; split at h <;> exact h
  case rangeAdv => split at h <;> cases h
  case pickSplit => cases h
  all_goals (first
      | (rename_i h1; rw [h1]; exact Or.inl h) | (rename_i h1 _; rw [h1]; exact Or.inl h) | (rename_i h1 _ _; rw [h1]; exact Or.inl h)
      | (rename_i h1 _ _ _; rw [h1]; exact Or.inl h) | (rename_i h1 _ _ _ _; rw [h1]; exact Or.inl h) | (cases h; done))

/-- The value of a node changes only by a Set that stands at it. -/
theorem step_valAt {s s' : CSt} {g : Tid} (nd : (refs s.items).Nodup) (nd' : (refs s'.items).Nodup) (st : Step Pk s g s') {x : Entry} (hx : x ∈ s.items)
    (hne : valAt s'.items x.ref ≠ valAt s.items x.ref) : ∃ t c key v, s.pc g = .hit (.set t c key v) x.ref := by
  have same : ∀ y, y ∈ s'.items → y.ref = x.ref → y.val = x.val → False := by
    intro y hy h1 h2
    apply hne
    rw [valAt_mem nd hx, ← h1, valAt_mem nd' hy, h2]
  cases st <;> try exact absurd rfl hne
  case hitSet t' c' key v r x' nv ok h1 h2 h3 =>
    by_cases hr : x.ref = r
    · rw [hr]; exact ⟨_, _, _, _, h1⟩
    · exact absurd rfl (fun e => same x (List.mem_map.2 ⟨x, hx, if_neg hr⟩) rfl e)
  case hitDel t' c' r h1 =>
    by_cases hr : x.ref = r
    · exact absurd rfl (fun e => same _ (List.mem_map.2 ⟨x, hx, if_pos hr⟩) rfl e)
    · exact absurd rfl (fun e => same x (List.mem_map.2 ⟨x, hx, if_neg hr⟩) rfl e)
  case link e r h1 => exact absurd rfl (fun e => same x (mem_insBefore.2 (Or.inr hx)) rfl e)

/-- A live entry was live before, or the map held nothing for the key. -/
theorem live_back {s s' : CSt} {g : Tid} {t c : U64} (I : LinInv s t c) (st : Step Pk s g s')
    {y : Entry} (hy : y ∈ s'.items) (ht : y.rev = t) (hl : y.ignored = false) :
    NoLive s.items t ∨ ∃ x ∈ s.items, x.ref = y.ref ∧ x.rev = t ∧ x.ignored = false := by
  have hway := I.way g
  cases st.eff with
  | none h => rw [h] at hy; exact Or.inr ⟨y, hy, rfl, ht, hl⟩
  | inplace f hf h =>
    rw [h] at hy
    obtain ⟨x, hx, rfl⟩ := List.mem_map.1 hy
    exact Or.inr ⟨x, hx, (hf x).1.symm, by rw [← (hf x).2.1]; exact ht, (hf x).live hl⟩
  | ins e r h1 h =>
    rw [h] at hy
    rcases mem_insBefore.1 hy with rfl | hy
    · left
      rw [h1] at hway
      simp only [Entry.ignored, Bool.or_eq_false_iff] at hl
      exact hway ⟨ht, hl.1⟩
    · exact Or.inr ⟨y, hy, rfl, ht, hl⟩

/-! ### Executions with indices -/

/-- `σ 0`, …, `σ n` are the states of an execution, `γ i` the goroutine that makes step `i`; every step satisfies `P`. -/
def Exec (Pk : CSt → Call → Ref → Prop) (P : CSt → Tid → CSt → Prop) (σ : Nat → CSt) (γ : Nat → Tid) (n : Nat) : Prop :=
  ∀ i, i < n → Step Pk (σ i) (γ i) (σ (i + 1)) ∧ P (σ i) (γ i) (σ (i + 1))

/-- A finished call: goroutine, call, answer, the step in which it began, the step in which it returned. -/
structure Done where
  g : Tid
  cl : Call
  res : Res
  b : Nat
  r : Nat

/-- The execution contains this finished call. -/
structure Performed (σ : Nat → CSt) (n : Nat) (d : Done) : Prop where
  lt : d.b < d.r
  le : d.r < n
  idle : (σ d.b).pc d.g = .idle
  began : (σ (d.b + 1)).pc d.g = .pick d.cl
  busy : ∀ res, (σ d.r).pc d.g ≠ .ret res
  returned : (σ (d.r + 1)).pc d.g = .ret d.res

section
variable {P : CSt → Tid → CSt → Prop} {σ : Nat → CSt} {γ : Nat → Tid} {n : Nat} {t c : U64}

theorem Exec.inv (pk : PkOk Pk) (ex : Exec Pk (Orderly t c) σ γ n) (h0 : LinInv (σ 0) t c) (hc : ∀ i, i ≤ n → Clear (σ i) t c) :
    ∀ i, i ≤ n → LinInv (σ i) t c := by
  intro i
  induction i with
  | zero => exact fun _ => h0
  | succ i ih =>
    intro hi
    obtain ⟨st, o⟩ := ex i (Nat.lt_of_succ_le hi)
    exact (ih (Nat.le_of_succ_le hi)).step pk st o (hc _ hi)

theorem Exec.clear (ex : Exec Pk P σ γ n) (hc : Clear (σ n) t c) : ∀ k i, i + k = n → Clear (σ i) t c := by
  intro k
  induction k with
  | zero => intro i hi; rw [Nat.add_zero] at hi; rw [hi]; exact hc
  | succ k ih =>
    intro i hi
    exact (ih (i + 1) (by omega)).back (ex i (by omega)).1.ext

theorem Exec.stays (ex : Exec Pk P σ γ n) {g : Tid} {i j : Nat} (hij : i ≤ j) (hj : j ≤ n) {res : Res} (h : (σ i).pc g = .ret res) :
    (σ j).pc g = .ret res := by
  induction j, hij using Nat.le_induction with
  | base => exact h
  | succ j hij ih =>
    have st := (ex j (by omega)).1
    by_cases hg : g = γ j
    · subst hg; exact absurd (ih (by omega)) (st.not_ret res)
    · rw [st.others hg]; exact ih (by omega)

theorem Exec.idle_back (ex : Exec Pk P σ γ n) {g : Tid} {i j : Nat} (hij : i ≤ j) (hj : j ≤ n) (h : (σ j).pc g = .idle) :
    (σ i).pc g = .idle := by
  induction j, hij using Nat.le_induction with
  | base => exact h
  | succ j hij ih =>
    have st := (ex j (by omega)).1
    by_cases hg : g = γ j
    · subst hg; exact absurd h st.not_idle
    · rw [st.others hg] at h; exact ih (by omega) h

theorem Performed.call (ex : Exec Pk P σ γ n) {d : Done} (h : Performed σ n d) {tc : U64 × U64} (ht : d.cl.target = some tc) {j : Nat} (h1 : d.b + 1 ≤ j) (h2 : j ≤ d.r) :
    callOf ((σ j).pc d.g) = some d.cl := by
  induction j, h1 using Nat.le_induction with
  | base => rw [h.began]; rfl
  | succ j hij ih =>
    have hle := h.le
    have st := (ex j (by omega)).1
    by_cases hg : d.g = γ j
    · rw [← hg] at st
      rcases step_callOf st (ih (by omega)) with h3 | ⟨t', p, h3⟩ | ⟨res, h3⟩
      · exact h3
      · rw [h3] at ht; cases ht
      · exact absurd (ex.stays h2 (by omega) h3) (h.busy res)
    · rw [st.others hg]; exact ih (by omega)

theorem Performed.mover (ex : Exec Pk P σ γ n) {d : Done} (h : Performed σ n d) : γ d.r = d.g := by
  by_contra hg
  have st := (ex d.r h.le).1
  have := h.returned
  rw [st.others (fun e => hg e.symm)] at this
  exact h.busy _ this

theorem Performed.unique (ex : Exec Pk P σ γ n) {d d' : Done} (h : Performed σ n d) (h' : Performed σ n d') (hr : d.r = d'.r) : d = d' := by
  have hg : d.g = d'.g := by rw [← h.mover ex, ← h'.mover ex, hr]
  have h1 := h.lt
  have h2 := h'.lt
  have h3 := h.le
  have h4 := h'.le
  have hb : d.b = d'.b := by
    rcases Nat.lt_trichotomy d.b d'.b with hb | hb | hb
    · have := ex.idle_back (i := d.b + 1) (j := d'.b) hb (by omega) h'.idle
      rw [← hg, h.began] at this; cases this
    · exact hb
    · have := ex.idle_back (i := d'.b + 1) (j := d.b) hb (by omega) h.idle
      rw [hg, h'.began] at this; cases this
  have hcl : d.cl = d'.cl := by
    have e1 := h.began
    have e2 := h'.began
    rw [hg, hb, e2] at e1
    exact (PC.pick.inj e1).symm
  have hres : d.res = d'.res := by
    have e1 := h.returned
    have e2 := h'.returned
    rw [hg, hr, e2] at e1
    exact (PC.ret.inj e1).symm
  cases d; cases d'; simp_all

theorem Exec.ssteps (ex : Exec Pk P σ γ n) {g : Tid} {i j : Nat} (hij : i ≤ j) (hj : j ≤ n)
    (hl : ∀ k, i < k → k ≤ j → isLost ((σ k).pc g) = false) : SSteps Pk g (σ i) (σ j) := by
  induction j, hij using Nat.le_induction with
  | base => exact .refl _
  | succ j hij ih =>
    refine .step (ih (by omega) (fun k h1 h2 => hl k h1 (by omega))) (ex j (by omega)).1 (fun hu => ?_)
    rw [hu]; exact hl (j + 1) (by omega) (by omega)

theorem Performed.notLost (ex : Exec Pk (Orderly t c) σ γ n) {d : Done} (h : Performed σ n d) (ht : d.cl.target = some (t, c)) {j : Nat}
    (h1 : d.b + 1 ≤ j) (h2 : j ≤ d.r) : isLost ((σ j).pc d.g) = false := by
  induction j, h1 using Nat.le_induction with
  | base => rw [h.began]; rfl
  | succ j hij ih =>
    have hle := h.le
    obtain ⟨st, o⟩ := ex j (by omega)
    by_cases hg : d.g = γ j
    · have hcall := h.call ex ht (j := j + 1) (by omega) h2
      cases hp : (σ (j + 1)).pc d.g <;> try rfl
      rw [hp] at hcall
      cases hcall
      rw [hg] at hp
      exact absurd ht (o.located _ _ _ hp c)
    · rw [st.others hg]; exact ih (by omega)

/-- In step `m` the entry `rf` of the key is deleted. -/
def Marked (σ : Nat → CSt) (t : U64) (m : Nat) (rf : Ref) : Prop :=
  (∃ x ∈ (σ m).items, x.ref = rf ∧ x.rev = t ∧ x.ignored = false) ∧ ∃ y ∈ (σ (m + 1)).items, y.ref = rf ∧ y.ignored = true

/-- A call that stands at a node: the node is live, or was deleted since its start. -/
theorem Performed.marked (ex : Exec Pk P σ γ n) (inv : ∀ i, i ≤ n → LinInv (σ i) t c) {d : Done} (h : Performed σ n d)
    (ht : d.cl.target = some (t, c)) {j : Nat} (h1 : d.b + 1 ≤ j) (h2 : j ≤ d.r) {rf : Ref} (hp : (σ j).pc d.g = .hit d.cl rf) :
    (∃ x ∈ (σ j).items, x.ref = rf ∧ x.ignored = false) ∨ ∃ m, d.b < m ∧ m < j ∧ Marked σ t m rf := by
  induction j, h1 using Nat.le_induction with
  | base => rw [h.began] at hp; cases hp
  | succ j hij ih =>
    have hle := h.le
    obtain ⟨st, o⟩ := ex j (by omega)
    have I := inv j (by omega)
    by_cases hg : d.g = γ j
    · rw [hg] at hp
      left
      generalize σ (j + 1) = s' at st hp o ⊢
      cases st <;> simp only [setPC_same] at hp <;> try cases hp
      case lookHit cl' t' c' fwd b cur x g1 g2 g3 g4 g5 =>
        split at hp
        · cases hp
          obtain ⟨hx1, hx2, _⟩ := node_some g3
          exact ⟨x, hx1, hx2, g4⟩
        · cases hp
      case lookAdv => split at hp <;> cases hp
      case findAdv => split at hp <;> cases hp
      case rangeAdv => split at hp <;> cases hp
    · rw [st.others hg] at hp
      rcases ih (by omega) hp with ⟨x, hx, h5, h6⟩ | ⟨m, h5, h6, h7⟩
      · obtain ⟨z, hz, hz1, hz2⟩ := I.ha _ _ _ hp
        have : x = z := List.inj_on_of_nodup_map I.j.nd hx hz (h5.trans hz1.symm)
        subst this
        rw [ht] at hz2
        simp only [Option.some.injEq, Prod.mk.injEq] at hz2
        obtain ⟨y, hy, hs⟩ := st.ext.mem hx
        cases hl : y.ignored with
        | false => exact Or.inl ⟨y, hy, hs.1.trans h5, hl⟩
        | true => exact Or.inr ⟨j, by omega, by omega, ⟨x, hx, h5, hz2.1.symm, h6⟩, y, hy, hs.1.trans h5, hl⟩
      · exact Or.inr ⟨m, h5, by omega, h7⟩

theorem Exec.ext (ex : Exec Pk P σ γ n) {i j : Nat} (hij : i ≤ j) (hj : j ≤ n) : Ext (σ i).items (σ j).items := by
  induction j, hij using Nat.le_induction with
  | base => exact Ext.refl _
  | succ j hij ih => exact (ih (by omega)).trans (ex j (by omega)).1.ext

theorem Same.dead {x y : Entry} (h : Same x y) (hx : x.ignored = true) : y.ignored = true := by
  by_contra hy
  have := h.live (by simpa using hy)
  rw [hx] at this; cases this

/-- A deleted entry stays deleted. -/
theorem Exec.dead (ex : Exec Pk P σ γ n) (inv : ∀ i, i ≤ n → LinInv (σ i) t c) {i j : Nat} (hij : i ≤ j) (hj : j ≤ n) {x y : Entry} (hx : x ∈ (σ i).items)
    (hd : x.ignored = true) (hy : y ∈ (σ j).items) (hr : y.ref = x.ref) : y.ignored = true := by
  obtain ⟨z, hz, hs⟩ := (ex.ext hij hj).mem hx
  have : y = z := List.inj_on_of_nodup_map (inv j hj).j.nd hy hz (hr.trans hs.1.symm)
  rw [this]; exact hs.dead hd

theorem Marked.unique (ex : Exec Pk P σ γ n) (inv : ∀ i, i ≤ n → LinInv (σ i) t c) {m m' : Nat} {rf : Ref} (hm : m < n) (hm' : m' < n)
    (h : Marked σ t m rf) (h' : Marked σ t m' rf) : m = m' := by
  have key : ∀ a b, a < n → b < n → Marked σ t a rf → Marked σ t b rf → ¬ a < b := by
    rintro a b ha hb ⟨_, y, hy, h1, h2⟩ ⟨⟨x, hx, h3, _, h4⟩, _⟩ hlt
    have := ex.dead inv (i := a + 1) (j := b) hlt (by omega) hy h2 hx (h3.trans h1.symm)
    rw [h4] at this; cases this
  have h1 := key m m' hm hm' h h'
  have h2 := key m' m hm' hm h' h
  omega

/-- At most one entry of the key is live, so at most one is deleted in a step. -/
theorem Marked.ref_unique (inv : ∀ i, i ≤ n → LinInv (σ i) t c) {m : Nat} (hm : m < n) {rf rf' : Ref} (h : Marked σ t m rf) (h' : Marked σ t m rf') : rf = rf' := by
  obtain ⟨⟨x, hx, h1, h2, h3⟩, _⟩ := h
  obtain ⟨⟨y, hy, h4, h5, h6⟩, _⟩ := h'
  rw [← h1, ← h4]
  exact (inv m (by omega)).one x hx y hy h2 h5 h3 h6

theorem Marked.before (inv : ∀ i, i ≤ n → LinInv (σ i) t c) {m : Nat} (hm : m < n) {rf : Ref} (h : Marked σ t m rf) :
    holds (σ m).items t = valAt (σ m).items rf := by
  obtain ⟨⟨x, hx, h1, h2, h3⟩, _⟩ := h
  have I := inv m (by omega)
  rw [holds_some I.j.nd I.one hx h2 h3, ← h1, valAt_mem I.j.nd hx]

theorem Marked.after (ex : Exec Pk P σ γ n) (inv : ∀ i, i ≤ n → LinInv (σ i) t c) {m : Nat} (hm : m < n) {rf : Ref} (h : Marked σ t m rf) :
    holds (σ (m + 1)).items t = none := by
  obtain ⟨⟨x, hx, h1, h2, h3⟩, y, hy, h4, h5⟩ := h
  have I := inv m (by omega)
  have I' := inv (m + 1) (by omega)
  have st := (ex m hm).1
  have noty : ∀ z ∈ (σ (m + 1)).items, z.ref = rf → z.ignored = true := by
    intro z hz hzr
    have : z = y := List.inj_on_of_nodup_map I'.j.nd hz hy (hzr.trans h4.symm)
    rw [this]; exact h5
  rw [holds_none]
  intro z hz hzt
  by_contra hzl
  have hzl' : z.ignored = false := by simpa using hzl
  cases st.eff with
  | none h6 =>
    rw [h6] at noty
    rw [noty x hx h1] at h3; cases h3
  | inplace f hf h6 =>
    have hz' := hz
    rw [h6] at hz'
    obtain ⟨w, hw, hwz⟩ := List.mem_map.1 hz'
    have hs := hf w
    rw [hwz] at hs
    have : w.ref = x.ref := I.one w hw x hx (hs.2.1.symm.trans hzt) h2 (hs.live hzl') h3
    have := noty z hz (hs.1.trans (this.trans h1))
    rw [this] at hzl'; cases hzl'
  | ins e r h6 h7 =>
    have := noty x (by rw [h7]; exact mem_insBefore.2 (Or.inr hx)) h1
    rw [this] at h3; cases h3

theorem Exec.valAt_some (ex : Exec Pk P σ γ n) (inv : ∀ i, i ≤ n → LinInv (σ i) t c) {i j : Nat} (hij : i ≤ j) (hj : j ≤ n) {x : Entry} (hx : x ∈ (σ i).items) :
    ∃ v, valAt (σ j).items x.ref = some v := by
  obtain ⟨y, hy, hs⟩ := (ex.ext hij hj).mem hx
  exact ⟨y.val, by rw [← hs.1, valAt_mem (inv j hj).j.nd hy]⟩

/-- A call that does not find the key: the map held nothing for it at some moment since its start. -/
theorem Performed.absent (pk : PkOk Pk) (ex : Exec Pk (Orderly t c) σ γ n) (inv : ∀ i, i ≤ n → LinInv (σ i) t c) (hc : ∀ i, i ≤ n → Clear (σ i) t c)
    {d : Done} (h : Performed σ n d) (ht : d.cl.target = some (t, c)) {rf : Ref} (hp : (σ d.r).pc d.g = .miss d.cl rf) :
    ∃ i, d.b < i ∧ i ≤ d.r ∧ holds (σ i).items t = none := by
  by_contra hno
  have hno' : ∀ i, d.b < i → i ≤ d.r → ¬ NoLive (σ i).items t := fun i h1 h2 h3 => hno ⟨i, h1, h2, holds_none.2 h3⟩
  have hlt := h.lt
  have hle := h.le
  obtain ⟨y, hy, hyt, hyl⟩ : ∃ y ∈ (σ d.r).items, y.rev = t ∧ y.ignored = false := by
    by_contra hx
    refine hno' d.r hlt (le_refl _) (fun x hx1 hx2 => ?_)
    by_contra hx3
    exact hx ⟨x, hx1, hx2, by simpa using hx3⟩
  have back : ∀ k i, i + k = d.r → d.b < i → ∃ x ∈ (σ i).items, x.ref = y.ref ∧ x.rev = t ∧ x.ignored = false := by
    intro k
    induction k with
    | zero => intro i hi _; rw [Nat.add_zero] at hi; subst hi; exact ⟨y, hy, rfl, hyt, hyl⟩
    | succ k ih =>
      intro i hi hb
      obtain ⟨x, hx, h1, h2, h3⟩ := ih (i + 1) (by omega) (by omega)
      rcases live_back (inv i (by omega)) (ex i (by omega)).1 hx h2 h3 with h4 | ⟨z, hz, h5, h6, h7⟩
      · exact absurd h4 (hno' i hb (by omega))
      · exact ⟨z, hz, h5.trans h1, h6, h7⟩
  obtain ⟨x, hx, h1, h2, _⟩ := back (d.r - (d.b + 1)) (d.b + 1) (by omega) (by omega)
  have I := inv (d.b + 1) (by omega)
  have hw := I.j.wp hx
  rw [h1, h2] at hw
  have hcy := hc d.r (by omega) y hy hyt
  simp only [Entry.ignored, Bool.or_eq_false_iff] at hyl
  have hss : SSteps Pk d.g (σ (d.b + 1)) (σ d.r) := ex.ssteps (by omega) (by omega) (fun k h1 h2 => h.notLost ex ht (by omega) h2)
  have := onWay_run pk ht I.j.toJ0 hw h.began hss ⟨y, hy, rfl, hyt, hcy.2, hyl.1, hyl.2⟩ (hc d.r (by omega))
  rw [hp] at this
  exact this

/-- Where a call takes effect: at a moment between its start and its end at which it leaves the cell as it is; or in its last step; or, late, before the
step `m` in which the entry it has found was deleted. -/
inductive Point (σ : Nat → CSt) (t : U64) (d : Done) : Prop
  | moment (i : Nat) (b : Ref) : d.b < i → i ≤ d.r → cell (holds (σ i).items t) d.cl = (holds (σ i).items t, d.res) →
      holds (σ (d.r + 1)).items t = holds (σ d.r).items t → (σ d.r).pc d.g = .miss d.cl b → Point σ t d
  | now : cell (holds (σ d.r).items t) d.cl = (holds (σ (d.r + 1)).items t, d.res) →
      (∀ cl r, (σ d.r).pc d.g = .hit cl r → ∃ x ∈ (σ d.r).items, x.ref = r ∧ x.ignored = false) → Point σ t d
  | late (m : Nat) (rf : Ref) : d.b < m → m < d.r → Marked σ t m rf → (σ d.r).pc d.g = .hit d.cl rf →
      cell (valAt (σ d.r).items rf) d.cl = (valAt (σ (d.r + 1)).items rf, d.res) → holds (σ (d.r + 1)).items t = holds (σ d.r).items t → Point σ t d

theorem Performed.point (pk : PkOk Pk) (ex : Exec Pk (Orderly t c) σ γ n) (inv : ∀ i, i ≤ n → LinInv (σ i) t c) (hc : ∀ i, i ≤ n → Clear (σ i) t c)
    {d : Done} (h : Performed σ n d) (ht : d.cl.target = some (t, c)) : Point σ t d := by
  have hlt := h.lt
  have hle := h.le
  obtain ⟨st, o⟩ := ex d.r (by omega)
  rw [h.mover ex] at st o
  have := step_last (inv d.r (by omega)) (inv (d.r + 1) (by omega)) st o (h.call ex ht (by omega) (le_refl _)) ht h.returned
    (h.notLost ex ht (by omega) (le_refl _))
  cases this with
  | now h0 h1 => exact .now h1 h0
  | absent rf h1 h2 h3 =>
    obtain ⟨i, h4, h5, h6⟩ := h.absent pk ex inv hc ht h1
    exact .moment i rf h4 h5 (by rw [h6]; exact h2) h3 h1
  | late rf x h1 h2 h3 h4 h5 h6 =>
    rcases h.marked ex inv ht (by omega) (le_refl _) h1 with ⟨y, hy, h7, h8⟩ | ⟨m, h7, h8, h9⟩
    · have : y = x := List.inj_on_of_nodup_map (inv d.r (by omega)).j.nd hy h2 (h7.trans h3.symm)
      rw [this, h4] at h8; cases h8
    · exact .late m rf h7 h8 h9 h1 h5 h6

/-- A call that returns has begun. -/
theorem Exec.begun_of (ex : Exec Pk P σ γ n) (h0 : ∀ u, (σ 0).pc u = .idle) {j : Nat} (hj : j < n) {cl : Call} {res : Res} {tc : U64 × U64}
    (h1 : callOf ((σ j).pc (γ j)) = some cl) (h2 : cl.target = some tc) (h3 : (σ (j + 1)).pc (γ j) = .ret res) :
    ∃ d, Performed σ n d ∧ d.cl = cl ∧ d.r = j ∧ d.g = γ j := by
  have st := (ex j hj).1
  have key : ∀ k, k ≤ j → callOf ((σ k).pc (γ j)) = some cl → ∃ b, b < k ∧ (σ b).pc (γ j) = .idle ∧ (σ (b + 1)).pc (γ j) = .pick cl := by
    intro k
    induction k with
    | zero => intro _ h; rw [h0] at h; cases h
    | succ k ih =>
      intro hk h
      have stk := (ex k (by omega)).1
      by_cases hg : γ j = γ k
      · rw [hg] at h ih ⊢
        rcases step_callOf_back stk h2 h with h4 | ⟨h4, h5⟩
        · obtain ⟨b, hb, h6⟩ := ih (by omega) h4
          exact ⟨b, by omega, h6⟩
        · exact ⟨k, by omega, h4, h5⟩
      · rw [stk.others hg] at h
        obtain ⟨b, hb, h6⟩ := ih (by omega) h
        exact ⟨b, by omega, h6⟩
  obtain ⟨b, hb, h4, h5⟩ := key j (le_refl _) h1
  refine ⟨⟨γ j, cl, res, b, j⟩, ⟨hb, hj, h4, h5, fun res' => ?_, h3⟩, rfl, rfl, rfl⟩
  exact st.not_ret res'

/-- What the map holds changes only in the last step of a finished call. -/
theorem Exec.change (ex : Exec Pk P σ γ n) (h0 : ∀ u, (σ 0).pc u = .idle) (inv : ∀ i, i ≤ n → LinInv (σ i) t c) (hc : ∀ i, i ≤ n → Clear (σ i) t c)
    {j : Nat} (hj : j < n) (hne : holds (σ (j + 1)).items t ≠ holds (σ j).items t) :
    ∃ d, Performed σ n d ∧ d.cl.target = some (t, c) ∧ d.r = j := by
  obtain ⟨st, o⟩ := ex j hj
  obtain ⟨cl, res, h1, h2, h3⟩ := step_holds (inv j (by omega)) (inv (j + 1) (by omega)) st (hc _ (by omega)) hne
  obtain ⟨d, h4, h5, h6, _⟩ := ex.begun_of h0 hj h1 h2 h3
  exact ⟨d, h4, by rw [h5]; exact h2, h6⟩

/-- The value of a deleted entry changes only in the last step of a finished call, which stands at it. -/
theorem Exec.changeAt (ex : Exec Pk P σ γ n) (h0 : ∀ u, (σ 0).pc u = .idle) (inv : ∀ i, i ≤ n → LinInv (σ i) t c) (hc : ∀ i, i ≤ n → Clear (σ i) t c)
    {j : Nat} (hj : j < n) {x : Entry} (hx : x ∈ (σ j).items) (hxt : x.rev = t) (hne : valAt (σ (j + 1)).items x.ref ≠ valAt (σ j).items x.ref) :
    ∃ d, Performed σ n d ∧ d.cl.target = some (t, c) ∧ d.r = j ∧ (σ j).pc d.g = .hit d.cl x.ref := by
  obtain ⟨st, o⟩ := ex j hj
  have I := inv j (by omega)
  obtain ⟨t', c', key, v, h1⟩ := step_valAt I.j.nd (inv (j + 1) (by omega)).j.nd st hx hne
  obtain ⟨z, hz, hz1, hz2⟩ := I.ha _ _ _ h1
  have : x = z := List.inj_on_of_nodup_map I.j.nd hx hz hz1.symm
  subst this
  rw [hxt, (hc j (by omega) x hx hxt).2] at hz2
  have hret : ∃ res, (σ (j + 1)).pc (γ j) = .ret res := by
    generalize σ (j + 1) = s' at st ⊢
    cases st <;> rw [setPC_same] <;>
      (first | exact ⟨_, rfl⟩ | (rename_i e; rw [e] at h1; cases h1) | (rename_i e _; rw [e] at h1; cases h1) | (rename_i e _ _; rw [e] at h1; cases h1) | (rename_i e _ _ _; rw [e] at h1; cases h1) | (rename_i e _ _ _ _; rw [e] at h1; cases h1))
  obtain ⟨res, h3⟩ := hret
  obtain ⟨d, h4, h5, h6, h7⟩ := ex.begun_of h0 hj (by rw [h1]; rfl) hz2 h3
  exact ⟨d, h4, by rw [h5]; exact hz2, h6, by rw [h7, h5]; exact h1⟩

end

/-! ### Putting the calls in order -/

/-- Calls with positions: an even position `2 i` is a moment at which the call leaves the cell as it is, an odd position `2 j + 1` the step `j`, in which it
takes effect. -/
def Placed (val : Nat → Option IVal) (pos : Done → Nat) (d : Done) : Prop :=
  (∃ i, pos d = 2 * i ∧ cell (val i) d.cl = (val i, d.res)) ∨ ∃ j, pos d = 2 * j + 1 ∧ cell (val j) d.cl = (val (j + 1), d.res)

theorem chain {val : Nat → Option IVal} {pos : Done → Nat} {n : Nat} (L : List Done) (k : Nat) (hk : k ≤ n) (hs : L.Pairwise (fun a b => pos a ≤ pos b)) (nd : L.Nodup)
    (hpos : ∀ d ∈ L, 2 * k ≤ pos d ∧ pos d ≤ 2 * n) (hpl : ∀ d ∈ L, Placed val pos d)
    (inj : ∀ d ∈ L, ∀ d' ∈ L, ∀ j, pos d = 2 * j + 1 → pos d' = 2 * j + 1 → d = d')
    (cover : ∀ j, k ≤ j → j < n → val (j + 1) ≠ val j → ∃ d ∈ L, pos d = 2 * j + 1) :
    cellRun (val k) (L.map (·.cl)) = L.map (·.res) := by
  induction L generalizing k with
  | nil => rfl
  | cons d L ih =>
    have hsd := List.pairwise_cons.1 hs
    have hnd := List.nodup_cons.1 nd
    obtain ⟨hd1, hd2⟩ := hpos d (by simp)
    have same : ∀ i, k ≤ i → 2 * i ≤ pos d → val i = val k := by
      intro i hi
      induction i, hi using Nat.le_induction with
      | base => exact fun _ => rfl
      | succ i hi ihi =>
        intro hle
        rw [← ihi (by omega)]
        by_contra hne
        obtain ⟨d', hd', hp⟩ := cover i hi (by omega) hne
        rcases List.mem_cons.1 hd' with rfl | hd'
        · omega
        · have := hsd.1 d' hd'; omega
    rcases hpl d (by simp) with ⟨i, hp, hcell⟩ | ⟨j, hp, hcell⟩
    · have hv := same i (by omega) (by omega)
      simp only [List.map_cons, cellRun]
      rw [← hv, hcell]
      refine congrArg _ (ih i (by omega) hsd.2 hnd.2 (fun d' hd' => ⟨?_, (hpos d' (by simp [hd'])).2⟩) (fun d' hd' => hpl d' (by simp [hd']))
        (fun a ha b hb => inj a (by simp [ha]) b (by simp [hb])) (fun j hj hjn hne => ?_))
      · have := hsd.1 d' hd'; omega
      · obtain ⟨d', hd', hp'⟩ := cover j (by omega) hjn hne
        rcases List.mem_cons.1 hd' with rfl | hd'
        · omega
        · exact ⟨d', hd', hp'⟩
    · have hv := same j (by omega) (by omega)
      simp only [List.map_cons, cellRun]
      rw [← hv, hcell]
      refine congrArg _ (ih (j + 1) (by omega) hsd.2 hnd.2 (fun d' hd' => ⟨?_, (hpos d' (by simp [hd'])).2⟩) (fun d' hd' => hpl d' (by simp [hd']))
        (fun a ha b hb => inj a (by simp [ha]) b (by simp [hb])) (fun i hi hin hne => ?_))
      · have h1 := hsd.1 d' hd'
        by_contra h2
        have h3 : pos d' = 2 * j + 1 := by omega
        have := inj d (by simp) d' (by simp [hd']) j hp h3
        subst this; exact hnd.1 hd'
      · obtain ⟨d', hd', hp'⟩ := cover i (by omega) hin hne
        rcases List.mem_cons.1 hd' with rfl | hd'
        · omega
        · exact ⟨d', hd', hp'⟩

theorem cell_none {v v0 : IVal} {cl : Call} {res : Res} (h : cell (some v0) cl = (none, res)) : cell (some v) cl = (none, res) := by
  cases cl with
  | del t c => simpa [cell] using h
  | set t c key v1 =>
    cases v0 <;> cases v1 <;> simp only [cell] at h <;> (try split at h) <;> simp at h
  | _ => simp [cell] at h

/-- A Set that stands at a node deletes nothing. -/
theorem set_keeps {s s' : CSt} {g : Tid} (st : Step Pk s g s') {t c : U64} {key : Key} {v : IVal} {r : Ref} (h1 : s.pc g = .hit (.set t c key v) r)
    {x : Entry} (hx : x ∈ s.items) : ∃ y ∈ s'.items, y.ref = x.ref ∧ y.ignored = x.ignored := by
  cases st <;> try exact ⟨x, hx, rfl, rfl⟩
  case hitSet t' c key v r x' nv ok h1 h2 h3 =>
    by_cases hr : x.ref = r
    · exact ⟨_, List.mem_map.2 ⟨x, hx, if_pos hr⟩, rfl, rfl⟩
    · exact ⟨x, List.mem_map.2 ⟨x, hx, if_neg hr⟩, rfl, rfl⟩
  case hitDel h2 => rw [h2] at h1; cases h1
  case link h2 => rw [h2] at h1; cases h1

/-- The values the cell runs through: between two moments `m` and `m + 1` the values an entry deleted in this step gets afterwards. -/
noncomputable def midVal (σ : Nat → CSt) (t : U64) (n m k : Nat) : Option IVal :=
  open Classical in if h : m < n ∧ ∃ rf, Marked σ t m rf then valAt (σ (min (m + k) n)).items h.2.choose else holds (σ m).items t

section
variable {σ : Nat → CSt} {γ : Nat → Tid} {n : Nat} {t c : U64}

theorem midVal_marked (inv : ∀ i, i ≤ n → LinInv (σ i) t c) {m k : Nat} (hm : m < n) {rf : Ref} (h : Marked σ t m rf) :
    midVal σ t n m k = valAt (σ (min (m + k) n)).items rf := by
  have hex : m < n ∧ ∃ rf, Marked σ t m rf := ⟨hm, rf, h⟩
  unfold midVal
  rw [dif_pos hex, hex.2.choose_spec.ref_unique inv hm h]

theorem midVal_not {m k : Nat} (h : ¬ ∃ rf, Marked σ t m rf) : midVal σ t n m k = holds (σ m).items t := by
  unfold midVal
  rw [dif_neg (fun h' => h h'.2)]

theorem midVal_zero (inv : ∀ i, i ≤ n → LinInv (σ i) t c) {m : Nat} (hm : m ≤ n) : midVal σ t n m 0 = holds (σ m).items t := by
  by_cases h : m < n ∧ ∃ rf, Marked σ t m rf
  · obtain ⟨h1, rf, h2⟩ := h
    rw [midVal_marked inv h1 h2, h2.before inv h1, Nat.add_zero, Nat.min_eq_left hm]
  · unfold midVal; rw [dif_neg h]

theorem change_at_mark (ex : Exec Pk (Orderly t c) σ γ n) (h0 : ∀ u, (σ 0).pc u = .idle) (inv : ∀ i, i ≤ n → LinInv (σ i) t c) (hc : ∀ i, i ≤ n → Clear (σ i) t c)
    {m j : Nat} (hm : m < n) {rf : Ref} (h : Marked σ t m rf) (hmj : m ≤ j) (hj : j < n) (hne : valAt (σ (j + 1)).items rf ≠ valAt (σ j).items rf) :
    m < j ∧ ∃ d, Performed σ n d ∧ d.cl.target = some (t, c) ∧ d.r = j ∧ (σ j).pc d.g = .hit d.cl rf := by
  obtain ⟨⟨x, hx, h1, h2, h3⟩, y, hy, h4, h5⟩ := h
  obtain ⟨z, hz, hs⟩ := (ex.ext hmj (by omega)).mem hx
  have hzr : z.ref = rf := hs.1.trans h1
  rw [← hzr] at hne
  obtain ⟨d, h6, h7, h8, h9⟩ := ex.changeAt h0 inv hc hj hz (hs.2.1.trans h2) hne
  refine ⟨?_, d, h6, h7, h8, by rw [← hzr]; exact h9⟩
  by_contra hlt
  have : m = j := by omega
  subst this
  obtain ⟨t', c', key, v, h10⟩ := step_valAt (inv m (by omega)).j.nd (inv (m + 1) (by omega)).j.nd (ex m hm).1 hz hne
  obtain ⟨w, hw, h11, h12⟩ := set_keeps (ex m hm).1 h10 hx
  have : w = y := List.inj_on_of_nodup_map (inv (m + 1) (by omega)).j.nd hw hy (h11.trans (h1.trans h4.symm))
  rw [this, h5, h3] at h12; cases h12

/-- The place of a finished call: a moment, or the step from the `k`-th value after `m` to the next. -/
theorem Performed.place (pk : PkOk Pk) (ex : Exec Pk (Orderly t c) σ γ n) (inv : ∀ i, i ≤ n → LinInv (σ i) t c) (hc : ∀ i, i ≤ n → Clear (σ i) t c)
    {w : Nat → Option IVal} (hw : ∀ m k, k ≤ n → w (m * (n + 1) + k) = midVal σ t n m k) {d : Done} (h : Performed σ n d) (ht : d.cl.target = some (t, c)) :
    ∃ p, 2 * ((d.b + 1) * (n + 1)) ≤ p ∧ p < 2 * ((d.r + 1) * (n + 1)) ∧
      ((∃ i, p = 2 * i ∧ cell (w i) d.cl = (w i, d.res)) ∨
        ∃ m k, k ≤ n ∧ p = 2 * (m * (n + 1) + k) + 1 ∧ (k < n ∧ m + k = d.r ∨ k = n ∧ m = d.r) ∧
          cell (w (m * (n + 1) + k)) d.cl = (w (m * (n + 1) + k + 1), d.res)) ∧
      (holds (σ (d.r + 1)).items t ≠ holds (σ d.r).items t → p = 2 * (d.r * (n + 1) + n) + 1) ∧
      ∀ m rf, m < d.r → Marked σ t m rf → (σ d.r).pc d.g = .hit d.cl rf → p = 2 * (m * (n + 1) + (d.r - m)) + 1 := by
  have hlt := h.lt
  have hle := h.le
  have mono : ∀ a b, a ≤ b → a * (n + 1) ≤ b * (n + 1) := fun a b hab => Nat.mul_le_mul_right _ hab
  have succ : ∀ a, (a + 1) * (n + 1) = a * (n + 1) + n + 1 := fun a => by rw [Nat.add_mul, Nat.one_mul]; omega
  cases h.point pk ex inv hc ht with
  | moment i b h1 h2 h3 h4 h5 =>
    have e1 := mono (d.b + 1) i h1
    have e2 := mono i d.r h2
    have e3 := succ d.r
    refine ⟨2 * (i * (n + 1)), by omega, by omega, Or.inl ⟨_, rfl, ?_⟩, fun hne => absurd h4 hne, ?_⟩
    · have := hw i 0 (Nat.zero_le _)
      rw [Nat.add_zero, midVal_zero inv (by omega)] at this
      rw [this]; exact h3
    · intro m rf _ _ h6
      rw [h5] at h6; cases h6
  | now h1 h2 =>
    have e1 := mono (d.b + 1) d.r hlt
    have e3 := succ d.r
    refine ⟨2 * (d.r * (n + 1) + n) + 1, by omega, by omega, Or.inr ⟨d.r, n, le_refl _, rfl, Or.inr ⟨rfl, rfl⟩, ?_⟩, fun _ => rfl, ?_⟩
    · have e4 : w (d.r * (n + 1) + n + 1) = holds (σ (d.r + 1)).items t := by
        have := hw (d.r + 1) 0 (Nat.zero_le _)
        rw [Nat.add_zero, midVal_zero inv (by omega), succ] at this
        exact this
      rw [e4, hw _ _ (le_refl _)]
      by_cases hm : ∃ rf, Marked σ t d.r rf
      · obtain ⟨rf, hm⟩ := hm
        rw [midVal_marked inv hle hm, hm.after ex inv hle]
        rw [hm.after ex inv hle, hm.before inv hle] at h1
        obtain ⟨⟨x, hx, h3, _⟩, _⟩ := hm
        obtain ⟨v, hv⟩ := ex.valAt_some inv (i := d.r) (j := min (d.r + n) n) (by omega) (by omega) hx
        obtain ⟨v0, hv0⟩ := ex.valAt_some inv (i := d.r) (j := d.r) (by omega) (by omega) hx
        rw [h3] at hv hv0
        rw [hv]
        rw [hv0] at h1
        exact cell_none h1
      · rw [midVal_not hm]; exact h1
    · intro m rf hm ⟨⟨x, hx, h3, _⟩, y, hy, h4, h5⟩ h6
      obtain ⟨z, hz, h7, h8⟩ := h2 _ _ h6
      have := ex.dead inv (i := m + 1) (j := d.r) hm (by omega) hy h5 hz (h7.trans h4.symm)
      rw [this] at h8; cases h8
  | late m rf h1 h2 h3 h4 h5 h6 =>
    have e1 := mono (d.b + 1) m h1
    have e2 := mono (m + 1) d.r h2
    have e3 := succ d.r
    have e4 := succ m
    refine ⟨2 * (m * (n + 1) + (d.r - m)) + 1, by omega, by omega, Or.inr ⟨m, d.r - m, by omega, rfl, Or.inl ⟨by omega, by omega⟩, ?_⟩, fun hne => absurd h6 hne, ?_⟩
    · rw [Nat.add_assoc, hw _ _ (by omega), hw _ _ (by omega), midVal_marked inv (by omega) h3, midVal_marked inv (by omega) h3]
      have e5 : min (m + (d.r - m)) n = d.r := by omega
      have e6 : min (m + (d.r - m + 1)) n = d.r + 1 := by omega
      rw [e5, e6]; exact h5
    · intro m' rf' hm' h7 h8
      rw [h4] at h8
      cases h8
      rw [h7.unique ex inv (by omega) (by omega) h3]

end

/-- The finished calls on the key have places inside their intervals such that in the order of the places they could have been made one after the other. -/
theorem places (pk : PkOk Pk) {σ : Nat → CSt} {γ : Nat → Tid} {n : Nat} {t c : U64} (ex : Exec Pk (Orderly t c) σ γ n)
    (h0 : ∀ u, (σ 0).pc u = .idle) (hi : LinInv (σ 0) t c) (hc : Clear (σ n) t c) :
    ∃ pos : Done → Nat, (∀ d, Performed σ n d → d.cl.target = some (t, c) → 2 * ((d.b + 1) * (n + 1)) ≤ pos d ∧ pos d < 2 * ((d.r + 1) * (n + 1))) ∧
      ∀ L : List Done, L.Nodup → (∀ d, d ∈ L ↔ Performed σ n d ∧ d.cl.target = some (t, c)) → L.Pairwise (fun a b => pos a ≤ pos b) →
        cellRun (holds (σ 0).items t) (L.map (·.cl)) = L.map (·.res) := by
  classical
  have hca : ∀ i, i ≤ n → Clear (σ i) t c := fun i h => ex.clear hc (n - i) i (by omega)
  have inv := ex.inv pk hi hca
  let w : Nat → Option IVal := fun i => midVal σ t n (i / (n + 1)) (i % (n + 1))
  have divs : ∀ m k, k ≤ n → (m * (n + 1) + k) / (n + 1) = m ∧ (m * (n + 1) + k) % (n + 1) = k := by
    intro m k hk
    have h1 : k < n + 1 := by omega
    constructor
    · rw [Nat.add_comm, Nat.add_mul_div_right _ _ (by omega), Nat.div_eq_of_lt h1, Nat.zero_add]
    · rw [Nat.add_comm, Nat.add_mul_mod_self_right, Nat.mod_eq_of_lt h1]
  have hw : ∀ m k, k ≤ n → w (m * (n + 1) + k) = midVal σ t n m k := by
    intro m k hk
    show midVal _ _ _ _ _ = _
    rw [(divs m k hk).1, (divs m k hk).2]
  have hpt := fun d (h : Performed σ n d ∧ d.cl.target = some (t, c)) => h.1.place pk ex inv hca hw h.2
  let pos : Done → Nat := fun d => if h : Performed σ n d ∧ d.cl.target = some (t, c) then (hpt d h).choose else 0
  have hposd : ∀ d, (h : Performed σ n d ∧ d.cl.target = some (t, c)) → pos d = (hpt d h).choose := fun d h => dif_pos h
  have w0 : w 0 = holds (σ 0).items t := by
    have := hw 0 0 (Nat.zero_le _)
    rw [Nat.zero_mul, Nat.zero_add, midVal_zero inv (Nat.zero_le _)] at this
    exact this
  have succ : ∀ a, (a + 1) * (n + 1) = a * (n + 1) + n + 1 := fun a => by rw [Nat.add_mul, Nat.one_mul]; omega
  refine ⟨pos, ?_, ?_⟩
  · intro d h1 h2
    rw [hposd d ⟨h1, h2⟩]
    exact ⟨(hpt d ⟨h1, h2⟩).choose_spec.1, (hpt d ⟨h1, h2⟩).choose_spec.2.1⟩
  · intro L hLn hLm hLs
    rw [← w0]
    refine chain (val := w) (pos := pos) (n := n * (n + 1)) L 0 (Nat.zero_le _) hLs hLn ?_ ?_ ?_ ?_
    · intro d hd
      have h := (hLm d).1 hd
      have h2 := (hpt d h).choose_spec.2.1
      have h3 : (d.r + 1) * (n + 1) ≤ n * (n + 1) := Nat.mul_le_mul_right _ h.1.le
      rw [hposd d h]; omega
    · intro d hd
      have h := (hLm d).1 hd
      have h2 := (hpt d h).choose_spec.2.2.1
      unfold Placed
      rw [hposd d h]
      exact h2.imp id (fun ⟨m, k, _, h3, _, h4⟩ => ⟨_, h3, h4⟩)
    · intro d hd d' hd' j h1 h2
      have h := (hLm d).1 hd
      have h' := (hLm d').1 hd'
      rw [hposd d h] at h1
      rw [hposd d' h'] at h2
      rcases (hpt d h).choose_spec.2.2.1 with ⟨i, e1, _⟩ | ⟨m, k, hk, e1, e2, _⟩
      · omega
      · rcases (hpt d' h').choose_spec.2.2.1 with ⟨i, f1, _⟩ | ⟨m', k', hk', f1, f2, _⟩
        · omega
        · have hj : m * (n + 1) + k = m' * (n + 1) + k' := by omega
          have g1 := divs m k hk
          have g2 := divs m' k' hk'
          rw [hj] at g1
          have hm : m = m' := g1.1.symm.trans g2.1
          have hk2 : k = k' := g1.2.symm.trans g2.2
          exact h.1.unique ex h'.1 (by omega)
    · intro j _ hj hne
      have hdm : j / (n + 1) * (n + 1) + j % (n + 1) = j := Nat.div_add_mod' j (n + 1)
      have hm : j / (n + 1) < n := (Nat.div_lt_iff_lt_mul (by omega)).2 hj
      have hk : j % (n + 1) < n + 1 := Nat.mod_lt _ (by omega)
      generalize j / (n + 1) = m at hdm hm
      generalize j % (n + 1) = k at hdm hk
      rw [← hdm, hw m k (by omega)] at hne
      rw [← hdm]
      have atEnd : ∀ d, Performed σ n d ∧ d.cl.target = some (t, c) → d.r = m → holds (σ (m + 1)).items t ≠ holds (σ m).items t → k = n →
          ∃ d ∈ L, pos d = 2 * (m * (n + 1) + k) + 1 := by
        intro d h1 h2 h3 h4
        refine ⟨d, (hLm d).2 h1, ?_⟩
        have := (hpt d h1).choose_spec.2.2.2.1 (by rw [h2]; exact h3)
        rw [hposd d h1, this, h2, h4]
      by_cases hkn : k = n
      · have hch : holds (σ (m + 1)).items t ≠ holds (σ m).items t := by
          intro he
          apply hne
          have e1 := hw (m + 1) 0 (Nat.zero_le _)
          rw [Nat.add_zero, midVal_zero inv (by omega), succ] at e1
          rw [hkn, e1, he]
          by_cases hmk : ∃ rf, Marked σ t m rf
          · exfalso
            obtain ⟨rf, hmk⟩ := hmk
            have a1 := hmk.after ex inv hm
            have a2 := hmk.before inv hm
            obtain ⟨⟨x, hx, h3, _⟩, _⟩ := hmk
            obtain ⟨v0, hv0⟩ := ex.valAt_some inv (i := m) (j := m) (by omega) (by omega) hx
            rw [h3] at hv0
            rw [he, a2, hv0] at a1; cases a1
          · rw [midVal_not hmk]
        obtain ⟨d, h1, h2, h3⟩ := ex.change h0 inv hca hm hch
        exact atEnd d ⟨h1, h2⟩ h3 hch hkn
      · rw [Nat.add_assoc, hw m (k + 1) (by omega)] at hne
        by_cases hmk : ∃ rf, Marked σ t m rf
        · obtain ⟨rf, hmk⟩ := hmk
          rw [midVal_marked inv hm hmk, midVal_marked inv hm hmk] at hne
          have hlt : m + k < n := by
            by_contra hge
            apply hne
            have e1 : min (m + (k + 1)) n = n := by omega
            have e2 : min (m + k) n = n := by omega
            rw [e1, e2]
          have e1 : min (m + (k + 1)) n = m + k + 1 := by omega
          have e2 : min (m + k) n = m + k := by omega
          rw [e1, e2] at hne
          obtain ⟨h1, d, h2, h3, h4, h5⟩ := change_at_mark ex h0 inv hca hm hmk (by omega) hlt hne
          refine ⟨d, (hLm d).2 ⟨h2, h3⟩, ?_⟩
          have := (hpt d ⟨h2, h3⟩).choose_spec.2.2.2.2 m rf (by omega) hmk (by rw [h4]; exact h5)
          rw [hposd d ⟨h2, h3⟩, this, h4]
          congr 2
          omega
        · exfalso; apply hne
          rw [midVal_not hmk, midVal_not hmk]

/-- All finished calls on keys in `K`, sorted by their places. -/
theorem sorted_calls {σ : Nat → CSt} {γ : Nat → Tid} {n : Nat} {P : CSt → Tid → CSt → Prop} (ex : Exec Pk P σ γ n) (K : U64 × U64 → Prop) (pos : Done → Nat)
    (hpos : ∀ d, Performed σ n d → (∃ k, d.cl.target = some k ∧ K k) → 2 * ((d.b + 1) * (n + 1)) ≤ pos d ∧ pos d < 2 * ((d.r + 1) * (n + 1))) :
    ∃ L : List Done, L.Nodup ∧ (∀ d, d ∈ L ↔ Performed σ n d ∧ ∃ k, d.cl.target = some k ∧ K k) ∧ L.Pairwise (fun a b => pos a ≤ pos b) ∧
      L.Pairwise (fun a b => ¬ b.r < a.b) := by
  classical
  let D : List Done := (List.range n).filterMap (fun r => if h : ∃ d, (Performed σ n d ∧ ∃ k, d.cl.target = some k ∧ K k) ∧ d.r = r then some h.choose else none)
  have hD : ∀ d, d ∈ D ↔ Performed σ n d ∧ ∃ k, d.cl.target = some k ∧ K k := by
    intro d
    simp only [D, List.mem_filterMap, List.mem_range]
    constructor
    · rintro ⟨r, hr, h⟩
      split at h
      · rename_i hex
        cases h; exact hex.choose_spec.1
      · cases h
    · intro h
      have hex : ∃ d', (Performed σ n d' ∧ ∃ k, d'.cl.target = some k ∧ K k) ∧ d'.r = d.r := ⟨d, h, rfl⟩
      refine ⟨d.r, h.1.le, ?_⟩
      rw [dif_pos hex]
      exact congrArg _ (hex.choose_spec.1.1.unique ex h.1 hex.choose_spec.2)
  have hDn : D.Nodup := by
    refine List.Nodup.filterMap ?_ List.nodup_range
    intro r r' d h1 h2
    simp only [Option.mem_def] at h1 h2
    split at h1
    · rename_i e1
      split at h2
      · rename_i e2
        have f1 := e1.choose_spec.2
        have f2 := e2.choose_spec.2
        cases h1
        rw [Option.some.injEq] at h2
        rw [h2] at f2
        exact f1.symm.trans f2
      · cases h2
    · cases h1
  let L := D.mergeSort (fun a b => decide (pos a ≤ pos b))
  have hLp : L.Perm D := List.mergeSort_perm _ _
  have hLs : L.Pairwise (fun a b => pos a ≤ pos b) := by
    have := List.pairwise_mergeSort (le := fun a b : Done => decide (pos a ≤ pos b)) (by simp; omega) (by simp; omega) D
    exact this.imp (by simp)
  have hLm : ∀ d, d ∈ L ↔ Performed σ n d ∧ ∃ k, d.cl.target = some k ∧ K k := fun d => by rw [hLp.mem_iff, hD]
  refine ⟨L, hLp.nodup_iff.2 hDn, hLm, hLs, ?_⟩
  refine hLs.imp_of_mem ?_
  intro a b ha hb hab hlt
  have ha' := (hLm a).1 ha
  have hb' := (hLm b).1 hb
  have h1 := (hpos a ha'.1 ha'.2).1
  have h2 := (hpos b hb'.1 hb'.2).2
  have h3 : (b.r + 1) * (n + 1) ≤ (a.b + 1) * (n + 1) := Nat.mul_le_mul_right _ (by omega)
  omega

/-- The finished calls on the key, in an order in which they could have been made one after the other. -/
theorem linear (pk : PkOk Pk) {σ : Nat → CSt} {γ : Nat → Tid} {n : Nat} {t c : U64} (ex : Exec Pk (Orderly t c) σ γ n)
    (h0 : ∀ u, (σ 0).pc u = .idle) (hi : LinInv (σ 0) t c) (hc : Clear (σ n) t c) :
    ∃ L : List Done, L.Nodup ∧ (∀ d, d ∈ L ↔ Performed σ n d ∧ d.cl.target = some (t, c)) ∧ L.Pairwise (fun a b => ¬ b.r < a.b) ∧
      cellRun (holds (σ 0).items t) (L.map (·.cl)) = L.map (·.res) := by
  obtain ⟨pos, h1, h2⟩ := places pk ex h0 hi hc
  have hk : ∀ d : Done, (∃ k, d.cl.target = some k ∧ k = (t, c)) ↔ d.cl.target = some (t, c) := fun d => by simp
  obtain ⟨L, h3, h4, h5, h6⟩ := sorted_calls ex (fun k => k = (t, c)) pos (fun d hd ht => h1 d hd ((hk d).1 ht))
  simp only [hk] at h4
  exact ⟨L, h3, h4, h6, h2 L h3 h4 h5⟩

/-- The answers of a plain map, key by key. -/
theorem cellsRun_of {m : U64 × U64 → Option IVal} (L : List Done) (ht : ∀ d ∈ L, ∃ k, d.cl.target = some k)
    (h : ∀ k, cellRun (m k) ((L.filter (fun d => decide (d.cl.target = some k))).map (·.cl)) = (L.filter (fun d => decide (d.cl.target = some k))).map (·.res)) :
    cellsRun m (L.map (·.cl)) = L.map (·.res) := by
  induction L generalizing m with
  | nil => rfl
  | cons d L ih =>
    obtain ⟨k, hk⟩ := ht d (by simp)
    have hd := h k
    simp only [List.filter_cons, hk, decide_true, if_true, List.map_cons, cellRun, List.cons.injEq] at hd
    simp only [List.map_cons, cellsRun, List.cons.injEq]
    have e2 : cells m d.cl = (fun k' => if k' = k then (cell (m k) d.cl).1 else m k', (cell (m k) d.cl).2) := by
      unfold cells; rw [hk]
    rw [e2]
    refine ⟨hd.1, ih (fun d' h' => ht d' (by simp [h'])) (fun k' => ?_)⟩
    by_cases hkk : k' = k
    · subst hkk; simpa using hd.2
    · have h1 := h k'
      have h2 : decide (d.cl.target = some k') = false := by
        rw [hk]; simp only [decide_eq_false_iff_not, Option.some.injEq]; exact fun e => hkk e.symm
      rw [List.filter_cons, h2] at h1
      simpa [hkk] using h1

/-- The finished calls on all keys in `K`, in an order in which they could have been made one after the other on a plain map. -/
theorem linear_map (pk : PkOk Pk) {σ : Nat → CSt} {γ : Nat → Tid} {n : Nat} {K : U64 × U64 → Prop} {m0 : U64 × U64 → Option IVal}
    (ex : Exec Pk (fun s g s' => ∀ k, K k → Orderly k.1 k.2 s g s') σ γ n)
    (h0 : ∀ u, (σ 0).pc u = .idle) (hi : ∀ k, K k → LinInv (σ 0) k.1 k.2) (hc : ∀ k, K k → Clear (σ n) k.1 k.2) (hm : ∀ k, K k → holds (σ 0).items k.1 = m0 k) :
    ∃ L : List Done, L.Nodup ∧ (∀ d, d ∈ L ↔ Performed σ n d ∧ ∃ k, d.cl.target = some k ∧ K k) ∧ L.Pairwise (fun a b => ¬ b.r < a.b) ∧
      cellsRun m0 (L.map (·.cl)) = L.map (·.res) := by
  classical
  have hp : ∀ k : U64 × U64, ∃ pos : Done → Nat, K k → (∀ d, Performed σ n d → d.cl.target = some k → 2 * ((d.b + 1) * (n + 1)) ≤ pos d ∧ pos d < 2 * ((d.r + 1) * (n + 1))) ∧
      ∀ L : List Done, L.Nodup → (∀ d, d ∈ L ↔ Performed σ n d ∧ d.cl.target = some k) → L.Pairwise (fun a b => pos a ≤ pos b) →
        cellRun (holds (σ 0).items k.1) (L.map (·.cl)) = L.map (·.res) := by
    intro k
    by_cases hk : K k
    · obtain ⟨pos, h⟩ := places pk (t := k.1) (c := k.2) (fun i hi => ⟨(ex i hi).1, (ex i hi).2 k hk⟩) h0 (hi k hk) (hc k hk)
      exact ⟨pos, fun _ => h⟩
    · exact ⟨fun _ => 0, fun h => absurd h hk⟩
  choose pos hpos using hp
  let P : Done → Nat := fun d => match d.cl.target with | some k => pos k d | none => 0
  have hP : ∀ d k, d.cl.target = some k → P d = pos k d := by
    intro d k h
    show (match d.cl.target with | some k => pos k d | none => 0) = _
    rw [h]
  obtain ⟨L, h3, h4, h5, h6⟩ := sorted_calls ex K P (fun d hd ⟨k, hk, hK⟩ => by
    rw [hP d k hk]; exact (hpos k hK).1 d hd hk)
  refine ⟨L, h3, h4, h6, cellsRun_of L (fun d hd => ?_) (fun k => ?_)⟩
  · obtain ⟨_, k, hk, _⟩ := (h4 d).1 hd
    exact ⟨k, hk⟩
  · by_cases hK : K k
    · rw [← hm k hK]
      refine (hpos k hK).2 _ (h3.filter _) (fun d => ?_) ?_
      · rw [List.mem_filter, h4, decide_eq_true_eq]
        exact ⟨fun h => ⟨h.1.1, h.2⟩, fun h => ⟨⟨h.1, k, h.2, hK⟩, h.2⟩⟩
      · refine (h5.filter _).imp_of_mem ?_
        intro a b ha hb hab
        rw [List.mem_filter, decide_eq_true_eq] at ha hb
        rw [hP a k ha.2, hP b k hb.2] at hab
        exact hab
    · have : L.filter (fun d => decide (d.cl.target = some k)) = [] := by
        rw [List.filter_eq_nil_iff]
        intro d hd
        obtain ⟨_, k', hk', hK'⟩ := (h4 d).1 hd
        rw [decide_eq_true_eq, hk']
        intro e
        cases e; exact hK hK'
      rw [this]; rfl

/-! ### Simple conditions -/

/-- The goroutine is in a Delete of a key with this reversed hash. -/
def InDel (t : U64) (p : PC) : Prop := ∃ c, callOf p = some (.del t c)

/-- Sets of the key do not overlap each other, Deletes of the key do not overlap each other. -/
structure Polite (t c : U64) (s : CSt) (g : Tid) (s' : CSt) : Prop where
  alone : Alone s g
  located : ∀ cl p r, s'.pc g = .lost cl p r → ∀ c', cl.target ≠ some (t, c')
  sets : s.pc g = .idle → InSet t (s'.pc g) → ∀ u, u ≠ g → ¬ InSet t (s.pc u)
  dels : s.pc g = .idle → InDel t (s'.pc g) → ∀ u, u ≠ g → ¬ InDel t (s.pc u)
  conf : s.pc g = .idle → ∀ c' key v, s'.pc g = .pick (.set t c' key v) → c' = c
  kept : ∀ e r, s.pc g = .check e r → e.rev = t → e.dummy = false → checkOk s.items e r = true

theorem Step.inDel {s s' : CSt} {g : Tid} (st : Step Pk s g s') {t : U64} (h : InDel t (s'.pc g)) : s.pc g = .idle ∨ InDel t (s.pc g) := by
  obtain ⟨c, h⟩ := h
  rcases step_callOf_back st (tc := (t, c)) rfl h with h1 | ⟨h1, _⟩
  · exact Or.inr ⟨c, h1⟩
  · exact Or.inl h1

structure PInv (s : CSt) (t : U64) : Prop where
  nd : (refs s.items).Nodup
  ha : HitAt s
  sets : ∀ a b, InSet t (s.pc a) → InSet t (s.pc b) → a = b
  dels : ∀ a b, InDel t (s.pc a) → InDel t (s.pc b) → a = b
  live : ∀ a c r, s.pc a = .hit (.del t c) r → ∃ x ∈ s.items, x.ref = r ∧ x.ignored = false

theorem solo_step {s s' : CSt} {g : Tid} (st : Step Pk s g s') {Q : PC → Prop} (back : Q (s'.pc g) → s.pc g = .idle ∨ Q (s.pc g))
    (start : s.pc g = .idle → Q (s'.pc g) → ∀ u, u ≠ g → ¬ Q (s.pc u)) (h : ∀ a b, Q (s.pc a) → Q (s.pc b) → a = b) :
    ∀ a b, Q (s'.pc a) → Q (s'.pc b) → a = b := by
  have key : ∀ b, Q (s'.pc g) → Q (s'.pc b) → g = b := by
    intro b hg hb
    by_contra hgb
    have hbg : b ≠ g := fun e => hgb e.symm
    rw [st.others hbg] at hb
    rcases back hg with hi | hw
    · exact start hi hg b hbg hb
    · exact hgb (h g b hw hb)
  intro a b ha hb
  by_cases hag : a = g
  · subst hag; exact key b ha hb
  · by_cases hbg : b = g
    · subst hbg; exact (key a hb ha).symm
    · rw [st.others hag] at ha
      rw [st.others hbg] at hb
      exact h a b ha hb

theorem PInv.step {s s' : CSt} {g : Tid} {t c : U64} (I : PInv s t) (nd' : (refs s'.items).Nodup) (st : Step Pk s g s') (o : Polite t c s g s') : PInv s' t := by
  refine ⟨nd', I.ha.step st, solo_step st (fun h => st.inSet h) o.sets I.sets, solo_step st (fun h => st.inDel h) o.dels I.dels, ?_⟩
  intro a c' r hp
  by_cases hag : a = g
  · subst hag
    cases st <;> simp only [setPC_same] at hp <;> try cases hp
    case lookHit cl' t' c1 fwd b cur x h1 h2 h3 h4 h5 =>
      split at hp
      · cases hp
        obtain ⟨hx1, hx2, _⟩ := node_some h3
        exact ⟨x, hx1, hx2, h4⟩
      · cases hp
    case lookAdv => split at hp <;> cases hp
    case findAdv => split at hp <;> cases hp
    case rangeAdv => split at hp <;> cases hp
  · have hpo := hp
    rw [st.others hag] at hp
    obtain ⟨x, hx, h1, h2⟩ := I.live a c' r hp
    have hn : ¬ InDel t (s.pc g) := fun h => hag (I.dels a g ⟨c', by rw [hp]; rfl⟩ h)
    obtain ⟨z, hz, hz1, hz2⟩ := I.ha a _ r hp
    have : x = z := List.inj_on_of_nodup_map I.nd hx hz (h1.trans hz1.symm)
    subst this
    simp only [Call.target, Option.some.injEq, Prod.mk.injEq] at hz2
    cases st <;> try exact ⟨x, hx, h1, h2⟩
    case hitSet t' c key v r x' nv ok h3 h4 h5 =>
      by_cases hr : x.ref = r
      · exact ⟨_, List.mem_map.2 ⟨x, hx, if_pos hr⟩, h1, h2⟩
      · exact ⟨x, List.mem_map.2 ⟨x, hx, if_neg hr⟩, h1, h2⟩
    case hitDel t' c2 r2 h3 =>
      by_cases hr : x.ref = r2
      · exfalso
        obtain ⟨y, hy, hy1, hy2⟩ := I.ha g _ r2 h3
        have : x = y := List.inj_on_of_nodup_map I.nd hx hy (hr.trans hy1.symm)
        subst this
        simp only [Call.target, Option.some.injEq, Prod.mk.injEq] at hy2
        exact hn ⟨c2, by rw [h3, hz2.1, ← hy2.1]; rfl⟩
      · exact ⟨x, List.mem_map.2 ⟨x, hx, if_neg hr⟩, h1, h2⟩
    case link e r2 h3 => exact ⟨x, mem_insBefore.2 (Or.inr hx), h1, h2⟩

theorem Seeks.inSet {t : U64} {p : PC} (h : Seeks t p) : InSet t p := by
  cases p with
  | pick cl => exact h.elim
  | hit cl r => exact h.elim
  | _ => exact h

theorem Polite.orderly {s s' : CSt} {g : Tid} {t c : U64} (I : PInv s t) (o : Polite t c s g s') : Orderly t c s g s' := by
  refine ⟨o.alone, o.located, ?_, I.live g, o.conf, o.kept⟩
  intro e r hp h1 h2 u hu hs
  exact hu (I.sets u g hs.inSet (by rw [hp]; exact ⟨h1, h2⟩))

theorem Exec.polite (pk : PkOk Pk) {σ : Nat → CSt} {γ : Nat → Tid} {n : Nat} {t c : U64} (ex : Exec Pk (Polite t c) σ γ n) (j0 : J1 (σ 0)) (h0 : ∀ u, (σ 0).pc u = .idle) :
    Exec Pk (Orderly t c) σ γ n := by
  have hj : ∀ i, i ≤ n → J1 (σ i) := by
    intro i
    induction i with
    | zero => exact fun _ => j0
    | succ i ih =>
      intro hi
      obtain ⟨st, o⟩ := ex i (by omega)
      exact st.j1 pk o.alone (ih (by omega))
  have hI : ∀ i, i ≤ n → PInv (σ i) t := by
    intro i
    induction i with
    | zero =>
      intro _
      refine ⟨j0.nd, ?_, ?_, ?_, ?_⟩
      · intro u cl r h; rw [h0] at h; cases h
      · intro a b h; rw [h0] at h; cases h
      · rintro a b ⟨_, h⟩; rw [h0] at h; cases h
      · intro a c r h; rw [h0] at h; cases h
    | succ i ih =>
      intro hi
      obtain ⟨st, o⟩ := ex i (by omega)
      exact (ih (by omega)).step (hj _ hi).nd st o
  intro i hi
  exact ⟨(ex i hi).1, (ex i hi).2.orderly (hI i (by omega))⟩

end SLM.Conc
