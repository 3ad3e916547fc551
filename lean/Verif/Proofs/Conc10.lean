import Verif.Proofs.ConcExec
/-! Concurrent use: what a finished Set or Delete leaves behind. -/
set_option autoImplicit false
set_option linter.unusedSimpArgs false
namespace SLM.Conc
variable {Pk : CSt → Call → Ref → Prop}

/-- Nobody is at a node whose hashes are not those of its call. -/
def HitAt (s : CSt) : Prop := ∀ u cl r, s.pc u = .hit cl r → ∃ x ∈ s.items, x.ref = r ∧ cl.target = some (x.rev, x.conflict)

theorem HitAt.step {s s' : CSt} {g : Tid} (st : Step Pk s g s') (h : HitAt s) : HitAt s' := by
  intro u cl r hp
  by_cases hu : u = g
  · subst hu
    cases st <;> simp only [setPC_same] at hp <;> try cases hp
    case lookHit cl' t c fwd b cur x h1 h2 h3 h4 h5 =>
      split at hp
      · rename_i hcf
        cases hp
        obtain ⟨hx1, hx2, _⟩ := node_some h3
        exact ⟨x, hx1, hx2, by rw [h2, h5, hcf]⟩
      · cases hp
    case lookAdv => split at hp <;> cases hp
    case findAdv => split at hp <;> cases hp
    case rangeAdv => split at hp <;> cases hp
  · rw [st.others hu] at hp
    obtain ⟨x, hx, h1, h2⟩ := h u cl r hp
    obtain ⟨y, hy, hs⟩ := st.ext.mem hx
    exact ⟨y, hy, by rw [hs.1, h1], by rw [h2, hs.2.1, hs.2.2.1]⟩

theorem Steps.hitAt {s s' : CSt} (h : Steps Pk s s') (h0 : HitAt s) : HitAt s' := by
  induction h with
  | refl => exact h0
  | step _ h2 ih => exact ih.step h2

/-- Every live item with this reversed hash has this value. -/
def AllVal (l : List Entry) (t : U64) (v : IVal) : Prop := ∀ x ∈ l, x.rev = t → x.ignored = false → x.val = v

/-- No live item has this reversed hash. -/
def NoLive (l : List Entry) (t : U64) : Prop := ∀ x ∈ l, x.rev = t → x.ignored = true

theorem NoLive.allVal {l : List Entry} {t : U64} (h : NoLive l t) (v : IVal) : AllVal l t v := by
  intro x hx ht hl
  rw [h x hx ht] at hl; cases hl

/-- What a goroutine that is in no Set of the key does to the list, as far as the key is concerned: its items keep their values, no
live one is added. -/
theorem step_other {s s' : CSt} {g : Tid} {t : U64} (nd : (refs s.items).Nodup) (ha : HitAt s) (st : Step Pk s g s') (hn : ¬ InSet t (s.pc g)) :
    ∀ y ∈ s'.items, y.rev = t → (∃ x ∈ s.items, x.ref = y.ref ∧ x.rev = t ∧ x.conflict = y.conflict ∧ x.dummy = y.dummy ∧ y.val = x.val ∧
      (y.deleted = false → x.deleted = false)) ∨ y.dummy = true := by
  intro y hy ht
  cases st <;> try exact Or.inl ⟨y, hy, rfl, ht, rfl, rfl, rfl, id⟩
  case hitSet t' c key v r x nv ok h1 h2 h3 =>
    obtain ⟨z, hz, hz1, hz2⟩ := ha g _ r h1
    simp only [Call.target, Option.some.injEq, Prod.mk.injEq] at hz2
    obtain ⟨x', hx', hxy⟩ := List.mem_map.1 hy
    by_cases hr : x'.ref = r
    · exfalso
      have : x' = z := List.inj_on_of_nodup_map nd hx' hz (hr.trans hz1.symm)
      rw [if_pos hr] at hxy
      apply hn
      rw [h1]
      show t' = t
      rw [hz2.1, ← this, ← ht, ← hxy]
    · rw [if_neg hr] at hxy
      subst hxy
      exact Or.inl ⟨x', hx', rfl, ht, rfl, rfl, rfl, id⟩
  case hitDel t' c r h1 =>
    obtain ⟨x', hx', hxy⟩ := List.mem_map.1 hy
    by_cases hr : x'.ref = r
    · rw [if_pos hr] at hxy
      subst hxy
      exact Or.inl ⟨x', hx', rfl, ht, rfl, rfl, rfl, fun h => by cases h⟩
    · rw [if_neg hr] at hxy
      subst hxy
      exact Or.inl ⟨x', hx', rfl, ht, rfl, rfl, rfl, id⟩
  case link e r h1 =>
    rcases mem_insBefore.1 hy with rfl | hy
    · right
      by_contra hd
      apply hn
      rw [h1]
      exact ⟨ht, by simpa using hd⟩
    · exact Or.inl ⟨y, hy, rfl, ht, rfl, rfl, rfl, id⟩

theorem live_of_other {s s' : CSt} {g : Tid} {t : U64} (nd : (refs s.items).Nodup) (ha : HitAt s) (st : Step Pk s g s') (hn : ¬ InSet t (s.pc g))
    {y : Entry} (hy : y ∈ s'.items) (ht : y.rev = t) (hl : y.ignored = false) :
    ∃ x ∈ s.items, x.ref = y.ref ∧ x.rev = t ∧ x.ignored = false ∧ y.val = x.val := by
  simp only [Entry.ignored, Bool.or_eq_false_iff] at hl
  rcases step_other nd ha st hn y hy ht with ⟨x, hx, h1, h2, _, h4, h5, h6⟩ | hd
  · exact ⟨x, hx, h1, h2, by simp [Entry.ignored, h4, hl.1, h6 hl.2], h5⟩
  · rw [hd] at hl; cases hl.1

theorem AllVal.other {s s' : CSt} {g : Tid} {t : U64} {v : IVal} (nd : (refs s.items).Nodup) (ha : HitAt s) (st : Step Pk s g s')
    (hn : ¬ InSet t (s.pc g)) (h : AllVal s.items t v) : AllVal s'.items t v := by
  intro y hy ht hl
  obtain ⟨x, hx, _, h2, h3, h4⟩ := live_of_other nd ha st hn hy ht hl
  rw [h4]; exact h x hx h2 h3

theorem NoLive.other {s s' : CSt} {g : Tid} {t : U64} (nd : (refs s.items).Nodup) (ha : HitAt s) (st : Step Pk s g s')
    (hn : ¬ InSet t (s.pc g)) (h : NoLive s.items t) : NoLive s'.items t := by
  intro y hy ht
  by_contra hl
  obtain ⟨x, hx, _, h2, h3, _⟩ := live_of_other nd ha st hn hy ht (by simpa using hl)
  rw [h x hx h2] at h3; cases h3

theorem AtMostOne.other {s s' : CSt} {g : Tid} {t : U64} (nd : (refs s.items).Nodup) (ha : HitAt s) (st : Step Pk s g s')
    (hn : ¬ InSet t (s.pc g)) (h : AtMostOne s.items t) : AtMostOne s'.items t := by
  intro y hy y' hy' ht ht' hl hl'
  obtain ⟨x, hx, h1, h2, h3, _⟩ := live_of_other nd ha st hn hy ht hl
  obtain ⟨x', hx', h1', h2', h3', _⟩ := live_of_other nd ha st hn hy' ht' hl'
  rw [← h1, ← h1']; exact h x hx x' hx' h2 h2' h3 h3'

/-- The live items of the key are all at `r`. -/
def OnlyAt (l : List Entry) (t : U64) (r : Ref) : Prop := ∀ x ∈ l, x.rev = t → x.ignored = false → x.ref = r

theorem OnlyAt.other {s s' : CSt} {g : Tid} {t : U64} {r : Ref} (nd : (refs s.items).Nodup) (ha : HitAt s) (st : Step Pk s g s')
    (hn : ¬ InSet t (s.pc g)) (h : OnlyAt s.items t r) : OnlyAt s'.items t r := by
  intro y hy ht hl
  obtain ⟨x, hx, h1, h2, h3, _⟩ := live_of_other nd ha st hn hy ht hl
  rw [← h1]; exact h x hx h2 h3

/-- A goroutine never goes back to the start. -/
theorem Step.not_idle {s s' : CSt} {g : Tid} (st : Step Pk s g s') : s'.pc g ≠ .idle := by
  cases st <;> rw [setPC_same] <;> try simp
  all_goals (split <;> simp)

/-! ### A finished Set -/

/-- Stages of the Set of value `v`. -/
def Mine (l : List Entry) (t : U64) (v : IVal) : PC → Prop
  | .pick (.set t' _ _ v') => t' = t ∧ v' = v
  | .look (.set t' _ _ v') _ _ _ _ => t' = t ∧ v' = v
  | .lost (.set t' _ _ v') _ _ => t' = t ∧ v' = v
  | .miss (.set t' _ _ v') _ => t' = t ∧ v' = v
  | .hit (.set t' _ _ v') r => t' = t ∧ v' = v ∧ OnlyAt l t r
  | .fOpt _ e _ _ => e.rev = t ∧ e.dummy = false ∧ e.val = v
  | .fLoop _ e _ _ _ _ => e.rev = t ∧ e.dummy = false ∧ e.val = v
  | .fEnd _ e _ _ _ => e.rev = t ∧ e.dummy = false ∧ e.val = v
  | .start2 e _ _ => e.rev = t ∧ e.dummy = false ∧ e.val = v
  | .target e _ _ => e.rev = t ∧ e.dummy = false ∧ e.val = v
  | .check e _ => e.rev = t ∧ e.dummy = false ∧ e.val = v
  | .link e _ => e.rev = t ∧ e.dummy = false ∧ e.val = v
  | .ret (.bool b) => b = true → AllVal l t v
  | .ret .panic => True
  | _ => False

theorem Mine.other {s s' : CSt} {u : Tid} {t : U64} {v : IVal} {p : PC} (nd : (refs s.items).Nodup) (ha : HitAt s) (st : Step Pk s u s')
    (hn : ¬ InSet t (s.pc u)) (h : Mine s.items t v p) : Mine s'.items t v p := by
  cases p with
  | hit cl r => cases cl <;> first | exact h | exact ⟨h.1, h.2.1, h.2.2.other nd ha st hn⟩
  | ret res => cases res <;> first | exact h | exact fun hb => (h hb).other nd ha st hn
  | pick cl => cases cl <;> exact h
  | look cl => cases cl <;> exact h
  | miss cl => cases cl <;> exact h
  | lost cl => cases cl <;> exact h
  | _ => exact h

theorem Mine.self {s s' : CSt} {g : Tid} {t : U64} {v : IVal} (nd : (refs s.items).Nodup) (one : AtMostOne s.items t)
    (way : Way s.items t (s.pc g)) (st : Step Pk s g s') (h : Mine s.items t v (s.pc g)) : Mine s'.items t v (s'.pc g) := by
  cases st <;> rw [setPC_same]
  case pickKey cl t' c' b d h1 h2 h3 h4 => rw [h1] at h; cases cl <;> exact h
  case pickLost cl t' c' p r h1 h2 h3 h4 h5 => rw [h1] at h; cases cl <;> exact h
  case lostFound cl t' c' p r d h1 h2 h3 h4 => rw [h1] at h; cases cl <;> exact h
  case lostPanic => trivial
  case lostSet t' c' key v' p r h1 h2 => rw [h1] at h; exact ⟨h.1, rfl, h.2⟩
  case lostSetLate t' c' key v' p r d h1 h2 h3 h4 => rw [h1] at h; exact ⟨h.1, rfl, h.2⟩
  case lookCont cl t' c' fwd b cur x h1 h2 h3 h4 => rw [h1] at h; cases cl <;> exact h
  case lookHit cl t' c' fwd b cur x h1 h2 h3 h4 h5 =>
    rw [h1] at h
    obtain ⟨hx1, hx2, _⟩ := node_some h3
    cases cl <;> try exact h.elim
    simp only [Call.target, Option.some.injEq, Prod.mk.injEq] at h2
    split
    · refine ⟨h.1, h.2, ?_⟩
      intro y hy ht hl
      rw [← hx2]
      exact one y hy x hx1 ht (by rw [h5, ← h2.1]; exact h.1) hl h4
    · exact h
  case lookMiss cl t' c' fwd b cur x h1 h2 h3 h4 h5 => rw [h1] at h; cases cl <;> exact h
  case lookAdv cl fwd b cur h1 => rw [h1] at h; split <;> cases cl <;> exact h
  case hitSet t' c' key v' r x nv ok h1 h2 h3 =>
    rw [h1] at h
    intro hok
    subst hok
    have hnv := setValue_ok h3
    intro y hy ht hl
    obtain ⟨x', hx', hxy⟩ := List.mem_map.1 hy
    by_cases hr : x'.ref = r
    · rw [if_pos hr] at hxy
      rw [← hxy, hnv]; exact h.2.1
    · rw [if_neg hr] at hxy
      subst hxy
      exact absurd (h.2.2 x' hx' ht hl) hr
  case hitSetPanic => trivial
  case missSet t' c' key v' b h1 => rw [h1] at h; exact ⟨h.1, rfl, h.2⟩
  case findOpt h1 => rw [h1] at h; exact h
  case findStop h1 _ _ => rw [h1] at h; exact h
  case findCont h1 _ _ => rw [h1] at h; exact h
  case findAdv h1 => rw [h1] at h; split <;> exact h
  case findEnd1 h1 => rw [h1] at h; exact h
  case findEnd2 h1 => rw [h1] at h; exact h
  case start2 h1 => rw [h1] at h; exact h
  case targetPos h1 => rw [h1] at h; exact h
  case targetFall h1 _ _ => rw [h1] at h; exact h
  case checkOk h1 _ => rw [h1] at h; exact h
  case checkFail e r h1 h2 =>
    rw [h1] at h way
    intro _
    exact NoLive.allVal (way ⟨h.1, h.2.1⟩) v
  case link e r h1 =>
    rw [h1] at h way
    intro _ y hy ht hl
    rcases mem_insBefore.1 hy with rfl | hy
    · exact h.2.2
    · rw [way ⟨h.1, h.2.1⟩ y hy ht] at hl; cases hl
  all_goals (exfalso; simp only [Mine, *] at h)

theorem Mine.inSet {l : List Entry} {t : U64} {v : IVal} {p : PC} (h : Mine l t v p) : InSet t p ∨ ∃ r, p = .ret r := by
  cases p with
  | hit cl r => cases cl <;> first | exact Or.inl h.1 | exact h.elim
  | ret res => exact Or.inr ⟨_, rfl⟩
  | pick cl => cases cl <;> first | exact Or.inl h.1 | exact h.elim
  | look cl => cases cl <;> first | exact Or.inl h.1 | exact h.elim
  | miss cl => cases cl <;> first | exact Or.inl h.1 | exact h.elim
  | lost cl => cases cl <;> first | exact Or.inl h.1 | exact h.elim
  | idle => exact h.elim
  | walk => exact h.elim
  | «foreign» => exact h.elim
  | _ => exact Or.inl ⟨h.1, h.2.1⟩

/-- No goroutine but `g` is in a Set of the key after the step. -/
def NoOther (g : Tid) (t : U64) (u : Tid) (s' : CSt) : Prop := u ≠ g → ¬ InSet t (s'.pc u)

/-- `g` performs a Set of the key, and nobody else does; Sets of the key locate linked buckets, and the order is kept. -/
def SetAlone (g : Tid) (t : U64) (s : CSt) (u : Tid) (s' : CSt) : Prop := Alone s u ∧ Located t (s'.pc u) ∧ NoOther g t u s'

theorem mine_run (pk : PkOk Pk) {s0 s : CSt} {g : Tid} {t c : U64} {key : Key} {v : IVal} (j : J1 s0) (ha : HitAt s0) (hu : UInv s0 t c)
    (hg : s0.pc g = .pick (.set t c key v)) (h : CSteps Pk (SetAlone g t) s0 s) (hc : Clear s t c) :
    J1 s ∧ HitAt s ∧ UInv s t c ∧ Mine s.items t v (s.pc g) ∧ ∀ u, u ≠ g → ¬ InSet t (s.pc u) := by
  induction h with
  | refl =>
    refine ⟨j, ha, hu, by rw [hg]; exact ⟨rfl, rfl⟩, fun u hne hi => hne (hu.solo u g hi (by rw [hg]; rfl))⟩
  | @step a b u h1 st hp ih =>
    obtain ⟨al, loc, no⟩ := hp
    obtain ⟨ja, haa, ua, ma, na⟩ := ih (hc.back st.ext)
    have hni : ¬ (a.pc g = .idle) := by
      intro hi; rw [hi] at ma; exact ma
    have solo : SoloStart t c a u b := by
      intro hi hin
      by_cases hug : u = g
      · subst hug; exact absurd hi hni
      · exact absurd hin (no hug)
    refine ⟨st.j1 pk al ja, haa.step st, st.uinv pk ja solo loc (hc.back st.ext) ua, ?_, ?_⟩
    · by_cases hug : u = g
      · subst hug; exact ma.self ja.nd ua.one (ua.way u) st
      · rw [st.others (fun e => hug e.symm)]
        exact ma.other ja.nd haa st (na u hug)
    · intro w hw
      by_cases hwu : w = u
      · subst hwu; exact no hw
      · rw [st.others hwu]; exact na w hw

/-- Nobody is in a Set of the key after the step. -/
def NoSetOf (t : U64) (_ : CSt) (u : Tid) (s' : CSt) : Prop := ¬ InSet t (s'.pc u)

theorem CSteps.steps {P : CSt → Tid → CSt → Prop} {a b : CSt} (h : CSteps Pk P a b) : Steps Pk a b := by
  induction h with
  | refl => exact .refl _
  | step _ h2 _ ih => exact .step ih h2

theorem noSet_run {s s' : CSt} {t : U64} (h : CSteps Pk (NoSetOf t) s s') (h0 : ∀ u, ¬ InSet t (s.pc u)) : ∀ u, ¬ InSet t (s'.pc u) := by
  induction h with
  | refl => exact h0
  | @step a b u _ st hp ih =>
    intro w
    by_cases hw : w = u
    · subst hw; exact hp
    · rw [st.others hw]; exact ih w

/-- A property of the list that steps outside Sets of the key keep. -/
theorem keep_run (pk : PkOk Pk) {s s' : CSt} {t : U64} {Q : List Entry → Prop}
    (hQ : ∀ {a b : CSt} {u : Tid}, (refs a.items).Nodup → HitAt a → Step Pk a u b → ¬ InSet t (a.pc u) → Q a.items → Q b.items)
    (j : J0 s) (ha : HitAt s) (h : CSteps Pk (NoSetOf t) s s') (h0 : ∀ u, ¬ InSet t (s.pc u)) (hq : Q s.items) : Q s'.items := by
  induction h with
  | refl => exact hq
  | @step a b u h1 st hp ih => exact hQ (h1.steps.j0 pk j).nd (h1.steps.hitAt ha) st (noSet_run h1 h0 u) ih

/-! ### A Get afterwards -/

/-- Stages of a Get of a key all of whose live items have value `v`. -/
def Sees (l : List Entry) (t c : U64) (v : IVal) : PC → Prop
  | .pick cl => cl = .get t c
  | .look cl _ _ _ _ => cl = .get t c
  | .hit cl r => cl = .get t c ∧ ∃ x ∈ l, x.ref = r ∧ x.rev = t ∧ x.dummy = false ∧ x.val = v
  | .miss cl _ => cl = .get t c
  | .lost cl _ _ => cl = .get t c
  | .ret res => res = .val v true ∨ res = .val none false ∨ res = .panic
  | _ => False

theorem Sees.other {s s' : CSt} {u : Tid} {t c : U64} {v : IVal} {p : PC} (nd : (refs s.items).Nodup) (nd' : (refs s'.items).Nodup)
    (ha : HitAt s) (st : Step Pk s u s')
    (hn : ¬ InSet t (s.pc u)) (h : Sees s.items t c v p) : Sees s'.items t c v p := by
  cases p with
  | hit cl r =>
    obtain ⟨h1, x, hx, h2, h3, h4, h5⟩ := h
    obtain ⟨y, hy, hs⟩ := st.ext.mem hx
    refine ⟨h1, y, hy, by rw [hs.1, h2], by rw [hs.2.1, h3], by rw [hs.2.2.2.1, h4], ?_⟩
    rcases step_other nd ha st hn y hy (by rw [hs.2.1, h3]) with ⟨x', hx', e1, _, _, _, e2, _⟩ | hd
    · have : x' = x := List.inj_on_of_nodup_map nd hx' hx (e1.trans hs.1)
      rw [e2, this, h5]
    · rw [hs.2.2.2.1, h4] at hd; cases hd
  | _ => exact h

theorem Sees.self {s s' : CSt} {g : Tid} {t c : U64} {v : IVal} (nd : (refs s.items).Nodup) (hv : AllVal s.items t v)
    (st : Step Pk s g s') (h : Sees s.items t c v (s.pc g)) : Sees s'.items t c v (s'.pc g) := by
  cases st <;> rw [setPC_same]
  case pickKey cl' t' c' b d h1 h2 h3 h4 => rw [h1] at h; exact h
  case pickSplit t' p b h1 h2 => rw [h1] at h; simp [Sees] at h
  case pickLost cl' t' c' p r h1 h2 h3 h4 h5 => rw [h1] at h; exact h
  case lostFound cl' t' c' p r d h1 h2 h3 h4 => rw [h1] at h; exact h
  case lostPanic => exact Or.inr (Or.inr rfl)
  case lostGet => exact Or.inr (Or.inl rfl)
  case lookCont cl' t' c' fwd b cur x h1 h2 h3 h4 => rw [h1] at h; exact h
  case lookHit cl' t' c' fwd b cur x h1 h2 h3 h4 h5 =>
    rw [h1] at h
    simp only [Sees] at h
    subst h
    simp only [Call.target, Option.some.injEq, Prod.mk.injEq] at h2
    obtain ⟨rfl, rfl⟩ := h2
    split
    · obtain ⟨hx1, hx2, _⟩ := node_some h3
      have h4' := h4
      simp only [Entry.ignored, Bool.or_eq_false_iff] at h4'
      exact ⟨rfl, x, hx1, hx2, h5, h4'.1, hv x hx1 h5 h4⟩
    · rfl
  case lookMiss cl' t' c' fwd b cur x h1 h2 h3 h4 h5 => rw [h1] at h; exact h
  case lookAdv cl' fwd b cur h1 => rw [h1] at h; split <;> exact h
  case hitGet t' c' r x h1 h2 =>
    rw [h1] at h
    obtain ⟨h3, y, hy, h4, h5, h6, h7⟩ := h
    obtain ⟨hx1, hx2, _⟩ := node_some h2
    have : x = y := List.inj_on_of_nodup_map nd hx1 hy (hx2.trans h4.symm)
    rw [this, h7]; exact Or.inl rfl
  case missGet t' c' b h1 => exact Or.inr (Or.inl rfl)
  all_goals (simp only [Sees, *] at h)
  all_goals (first | exact absurd h (by simp) | (obtain ⟨h, _⟩ := h; cases h) | cases h)

theorem sees_run (pk : PkOk Pk) {s s' : CSt} {g : Tid} {t c : U64} {v : IVal} (j : J0 s) (ha : HitAt s) (h0 : ∀ u, ¬ InSet t (s.pc u))
    (hv : AllVal s.items t v) (hg : s.pc g = .pick (.get t c)) (h : CSteps Pk (NoSetOf t) s s') : Sees s'.items t c v (s'.pc g) := by
  induction h with
  | refl => rw [hg]; rfl
  | @step a b u h1 st hp ih =>
    have jb := h1.steps.j0 pk j
    have hab := h1.steps.hitAt ha
    have nb := noSet_run h1 h0
    have vb := keep_run pk (Q := fun l => AllVal l t v) (fun nd ha st hn h => h.other nd ha st hn) j ha h1 h0 hv
    by_cases hu : u = g
    · subst hu; exact ih.self jb.nd vb st
    · rw [st.others (fun e => hu e.symm)]; exact ih.other jb.nd (st.j0 pk jb).nd hab st (nb u)

/-! ### A finished Delete -/

/-- Stages of a Delete of a key with one live item. -/
def Kills (l : List Entry) (t c : U64) : PC → Prop
  | .pick cl => cl = .del t c
  | .look cl _ _ _ _ => cl = .del t c
  | .hit cl r => cl = .del t c ∧ OnlyAt l t r
  | .miss cl _ => cl = .del t c
  | .lost cl _ _ => cl = .del t c
  | .ret res => res = .bool true → NoLive l t
  | _ => False

theorem Kills.other {s s' : CSt} {u : Tid} {t c : U64} {p : PC} (nd : (refs s.items).Nodup) (ha : HitAt s) (st : Step Pk s u s')
    (hn : ¬ InSet t (s.pc u)) (h : Kills s.items t c p) : Kills s'.items t c p := by
  cases p with
  | hit cl r => exact ⟨h.1, h.2.other nd ha st hn⟩
  | ret res => exact fun hb => (h hb).other nd ha st hn
  | _ => exact h

theorem Kills.self {s s' : CSt} {g : Tid} {t c : U64} (one : AtMostOne s.items t)
    (st : Step Pk s g s') (h : Kills s.items t c (s.pc g)) : Kills s'.items t c (s'.pc g) := by
  cases st <;> rw [setPC_same]
  case pickKey cl' t' c' b d h1 h2 h3 h4 => rw [h1] at h; exact h
  case pickSplit t' p b h1 h2 => rw [h1] at h; simp [Kills] at h
  case pickLost cl' t' c' p r h1 h2 h3 h4 h5 => rw [h1] at h; exact h
  case lostFound cl' t' c' p r d h1 h2 h3 h4 => rw [h1] at h; exact h
  case lostPanic => intro h; cases h
  case lostGet => intro h; cases h
  case lostDel => intro h; cases h
  case lookCont cl' t' c' fwd b cur x h1 h2 h3 h4 => rw [h1] at h; exact h
  case lookHit cl' t' c' fwd b cur x h1 h2 h3 h4 h5 =>
    rw [h1] at h
    simp only [Kills] at h
    subst h
    simp only [Call.target, Option.some.injEq, Prod.mk.injEq] at h2
    obtain ⟨rfl, rfl⟩ := h2
    split
    · obtain ⟨hx1, hx2, _⟩ := node_some h3
      refine ⟨rfl, fun y hy ht hl => ?_⟩
      rw [← hx2]; exact one y hy x hx1 ht h5 hl h4
    · rfl
  case lookMiss cl' t' c' fwd b cur x h1 h2 h3 h4 h5 => rw [h1] at h; exact h
  case lookAdv cl' fwd b cur h1 => rw [h1] at h; split <;> exact h
  case hitGet => intro h; cases h
  case hitDel t' c' r h1 =>
    rw [h1] at h
    intro _ y hy ht
    obtain ⟨x', hx', hxy⟩ := List.mem_map.1 hy
    by_cases hr : x'.ref = r
    · rw [if_pos hr] at hxy
      rw [← hxy]; simp [Entry.ignored]
    · rw [if_neg hr] at hxy
      subst hxy
      by_contra hl
      exact hr (h.2 x' hx' ht (by simpa using hl))
  case missGet t' c' b h1 => intro h; cases h
  case missDel t' c' b h1 => intro h; cases h
  all_goals (simp only [Kills, *] at h)
  all_goals (first | exact absurd h (by simp) | (obtain ⟨h, _⟩ := h; cases h) | cases h)

theorem kills_run (pk : PkOk Pk) {s s' : CSt} {g : Tid} {t c : U64} (j : J0 s) (ha : HitAt s) (h0 : ∀ u, ¬ InSet t (s.pc u))
    (one : AtMostOne s.items t) (hg : s.pc g = .pick (.del t c)) (h : CSteps Pk (NoSetOf t) s s') : Kills s'.items t c (s'.pc g) := by
  induction h with
  | refl => rw [hg]; rfl
  | @step a b u h1 st hp ih =>
    have jb := h1.steps.j0 pk j
    have hab := h1.steps.hitAt ha
    have nb := noSet_run h1 h0
    have ob := keep_run pk (Q := fun l => AtMostOne l t) (fun nd ha st hn h => h.other nd ha st hn) j ha h1 h0 one
    by_cases hu : u = g
    · subst hu; exact ih.self ob st
    · rw [st.others (fun e => hu e.symm)]; exact ih.other jb.nd hab st (nb u)

/-- Stages of a Get or Delete of a key without live items. -/
def Misses (cl : Call) : PC → Prop
  | .pick cl' => cl' = cl
  | .look cl' _ _ _ _ => cl' = cl
  | .miss cl' _ => cl' = cl
  | .lost cl' _ _ => cl' = cl
  | .ret res => res = .panic ∨ (match cl with | .get _ _ => res = .val none false | _ => res = .bool false)
  | _ => False

theorem Misses.self {s s' : CSt} {g : Tid} {t c : U64} {cl : Call} (hcl : cl = .get t c ∨ cl = .del t c) (hno : NoLive s.items t)
    (st : Step Pk s g s') (h : Misses cl (s.pc g)) : Misses cl (s'.pc g) := by
  have hns : ∀ t' c' k v, cl ≠ .set t' c' k v := by rcases hcl with rfl | rfl <;> simp
  have htg : cl.target = some (t, c) := by rcases hcl with rfl | rfl <;> rfl
  cases st <;> rw [setPC_same]
  case pickKey cl' t' c' b d h1 h2 h3 h4 => rw [h1] at h; exact h
  case pickSplit t' p b h1 h2 => rw [h1] at h; rcases hcl with rfl | rfl <;> cases h
  case pickLost cl' t' c' p r h1 h2 h3 h4 h5 => rw [h1] at h; exact h
  case lostFound cl' t' c' p r d h1 h2 h3 h4 => rw [h1] at h; exact h
  case lostPanic => exact Or.inl rfl
  case lostGet h1 h2 => rw [h1] at h; cases (h : _ = cl); exact Or.inr rfl
  case lostDel h1 h2 => rw [h1] at h; cases (h : _ = cl); exact Or.inr rfl
  case lostSet h1 h2 => rw [h1] at h; exact absurd (h : _ = cl).symm (hns _ _ _ _)
  case lostSetLate h1 _ _ _ => rw [h1] at h; exact absurd (h : _ = cl).symm (hns _ _ _ _)
  case lookCont cl' t' c' fwd b cur x h1 h2 h3 h4 => rw [h1] at h; exact h
  case lookHit cl' t' c' fwd b cur x h1 h2 h3 h4 h5 =>
    rw [h1] at h
    cases (h : cl' = cl)
    rw [htg] at h2
    simp only [Option.some.injEq, Prod.mk.injEq] at h2
    obtain ⟨hx1, hx2, _⟩ := node_some h3
    rw [hno x hx1 (by rw [h5, h2.1])] at h4; cases h4
  case lookMiss cl' t' c' fwd b cur x h1 h2 h3 h4 h5 => rw [h1] at h; exact h
  case lookAdv cl' fwd b cur h1 => rw [h1] at h; split <;> exact h
  case missGet h1 => rw [h1] at h; cases (h : _ = cl); exact Or.inr rfl
  case missDel h1 => rw [h1] at h; cases (h : _ = cl); exact Or.inr rfl
  case missSet h1 => rw [h1] at h; exact absurd (h : _ = cl).symm (hns _ _ _ _)
  all_goals (simp only [Misses, *] at h)

theorem misses_run (pk : PkOk Pk) {s s' : CSt} {g : Tid} {t c : U64} {cl : Call} (hcl : cl = .get t c ∨ cl = .del t c) (j : J0 s) (ha : HitAt s)
    (h0 : ∀ u, ¬ InSet t (s.pc u)) (hno : NoLive s.items t) (hg : s.pc g = .pick cl) (h : CSteps Pk (NoSetOf t) s s') :
    Misses cl (s'.pc g) := by
  induction h with
  | refl => rw [hg]; rfl
  | @step a b u h1 st hp ih =>
    have vb := keep_run pk (Q := fun l => NoLive l t) (fun nd ha st hn h => h.other nd ha st hn) j ha h1 h0 hno
    by_cases hu : u = g
    · subst hu; exact ih.self hcl vb st
    · rw [st.others (fun e => hu e.symm)]; exact ih

/-- Stages of a Range that has shown no entry of the key. -/
def Skips (l : List Entry) (t : U64) : PC → Prop
  | .walk _ seen _ => ∀ r ∈ seen, ∃ x ∈ l, x.ref = r ∧ x.rev ≠ t
  | .ret (.seen L) => ∀ r ∈ L, ∃ x ∈ l, x.ref = r ∧ x.rev ≠ t
  | _ => True

theorem Skips.ext {l l' : List Entry} {t : U64} {p : PC} (e : Ext l l') (h : Skips l t p) : Skips l' t p := by
  have key : ∀ {r : Ref}, (∃ x ∈ l, x.ref = r ∧ x.rev ≠ t) → ∃ x ∈ l', x.ref = r ∧ x.rev ≠ t := by
    rintro r ⟨x, hx, h1, h2⟩
    obtain ⟨y, hy, hs⟩ := e.mem hx
    exact ⟨y, hy, hs.1.trans h1, by rw [hs.2.1]; exact h2⟩
  cases p with
  | walk cur seen adv => exact fun r hr => key (h r hr)
  | ret res => cases res <;> first | trivial | exact fun r hr => key (h r hr)
  | _ => trivial

theorem Skips.self {s s' : CSt} {g : Tid} {t : U64} (hno : NoLive s.items t) (st : Step Pk s g s') (h : Skips s.items t (s.pc g)) :
    Skips s'.items t (s'.pc g) := by
  cases st <;> rw [setPC_same] <;> try trivial
  case lookHit => split <;> trivial
  case lookAdv => split <;> trivial
  case findAdv => split <;> trivial
  case rangeStart => intro r hr; cases hr
  case rangeSee cur seen x h1 h2 =>
    rw [h1] at h
    intro r hr
    obtain ⟨hx1, hx2, _⟩ := node_some h2
    split at hr
    · exact h r hr
    · rename_i hx
      simp only [List.mem_append, List.mem_singleton] at hr
      rcases hr with hr | rfl
      · exact h r hr
      · exact ⟨x, hx1, hx2, fun e => hx (hno x hx1 e)⟩
  case rangeAdv cur seen h1 =>
    rw [h1] at h
    split <;> exact h

theorem skips_run (pk : PkOk Pk) {s s' : CSt} {g : Tid} {t : U64} (j : J0 s) (ha : HitAt s) (h0 : ∀ u, ¬ InSet t (s.pc u))
    (hno : NoLive s.items t) (hg : s.pc g = .idle) (h : CSteps Pk (NoSetOf t) s s') : Skips s'.items t (s'.pc g) := by
  induction h with
  | refl => rw [hg]; trivial
  | @step a b u h1 st hp ih =>
    have vb := keep_run pk (Q := fun l => NoLive l t) (fun nd ha st hn h => h.other nd ha st hn) j ha h1 h0 hno
    by_cases hu : u = g
    · subst hu; exact ih.self vb st
    · rw [st.others (fun e => hu e.symm)]; exact ih.ext st.ext

end SLM.Conc
