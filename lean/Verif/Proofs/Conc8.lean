import Verif.Proofs.ConcExec
/-! Steps on other maps can be taken out of an execution. -/
set_option autoImplicit false
namespace SLM.Conc

variable {Pk : CSt → Call → Ref → Prop}

def isForeign : PC → Bool
  | .foreign _ => true
  | _ => false

/-- The choice of the bucket depends on the list only. -/
def PkItems (Pk : CSt → Call → Ref → Prop) : Prop := ∀ s s' cl b, s'.items = s.items → Pk s cl b → Pk s' cl b

theorem pkExact_items (m : Mode) : PkItems (pkExact m) := fun s s' cl b h hp => by unfold pkExact at *; rw [h]; exact hp

/-- A step on this map can also be made in a state with the same list, the same counters and the same program point of the
goroutine, if the option is the same or the goroutine does not use it. -/
theorem Step.lift (pi : PkItems Pk) {s s' t : CSt} {g : Tid} (st : Step Pk s g s') (hf : isForeign (s.pc g) = false)
    (hf' : isForeign (s'.pc g) = false) (h1 : t.items = s.items) (h2 : t.nextId = s.nextId) (h3 : t.used = s.used)
    (h4 : t.pc g = s.pc g) (h6 : ∀ u e, (s.pc u).newE = some e → (t.pc u).newE = some e) (h5 : t.opt = s.opt ∨ (InFind (s.pc g) = none ∧ InFind (s'.pc g) = none)) :
    ∃ t', Step Pk t g t' ∧ t'.items = s'.items ∧ t'.nextId = s'.nextId ∧ t'.used = s'.used ∧ t'.pc g = s'.pc g ∧
      (∀ u, u ≠ g → t'.pc u = t.pc u) ∧ (t.opt = s.opt → t'.opt = s'.opt) := by
  have hpk : ∀ cl b, Pk s cl b → Pk t cl b := fun cl b => pi s t cl b h1
  have hwin : ∀ p r, Window s p r → Window t p r := by
    rintro p r ⟨⟨u, hu⟩, i, j, q, e1, e2, e3, e4, d, hd, e5⟩
    exact ⟨⟨u, h6 u _ hu⟩, i, j, q, e1, e2, e3, e4, d, by rw [h1]; exact hd, e5⟩
  obtain ⟨i, o, n, us, pc⟩ := s
  obtain ⟨i', o', n', us', pc'⟩ := t
  simp only at h1 h2 h3 h4 h5 hf
  subst h1 h2 h3
  have fin : ∀ {s1 s2 : CSt} {p : PC}, Step Pk ⟨i', o', n', us', pc'⟩ g (setPC s1 g p) → s1.items = s2.items → s1.nextId = s2.nextId → s1.used = s2.used →
      s1.pc = pc' → (o' = o → s1.opt = s2.opt) →
      ∃ t', Step Pk ⟨i', o', n', us', pc'⟩ g t' ∧ t'.items = (setPC s2 g p).items ∧ t'.nextId = (setPC s2 g p).nextId ∧
        t'.used = (setPC s2 g p).used ∧ t'.pc g = (setPC s2 g p).pc g ∧ (∀ u, u ≠ g → t'.pc u = pc' u) ∧
        (o' = o → t'.opt = (setPC s2 g p).opt) := by
    intro s1 s2 p st a1 a2 a3 a4 a6
    exact ⟨_, st, a1, a2, a3, by simp [setPC], fun u hu => by simp [setPC, hu, a4], a6⟩
  cases st with
  | begin cl t c a1 a2 => exact fin (.begin ⟨i', o', n', us', pc'⟩ g cl t c (h4.trans a1) a2) rfl rfl rfl rfl id
  | beginSplit t p a1 a2 => exact fin (.beginSplit ⟨i', o', n', us', pc'⟩ g t p (h4.trans a1) a2) rfl rfl rfl rfl id
  | pickKey cl t c b d a1 a2 a3 a4 => exact fin (.pickKey ⟨i', o', n', us', pc'⟩ g cl t c b d (h4.trans a1) a2 (hpk _ _ a3) a4) rfl rfl rfl rfl id
  | pickLost cl t c p r a1 a2 a3 a4 a5 => exact fin (.pickLost ⟨i', o', n', us', pc'⟩ g cl t c p r (h4.trans a1) a2 (hwin _ _ a3) a4 a5) rfl rfl rfl rfl id
  | lostFound cl t c p r d a1 a2 a3 a4 => exact fin (.lostFound ⟨i', o', n', us', pc'⟩ g cl t c p r d (h4.trans a1) a2 a3 a4) rfl rfl rfl rfl id
  | lostPanic cl t c p r a1 a2 a3 => exact fin (.lostPanic ⟨i', o', n', us', pc'⟩ g cl t c p r (h4.trans a1) a2 a3) rfl rfl rfl rfl id
  | lostGet t c p r a1 a2 => exact fin (.lostGet ⟨i', o', n', us', pc'⟩ g t c p r (h4.trans a1) a2) rfl rfl rfl rfl id
  | lostDel t c p r a1 a2 => exact fin (.lostDel ⟨i', o', n', us', pc'⟩ g t c p r (h4.trans a1) a2) rfl rfl rfl rfl id
  | lostSet t c key v p r a1 a2 => exact fin (.lostSet ⟨i', o', n', us', pc'⟩ g t c key v p r (h4.trans a1) a2) rfl rfl rfl rfl id
  | lostSetLate t c key v p r d a1 a2 a3 a4 =>
    exact fin (.lostSetLate ⟨i', o', n', us', pc'⟩ g t c key v p r d (h4.trans a1) a2 a3 a4) rfl rfl rfl rfl id
  | pickSplit t p b a1 a2 => exact fin (.pickSplit ⟨i', o', n', us', pc'⟩ g t p b (h4.trans a1) (hpk _ _ a2)) rfl rfl rfl rfl id
  | lookCont cl t c fwd b cur x a1 a2 a3 a4 => exact fin (.lookCont ⟨i', o', n', us', pc'⟩ g cl t c fwd b cur x (h4.trans a1) a2 a3 a4) rfl rfl rfl rfl id
  | lookHit cl t c fwd b cur x a1 a2 a3 a4 a5 => exact fin (.lookHit ⟨i', o', n', us', pc'⟩ g cl t c fwd b cur x (h4.trans a1) a2 a3 a4 a5) rfl rfl rfl rfl id
  | lookMiss cl t c fwd b cur x a1 a2 a3 a4 a5 => exact fin (.lookMiss ⟨i', o', n', us', pc'⟩ g cl t c fwd b cur x (h4.trans a1) a2 a3 a4 a5) rfl rfl rfl rfl id
  | lookAdv cl fwd b cur a1 => exact fin (.lookAdv ⟨i', o', n', us', pc'⟩ g cl fwd b cur (h4.trans a1)) rfl rfl rfl rfl id
  | hitGet t c r x a1 a2 => exact fin (.hitGet ⟨i', o', n', us', pc'⟩ g t c r x (h4.trans a1) a2) rfl rfl rfl rfl id
  | hitSet t c key v r x nv ok a1 a2 a3 => exact fin (.hitSet ⟨i', o', n', us', pc'⟩ g t c key v r x nv ok (h4.trans a1) a2 a3) rfl rfl rfl rfl id
  | hitSetPanic t c key v r x p a1 a2 a3 => exact fin (.hitSetPanic ⟨i', o', n', us', pc'⟩ g t c key v r x p (h4.trans a1) a2 a3) rfl rfl rfl rfl id
  | hitDel t c r a1 => exact fin (.hitDel ⟨i', o', n', us', pc'⟩ g t c r (h4.trans a1)) rfl rfl rfl rfl id
  | missGet t c b a1 => exact fin (.missGet ⟨i', o', n', us', pc'⟩ g t c b (h4.trans a1)) rfl rfl rfl rfl id
  | missDel t c b a1 => exact fin (.missDel ⟨i', o', n', us', pc'⟩ g t c b (h4.trans a1)) rfl rfl rfl rfl id
  | missSet t c key v b a1 => exact fin (.missSet ⟨i', o', n', us', pc'⟩ g t c key v b (h4.trans a1)) rfl rfl rfl rfl id
  | findOpt second e b start a1 =>
    rcases h5 with h5 | ⟨_, h5⟩
    · subst h5; exact fin (.findOpt ⟨i', o', n', us', pc'⟩ g second e b start (h4.trans a1)) rfl rfl rfl rfl (fun _ => rfl)
    · simp [setPC, InFind] at h5
  | findStop second e b prev cur x a1 a2 a3 =>
    rcases h5 with h5 | ⟨h5, _⟩
    · subst h5; exact fin (.findStop ⟨i', o', n', us', pc'⟩ g second e b prev cur x (h4.trans a1) a2 a3) rfl rfl rfl rfl id
    · simp only at a1; rw [a1] at h5; simp [InFind] at h5
  | findCont second e b prev cur x a1 a2 a3 =>
    rcases h5 with h5 | ⟨h5, _⟩
    · subst h5; exact fin (.findCont ⟨i', o', n', us', pc'⟩ g second e b prev cur x (h4.trans a1) a2 a3) rfl rfl rfl rfl id
    · simp only at a1; rw [a1] at h5; simp [InFind] at h5
  | findAdv second e b prev cur a1 => exact fin (.findAdv ⟨i', o', n', us', pc'⟩ g second e b prev cur (h4.trans a1)) rfl rfl rfl rfl id
  | findEnd1 e b prev res a1 => exact fin (.findEnd1 ⟨i', o', n', us', pc'⟩ g e b prev res (h4.trans a1)) rfl rfl rfl rfl (fun _ => rfl)
  | findEnd2 e b prev res a1 => exact fin (.findEnd2 ⟨i', o', n', us', pc'⟩ g e b prev res (h4.trans a1)) rfl rfl rfl rfl (fun _ => rfl)
  | start2 e b res a1 => exact fin (.start2 ⟨i', o', n', us', pc'⟩ g e b res (h4.trans a1)) rfl rfl rfl rfl id
  | targetPos e b r a1 => exact fin (.targetPos ⟨i', o', n', us', pc'⟩ g e b r (h4.trans a1)) rfl rfl rfl rfl id
  | targetFall e b phd r a1 a2 a3 => exact fin (.targetFall ⟨i', o', n', us', pc'⟩ g e b phd r (h4.trans a1) a2 a3) rfl rfl rfl rfl id
  | checkOk e r a1 a2 => exact fin (.checkOk ⟨i', o', n', us', pc'⟩ g e r (h4.trans a1) a2) rfl rfl rfl rfl id
  | checkFail e r a1 a2 => exact fin (.checkFail ⟨i', o', n', us', pc'⟩ g e r (h4.trans a1) a2) rfl rfl rfl rfl id
  | link e r a1 => exact fin (.link ⟨i', o', n', us', pc'⟩ g e r (h4.trans a1)) rfl rfl rfl rfl id
  | rangeStart x a1 a2 => exact fin (.rangeStart ⟨i', o', n', us', pc'⟩ g x (h4.trans a1) a2) rfl rfl rfl rfl id
  | rangeSee cur seen x a1 a2 => exact fin (.rangeSee ⟨i', o', n', us', pc'⟩ g cur seen x (h4.trans a1) a2) rfl rfl rfl rfl id
  | rangeAdv cur seen a1 => exact fin (.rangeAdv ⟨i', o', n', us', pc'⟩ g cur seen (h4.trans a1)) rfl rfl rfl rfl id
  | foreignOpt a1 => simp [setPC, isForeign] at hf'
  | foreignEnd prev a1 => simp only at a1; rw [a1] at hf; simp [isForeign] at hf

/-- The goroutines in `F` work on other maps, all others on this one. -/
def Elsewhere (F : Tid → Prop) (s : CSt) (g : Tid) (s' : CSt) : Prop :=
  F g ↔ (isForeign (s.pc g) = true ∨ isForeign (s'.pc g) = true)

/-- No position search on another map overlaps any other position search. -/
def Apart (F : Tid → Prop) (s : CSt) (g : Tid) (s' : CSt) : Prop :=
  InFind (s.pc g) = none → InFind (s'.pc g) ≠ none → ∀ u, (F g ∨ F u) → InFind (s.pc u) = none

/-- What a step on another map does. -/
theorem Step.foreign {s s' : CSt} {g : Tid} (st : Step Pk s g s') (h : isForeign (s.pc g) = true ∨ isForeign (s'.pc g) = true) :
    s'.items = s.items ∧ s'.nextId = s.nextId ∧ s'.used = s.used ∧
    ((s.pc g = .idle ∧ s'.pc g = .foreign s.opt ∧ s'.opt = false) ∨
     (∃ p, s.pc g = .foreign p ∧ s'.pc g = .ret (.bool true) ∧ s'.opt = p)) := by
  cases st with
  | foreignOpt a1 => exact ⟨rfl, rfl, rfl, .inl ⟨a1, by simp [setPC], rfl⟩⟩
  | foreignEnd prev a1 => exact ⟨rfl, rfl, rfl, .inr ⟨prev, a1, by simp [setPC], rfl⟩⟩
  | lookHit cl t c fwd b cur x a1 a2 a3 a4 a5 =>
    exfalso; rw [a1] at h; simp only [setPC, if_pos] at h; split at h <;> simp [isForeign] at h
  | lookAdv cl fwd b cur a1 =>
    exfalso; rw [a1] at h; simp only [setPC, if_pos] at h; revert h
    cases (if fwd = true then nx s.items cur else pv s.items cur) <;> simp [isForeign]
  | findAdv second e b prev cur a1 =>
    exfalso; rw [a1] at h; simp only [setPC, if_pos] at h; revert h
    cases nx s.items cur <;> simp [isForeign]
  | rangeAdv cur seen a1 =>
    exfalso; rw [a1] at h; simp only [setPC, if_pos] at h; revert h
    cases nx s.items cur <;> simp [isForeign]
  | _ => exfalso; simp only [setPC, if_pos, *] at h; simp [isForeign] at h

/-- `t` is `s` without the goroutines in `F`. -/
structure Erased (F : Tid → Prop) (s t : CSt) : Prop where
  items : t.items = s.items
  nextId : t.nextId = s.nextId
  used : t.used = s.used
  own : ∀ u, ¬ F u → t.pc u = s.pc u
  oth : ∀ u, F u → s.pc u = .idle ∨ (∃ p, s.pc u = .foreign p) ∨ s.pc u = .ret (.bool true)
  none : (∀ u, F u → isForeign (s.pc u) = false) → t.opt = s.opt
  some : ∀ u p, F u → s.pc u = .foreign p → t.opt = p ∧ ∀ w, w ≠ u → InFind (s.pc w) = .none

theorem Erased.step (pi : PkItems Pk) {F : Tid → Prop} {s s' t : CSt} {g : Tid} (h : Erased F s t) (st : Step Pk s g s')
    (hp : Elsewhere F s g s' ∧ Apart F s g s') : ∃ t', (t' = t ∨ (¬ F g ∧ Step Pk t g t')) ∧ Erased F s' t' := by
  obtain ⟨he, ha⟩ := hp
  by_cases hF : F g
  · obtain ⟨i1, i2, i3, i4⟩ := st.foreign (he.1 hF)
    refine ⟨t, .inl rfl, h.items.trans i1.symm, h.nextId.trans i2.symm, h.used.trans i3.symm, ?_, ?_, ?_, ?_⟩
    · intro u hu
      rw [st.others (fun (e : u = g) => hu (e ▸ hF))]; exact h.own u hu
    · intro u hu
      by_cases e : u = g
      · subst e
        rcases i4 with ⟨_, i5, _⟩ | ⟨p, _, i5, _⟩
        · exact .inr (.inl ⟨_, i5⟩)
        · exact .inr (.inr i5)
      · rw [st.others e]; exact h.oth u hu
    · intro hn
      rcases i4 with ⟨_, i5, _⟩ | ⟨p, i5, i6, i7⟩
      · have := hn g hF; rw [i5] at this; simp [isForeign] at this
      · rw [i7]; exact (h.some g p hF i5).1
    · intro u p hu hup
      rcases i4 with ⟨i5, i6, i7⟩ | ⟨q, i5, i6, i7⟩
      · have al := ha (by rw [i5]; rfl) (by rw [i6]; simp [InFind])
        by_cases e : u = g
        · subst e
          rw [i6] at hup; cases hup
          refine ⟨h.none ?_, ?_⟩
          · intro w hw
            have := al w (.inl hF)
            rcases h.oth w hw with e | ⟨p, e⟩ | e
            · rw [e]; rfl
            · rw [e] at this; simp [InFind] at this
            · rw [e]; rfl
          · intro w hw
            rw [st.others hw]; exact al w (.inl hF)
        · rw [st.others e] at hup
          have := al u (.inl hF)
          rw [hup] at this; simp [InFind] at this
      · by_cases e : u = g
        · subst e; rw [i6] at hup; cases hup
        · rw [st.others e] at hup
          have := (h.some g q hF i5).2 u e
          rw [hup] at this; simp [InFind] at this
  · have hnf : isForeign (s.pc g) = false ∧ isForeign (s'.pc g) = false := by
      have := mt he.2 hF
      simpa using this
    have hopt : t.opt = s.opt ∨ (InFind (s.pc g) = .none ∧ InFind (s'.pc g) = .none) := by
      by_cases hx : ∀ u, F u → isForeign (s.pc u) = false
      · exact .inl (h.none hx)
      · right
        push Not at hx
        obtain ⟨u, hu, hfu⟩ := hx
        have : ∃ p, s.pc u = .foreign p := by
          rcases h.oth u hu with e | e | e
          · rw [e] at hfu; simp [isForeign] at hfu
          · exact e
          · rw [e] at hfu; simp [isForeign] at hfu
        obtain ⟨p, hpu⟩ := this
        have hg : g ≠ u := fun e => hF (e ▸ hu)
        have hi := (h.some u p hu hpu).2 g hg
        refine ⟨hi, ?_⟩
        by_contra hc
        have := ha hi hc u (.inr hu)
        rw [hpu] at this; simp [InFind] at this
    have hne : ∀ u e, (s.pc u).newE = Option.some e → (t.pc u).newE = Option.some e := by
      intro u e hu
      by_cases hFu : F u
      · exfalso
        rcases h.oth u hFu with e' | ⟨p, e'⟩ | e' <;> rw [e'] at hu <;> cases hu
      · rw [h.own u hFu]; exact hu
    obtain ⟨t', s1, s2, s3, s4, s5, s6, s7⟩ := st.lift pi hnf.1 hnf.2 h.items h.nextId h.used (h.own g hF) hne hopt
    have hoth : ∀ u, F u → s'.pc u = s.pc u := fun u hu => st.others (fun e => hF (e ▸ hu))
    refine ⟨t', .inr ⟨hF, s1⟩, s2, s3, s4, ?_, ?_, ?_, ?_⟩
    · intro u hu
      by_cases e : u = g
      · subst e; exact s5
      · rw [s6 u e, st.others e]; exact h.own u hu
    · intro u hu; rw [hoth u hu]; exact h.oth u hu
    · intro hn
      exact s7 (h.none (fun u hu => by rw [← hoth u hu]; exact hn u hu))
    · intro u p hu hup
      rw [hoth u hu] at hup
      obtain ⟨b1, b2⟩ := h.some u p hu hup
      have hg : g ≠ u := fun e => hF (e ▸ hu)
      have hi := b2 g hg
      have hi' : InFind (s'.pc g) = .none := by
        by_contra hc
        have := ha hi hc u (.inr hu)
        rw [hup] at this; simp [InFind] at this
      refine ⟨?_, ?_⟩
      · -- the option is untouched by a step outside `find`
        have hto : t'.opt = t.opt := by
          have e1 : InFind (t.pc g) = .none := by rw [h.own g hF]; exact hi
          have e2 : InFind (t'.pc g) = .none := by rw [s5]; exact hi'
          rcases s1.find with ⟨q, _⟩ | ⟨_, _, q⟩ | ⟨p, _, q, _⟩
          · exact q
          · rw [e2] at q; cases q
          · rw [e1] at q; cases q
        rw [hto]; exact b1
      · intro w hw
        by_cases e : w = g
        · subst e; exact hi'
        · rw [st.others e]; exact b2 w hw

theorem Erased.run (pi : PkItems Pk) {F : Tid → Prop} {s0 s : CSt} (h0 : ∀ u, s0.pc u = .idle)
    (h : CSteps Pk (fun s g s' => Elsewhere F s g s' ∧ Apart F s g s') s0 s) :
    ∃ t, CSteps Pk (fun _ g _ => ¬ F g) s0 t ∧ Erased F s t := by
  induction h with
  | refl =>
    exact ⟨_, .refl _, rfl, rfl, rfl, fun _ _ => rfl, fun u _ => .inl (h0 u), fun _ => rfl, fun u p _ e => by rw [h0 u] at e; cases e⟩
  | step _ st hp ih =>
    obtain ⟨t, h1, h2⟩ := ih
    obtain ⟨t', h3, h4⟩ := h2.step pi st hp
    refine ⟨t', ?_, h4⟩
    rcases h3 with rfl | ⟨h3, h5⟩
    · exact h1
    · exact .step h1 h5 h3

/-! ### Without position searches of this map -/

/-- The goroutines of this map do no position search. -/
def NoSearch (F : Tid → Prop) (_ : CSt) (g : Tid) (s' : CSt) : Prop := ¬ F g → InFind (s'.pc g) = none

structure Erased' (F : Tid → Prop) (s t : CSt) : Prop where
  items : t.items = s.items
  nextId : t.nextId = s.nextId
  used : t.used = s.used
  own : ∀ u, ¬ F u → t.pc u = s.pc u ∧ InFind (s.pc u) = none
  oth : ∀ u, F u → (s.pc u).newE = none

theorem Erased'.run (pi : PkItems Pk) {F : Tid → Prop} {s0 s : CSt} (h0 : ∀ u, s0.pc u = .idle)
    (h : CSteps Pk (fun s g s' => Elsewhere F s g s' ∧ NoSearch F s g s') s0 s) :
    ∃ t, CSteps Pk (fun _ g _ => ¬ F g) s0 t ∧ Erased' F s t := by
  induction h with
  | refl => exact ⟨_, .refl _, rfl, rfl, rfl, fun u _ => ⟨rfl, by rw [h0 u]; rfl⟩, fun u _ => by rw [h0 u]; rfl⟩
  | @step b c g _ st hp ih =>
    obtain ⟨t, h1, h⟩ := ih
    obtain ⟨he, hn⟩ := hp
    by_cases hF : F g
    · obtain ⟨i1, i2, i3, i4⟩ := st.foreign (he.1 hF)
      refine ⟨t, h1, h.items.trans i1.symm, h.nextId.trans i2.symm, h.used.trans i3.symm, ?_, ?_⟩
      · intro u hu
        rw [st.others (fun (e : u = g) => hu (e ▸ hF))]; exact h.own u hu
      · intro u hu
        by_cases e : u = g
        · subst e
          rcases i4 with ⟨_, i5, _⟩ | ⟨p, _, i5, _⟩ <;> rw [i5] <;> rfl
        · rw [st.others e]; exact h.oth u hu
    · have hnf : isForeign (b.pc g) = false ∧ isForeign (c.pc g) = false := by
        have := mt he.2 hF
        simpa using this
      obtain ⟨t', s1, s2, s3, s4, s5, s6, s7⟩ := st.lift pi hnf.1 hnf.2 h.items h.nextId h.used (h.own g hF).1
        (fun u e hu => by
          by_cases hFu : F u
          · rw [h.oth u hFu] at hu; cases hu
          · rw [(h.own u hFu).1]; exact hu) (.inr ⟨(h.own g hF).2, hn hF⟩)
      refine ⟨t', .step h1 s1 hF, s2, s3, s4, ?_, ?_⟩
      · intro u hu
        by_cases e : u = g
        · subst e; exact ⟨s5, hn hF⟩
        · rw [s6 u e, st.others e]; exact h.own u hu
      · intro u hu
        rw [st.others (fun (e : u = g) => hF (e ▸ hu))]; exact h.oth u hu

end SLM.Conc
