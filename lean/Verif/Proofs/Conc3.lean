import Verif.Proofs.Conc2
/-! A lookup finds a key that is present all the time, whatever other goroutines do. -/
set_option autoImplicit false
namespace SLM.Conc

variable {Pk : CSt → Call → Ref → Prop}

/-- Node `r` holds a live item with these hashes. -/
def Live (s : CSt) (r : Ref) (t c : U64) : Prop :=
  ∃ e ∈ s.items, e.ref = r ∧ e.rev = t ∧ e.conflict = c ∧ e.dummy = false ∧ e.deleted = false

/-- No sentinel has this hash as its boundary and no other key has it as its primary hash. -/
def Clear (s : CSt) (t c : U64) : Prop := ∀ x ∈ s.items, x.rev = t → x.dummy = false ∧ x.conflict = c

theorem Clear.back {s s' : CSt} {t c : U64} (h : Ext s.items s'.items) (hc : Clear s' t c) : Clear s t c := by
  intro x hx hxt
  obtain ⟨y, hy, hs⟩ := h.mem hx
  have := hc y hy (hs.2.1.trans hxt)
  rw [hs.2.2.2.1, hs.2.2.1] at this
  exact this

theorem Live.back {s s' : CSt} {r : Ref} {t c : U64} (h : Ext s.items s'.items) (hn : (refs s'.items).Nodup) (hr : r ∈ refs s.items)
    (hl : Live s' r t c) : Live s r t c := by
  obtain ⟨x, hx, rfl⟩ := List.mem_map.1 hr
  obtain ⟨y, hy, hs⟩ := h.mem hx
  obtain ⟨e, he, h1, h2, h3, h4, h5⟩ := hl
  have hey : e = y := List.inj_on_of_nodup_map hn he hy (h1.trans hs.1.symm)
  subst hey
  refine ⟨x, hx, rfl, ?_, ?_, ?_, ?_⟩
  · rw [← h2, hs.2.1]
  · rw [← h3, hs.2.2.1]
  · rw [← h4, hs.2.2.2.1]
  · cases hd : x.deleted with
    | false => rfl
    | true => rw [hs.2.2.2.2 hd] at h5; cases h5

theorem Live.mem {s : CSt} {r : Ref} {t c : U64} (h : Live s r t c) : r ∈ refs s.items := by
  obtain ⟨e, he, hr, _⟩ := h; exact List.mem_map.2 ⟨e, he, hr⟩

/-! ### Well placed nodes -/

theorem SB.asymm {l : List Entry} {r r' : Ref} (hn : (refs l).Nodup) (h : SB l r r') (h' : SB l r' r) : False := by
  obtain ⟨a, ha, rfl⟩ := List.mem_map.1 h.left
  obtain ⟨p1, p2, rfl⟩ := List.append_of_mem ha
  have h1 := SB.split hn h
  have h2 := SB.split' hn h'
  have hns := nodup_split hn
  rw [show refs (p1 ++ a :: p2) = refs p1 ++ (a.ref :: refs p2) by simp] at hn
  exact (List.nodup_append.1 hn).2.2 r' h2 r' (List.mem_cons_of_mem _ h1) rfl

theorem SB.insLeft {l : List Entry} {r q : Ref} {e : Entry} (hn : (refs l).Nodup) (h : SB l r q) : SB (insBefore q e l) r e.ref := by
  obtain ⟨x, post, hx, hf, hl⟩ := split_at q l h.right
  have hl' := hl
  generalize hb : beforeRef q l = pre at hl
  have h' := h
  rw [hl, ← hx] at h'
  rw [hl] at hn
  have hr := SB.split' hn h'
  obtain ⟨a, ha, rfl⟩ := List.mem_map.1 hr
  obtain ⟨p1, p2, rfl⟩ := List.append_of_mem ha
  unfold insBefore
  rw [hb, hf, show (p1 ++ a :: p2) ++ e :: (x :: post) = p1 ++ a :: (p2 ++ e :: x :: post) by simp]
  exact SB.of_split (by simp)

theorem SB.insRight {l : List Entry} {r q : Ref} {e : Entry} (hn : (refs l).Nodup) (hq : q ∈ refs l) (h : q = r ∨ SB l q r) :
    SB (insBefore q e l) e.ref r := by
  obtain ⟨x, post, hx, hf, hl⟩ := split_at q l hq
  generalize hb : beforeRef q l = pre at hl
  unfold insBefore
  rw [hb, hf]
  apply SB.of_split
  rcases h with rfl | h
  · simp [hx]
  · rw [hl, ← hx] at h
    rw [hl] at hn
    have := SB.split hn h
    simp only [refs, List.map_cons, List.mem_cons]; exact Or.inr this

/-- Node `r` with hash `t` separates smaller from larger hashes, also those about to be linked. -/
structure WP (s : CSt) (r : Ref) (t : U64) : Prop where
  here : ∃ e ∈ s.items, e.ref = r ∧ e.rev = t
  before : ∀ x ∈ s.items, SB s.items x.ref r → x.rev ≤ t
  after : ∀ x ∈ s.items, SB s.items r x.ref → t ≤ x.rev
  pend : ∀ g e q, s.pc g = .link e q → (SB s.items r q → t ≤ e.rev) ∧ (¬ SB s.items r q → e.rev ≤ t)

theorem WP.mem {s : CSt} {r : Ref} {t : U64} (h : WP s r t) : r ∈ refs s.items := by
  obtain ⟨e, he, her, _⟩ := h.here; exact List.mem_map.2 ⟨e, he, her⟩

/-- An element that passes the check respects a well placed node. -/
theorem WP.check {s : CSt} {r : Ref} {t : U64} (j : J0 s) (h : WP s r t) {e : Entry} {q : Ref} (hc : checkOk s.items e q = true) :
    (SB s.items r q → t ≤ e.rev) ∧ (¬ SB s.items r q → e.rev ≤ t) := by
  unfold checkOk at hc
  cases hq : node s.items q with
  | none => rw [hq] at hc; cases hc
  | some qe =>
    rw [hq] at hc
    simp only at hc
    obtain ⟨hq1, hq2, post, hq3, hq4⟩ := node_some hq
    have hqm : q ∈ refs s.items := List.mem_map.2 ⟨qe, hq1, hq2⟩
    by_cases hlt : qe.rev < e.rev
    · rw [if_pos hlt] at hc; cases hc
    · rw [if_neg hlt] at hc
      constructor
      · intro hsb
        cases hpv : pv s.items q with
        | none => exact absurd hpv (SB.prev_ne j.nd hsb)
        | some w =>
          unfold pv at hpv
          cases hg : (beforeRef q s.items).getLast? with
          | none => rw [hg] at hpv; cases hpv
          | some le =>
            rw [hg] at hpv hc
            simp only [Option.map_some, Option.some.injEq] at hpv
            simp only [Bool.not_eq_true', decide_eq_false_iff_not] at hc
            have hle : le ∈ s.items := by
              rw [hq4]; exact List.mem_append_left _ (List.mem_of_getLast? hg)
            have : t ≤ le.rev := by
              rcases SB.prev j.nd hsb (r' := w) (by unfold pv; rw [hg]; simpa using hpv) with h1 | h1
              · obtain ⟨x, hx, hx1, hx2⟩ := h.here
                have : le = x := List.inj_on_of_nodup_map j.nd hle hx (by rw [hpv, h1, hx1])
                rw [this, hx2]; exact BitVec.le_refl _
              · rw [← hpv] at h1; exact h.after le hle h1
            bv_omega
      · intro hsb
        have : qe.rev ≤ t := by
          by_cases hqr : q = r
          · obtain ⟨x, hx, hx1, hx2⟩ := h.here
            have : qe = x := List.inj_on_of_nodup_map j.nd hq1 hx (by rw [hq2, hqr, hx1])
            rw [this, hx2]; exact BitVec.le_refl _
          · rcases SB.total hqm h.mem hqr with h1 | h1
            · rw [← hq2] at h1; exact h.before qe hq1 h1
            · exact absurd h1 hsb
        bv_omega

theorem SB.mapIff {f : Entry → Entry} (hf : ∀ x, Same x (f x)) {l : List Entry} {r r' : Ref} : SB (l.map f) r r' ↔ SB l r r' := by
  have hr : refs (l.map f) = refs l := by simp [refs, List.map_map, Function.comp_def, fun x => (hf x).1]
  unfold SB; rw [hr]

/-- A well placed node stays well placed, whatever the schedule. -/
theorem Step.wp (pk : PkOk Pk) {s s' : CSt} {g : Tid} (st : Step Pk s g s') (j : J0 s) {r : Ref} {t : U64} (h : WP s r t) : WP s' r t := by
  have j' := st.j0 pk j
  have hev := st.eff
  have hsbi : ∀ {a b : Ref}, a ∈ refs s.items → b ∈ refs s.items → (SB s'.items a b ↔ SB s.items a b) := by
    intro a b ha hb
    refine ⟨fun hs => ?_, SB.ext st.ext⟩
    have hne := hs.ne j'.nd
    rcases SB.total ha hb hne with h1 | h1
    · exact h1
    · exact (SB.asymm j'.nd hs (h1.ext st.ext)).elim
  have hpend : ∀ g' e q, s'.pc g' = .link e q → (SB s'.items r q → t ≤ e.rev) ∧ (¬ SB s'.items r q → e.rev ≤ t) := by
    intro g' e q hl
    by_cases hg : g' = g
    · subst hg
      obtain ⟨h1, h2, h3⟩ := st.toLink hl
      rw [h3]; exact h.check j h2
    · rw [st.others hg] at hl
      have hq : q ∈ refs s.items := j.cur g' q (by rw [hl]; simp [PC.curs])
      rw [hsbi h.mem hq]
      exact h.pend g' e q hl
  cases hev with
  | none h1 => exact ⟨h1 ▸ h.here, by rw [h1]; exact h.before, by rw [h1]; exact h.after, hpend⟩
  | inplace f hf h1 =>
    refine ⟨?_, ?_, ?_, hpend⟩
    · obtain ⟨e, he, h2, h3⟩ := h.here
      exact ⟨f e, by rw [h1]; exact List.mem_map.2 ⟨e, he, rfl⟩, by rw [(hf e).1, h2], by rw [(hf e).2.1, h3]⟩
    · rw [h1]; intro x hx hsb
      obtain ⟨y, hy, rfl⟩ := List.mem_map.1 hx
      rw [SB.mapIff hf, (hf y).1] at hsb
      rw [(hf y).2.1]; exact h.before y hy hsb
    · rw [h1]; intro x hx hsb
      obtain ⟨y, hy, rfl⟩ := List.mem_map.1 hx
      rw [SB.mapIff hf, (hf y).1] at hsb
      rw [(hf y).2.1]; exact h.after y hy hsb
  | ins e q h1 h2 =>
    have hq : q ∈ refs s.items := j.cur g q (by rw [h1]; simp [PC.curs])
    have hp := h.pend g e q h1
    refine ⟨?_, ?_, ?_, hpend⟩
    · obtain ⟨x, hx, h3⟩ := h.here
      exact ⟨x, by rw [h2]; exact mem_insBefore.2 (Or.inr hx), h3⟩
    · intro x hx hsb
      rw [h2] at hx
      rcases mem_insBefore.1 hx with rfl | hx
      · by_cases hrq : SB s.items r q
        · have := SB.insLeft (e := x) j.nd hrq
          rw [← h2] at this
          exact (SB.asymm j'.nd hsb this).elim
        · exact hp.2 hrq
      · exact h.before x hx ((hsbi (List.mem_map.2 ⟨x, hx, rfl⟩) h.mem).1 hsb)
    · intro x hx hsb
      rw [h2] at hx
      rcases mem_insBefore.1 hx with rfl | hx
      · by_cases hrq : SB s.items r q
        · exact hp.1 hrq
        · have hor : q = r ∨ SB s.items q r := by
            by_cases hqr : q = r
            · exact Or.inl hqr
            · exact (SB.total hq h.mem hqr).imp id id |>.elim Or.inr (fun h3 => absurd h3 hrq)
          have := SB.insRight (e := x) j.nd hq hor
          rw [← h2] at this
          exact (SB.asymm j'.nd hsb this).elim
      · exact h.after x hx ((hsbi h.mem (List.mem_map.2 ⟨x, hx, rfl⟩)).1 hsb)

theorem Steps.wp (pk : PkOk Pk) {s s' : CSt} (h : Steps Pk s s') (j : J0 s) {r : Ref} {t : U64} (hw : WP s r t) : WP s' r t := by
  induction h with
  | refl => exact hw
  | step h1 h2 ih => exact h2.wp pk (h1.j0 pk j) ih

/-- In an ordered state every node is well placed. -/
theorem J1.wp {s : CSt} (j : J1 s) {e : Entry} (he : e ∈ s.items) : WP s e.ref e.rev := by
  have h1 : ∀ x ∈ s.items, SB s.items x.ref e.ref → x.rev ≤ e.rev := fun x hx hsb => SB.rev_le j.nd j.sorted hsb hx rfl he rfl
  have h2 : ∀ x ∈ s.items, SB s.items e.ref x.ref → e.rev ≤ x.rev := fun x hx hsb => SB.rev_le j.nd j.sorted hsb he rfl hx rfl
  have h0 : WP { s with pc := fun _ => .idle } e.ref e.rev := ⟨⟨e, he, rfl, rfl⟩, h1, h2, by simp⟩
  refine ⟨⟨e, he, rfl, rfl⟩, h1, h2, fun g e' q hl => ?_⟩
  have hc := j.ok g e' q hl
  have j0 : J0 { s with pc := fun _ => .idle } :=
    ⟨j.nd, j.old, by simp [PC.newRef], by simp [PC.newRef], by simp [PC.curs], j.dum, j.itm, by simp [PC.newE]⟩
  exact h0.check j0 hc

/-- The call has located a bucket whose sentinel was not linked. -/
def isLost : PC → Bool
  | .lost _ _ _ => true
  | _ => false

/-- Executions in which `g` locates no bucket whose sentinel is not linked yet. -/
inductive SSteps (Pk : CSt → Call → Ref → Prop) (g : Tid) : CSt → CSt → Prop
  | refl (s : CSt) : SSteps Pk g s s
  | step {a b c : CSt} {u : Tid} : SSteps Pk g a b → Step Pk b u c → (u = g → isLost (c.pc u) = false) → SSteps Pk g a c

theorem SSteps.steps {g : Tid} {a b : CSt} (h : SSteps Pk g a b) : Steps Pk a b := by
  induction h with
  | refl => exact .refl _
  | step _ h _ ih => exact .step ih h

/-- The values an entry with these hashes had between two states. -/
def HadValue (Pk : CSt → Call → Ref → Prop) (s0 s1 : CSt) (t c : U64) (v : IVal) : Prop :=
  ∃ sm, Steps Pk s0 sm ∧ Steps Pk sm s1 ∧ ∃ x ∈ sm.items, x.rev = t ∧ x.conflict = c ∧ x.dummy = false ∧ x.val = v

/-- What a call that found its key answers. -/
def FoundAns (Pk : CSt → Call → Ref → Prop) (s0 s1 : CSt) (t c : U64) : Call → Res → Prop
  | .get _ _, r => ∃ v, r = .val v true ∧ HadValue Pk s0 s1 t c v
  | .set _ _ _ v, r => (∃ b, r = .bool b ∧ (b = true → HadValue Pk s0 s1 t c v)) ∨ r = .panic
  | .del _ _, r => r = .bool true
  | _, _ => False

theorem setValue_ok {old v nv : IVal} (h : setValue .sample old v = .ok (nv, true)) : nv = v := by
  unfold setValue at h
  split at h
  · simp at h; exact h.symm
  · split at h
    · simp at h
    · split at h
      · simp at h; exact h.symm
      · split at h
        · simp at h; exact h.symm
        · cases h

theorem mem_setVal {l : List Entry} {x : Entry} {r : Ref} {v : IVal} (hx : x ∈ l) (hr : x.ref = r) : { x with val := v } ∈ setVal r v l :=
  List.mem_map.2 ⟨x, hx, by simp [hr]⟩

/-- The call `cl` is on the way to node `r`. -/
def OnWay (Pk : CSt → Call → Ref → Prop) (s0 s : CSt) (cl : Call) (t c : U64) (r : Ref) : PC → Prop
  | .pick cl' => cl' = cl
  | .look cl' fwd _ cur adv => cl' = cl ∧
      if fwd then (cur = r ∧ adv = false) ∨ SB s.items cur r else (cur = r ∧ adv = false) ∨ SB s.items r cur
  | .hit cl' r' => cl' = cl ∧ ∃ x ∈ s.items, x.ref = r' ∧ x.rev = t ∧ x.conflict = c ∧ x.dummy = false
  | .ret res => FoundAns Pk s0 s t c cl res
  | _ => False

theorem OnWay.ext {s0 s s' : CSt} {cl : Call} {t c : U64} {r : Ref} {p : PC} (he : Ext s.items s'.items) (hg : Steps Pk s s')
    (h : OnWay Pk s0 s cl t c r p) : OnWay Pk s0 s' cl t c r p := by
  cases p <;> simp only [OnWay] at h ⊢
  case pick => exact h
  case look cl' fwd b cur adv =>
    refine ⟨h.1, ?_⟩
    cases fwd
    · simp only [Bool.false_eq_true, if_false] at h ⊢
      exact h.2.imp id (SB.ext he)
    · simp only [if_true] at h ⊢
      exact h.2.imp id (SB.ext he)
  case hit cl' r' =>
    obtain ⟨h1, x, hx, h2, h3, h4, h5⟩ := h
    obtain ⟨y, hy, hs⟩ := he.mem hx
    exact ⟨h1, y, hy, by rw [hs.1, h2], by rw [hs.2.1, h3], by rw [hs.2.2.1, h4], by rw [hs.2.2.2.1, h5]⟩
  case ret res =>
    cases cl <;> simp only [FoundAns] at h ⊢ <;> try exact h
    · obtain ⟨v, hv, sm, h1, h2, h3⟩ := h
      exact ⟨v, hv, sm, h1, h2.trans hg, h3⟩
    · refine h.imp (fun ⟨b, hb, hv⟩ => ⟨b, hb, fun hbt => ?_⟩) id
      obtain ⟨sm, h1, h2, h3⟩ := hv hbt
      exact ⟨sm, h1, h2.trans hg, h3⟩

/-- One step of the goroutine itself keeps it on its way. -/
theorem OnWay.self (pk : PkOk Pk) {s0 s s' : CSt} {g : Tid} {cl : Call} {t c : U64} {r : Ref} (ht : cl.target = some (t, c)) (j : J0 s) (hw : WP s r t)
    (h0 : Steps Pk s0 s) (st : Step Pk s g s') (hsee : isLost (s'.pc g) = false) (hl : Live s r t c) (hc : Clear s t c)
    (h : OnWay Pk s0 s cl t c r (s.pc g)) : OnWay Pk s0 s' cl t c r (s'.pc g) := by
  obtain ⟨e, he, her, het, hec, hed, hedel⟩ := id hl
  have hign : e.ignored = false := by simp [Entry.ignored, hed, hedel]
  have uniq : ∀ {x : Entry}, x ∈ s.items → x.ref = r → x = e := fun hx hxr =>
    List.inj_on_of_nodup_map j.nd hx he (hxr.trans her.symm)
  have stg : Steps Pk s s' := .step (.refl _) st
  cases st with
  | begin cl' t' c' h1 h2 => rw [h1] at h; exact absurd h (by simp [OnWay])
  | beginSplit t' p h1 h2 => rw [h1] at h; exact absurd h (by simp [OnWay])
  | pickKey cl' t' c' b d h1 h2 h3 h4 =>
    rw [h1] at h; simp only [OnWay] at h; subst h
    rw [setPC_same]
    rw [ht] at h2; simp at h2; obtain ⟨rfl, rfl⟩ := h2
    refine ⟨rfl, ?_⟩
    obtain ⟨hd1, hd2, _⟩ := node_some h4
    have hne : b ≠ r := by
      intro hbr
      have := uniq hd1 (hd2.trans hbr)
      obtain ⟨d', hd', hr', hdum, _⟩ := pk.linked s _ b h3
      have : d' = e := uniq hd' (hr'.trans hbr)
      rw [this] at hdum; rw [hed] at hdum; cases hdum
    have hbm : b ∈ refs s.items := List.mem_map.2 ⟨d, hd1, hd2⟩
    by_cases hlt : d.rev < t
    · simp only [hlt, decide_true, if_true]
      right
      rcases SB.total hbm hl.mem hne with hsb | hsb
      · exact hsb
      · have := hw.after d hd1 (by rw [hd2]; exact hsb)
        exact absurd hlt (by bv_omega)
    · simp only [hlt, decide_false, Bool.false_eq_true, if_false]
      right
      rcases SB.total hbm hl.mem hne with hsb | hsb
      · have := hw.before d hd1 (by rw [hd2]; exact hsb)
        have heq : d.rev = t := by bv_omega
        obtain ⟨d', hd', hr', hdum, _⟩ := pk.linked s _ b h3
        have hdd : d' = d := List.inj_on_of_nodup_map j.nd hd' hd1 (hr'.trans hd2.symm)
        rw [hdd] at hdum
        rw [(hc d hd1 heq).1] at hdum; cases hdum
      · exact hsb
  | pickSplit t' p b h1 h2 =>
    rw [h1] at h; simp only [OnWay] at h; subst h; simp [Call.target] at ht
  | lookCont cl' t' c' fwd b cur x h1 h2 h3 h4 =>
    rw [h1] at h; simp only [OnWay] at h; obtain ⟨rfl, h⟩ := h
    rw [ht] at h2; simp at h2; obtain ⟨rfl, rfl⟩ := h2
    rw [setPC_same]
    refine ⟨rfl, ?_⟩
    obtain ⟨hx1, hx2, _⟩ := node_some h3
    have hne : cur ≠ r := by
      intro hcr
      have := uniq hx1 (hx2.trans hcr)
      subst this
      rw [hign] at h4
      rcases h4 with h4 | h4
      · cases h4
      · rw [het] at h4; cases fwd <;> simp at h4
    cases fwd
    · simp only [Bool.false_eq_true, if_false] at h ⊢
      rcases h with ⟨h, _⟩ | h
      · exact absurd h hne
      · exact Or.inr h
    · simp only [if_true] at h ⊢
      rcases h with ⟨h, _⟩ | h
      · exact absurd h hne
      · exact Or.inr h
  | lookHit cl' t' c' fwd b cur x h1 h2 h3 h4 h5 =>
    rw [h1] at h; simp only [OnWay] at h; obtain ⟨rfl, h⟩ := h
    rw [ht] at h2; simp at h2; obtain ⟨rfl, rfl⟩ := h2
    rw [setPC_same]
    obtain ⟨hx1, hx2, _⟩ := node_some h3
    have hcl := hc x hx1 h5
    simp only [hcl.2, if_true]
    exact ⟨rfl, x, hx1, hx2, h5, hcl.2, hcl.1⟩
  | lookMiss cl' t' c' fwd b cur x h1 h2 h3 h4 h5 =>
    exfalso
    rw [h1] at h; simp only [OnWay] at h; obtain ⟨rfl, h⟩ := h
    rw [ht] at h2; simp at h2; obtain ⟨rfl, rfl⟩ := h2
    obtain ⟨hx1, hx2, _⟩ := node_some h3
    cases fwd
    · simp only [Bool.false_eq_true, if_false] at h h5
      rcases h with ⟨h, _⟩ | h
      · have := uniq hx1 (hx2.trans h); subst this; rw [het] at h5; bv_omega
      · have := hw.after x hx1 (by rw [hx2]; exact h)
        bv_omega
    · simp only [if_true] at h h5
      rcases h with ⟨h, _⟩ | h
      · have := uniq hx1 (hx2.trans h); subst this; rw [het] at h5; bv_omega
      · have := hw.before x hx1 (by rw [hx2]; exact h)
        bv_omega
  | lookAdv cl' fwd b cur h1 =>
    rw [h1] at h; simp only [OnWay] at h; obtain ⟨rfl, h⟩ := h
    rw [setPC_same]
    cases fwd
    · simp only [Bool.false_eq_true, if_false] at h ⊢
      rcases h with ⟨_, h⟩ | h
      · cases h
      · cases hp : pv s.items cur with
        | none => exact absurd hp (SB.prev_ne j.nd h)
        | some r' =>
          refine ⟨rfl, ?_⟩
          simp only [Bool.false_eq_true, if_false]
          rcases SB.prev j.nd h hp with h | h
          · exact Or.inl ⟨h, by trivial⟩
          · exact Or.inr h
    · simp only [if_true] at h ⊢
      rcases h with ⟨_, h⟩ | h
      · cases h
      · cases hp : nx s.items cur with
        | none => exact absurd hp (SB.next_ne j.nd h)
        | some r' =>
          refine ⟨rfl, ?_⟩
          simp only [if_true]
          rcases SB.next j.nd h hp with h | h
          · exact Or.inl ⟨h, by trivial⟩
          · exact Or.inr h
  | hitGet t' c' r' x h1 h2 =>
    rw [h1] at h; simp only [OnWay] at h; obtain ⟨rfl, y, hy, h3, h4, h5, h6⟩ := h
    rw [setPC_same]
    obtain ⟨hx1, hx2, _⟩ := node_some h2
    have : x = y := List.inj_on_of_nodup_map j.nd hx1 hy (hx2.trans h3.symm)
    subst this
    exact ⟨x.val, rfl, s, h0, stg, x, hx1, h4, h5, h6, rfl⟩
  | hitSet t' c' key v r' x nv ok h1 h2 h3 =>
    rw [h1] at h; simp only [OnWay] at h; obtain ⟨rfl, y, hy, h4, h5, h6, h7⟩ := h
    rw [setPC_same]
    refine Or.inl ⟨ok, rfl, fun hok => ?_⟩
    subst hok
    have hnv := setValue_ok h3
    subst hnv
    obtain ⟨hx1, hx2, _⟩ := node_some h2
    have : x = y := List.inj_on_of_nodup_map j.nd hx1 hy (hx2.trans h4.symm)
    subst this
    exact ⟨_, h0.trans stg, .refl _, { x with val := nv }, mem_setVal hx1 hx2, h5, h6, h7, rfl⟩
  | hitSetPanic t' c' key v r' x p h1 h2 h3 =>
    rw [h1] at h; simp only [OnWay] at h; obtain ⟨rfl, _⟩ := h
    rw [setPC_same]; exact Or.inr rfl
  | hitDel t' c' r' h1 =>
    rw [h1] at h; simp only [OnWay] at h; obtain ⟨rfl, _⟩ := h
    rw [setPC_same]; exact rfl
  | missGet t' c' b h1 => rw [h1] at h; exact absurd h (by simp [OnWay])
  | missDel t' c' b h1 => rw [h1] at h; exact absurd h (by simp [OnWay])
  | missSet t' c' key v b h1 => rw [h1] at h; exact absurd h (by simp [OnWay])
  | findOpt second e b start h1 => rw [h1] at h; exact absurd h (by simp [OnWay])
  | findStop second e b prev cur x h1 h2 h3 => rw [h1] at h; exact absurd h (by simp [OnWay])
  | findCont second e b prev cur x h1 h2 h3 => rw [h1] at h; exact absurd h (by simp [OnWay])
  | findAdv second e b prev cur h1 => rw [h1] at h; exact absurd h (by simp [OnWay])
  | findEnd1 e b prev res h1 => rw [h1] at h; exact absurd h (by simp [OnWay])
  | findEnd2 e b prev res h1 => rw [h1] at h; exact absurd h (by simp [OnWay])
  | start2 e b res h1 => rw [h1] at h; exact absurd h (by simp [OnWay])
  | targetPos e b r h1 => rw [h1] at h; exact absurd h (by simp [OnWay])
  | targetFall e b phd r h1 h2 h3 => rw [h1] at h; exact absurd h (by simp [OnWay])
  | checkOk e r h1 h2 => rw [h1] at h; exact absurd h (by simp [OnWay])
  | checkFail e r h1 h2 => rw [h1] at h; exact absurd h (by simp [OnWay])
  | link e r h1 => rw [h1] at h; exact absurd h (by simp [OnWay])
  | rangeStart x h1 h2 => rw [h1] at h; exact absurd h (by simp [OnWay])
  | pickLost cl t c p r h1 h2 h3 h4 h5 => rw [setPC_same] at hsee; cases hsee
  | lostFound cl t c p r d h1 h2 h3 h4 => rw [h1] at h; exact absurd h (by simp [OnWay])
  | lostPanic cl t c p r h1 h2 h3 => rw [h1] at h; exact absurd h (by simp [OnWay])
  | lostGet t c p r h1 h2 => rw [h1] at h; exact absurd h (by simp [OnWay])
  | lostDel t c p r h1 h2 => rw [h1] at h; exact absurd h (by simp [OnWay])
  | lostSet t c key v p r h1 h2 => rw [h1] at h; exact absurd h (by simp [OnWay])
  | lostSetLate t c key v p r d h1 h2 h3 h4 => rw [h1] at h; exact absurd h (by simp [OnWay])
  | rangeSee cur seen x h1 h2 => rw [h1] at h; exact absurd h (by simp [OnWay])
  | rangeAdv cur seen h1 => rw [h1] at h; exact absurd h (by simp [OnWay])
  | foreignOpt h1 => rw [h1] at h; exact absurd h (by simp [OnWay])
  | foreignEnd prev h1 => rw [h1] at h; exact absurd h (by simp [OnWay])

theorem GSteps.ext {s s' : CSt} (h : GSteps Pk s s') : Ext s.items s'.items := h.steps.ext

/-- A call that looks for a well placed key which is present from before its start and not deleted meanwhile finds it,
unless it meets a bucket that is being made, whatever else the schedule does. -/
theorem onWay_run (pk : PkOk Pk) {s0 s : CSt} {g : Tid} {cl : Call} {t c : U64} {r : Ref} (ht : cl.target = some (t, c)) (j : J0 s0)
    (hw : WP s0 r t) (h0 : s0.pc g = .pick cl) (h : SSteps Pk g s0 s) (hl : Live s r t c) (hc : Clear s t c) :
    OnWay Pk s0 s cl t c r (s.pc g) := by
  induction h with
  | refl => rw [h0]; exact rfl
  | @step b d u h1' h2 h3 ih =>
    have h1 := h1'.steps
    have jb := h1.j0 pk j
    have jd := h2.j0 pk jb
    have hrb : r ∈ refs b.items := h1.ext.refs.subset hw.mem
    have hlb := hl.back h2.ext jd.nd hrb
    have hcb := hc.back h2.ext
    have ihb := ih hlb hcb
    by_cases hu : u = g
    · subst hu; exact ihb.self pk ht jb (h1.wp pk j hw) h1 h2 (h3 rfl) hlb hcb
    · rw [h2.others (fun e => hu e.symm)]
      exact ihb.ext h2.ext (.step (.refl _) h2)

end SLM.Conc
