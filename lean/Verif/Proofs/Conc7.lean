import Verif.Proofs.Conc6
/-! A whole Set call, with the insertion phase undisturbed; an executable scheduler for the witnesses. -/
set_option autoImplicit false
namespace SLM.Conc

variable {Pk : CSt → Call → Ref → Prop}

/-- A Set of `(t, c, key, v)` that began in `s0` stored its value. -/
def Stored (Pk : CSt → Call → Ref → Prop) (s0 s : CSt) (t c : U64) (v : IVal) : Prop :=
  (∃ x ∈ s.items, x.rev = t ∧ x.conflict = c ∧ x.dummy = false) ∧ HadValue Pk s0 s t c v

theorem Stored.ext {s0 s s' : CSt} {t c : U64} {v : IVal} (hg : GSteps Pk s s') (h : Stored Pk s0 s t c v) : Stored Pk s0 s' t c v := by
  obtain ⟨⟨x, hx, h1, h2, h3⟩, sm, h4, h5, h6⟩ := h
  obtain ⟨y, hy, hs⟩ := hg.ext.mem hx
  exact ⟨⟨y, hy, by rw [hs.2.1, h1], by rw [hs.2.2.1, h2], by rw [hs.2.2.2.1, h3]⟩, sm, h4, h5.trans hg.steps, h6⟩

/-- The stages of the call. -/
inductive Stage (Pk : CSt → Call → Ref → Prop) (s0 s : CSt) (t c : U64) (key : Key) (v : IVal) : PC → Prop
  | pick : Stage Pk s0 s t c key v (.pick (.set t c key v))
  | look (fwd : Bool) (b cur : Ref) (adv : Bool) : Stage Pk s0 s t c key v (.look (.set t c key v) fwd b cur adv)
  | hit (x : Entry) : x ∈ s.items → x.rev = t → x.conflict = c → x.dummy = false → Stage Pk s0 s t c key v (.hit (.set t c key v) x.ref)
  | miss (b : Ref) : Stage Pk s0 s t c key v (.miss (.set t c key v) b)
  | place (n : Nat) (b : Ref) (p : PC) : At s.items b (· ≤ t) → Placing Pk s0 s (newItem n t c key v) b p → Stage Pk s0 s t c key v p
  | done (ok : Bool) : (ok = true → Stored Pk s0 s t c v) → Stage Pk s0 s t c key v (.ret (.bool ok))
  | panic : Stage Pk s0 s t c key v (.ret .panic)

/-- Steps of other goroutines that neither link nor touch the option. -/
theorem Stage.quiet {s0 s s' : CSt} {t c : U64} {key : Key} {v : IVal} {p : PC} {f : Entry → Entry} (hf : ∀ x, Same x (f x))
    (hi : s'.items = s.items.map f) (ho : s'.opt = s.opt) (hg : GSteps Pk s s') (h : Stage Pk s0 s t c key v p) : Stage Pk s0 s' t c key v p := by
  cases h with
  | pick => exact .pick
  | look => exact .look ..
  | hit x h1 h2 h3 h4 =>
    have hs := hf x
    rw [← hs.1]
    exact .hit (f x) (by rw [hi]; exact List.mem_map.2 ⟨x, h1, rfl⟩) (by rw [hs.2.1, h2]) (by rw [hs.2.2.1, h3]) (by rw [hs.2.2.2.1, h4])
  | miss => exact .miss ..
  | place n b _ h1 h2 => exact .place n b _ (h1.ext hg.ext) (h2.quiet hf hi ho hg)
  | done ok h1 => exact .done ok (fun h => (h1 h).ext hg)
  | panic => exact .panic

/-- One step of the goroutine itself. -/
theorem Stage.self {s0 s s' : CSt} {g : Tid} {t c : U64} {key : Key} {v : IVal} (j : J1 s) (h0 : GSteps Pk s0 s)
    (st : Step Pk s g s') (al : Alone s g) (hb : SetB s.items (s.pc g)) {m : Entry} (hm : m ∈ s.items) (hmt : t < m.rev)
    (hsee : isLost (s'.pc g) = false) {p : PC} (hp : s.pc g = p) (h : Stage Pk s0 s t c key v p) : Stage Pk s0 s' t c key v (s'.pc g) := by
  have stg : GSteps Pk s s' := .step (.refl _) st al
  cases h with
  | pick =>
    cases st <;> (try (exfalso; simp only [hp] at *; contradiction)) <;> rw [setPC_same]
    case pickKey cl' t' c' b d h1 h2 h3 h4 => rw [hp] at h1; cases h1; exact .look ..
    case pickSplit h1 _ => rw [hp] at h1; cases h1
    case pickLost => rw [setPC_same] at hsee; cases hsee
  | look fwd b cur adv =>
    cases st <;> (try (exfalso; simp only [hp] at *; contradiction)) <;> rw [setPC_same]
    case lookCont h1 _ _ _ => rw [hp] at h1; cases h1; exact .look ..
    case lookHit x h1 h2 h3 h4 h5 =>
      rw [hp] at h1; cases h1
      simp only [Call.target, Option.some.injEq, Prod.mk.injEq] at h2
      obtain ⟨rfl, rfl⟩ := h2
      obtain ⟨hx1, hx2, _⟩ := node_some h3
      subst hx2
      have hd : x.dummy = false := by simp [Entry.ignored] at h4; exact h4.1
      split
      · exact .hit x hx1 h5 (by assumption) hd
      · exact .miss ..
    case lookMiss h1 _ _ _ _ => rw [hp] at h1; cases h1; exact .miss ..
    case lookAdv h1 =>
      rw [hp] at h1; cases h1
      split
      · exact .look ..
      · exact .miss ..
  | hit x hx1 hx2 hx3 hx4 =>
    cases st <;> (try (exfalso; simp only [hp] at *; contradiction)) <;> rw [setPC_same]
    case hitGet h1 _ => rw [hp] at h1; cases h1
    case hitSet t' c' key' v' r' y nv ok h1 h2 h3 =>
      rw [hp] at h1; cases h1
      refine .done ok (fun hok => ?_)
      subst hok
      have hnv := setValue_ok h3
      subst hnv
      obtain ⟨hy1, hy2, _⟩ := node_some h2
      have : y = x := List.inj_on_of_nodup_map j.nd hy1 hx1 hy2
      subst this
      have hmem := mem_setVal (v := nv) hy1 hy2
      exact ⟨⟨_, hmem, hx2, hx3, hx4⟩, _, (h0.trans stg).steps, .refl _, _, hmem, hx2, hx3, hx4, rfl⟩
    case hitSetPanic => exact .panic
    case hitDel h1 => rw [hp] at h1; cases h1
  | miss b =>
    cases st <;> (try (exfalso; simp only [hp] at *; contradiction)) <;> rw [setPC_same]
    case missGet h1 => rw [hp] at h1; cases h1
    case missDel h1 => rw [hp] at h1; cases h1
    case missSet h1 =>
      rw [hp] at h1; cases h1
      rw [hp] at hb; exact .place s.nextId b _ hb ⟨rfl, rfl, rfl⟩
  | place n b _ h1 h2 =>
    exact .place n b _ (h1.ext stg.ext) (Placing.self j h0 st al rfl h1 hm hmt (by rw [hp]; exact h2))
  | done ok h1 => cases st <;> simp only [hp] at * <;> contradiction
  | panic => cases st <;> simp only [hp] at * <;> contradiction

theorem stage_run (pk : PkOk Pk) {s0 s : CSt} {g : Tid} {t c : U64} {key : Key} {v : IVal} (j : J1 s0) (h0 : s0.pc g = .pick (.set t c key v))
    (hsb : ∀ u, SetB s0.items (s0.pc u)) {m : Entry} (hm : m ∈ s0.items) (hmt : t < m.rev) (h : QSteps Pk g s0 s) :
    Stage Pk s0 s t c key v (s.pc g) := by
  induction h with
  | refl => rw [h0]; exact .pick
  | @step a d u h1 h2 al hq hsee ih =>
    have ja := h1.gsteps.j1 pk j
    by_cases hu : u = g
    · subst hu
      obtain ⟨m', hm', hs⟩ := h1.gsteps.ext.mem hm
      exact ih.self ja h1.gsteps h2 al (h1.gsteps.steps.setB pk hsb u) hm' (by rw [hs.2.1]; exact hmt) (hsee rfl) rfl
    · rw [h2.others (fun e => hu e.symm)]
      have hq := hq hu
      have stg : GSteps Pk a d := .step (.refl _) h2 al
      cases h2.eff with
      | none h3 => exact ih.quiet (f := id) (fun _ => Same.rfl) (by simp [h3]) hq.1 stg
      | inplace f hf h3 => exact ih.quiet hf h3 hq.1 stg
      | ins e' r h3 h4 =>
        exfalso
        have := hq.2
        rw [h4] at this
        have hl := (refs_insBefore r e' a.items).length_eq
        rw [this] at hl; simp at hl

/-- A Set that answered true stored its value. -/
theorem set_stores (pk : PkOk Pk) {s0 s : CSt} {g : Tid} {t c : U64} {key : Key} {v : IVal} (j : J1 s0) (h0 : s0.pc g = .pick (.set t c key v))
    (hsb : ∀ u, SetB s0.items (s0.pc u)) {m : Entry} (hm : m ∈ s0.items) (hmt : t < m.rev) (h : QSteps Pk g s0 s)
    (hr : s.pc g = .ret (.bool true)) : Stored Pk s0 s t c v := by
  have hst := stage_run pk j h0 hsb hm hmt h
  rw [hr] at hst
  cases hst with
  | place n b _ h1 h2 =>
    obtain ⟨_, ⟨x, hx, hs⟩, h3⟩ := h2
    exact ⟨⟨x, hx, hs.2.1, hs.2.2.1, hs.2.2.2.1⟩, h3⟩
  | done _ h1 => exact h1 rfl

end SLM.Conc
