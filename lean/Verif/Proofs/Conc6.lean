import Verif.Proofs.Conc5
/-! Range under concurrency, and what a Get may answer, for every schedule. -/
set_option autoImplicit false
namespace SLM.Conc

variable {Pk : CSt → Call → Ref → Prop}

/-! ### Range -/

/-- `r` was seen or lies ahead. -/
def Ahead (l : List Entry) (r : Ref) : PC → Prop
  | .walk cur seen adv => r ∈ seen ∨ (cur = r ∧ adv = false) ∨ SB l cur r
  | .ret (.seen L) => r ∈ L
  | _ => True

theorem Ahead.ext {l l' : List Entry} (he : Ext l l') {r : Ref} {p : PC} (h : Ahead l r p) : Ahead l' r p := by
  cases p with
  | walk cur seen adv => exact h.imp id (Or.imp id (SB.ext he))
  | ret res => cases res <;> exact h
  | _ => trivial

theorem Ahead.self {s s' : CSt} {g : Tid} (j : J0 s) (st : Step Pk s g s') {r : Ref} (hr : r ∈ refs s.items)
    (hl : ∀ x ∈ s.items, x.ref = r → x.ignored = false) (h : Ahead s.items r (s.pc g)) : Ahead s'.items r (s'.pc g) := by
  cases st <;> rw [setPC_same] <;> try trivial
  case lookHit => split <;> trivial
  case lookAdv => split <;> trivial
  case findAdv => split <;> trivial
  case rangeStart x h1 h2 =>
    show r ∈ [] ∨ _
    right
    obtain ⟨rest, hrest⟩ : ∃ rest, s.items = x :: rest := by
      cases hi : s.items with
      | nil => rw [hi] at h2; cases h2
      | cons a rest => rw [hi] at h2; simp at h2; exact ⟨rest, by rw [h2]⟩
    rw [hrest] at hr
    simp only [refs, List.map_cons, List.mem_cons] at hr
    rcases hr with hr | hr
    · exact Or.inl ⟨hr.symm, rfl⟩
    · right
      show SB s.items _ _
      rw [hrest]
      exact SB.of_split (pre := []) hr
  case rangeSee cur seen x h1 h2 =>
    rw [h1] at h
    simp only [Ahead] at h ⊢
    obtain ⟨hx1, hx2, _⟩ := node_some h2
    rcases h with h | ⟨h, _⟩ | h
    · left; split
      · exact h
      · simp [h]
    · left
      subst h
      rw [hl x hx1 hx2]; simp
    · exact Or.inr (Or.inr h)
  case rangeAdv cur seen h1 =>
    rw [h1] at h
    simp only [Ahead] at h
    cases hp : nx s.items cur with
    | none =>
      rcases h with h | ⟨_, h⟩ | h
      · exact h
      · cases h
      · exact absurd hp (SB.next_ne j.nd h)
    | some r' =>
      rcases h with h | ⟨_, h⟩ | h
      · exact Or.inl h
      · cases h
      · rcases SB.next j.nd h hp with h | h
        · exact Or.inr (Or.inl ⟨h, rfl⟩)
        · exact Or.inr (Or.inr h)

/-- The keys seen so far, in list order, all up to the cursor. -/
def InOrder (l : List Entry) : PC → Prop
  | .walk cur seen adv => ∃ A B, refs l = A ++ cur :: B ∧ seen.Sublist (A ++ if adv then [cur] else [])
  | .ret (.seen L) => L.Sublist (refs l)
  | _ => True

theorem InOrder.ext {l l' : List Entry} (he : Ext l l') {p : PC} (h : InOrder l p) : InOrder l' p := by
  cases p with
  | walk cur seen adv =>
    obtain ⟨A, B, h1, h2⟩ := h
    have hs := he.refs
    rw [h1] at hs
    obtain ⟨r1, r2, h3, h4, h5⟩ := List.append_sublist_iff.1 hs
    obtain ⟨q1, q2, h6, h7, h8⟩ := List.cons_sublist_iff.1 h5
    obtain ⟨u, w, hu⟩ := List.append_of_mem h7
    refine ⟨r1 ++ u, w ++ q2, ?_, ?_⟩
    · rw [h3, h6, hu]; simp
    · refine h2.trans ?_
      rw [List.append_assoc]
      exact h4.append (List.sublist_append_right _ _)
  | ret res => cases res <;> first | exact trivial | exact List.Sublist.trans h he.refs
  | _ => trivial

theorem InOrder.self {s s' : CSt} {g : Tid} (j : J0 s) (st : Step Pk s g s') (h : InOrder s.items (s.pc g)) : InOrder s'.items (s'.pc g) := by
  cases st <;> rw [setPC_same] <;> try trivial
  case lookHit => split <;> trivial
  case lookAdv => split <;> trivial
  case findAdv => split <;> trivial
  case rangeStart x h1 h2 =>
    obtain ⟨rest, hrest⟩ : ∃ rest, s.items = x :: rest := by
      cases hi : s.items with
      | nil => rw [hi] at h2; cases h2
      | cons a rest => rw [hi] at h2; simp at h2; exact ⟨rest, by rw [h2]⟩
    exact ⟨[], refs rest, by simp [setPC, hrest], by simp⟩
  case rangeSee cur seen x h1 h2 =>
    rw [h1] at h
    obtain ⟨A, B, h3, h4⟩ := h
    simp only [Bool.false_eq_true, if_false, List.append_nil] at h4
    refine ⟨A, B, h3, ?_⟩
    simp only [if_true]
    split
    · exact h4.trans (List.sublist_append_left _ _)
    · exact h4.append (List.Sublist.refl _)
  case rangeAdv cur seen h1 =>
    rw [h1] at h
    obtain ⟨A, B, h3, h4⟩ := h
    simp only [if_true] at h4
    cases hp : nx s.items cur with
    | none =>
      show seen.Sublist (refs s.items)
      rw [h3]
      refine h4.trans ?_
      exact (List.Sublist.refl A).append (by simp)
    | some r' =>
      obtain ⟨x, y, post, h5, h6, h7⟩ := nx_some hp
      have hB : refs s.items = refs (beforeRef cur s.items) ++ cur :: r' :: refs post := by
        conv => lhs; rw [h7]
        simp [h5, h6]
      have hn := j.nd
      have hAB : A = refs (beforeRef cur s.items) ∧ B = r' :: refs post := by
        rw [hB] at h3
        rw [hB] at hn
        have hn1 : cur ∉ refs (beforeRef cur s.items) := by
          intro hc
          rw [List.nodup_append] at hn
          exact hn.2.2 cur hc cur (by simp) rfl
        have hn2 : cur ∉ A := by
          intro hc
          rw [h3, List.nodup_append] at hn
          exact hn.2.2 cur hc cur (by simp) rfl
        have := List.append_eq_append_iff.1 h3
        rcases this with ⟨as, h8, h9⟩ | ⟨bs, h8, h9⟩
        · cases as with
          | nil => simp at h8 h9; exact ⟨h8, h9.symm⟩
          | cons a as =>
            simp at h9
            rw [← h9.1] at h8
            exact absurd (by rw [h8]; simp : cur ∈ A) hn2
        · cases bs with
          | nil => simp at h8 h9; exact ⟨h8.symm, h9⟩
          | cons a as =>
            simp at h9
            rw [← h9.1] at h8
            exact absurd (by rw [h8]; simp : cur ∈ refs (beforeRef cur s.items)) hn1
      refine ⟨A ++ [cur], refs post, ?_, ?_⟩
      · show refs s.items = _
        rw [hB, hAB.1]; simp
      · simpa using h4

/-- Everything about Range, for every schedule. -/
theorem range_run (pk : PkOk Pk) {s0 s : CSt} {g : Tid} (j : J0 s0) (h0 : s0.pc g = .idle) (h : Steps Pk s0 s) :
    InOrder s.items (s.pc g) ∧ ∀ r ∈ refs s0.items, (∀ x ∈ s.items, x.ref = r → x.ignored = false) → Ahead s.items r (s.pc g) := by
  induction h with
  | refl => rw [h0]; exact ⟨trivial, fun _ _ _ => trivial⟩
  | @step b d u h1 h2 ih =>
    have jb := h1.j0 pk j
    have jd := h2.j0 pk jb
    by_cases hu : u = g
    · subst hu
      refine ⟨ih.1.self jb h2, fun r hr hl => ?_⟩
      have hlb : ∀ x ∈ b.items, x.ref = r → x.ignored = false := by
        intro x hx hxr
        obtain ⟨y, hy, hs⟩ := h2.ext.mem hx
        exact hs.live (hl y hy (hs.1.trans hxr))
      exact (ih.2 r hr hlb).self jb h2 (h1.ext.refs.subset hr) hlb
    · rw [h2.others (fun e => hu e.symm)]
      refine ⟨ih.1.ext h2.ext, fun r hr hl => ?_⟩
      have hlb : ∀ x ∈ b.items, x.ref = r → x.ignored = false := by
        intro x hx hxr
        obtain ⟨y, hy, hs⟩ := h2.ext.mem hx
        exact hs.live (hl y hy (hs.1.trans hxr))
      exact (ih.2 r hr hlb).ext h2.ext

/-! ### Range shows live items only -/

/-- The node `r` was linked, an item and not deleted at some moment between two states. -/
def WasLive (Pk : CSt → Call → Ref → Prop) (s0 s : CSt) (r : Ref) : Prop :=
  ∃ sm, Steps Pk s0 sm ∧ Steps Pk sm s ∧ ∃ x ∈ sm.items, x.ref = r ∧ x.dummy = false ∧ x.deleted = false

def SawLive (Pk : CSt → Call → Ref → Prop) (s0 s : CSt) : PC → Prop
  | .walk _ seen _ => ∀ r ∈ seen, WasLive Pk s0 s r
  | .ret (.seen L) => ∀ r ∈ L, WasLive Pk s0 s r
  | _ => True

theorem SawLive.ext {s0 s s' : CSt} {p : PC} (st : Steps Pk s s') (h : SawLive Pk s0 s p) : SawLive Pk s0 s' p := by
  have key : ∀ {r : Ref}, WasLive Pk s0 s r → WasLive Pk s0 s' r := fun ⟨sm, h1, h2, h3⟩ => ⟨sm, h1, h2.trans st, h3⟩
  cases p with
  | walk cur seen adv => exact fun r hr => key (h r hr)
  | ret res => cases res <;> first | trivial | exact fun r hr => key (h r hr)
  | _ => trivial

theorem SawLive.self {s0 s s' : CSt} {g : Tid} (h0 : Steps Pk s0 s) (st : Step Pk s g s') (h : SawLive Pk s0 s (s.pc g)) :
    SawLive Pk s0 s' (s'.pc g) := by
  have stp : Steps Pk s s' := .step (.refl _) st
  cases st <;> rw [setPC_same] <;> try trivial
  case lookHit => split <;> trivial
  case lookAdv => split <;> trivial
  case findAdv => split <;> trivial
  case rangeStart => intro r hr; cases hr
  case rangeSee cur seen x h1 h2 =>
    rw [h1] at h
    intro r hr
    obtain ⟨hx1, hx2, _⟩ := node_some h2
    split at hr
    · exact h.ext (p := .walk cur seen false) stp r hr
    · rename_i hx
      simp only [List.mem_append, List.mem_singleton] at hr
      rcases hr with hr | rfl
      · exact h.ext (p := .walk cur seen false) stp r hr
      · simp only [Entry.ignored, Bool.or_eq_true, not_or, Bool.not_eq_true] at hx
        exact ⟨s, h0, stp, x, hx1, hx2, hx.1, hx.2⟩
  case rangeAdv cur seen h1 =>
    rw [h1] at h
    cases hx : nx s.items cur with
    | none => rw [hx] at stp; exact h.ext (p := .walk cur seen true) stp
    | some r => rw [hx] at stp; exact h.ext (p := .walk cur seen true) stp

theorem sawLive_run {s0 s : CSt} {g : Tid} (h0 : s0.pc g = .idle) (h : Steps Pk s0 s) : SawLive Pk s0 s (s.pc g) := by
  induction h with
  | refl => rw [h0]; trivial
  | @step b d u h1 h2 ih =>
    by_cases hu : u = g
    · subst hu; exact ih.self h1 h2
    · rw [h2.others (fun e => hu e.symm)]; exact ih.ext (.step (.refl _) h2)

/-! ### A Get never invents a value -/

/-- Stages of a Get. -/
def Honest (Pk : CSt → Call → Ref → Prop) (s0 s : CSt) (t c : U64) : PC → Prop
  | .pick cl => cl = .get t c
  | .look cl _ _ _ _ => cl = .get t c
  | .hit cl r => cl = .get t c ∧ ∃ x ∈ s.items, x.ref = r ∧ x.rev = t ∧ x.conflict = c ∧ x.dummy = false
  | .miss cl _ => cl = .get t c
  | .lost cl _ _ => cl = .get t c
  | .ret res => res = .panic ∨ ∃ v ok, res = .val v ok ∧ (ok = true → HadValue Pk s0 s t c v) ∧ (ok = false → v = none)
  | _ => False

theorem Honest.ext {s0 s s' : CSt} {t c : U64} {p : PC} (st : Steps Pk s s') (h : Honest Pk s0 s t c p) : Honest Pk s0 s' t c p := by
  cases p with
  | hit cl r =>
    obtain ⟨h1, x, hx, h2, h3, h4, h5⟩ := h
    obtain ⟨y, hy, hs⟩ := st.ext.mem hx
    exact ⟨h1, y, hy, by rw [hs.1, h2], by rw [hs.2.1, h3], by rw [hs.2.2.1, h4], by rw [hs.2.2.2.1, h5]⟩
  | ret res =>
    rcases h with h | ⟨v, ok, h1, h2, h3⟩
    · exact Or.inl h
    refine Or.inr ⟨v, ok, h1, fun ho => ?_, h3⟩
    obtain ⟨sm, h4, h5, h6⟩ := h2 ho
    exact ⟨sm, h4, h5.trans st, h6⟩
  | pick => exact h
  | look => exact h
  | miss => exact h
  | lost => exact h
  | _ => exact absurd h (by simp [Honest])

theorem Honest.self {s0 s s' : CSt} {g : Tid} {t c : U64} (j : J0 s) (h0 : Steps Pk s0 s) (st : Step Pk s g s')
    (h : Honest Pk s0 s t c (s.pc g)) : Honest Pk s0 s' t c (s'.pc g) := by
  cases st <;> rw [setPC_same]
  case pickKey cl' t' c' b d h1 h2 h3 h4 => rw [h1] at h; exact h
  case pickSplit t' p b h1 h2 => rw [h1] at h; simp [Honest] at h
  case pickLost cl' t' c' p r h1 h2 h3 h4 h5 => rw [h1] at h; exact h
  case lostFound cl' t' c' p r d h1 h2 h3 h4 => rw [h1] at h; exact h
  case lostPanic => exact Or.inl rfl
  case lostGet => exact Or.inr ⟨none, false, rfl, by simp, fun _ => rfl⟩
  case lookCont cl' t' c' fwd b cur x h1 h2 h3 h4 => rw [h1] at h; exact h
  case lookHit cl' t' c' fwd b cur x h1 h2 h3 h4 h5 =>
    rw [h1] at h
    simp only [Honest] at h
    subst h
    simp only [Call.target, Option.some.injEq, Prod.mk.injEq] at h2
    obtain ⟨rfl, rfl⟩ := h2
    split
    · rename_i hcf
      obtain ⟨hx1, hx2, _⟩ := node_some h3
      refine ⟨rfl, x, hx1, hx2, h5, hcf, ?_⟩
      simp only [Entry.ignored, Bool.or_eq_false_iff] at h4; exact h4.1
    · rfl
  case lookMiss cl' t' c' fwd b cur x h1 h2 h3 h4 h5 => rw [h1] at h; exact h
  case lookAdv cl' fwd b cur h1 => rw [h1] at h; split <;> exact h
  case hitGet t' c' r x h1 h2 =>
    rw [h1] at h
    obtain ⟨h3, y, hy, h4, h5, h6, h7⟩ := h
    cases h3
    obtain ⟨hx1, hx2, _⟩ := node_some h2
    have : x = y := List.inj_on_of_nodup_map j.nd hx1 hy (hx2.trans h4.symm)
    subst this
    exact Or.inr ⟨x.val, true, rfl, fun _ => ⟨s, h0, .step (.refl _) (.hitGet s g t c r x h1 h2), x, hx1, h5, h6, h7, rfl⟩, by simp⟩
  case missGet t' c' b h1 => exact Or.inr ⟨none, false, rfl, by simp, fun _ => rfl⟩
  all_goals (simp only [Honest, *] at h)
  all_goals (first | exact absurd h (by simp) | (obtain ⟨h, _⟩ := h; cases h) | cases h)

theorem honest_run (pk : PkOk Pk) {s0 s : CSt} {g : Tid} {t c : U64} (j : J0 s0) (h0 : s0.pc g = .pick (.get t c)) (h : Steps Pk s0 s) :
    Honest Pk s0 s t c (s.pc g) := by
  induction h with
  | refl => rw [h0]; rfl
  | @step b d u h1 h2 ih =>
    by_cases hu : u = g
    · subst hu; exact ih.self (h1.j0 pk j) h1 h2
    · rw [h2.others (fun e => hu e.symm)]; exact ih.ext (.step (.refl _) h2)

end SLM.Conc
