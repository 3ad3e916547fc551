import Verif.Proofs.Conc
import Verif.Proofs.Reach
/-! Order of the item list over all schedules in which no two goroutines are between check and link before the same node. -/
set_option autoImplicit false
namespace SLM.Conc

variable {Pk : CSt → Call → Ref → Prop}

/-- If `g` is about to link a node before `r`, no other goroutine is. -/
def Alone (s : CSt) (g : Tid) : Prop := ∀ e r, s.pc g = .link e r → ∀ u e', u ≠ g → s.pc u ≠ .link e' r

/-- Executions in which check and link before a node are never interrupted by another link before the same node. -/
inductive GSteps (Pk : CSt → Call → Ref → Prop) : CSt → CSt → Prop
  | refl (s : CSt) : GSteps Pk s s
  | step {a b c : CSt} {g : Tid} : GSteps Pk a b → Step Pk b g c → Alone b g → GSteps Pk a c

theorem GSteps.trans {a b c : CSt} (h : GSteps Pk a b) (h' : GSteps Pk b c) : GSteps Pk a c := by
  induction h' with
  | refl => exact h
  | step _ h2 h3 ih => exact .step ih h2 h3

theorem GSteps.steps {a b : CSt} (h : GSteps Pk a b) : Steps Pk a b := by
  induction h with
  | refl => exact .refl _
  | step _ h2 _ ih => exact .step ih h2

theorem checkOk_insert {l : List Entry} {e : Entry} {r : Ref} (h : checkOk l e r = true) : insertCheck r e l = some (insBefore r e l) := by
  unfold checkOk node at h
  unfold insertCheck
  cases hf : fromRef r l with
  | nil => rw [hf] at h; simp at h
  | cons re post =>
    rw [hf] at h
    simp only [List.head?_cons] at h ⊢
    split at h
    · simp at h
    · rename_i h1
      simp only [h1, if_false]
      cases hb : (beforeRef r l).getLast? with
      | none => rfl
      | some le =>
        rw [hb] at h
        simp only [Bool.not_eq_true', decide_eq_false_iff_not] at h
        simp [h]

/-- The outcome of the check depends on the node and its predecessor only. -/
theorem checkOk_congr {l l' : List Entry} {e : Entry} {r : Ref} (h1 : (node l' r).map (·.rev) = (node l r).map (·.rev))
    (h2 : ((beforeRef r l').getLast?).map (·.rev) = ((beforeRef r l).getLast?).map (·.rev)) : checkOk l' e r = checkOk l e r := by
  unfold checkOk
  cases ha : node l r with
  | none =>
    rw [ha] at h1
    have : node l' r = none := by simpa using h1
    rw [this]
  | some x =>
    rw [ha] at h1
    obtain ⟨y, hy, hyr⟩ : ∃ y, node l' r = some y ∧ y.rev = x.rev := by simpa using h1
    rw [hy]; simp only [hyr]
    cases hb : (beforeRef r l).getLast? with
    | none =>
      rw [hb] at h2
      have : (beforeRef r l').getLast? = none := by simpa using h2
      rw [this]
    | some z =>
      rw [hb] at h2
      obtain ⟨w, hw, hwr⟩ : ∃ y, (beforeRef r l').getLast? = some y ∧ y.rev = z.rev := by simpa using h2
      rw [hw]; simp only [hwr]

theorem before_map {f : Entry → Entry} (hf : ∀ x, Same x (f x)) (r : Ref) (l : List Entry) : beforeRef r (l.map f) = (beforeRef r l).map f := by
  unfold beforeRef
  rw [List.takeWhile_map]
  simp only [Function.comp_def, fun x => (hf x).1]

theorem from_map {f : Entry → Entry} (hf : ∀ x, Same x (f x)) (r : Ref) (l : List Entry) : fromRef r (l.map f) = (fromRef r l).map f := by
  unfold fromRef
  rw [List.dropWhile_map]
  simp only [Function.comp_def, fun x => (hf x).1]

theorem node_map {f : Entry → Entry} (hf : ∀ x, Same x (f x)) (r : Ref) (l : List Entry) : node (l.map f) r = (node l r).map f := by
  simp [node, from_map hf]

theorem checkOk_map {f : Entry → Entry} (hf : ∀ x, Same x (f x)) {l : List Entry} {e : Entry} {r : Ref} :
    checkOk (l.map f) e r = checkOk l e r := by
  apply checkOk_congr
  · rw [node_map hf, Option.map_map]; simp only [Function.comp_def, fun x => (hf x).2.1]
  · rw [before_map hf, List.getLast?_map, Option.map_map]; simp only [Function.comp_def, fun x => (hf x).2.1]

theorem sorted_map {f : Entry → Entry} (hf : ∀ x, Same x (f x)) {l : List Entry} (h : Sorted l) : Sorted (l.map f) := by
  unfold Sorted
  rw [List.pairwise_map]
  simpa [fun x => (hf x).2.1] using h

/-- Inserting before another node. -/
theorem checkOk_ins {l : List Entry} {e e' : Entry} {r r' : Ref} (hr : r ∈ refs l) (hr' : r' ∈ refs l) (hne : r' ≠ r) (hn : (refs l).Nodup)
    (he' : e'.ref ≠ r) : checkOk (insBefore r' e' l) e r = checkOk l e r := by
  obtain ⟨x, post, hx, hf, hl⟩ := split_at r l hr
  have hpre : beforeRef r l = beforeRef r l := rfl
  generalize hp : beforeRef r l = pre at hl hpre
  have hnp : r ∉ refs pre := by
    rw [← hp]; intro hc
    obtain ⟨y, hy, hyr⟩ := List.mem_map.1 hc
    exact beforeRef_not r l y hy hyr
  by_cases hin : r' ∈ refs pre
  · obtain ⟨x', post', hx', hf', hl'⟩ := split_at r' pre hin
    generalize hp' : beforeRef r' pre = pre' at hl'
    have hnp' : x'.ref ∉ refs pre' := by
      rw [← hp', hx']; intro hc
      obtain ⟨y, hy, hyr⟩ := List.mem_map.1 hc
      exact beforeRef_not r' pre y hy hyr
    have hl2 : l = pre' ++ x' :: (post' ++ x :: post) := by rw [hl, hl']; simp
    have hbf := before_from_of_split (pre := pre') (post := post' ++ x :: post) (d := x') hnp'
    have hins : insBefore r' e' l = (pre' ++ e' :: x' :: post') ++ x :: post := by
      unfold insBefore
      rw [hl2, ← hx', hbf.1, hbf.2]; simp
    have hnn : x.ref ∉ refs (pre' ++ e' :: x' :: post') := by
      have : x.ref ∉ refs (pre' ++ x' :: post') := by rw [← hl', hx]; exact hnp
      simp only [List.map_append, List.map_cons, List.mem_append, List.mem_cons, not_or] at this ⊢
      exact ⟨this.1, by rw [hx]; exact fun h => he' h.symm, this.2.1, this.2.2⟩
    have hbf2 := before_from_of_split (pre := pre' ++ e' :: x' :: post') (post := post) (d := x) hnn
    have hbf1 := before_from_of_split (pre := pre) (post := post) (d := x) (by rw [hx]; exact hnp)
    apply checkOk_congr
    · unfold node
      rw [hins, ← hx, hbf2.2, hl, hbf1.2]
      try simp
    · rw [hins, ← hx, hbf2.1, hl, hbf1.1, hl']
      simp [List.getLast?_append, List.getLast?_cons]
  · have hin2 : r' ∈ refs post := by
      rw [hl] at hr'
      simp only [List.map_append, List.map_cons, List.mem_append, List.mem_cons] at hr'
      rcases hr' with h | h | h
      · exact absurd h hin
      · exact absurd (h.trans hx) hne
      · exact h
    have hins : insBefore r' e' l = pre ++ x :: insBefore r' e' post := by
      unfold insBefore
      have hb : beforeRef r' l = pre ++ x :: beforeRef r' post := by
        rw [hl]; unfold beforeRef
        rw [List.takeWhile_append_of_pos]
        · rw [List.takeWhile_cons]; simp [show x.ref ≠ r' by rw [hx]; exact fun h => hne h.symm]
        · intro y hy; simp; intro h; exact hin (List.mem_map.2 ⟨y, hy, h⟩)
      have hfr : fromRef r' l = fromRef r' post := by
        rw [hl]; unfold fromRef
        rw [List.dropWhile_append_of_pos]
        · rw [List.dropWhile_cons]; simp [show x.ref ≠ r' by rw [hx]; exact fun h => hne h.symm]
        · intro y hy; simp; intro h; exact hin (List.mem_map.2 ⟨y, hy, h⟩)
      rw [hb, hfr]; simp
    have hbf2 := before_from_of_split (pre := pre) (post := insBefore r' e' post) (d := x) (by rw [hx]; exact hnp)
    have hbf1 := before_from_of_split (pre := pre) (post := post) (d := x) (by rw [hx]; exact hnp)
    apply checkOk_congr
    · unfold node
      rw [hins, ← hx, hbf2.2, hl, hbf1.2]; simp
    · rw [hins, ← hx, hbf2.1, hl, hbf1.1]

structure J1 (s : CSt) : Prop extends J0 s where
  sorted : Sorted s.items
  ok : ∀ g e r, s.pc g = .link e r → checkOk s.items e r = true

theorem setPC_same (s : CSt) (g : Tid) (c : PC) : (setPC s g c).pc g = c := by simp [setPC]
theorem setPC_ne (s : CSt) {g u : Tid} (c : PC) (h : u ≠ g) : (setPC s g c).pc u = s.pc u := by simp [setPC, h]

/-- A step changes the program point of its goroutine only. -/
theorem Step.others {s s' : CSt} {g u : Tid} (h : Step Pk s g s') (hu : u ≠ g) : s'.pc u = s.pc u := by
  cases h <;> exact setPC_ne _ _ hu

/-- What a step of `g` does to the list. -/
inductive Eff (s : CSt) (g : Tid) (l' : List Entry) : Prop
  | none : l' = s.items → Eff s g l'
  | inplace (f : Entry → Entry) : (∀ x, Same x (f x)) → l' = s.items.map f → Eff s g l'
  | ins (e : Entry) (r : Ref) : s.pc g = .link e r → l' = insBefore r e s.items → Eff s g l'

theorem Step.eff {s s' : CSt} {g : Tid} (h : Step Pk s g s') : Eff s g s'.items := by
  cases h <;> try exact Eff.none rfl
  case hitSet r x nv ok _ _ _ =>
    obtain ⟨f, hf, h⟩ := setVal_same r nv s.items
    exact .inplace f hf h
  case hitDel r _ =>
    obtain ⟨f, hf, h⟩ := markDeleted_same .sample r s.items
    exact .inplace f hf h
  case link e r h => exact .ins e r h rfl

/-- Whoever arrives at the link has passed the check. -/
theorem Step.toLink {s s' : CSt} {g : Tid} (h : Step Pk s g s') {e : Entry} {r : Ref} (hl : s'.pc g = .link e r) :
    s.pc g = .check e r ∧ Conc.checkOk s.items e r = true ∧ s'.items = s.items := by
  cases h <;> simp only [setPC_same] at hl <;> try cases hl
  case checkOk h1 h2 => exact ⟨h1, h2, rfl⟩
  all_goals (split at hl <;> cases hl)

/-- The order survives every step that respects the condition. -/
theorem Step.j1 (pk : PkOk Pk) {s s' : CSt} {g : Tid} (h : Step Pk s g s') (al : Alone s g) (j : J1 s) : J1 s' := by
  refine ⟨h.j0 pk j.toJ0, ?_, ?_⟩
  · cases h.eff with
    | none h1 => rw [h1]; exact j.sorted
    | inplace f hf h1 => rw [h1]; exact sorted_map hf j.sorted
    | ins e r h1 h2 => rw [h2]; exact insertCheck_sorted j.sorted (checkOk_insert (j.ok g e r h1))
  · intro u e r hu
    by_cases eu : u = g
    · subst eu
      obtain ⟨_, h2, h3⟩ := h.toLink hu
      rw [h3]; exact h2
    · rw [h.others eu] at hu
      have hc := j.ok u e r hu
      cases h.eff with
      | none h1 => rw [h1]; exact hc
      | inplace f hf h1 => rw [h1, checkOk_map hf]; exact hc
      | ins e' r' h1 h2 =>
        rw [h2, checkOk_ins _ _ _ j.nd _]
        · exact hc
        · exact j.cur u r (by simp [hu, PC.curs])
        · exact j.cur g r' (by simp [h1, PC.curs])
        · intro heq; subst heq; exact al e' r' h1 u e eu hu
        · intro heq
          apply (j.new g e'.ref (by simp [h1, PC.newRef])).2
          rw [heq]; exact j.cur u r (by simp [hu, PC.curs])

theorem GSteps.j1 (pk : PkOk Pk) {s s' : CSt} (h : GSteps Pk s s') (j : J1 s) : J1 s' := by
  induction h with
  | refl => exact j
  | step _ h al ih => exact h.j1 pk al ih

theorem Steps.j0 (pk : PkOk Pk) {s s' : CSt} (h : Steps Pk s s') (j : J0 s) : J0 s' := by
  induction h with
  | refl => exact j
  | step _ h ih => exact h.j0 pk ih

/-- Every sequential history leaves a good start. -/
theorem ofSt_j1 {st : St} (h : Inv st) : J1 (ofSt st) := by
  refine ⟨⟨h.ii.nodup, ?_, ?_, ?_, ?_, ?_, ?_, ?_⟩, h.ii.sorted, ?_⟩
  · intro r hr
    obtain ⟨e, he, rfl⟩ := List.mem_map.1 hr
    cases hre : e.ref with
    | item n => exact (h.ii.itm e he n hre).2
    | dummy p =>
      simp only [Old, ofSt, List.mem_filterMap]
      exact ⟨e, he, by simp [hre]⟩
  · intro g r hg; simp [ofSt, PC.newRef] at hg
  · intro g g' r hg; simp [ofSt, PC.newRef] at hg
  · intro g r hg; simp [ofSt, PC.curs] at hg
  · intro e he p hp; have := (h.ii.dum e he p hp).2; rw [this]; rfl
  · intro e he n hn; exact (h.ii.itm e he n hn).1
  · intro g e hg; simp [ofSt, PC.newE] at hg
  · intro g e r hg; simp [ofSt] at hg

end SLM.Conc
