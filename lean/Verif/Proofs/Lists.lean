import Verif.Model.Map
import Verif.Proofs.Util
import Mathlib.Data.List.TakeWhile
import Mathlib.Data.List.Nodup
/-! Lemmas about the item list: positions, insertion, order. -/
set_option autoImplicit false
namespace SLM

abbrev Sorted (l : List Entry) : Prop := l.Pairwise (fun a b => a.rev ≤ b.rev)
abbrev refs (l : List Entry) : List Ref := l.map (·.ref)

theorem before_append_from (r : Ref) (l : List Entry) : beforeRef r l ++ fromRef r l = l :=
  List.takeWhile_append_dropWhile

theorem beforeRef_not (r : Ref) (l : List Entry) : ∀ e ∈ beforeRef r l, e.ref ≠ r := by
  intro e he
  have := List.mem_takeWhile_imp he
  simpa using this

/-- Decomposition of the list at a node that is in it. -/
theorem split_at (r : Ref) (l : List Entry) (h : r ∈ refs l) :
    ∃ d post, d.ref = r ∧ fromRef r l = d :: post ∧ l = beforeRef r l ++ d :: post := by
  have hne : fromRef r l ≠ [] := by
    intro hc
    have := List.dropWhile_eq_nil_iff.1 hc
    obtain ⟨e, he, rfl⟩ := List.mem_map.1 h
    simpa using this e he
  obtain ⟨d, post, hd⟩ := List.exists_cons_of_ne_nil hne
  refine ⟨d, post, ?_, hd, ?_⟩
  · have := List.head_dropWhile_not (p := fun e : Entry => decide (e.ref ≠ r)) (l := l) hne
    have h2 : (fromRef r l).head hne = d := by simp only [hd, List.head_cons]
    have h3 : decide (((fromRef r l).head hne).ref ≠ r) = false := this
    rw [h2] at h3
    simpa using h3
  · conv => lhs; rw [← before_append_from r l, hd]

theorem fromRef_nil (r : Ref) (l : List Entry) (h : r ∉ refs l) : fromRef r l = [] := by
  apply List.dropWhile_eq_nil_iff.2
  intro e he
  have : e.ref ≠ r := fun hc => h (List.mem_map.2 ⟨e, he, hc⟩)
  simpa using this

/-- With distinct refs, any decomposition is the one of `beforeRef`/`fromRef`. -/
theorem before_from_of_split {pre post : List Entry} {d : Entry} (h : d.ref ∉ refs pre) :
    beforeRef d.ref (pre ++ d :: post) = pre ∧ fromRef d.ref (pre ++ d :: post) = d :: post := by
  have hp : ∀ x ∈ pre, decide (x.ref ≠ d.ref) = true := by
    intro x hx
    have : x.ref ≠ d.ref := fun hc => h (List.mem_map.2 ⟨x, hx, hc⟩)
    simpa using this
  constructor
  · unfold beforeRef
    rw [List.takeWhile_append_of_pos hp]; simp
  · unfold fromRef
    rw [List.dropWhile_append_of_pos hp]; simp

theorem nodup_split {pre post : List Entry} {d : Entry} (h : (refs (pre ++ d :: post)).Nodup) :
    d.ref ∉ refs pre ∧ d.ref ∉ refs post := by
  simp only [refs, List.map_append, List.map_cons] at h
  rw [List.nodup_append] at h
  obtain ⟨_, h2, h3⟩ := h
  rw [List.nodup_cons] at h2
  exact ⟨fun hc => h3 _ hc _ (by simp) rfl, h2.1⟩

/-! ### insertion -/

/-- `l'` is `l`, or `l` with `e` put somewhere before an existing node. -/
def Ins (e : Entry) (l l' : List Entry) : Prop :=
  l' = l ∨ ∃ pre d post, l = pre ++ d :: post ∧ l' = pre ++ e :: d :: post

/-- The place behind all nodes not beyond `e`. -/
def insAt (e : Entry) (l : List Entry) : List Entry :=
  l.takeWhile (fun x => decide (x.rev ≤ e.rev)) ++ e :: l.dropWhile (fun x => decide (x.rev ≤ e.rev))

theorem insertCheck_cases {right : Ref} {c : Entry} {l l' : List Entry} (h : insertCheck right c l = some l') :
    ∃ pre d post, d.ref = right ∧ l = pre ++ d :: post ∧ l' = pre ++ c :: d :: post ∧ pre = beforeRef right l ∧
      c.rev ≤ d.rev ∧ (∀ x, pre.getLast? = some x → x.rev ≤ c.rev) := by
  by_cases hr : right ∈ refs l
  · obtain ⟨d, post, hd, hf, hl⟩ := split_at right l hr
    simp only [insertCheck, hf] at h
    refine ⟨beforeRef right l, d, post, hd, hl, ?_, rfl, ?_⟩
    · split at h
      · cases h
      · split at h
        · split at h
          · cases h
          · injection h with h; rw [← h, insBefore, hf]
        · injection h with h; rw [← h, insBefore, hf]
    · split at h
      · cases h
      · rename_i h1
        refine ⟨by bv_omega, ?_⟩
        intro x hx
        rw [hx] at h
        simp only at h
        split at h
        · cases h
        · bv_omega
  · simp [insertCheck, fromRef_nil _ _ hr] at h

theorem sorted_getLast {pre : List Entry} {x y : Entry} (hs : Sorted pre) (hx : pre.getLast? = some x) (hy : y ∈ pre) :
    y.rev ≤ x.rev := by
  obtain ⟨ys, rfl⟩ := List.getLast?_eq_some_iff.1 hx
  rw [Sorted, List.pairwise_append] at hs
  rcases List.mem_append.1 hy with h | h
  · exact hs.2.2 y h x (by simp)
  · simp at h; subst h; exact BitVec.le_refl _

theorem insertCheck_sorted {right : Ref} {c : Entry} {l l' : List Entry} (hs : Sorted l)
    (h : insertCheck right c l = some l') : Sorted l' := by
  obtain ⟨pre, d, post, hd, hl, hl', _, h1, h2⟩ := insertCheck_cases h
  subst hl hl'
  rw [Sorted, List.pairwise_append] at hs ⊢
  obtain ⟨ha, hb, hc⟩ := hs
  have hpre : ∀ x ∈ pre, x.rev ≤ c.rev := by
    intro x hx
    cases hg : pre.getLast? with
    | none => simp at hg; subst hg; simp at hx
    | some y => exact BitVec.le_trans (sorted_getLast ha hg hx) (h2 y hg)
  have hpost : ∀ x ∈ d :: post, c.rev ≤ x.rev := by
    intro x hx
    rcases List.mem_cons.1 hx with rfl | hx
    · exact h1
    · exact BitVec.le_trans h1 ((List.pairwise_cons.1 hb).1 x hx)
  refine ⟨ha, List.pairwise_cons.2 ⟨hpost, hb⟩, ?_⟩
  intro x hx y hy
  rcases List.mem_cons.1 hy with rfl | hy
  · exact hpre x hx
  · exact hc x hx y hy

theorem insertCheck_ins {right : Ref} {c : Entry} {l : List Entry} : Ins c l ((insertCheck right c l).getD l) := by
  cases h : insertCheck right c l with
  | none => exact Or.inl rfl
  | some l' =>
    obtain ⟨pre, d, post, _, hl, hl', _, _, _⟩ := insertCheck_cases h
    exact Or.inr ⟨pre, d, post, hl, hl'⟩

theorem insertCheck_getD_sorted {right : Ref} {c : Entry} {l : List Entry} (hs : Sorted l) :
    Sorted ((insertCheck right c l).getD l) := by
  cases h : insertCheck right c l with
  | none => exact hs
  | some l' => exact insertCheck_sorted hs h

theorem add2_sorted {l : List Entry} {start : Ref} {e : Entry} {opt} (hs : Sorted l) : Sorted (add2 l start e opt) := by
  unfold add2
  split
  · exact insertCheck_getD_sorted hs
  · split
    · split
      · exact hs
      · exact insertCheck_getD_sorted hs
    · split
      · exact insertCheck_getD_sorted hs
      · exact hs

theorem add2_ins {l : List Entry} {start : Ref} {e : Entry} {opt} : Ins e l (add2 l start e opt) := by
  unfold add2
  split
  · exact insertCheck_ins
  · split
    · split
      · exact Or.inl rfl
      · exact insertCheck_ins
    · split
      · exact insertCheck_ins
      · exact Or.inl rfl

theorem setInsert_sorted {st : St} {b : Path} {rk : U64} {e : Entry} (hs : Sorted st.items) :
    Sorted (setInsert st b rk e) := by unfold setInsert; exact add2_sorted hs

theorem setInsert_ins {st : St} {b : Path} {rk : U64} {e : Entry} : Ins e st.items (setInsert st b rk e) := by
  unfold setInsert; exact add2_ins

/-- In a sorted list, from a node not beyond `e`, `add2` finds the place behind all nodes not beyond `e`. -/
theorem add2_insAt {l : List Entry} {start : Ref} {e : Entry} {opt} (hs : Sorted l) (hn : (refs l).Nodup)
    (hstart : ∃ d ∈ l, d.ref = start ∧ d.rev ≤ e.rev) (hbig : ∃ x ∈ l, e.rev < x.rev) :
    add2 l start e opt = insAt e l := by
  obtain ⟨d0, hd0, hr, hle⟩ := hstart
  obtain ⟨d, post, hd, hf, hl⟩ := split_at start l (List.mem_map.2 ⟨d0, hd0, hr⟩)
  have hdd : d = d0 := by
    have hd' : d ∈ l := by rw [hl]; simp
    exact List.inj_on_of_nodup_map hn hd' hd0 (by rw [hd, hr])
  subst hdd
  have hpre : ∀ x ∈ beforeRef start l, x.rev ≤ d.rev := by
    rw [hl] at hs
    exact fun x hx => (List.pairwise_append.1 hs).2.2 x hx d (by simp)
  obtain ⟨x0, hx0, hx0'⟩ := hbig
  -- split the list at the first node beyond `e`
  have hdec : l = l.takeWhile (fun x => decide (x.rev ≤ e.rev)) ++ l.dropWhile (fun x => decide (x.rev ≤ e.rev)) :=
    List.takeWhile_append_dropWhile.symm
  have hne : l.dropWhile (fun x => decide (x.rev ≤ e.rev)) ≠ [] := by
    intro hc
    have := List.dropWhile_eq_nil_iff.1 hc x0 hx0
    simp at this; bv_omega
  obtain ⟨p, rest, hp⟩ := List.exists_cons_of_ne_nil hne
  have hpgt : e.rev < p.rev := by
    have := List.head_dropWhile_not (p := fun x : Entry => decide (x.rev ≤ e.rev)) (l := l) hne
    simp only [hp, List.head_cons] at this
    simp at this; bv_omega
  generalize htw : l.takeWhile (fun x => decide (x.rev ≤ e.rev)) = tw at hdec
  have htwle : ∀ x ∈ tw, x.rev ≤ e.rev := by
    intro x hx; rw [← htw] at hx; simpa using List.mem_takeWhile_imp hx
  rw [hp] at hdec
  have hpn : p.ref ∉ refs tw := by rw [hdec] at hn; exact (nodup_split hn).1
  -- what `find?` from `start` returns
  have hfind : (fromRef start l).find? (fun x => decide (e.rev < x.rev)) = some p := by
    have hfl : l.find? (fun x => decide (e.rev < x.rev)) = some p := by
      rw [hdec, List.find?_append]
      have : List.find? (fun x => decide (e.rev < x.rev)) tw = none := by
        rw [List.find?_eq_none]; intro x hx; have := htwle x hx; simp; bv_omega
      simp [this, hpgt]
    conv at hfl => lhs; rw [← before_append_from start l]
    rw [List.find?_append] at hfl
    have : List.find? (fun x => decide (e.rev < x.rev)) (beforeRef start l) = none := by
      rw [List.find?_eq_none]; intro x hx; have := hpre x hx; simp; bv_omega
    simpa [this] using hfl
  unfold add2
  rw [hfind]
  simp only
  have hbf := before_from_of_split (pre := tw) (post := rest) hpn
  rw [← hdec] at hbf
  have : insertCheck p.ref e l = some (insAt e l) := by
    have hins : insBefore p.ref e l = insAt e l := by
      rw [insBefore, hbf.1, hbf.2, insAt, htw, hp]
    unfold insertCheck
    rw [hbf.2]
    simp only [show ¬ p.rev < e.rev by bv_omega, if_false, hbf.1]
    split
    · rename_i le hle'
      have : le ∈ tw := List.mem_of_getLast? hle'
      have := htwle le this
      simp [show ¬ e.rev < le.rev by bv_omega, hins]
    · rw [hins]
  rw [this]; rfl

end SLM
