import Verif.Model.EmbList
import Verif.Proofs.EmbDel4
/-! The item list of embedded mode: list lemmas. -/
set_option linter.unusedSimpArgs false
set_option autoImplicit false
namespace SLM.EList
variable {rev : Node → U64} {l U V : List Node} {r c pos start hd : Node}

theorem fromN_append (h : r ∈ U) : fromN r (U ++ V) = fromN r U ++ V := by
  unfold fromN
  rw [List.dropWhile_append]
  split
  · rename_i he
    exfalso
    have := List.dropWhile_eq_nil_iff.1 (List.isEmpty_iff.1 he) r h
    simp at this
  · rfl

theorem beforeN_append (h : r ∈ U) : beforeN r (U ++ V) = beforeN r U := by
  unfold beforeN
  rw [List.takeWhile_append]
  split
  · rename_i he
    exfalso
    have := List.takeWhile_eq_self_iff.1 ((List.takeWhile_prefix _).eq_of_length he) r h
    simp at this
  · rfl

theorem fromN_eq (h : r ∉ U) : fromN r (U ++ r :: V) = r :: V := by
  unfold fromN
  rw [List.dropWhile_append_of_pos (by intro x hx; simp; rintro rfl; exact h hx)]
  simp

theorem beforeN_eq (h : r ∉ U) : beforeN r (U ++ r :: V) = U := by
  unfold beforeN
  rw [List.takeWhile_append_of_pos (by intro x hx; simp; rintro rfl; exact h hx)]
  simp

theorem mem_beforeN {x : Node} (h : x ∈ beforeN r l) : x ∈ l := (List.takeWhile_sublist _).subset h

theorem mem_fromN {x : Node} (h : x ∈ fromN r l) : x ∈ l := (List.dropWhile_sublist _).subset h

/-- Insertion at its place. -/
theorem add2_eq (hn : pos ∉ U) (hs : start ∈ U) (hU : ∀ x ∈ U, rev x ≤ rev c) (hp : rev c < rev pos)
    (opt : Option (Node × Node)) : add2 rev start c opt (U ++ pos :: V) = U ++ c :: pos :: V := by
  unfold add2
  rw [fromN_append hs, List.find?_append, List.find?_eq_none.2 (by
    intro x hx
    have := hU x (mem_fromN hx)
    simp only [decide_eq_true_eq]; bv_omega)]
  simp only [Option.none_or, List.find?_cons, hp, decide_true]
  unfold insertCheck
  rw [if_neg (by bv_omega), beforeN_eq hn, fromN_eq hn]
  cases h : U.getLast? with
  | none => rfl
  | some left =>
    have := hU left (List.mem_of_getLast? h)
    simp only
    rw [if_neg (by bv_omega)]

theorem setInsert_eq {st : Emb.St} {b : Path} {rk : U64} (hn : pos ∉ U) (hc : c ∉ U ++ pos :: V)
    (hd : Node.dummy (basePath st.mem b) ∈ U)
    (hpd : Node.dummy (basePath st.mem (Emb.prevAsB st.blist b)) ∈ U ++ pos :: V) (hU : ∀ x ∈ U, revOf st x ≤ revOf st c) (hr : revOf st c = rk)
    (hp : rk < revOf st pos) : setInsert st b rk c (U ++ pos :: V) = some (U ++ c :: pos :: V) := by
  unfold setInsert
  simp only
  rw [if_neg (by
    rintro (h | h | h)
    · exact h (List.mem_append_left _ hd)
    · exact h hpd
    · exact hc h)]
  congr 1
  have hst : ∀ x, (match (fromN (.dummy (basePath st.mem b)) (U ++ pos :: V)).find? (fun x => decide (rk ≤ revOf st x)) with
      | none => Node.dummy (basePath st.mem b)
      | some en =>
        if revOf st en < rk then en
        else match (beforeN en (U ++ pos :: V)).getLast? with
          | some pe => if revOf st pe < rk then pe else Node.dummy (basePath st.mem b)
          | none => Node.dummy (basePath st.mem b)) = x → x ∈ U := by
    intro x hx
    rw [fromN_append hd, List.find?_append] at hx
    cases hf : (fromN (.dummy (basePath st.mem b)) U).find? (fun x => decide (rk ≤ revOf st x)) with
    | some en =>
      rw [hf] at hx
      simp only [Option.some_or] at hx
      have hen : en ∈ U := mem_fromN (List.mem_of_find?_eq_some hf)
      rw [beforeN_append hen] at hx
      split at hx
      · rw [← hx]; exact hen
      · split at hx
        · rename_i pe hpe
          split at hx
          · rw [← hx]; exact mem_beforeN (List.mem_of_getLast? hpe)
          · rw [← hx]; exact hd
        · rw [← hx]; exact hd
    | none =>
      rw [hf] at hx
      have : decide (rk ≤ revOf st pos) = true := by simp only [decide_eq_true_eq]; bv_omega
      simp only [Option.none_or, List.find?_cons, this] at hx
      rw [beforeN_eq hn] at hx
      rw [if_neg (by bv_omega)] at hx
      split at hx
      · rename_i pe hpe
        split at hx
        · rw [← hx]; exact List.mem_of_getLast? hpe
        · rw [← hx]; exact hd
      · rw [← hx]; exact hd
  exact add2_eq hn (hst _ rfl) hU (by rw [hr]; exact hp) _

end SLM.EList
