import Verif.Proofs.EmbList2
/-! The item list of embedded mode: insertion of an item. -/
set_option linter.unusedSimpArgs false
set_option autoImplicit false
namespace SLM.EList
open Emb (Pool Slot EI clrSt clrP Adj OKP CP upool)
variable {st : Emb.St} {gl A B : List Path} {n b p : Path} {l0 : Int} {D : Node → Bool}

theorem range_split {i m : Nat} (h : i < m) : List.range m = List.range i ++ i :: List.range' (i + 1) (m - i - 1) := by
  obtain ⟨d, rfl⟩ : ∃ d, m = i + (1 + d) := ⟨m - i - 1, by omega⟩
  rw [List.range_eq_range', List.range_eq_range', ← List.range'_append_1, Nat.add_comm 1 d, List.range'_succ]
  simp only [Nat.zero_add]
  congr 3
  omega

/-- Without one node, for a list in which it stands once. -/
theorem filter_ne {c : Node} {U V : List Node} (hn : (U ++ c :: V).Nodup) :
    (U ++ c :: V).filter (fun x => decide (x ≠ c)) = U ++ V := by
  rw [List.nodup_append] at hn
  obtain ⟨_, h2, h3⟩ := hn
  rw [List.nodup_cons] at h2
  rw [List.filter_append, List.filter_cons]
  simp only [ne_eq, not_true, decide_false, Bool.false_eq_true, if_false]
  rw [List.filter_eq_self.2, List.filter_eq_self.2]
  · intro x hx; simp; rintro rfl; exact h2.1 hx
  · intro x hx; simp; rintro rfl; exact h3 x hx x (by simp) rfl

theorem canon_at (hbl : st.blist = A ++ n :: b :: B) {Q : Pool} (hQ : st.pools b = some Q) {i : Nat} (hi' : i < Q.len.toNat) :
    canon st = (lo st.pools B ++ .dummy b :: (List.range i).map (.item b)) ++
      .item b i :: ((List.range' (i + 1) (Q.len.toNat - i - 1)).map (.item b) ++ hi st.pools n A) := by
  rw [canon_eq hbl]
  have hp : plen st.pools b = Q.len.toNat := by simp [plen, hQ]
  rw [seg, hp, range_split hi']
  simp

theorem lst_at (hD : DOk D st) (hbl : st.blist = A ++ n :: b :: B) {Q : Pool} (hQ : st.pools b = some Q) {i : Nat} (hi' : i < Q.len.toNat)
    (hn : (canon st).Nodup) : ∃ U V,
    (lst D st).filter (fun x => decide (x ≠ .item b i)) = U ++ V ∧
    lst (fun x => D x && decide (x ≠ .item b i)) st = U ++ .item b i :: V ∧
    (∀ x ∈ U, x ∈ lo st.pools B ∨ x = .dummy b ∨ ∃ j, j < i ∧ x = .item b j) ∧
    (∀ x ∈ V, x ∈ hi st.pools n A ∨ ∃ j, i < j ∧ j < Q.len.toNat ∧ x = .item b j) ∧ .dummy b ∈ U ∧ .dummy n ∈ V := by
  obtain ⟨C1, hC1⟩ : ∃ C1, C1 = lo st.pools B ++ .dummy b :: (List.range i).map (.item b) := ⟨_, rfl⟩
  obtain ⟨C2, hC2⟩ : ∃ C2, C2 = (List.range' (i + 1) (Q.len.toNat - i - 1)).map (.item b) ++ hi st.pools n A := ⟨_, rfl⟩
  have hc : canon st = C1 ++ .item b i :: C2 := by rw [hC1, hC2]; exact canon_at hbl hQ hi'
  refine ⟨C1.filter (fun x => !D x), C2.filter (fun x => !D x), ?_, ?_, ?_, ?_, ?_, ?_⟩
  · have h1 : (lst D st).filter (fun x => decide (x ≠ .item b i)) = ((canon st).filter (fun x => decide (x ≠ .item b i))).filter (fun x => !D x) := by
      unfold lst; rw [List.filter_filter, List.filter_filter]; congr 1; funext x; exact Bool.and_comm _ _
    rw [h1, hc, filter_ne (hc ▸ hn), List.filter_append]
  · unfold lst
    have hn' : (C1 ++ .item b i :: C2).Nodup := hc ▸ hn
    rw [List.nodup_append, List.nodup_cons] at hn'
    obtain ⟨_, ⟨h2, _⟩, h3⟩ := hn'
    rw [hc, List.filter_append, List.filter_cons]
    simp only [ne_eq, not_true, decide_false, Bool.and_false, Bool.not_false, if_true]
    congr 1
    · apply List.filter_congr
      intro x hx
      have : x ≠ .item b i := fun h => h3 x hx _ (by simp) h
      simp [this]
    · congr 1
      apply List.filter_congr
      intro x hx
      have : x ≠ .item b i := by rintro rfl; exact h2 hx
      simp [this]
  · intro x hx
    have := List.mem_of_mem_filter hx
    rw [hC1] at this
    simp only [List.mem_append, List.mem_cons, List.mem_map, List.mem_range] at this
    rcases this with h | h | ⟨j, hj, rfl⟩
    · exact Or.inl h
    · exact Or.inr (Or.inl h)
    · exact Or.inr (Or.inr ⟨j, hj, rfl⟩)
  · intro x hx
    have := List.mem_of_mem_filter hx
    rw [hC2] at this
    simp only [List.mem_append, List.mem_map, List.mem_range'_1] at this
    rcases this with ⟨j, hj, rfl⟩ | h
    · exact Or.inr ⟨j, by omega, by omega, rfl⟩
    · exact Or.inl h
  · rw [List.mem_filter, hC1]
    exact ⟨by simp, by rw [hD.dummy]; rfl⟩
  · rw [List.mem_filter, hC2]
    refine ⟨?_, by rw [hD.dummy]; rfl⟩
    rw [List.mem_append]
    right
    exact mem_hi.2 ⟨n, by simp, mem_seg.2 (Or.inl rfl)⟩

theorem sentinel_rev (h : EI (clrSt st l0) gl) : revOf st (.dummy []) = maxU64 := h.bi.ti.root.1

/-- `_set` puts the item where it belongs. -/
theorem setInsert_lst (h : EI (clrSt st l0) gl) (hD : DOk D st) (ha : Adj st.blist n b) {Q : Pool} (hQ : st.pools b = some Q) {i : Nat}
    (hi' : i < Q.len.toNat) (hmax : (Q.slot i).rev < maxU64) {rk : U64} (hr : (Q.slot i).rev = rk) :
    setInsert st b rk (.item b i) ((lst D st).filter (fun x => decide (x ≠ .item b i))) =
      some (lst (fun x => D x && decide (x ≠ .item b i)) st) := by
  obtain ⟨A, B, hbl⟩ := Emb.adj_decomp h.desc ha
  have hbl : st.blist = A ++ n :: b :: B := hbl
  have hbne : b ≠ [] := (h.pool b (by simp [clrSt, hQ])).2
  have hbm : b ∈ st.blist := ha.2.1
  obtain ⟨U, V, e1, e2, hU, hV, hdU, hnV⟩ := lst_at hD hbl hQ hi' (canon_nodup h)
  have hb := item_bounds h ha hQ hi'
  have hrc : revOf st (.item b i) = rk := by simp only [revOf, hQ]; exact hr
  have hlow : ∀ x ∈ U, revOf st x ≤ revOf st (.item b i) := by
    intro x hx
    rw [hrc, ← hr]
    rcases hU x hx with h1 | rfl | ⟨j, hj, rfl⟩
    · have := lo_bounds h hbl h1
      rw [BitVec.le_def]; omega
    · have := dummy_rev h hbm hbne
      rw [BitVec.le_def]; omega
    · have := item_mono h ha hQ hi' hj
      simp only [revOf, hQ]
      bv_omega
  have hhigh : ∀ x ∈ V, rk < revOf st x := by
    intro x hx
    rw [← hr]
    rcases hV x hx with h1 | ⟨j, hj, hj2, rfl⟩
    · rcases hi_bounds h hbl h1 with rfl | h1
      · rw [sentinel_rev h]; exact hmax
      · rw [BitVec.lt_def]; omega
    · simp only [revOf, hQ]
      exact item_mono h ha hQ hj2 hj
  rw [e1, e2]
  cases V with
  | nil => simp at hnV
  | cons pos V =>
    have hnd : (U ++ pos :: V).Nodup := by rw [← e1]; exact (((canon_nodup h).filter _).filter _)
    apply setInsert_eq
    · intro hc
      exact (List.nodup_append.1 hnd).2.2 pos hc pos (by simp) rfl
    · rw [← e1]; simp
    · have hbp : basePath st.mem b = b := Emb.basePath_self h.bi (h.sub b hbm) hbne
      rw [hbp]; exact hdU
    · have hprev : Emb.prevAsB st.blist b = n := by rw [hbl]; exact Emb.prevAsB_eq (hbl ▸ h.desc)
      have hbn : basePath st.mem n = n := by
        cases hn : n with
        | nil => rfl
        | cons j q => rw [← hn]; exact Emb.basePath_self h.bi (h.sub n ha.1) (by rw [hn]; simp)
      rw [hprev, hbn, ← e1]
      refine List.mem_filter.2 ⟨?_, by simp⟩
      unfold lst
      refine List.mem_filter.2 ⟨mem_canon.2 ⟨n, ha.1, mem_seg.2 (Or.inl rfl)⟩, ?_⟩
      rw [hD.dummy n]; rfl
    · exact hlow
    · exact hrc
    · exact hhigh pos (by simp)

end SLM.EList
