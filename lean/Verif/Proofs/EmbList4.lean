import Verif.Proofs.EmbList3
/-! The item list of embedded mode: a slot is handed out. -/
set_option linter.unusedSimpArgs false
set_option autoImplicit false
namespace SLM.EList
open Emb (Pool Slot EI clrSt clrP Adj OKP CP upool)
variable {st : Emb.St} {gl A B : List Path} {n b : Path} {l0 : Int} {D : Node → Bool}

/-- A list with the slots `js` of `b` in the middle. -/
def around (b : Path) (pre post : List Node) (js : List Nat) : List Node := pre ++ (js.map (.item b) ++ post)

def Clear (b : Path) (l : List Node) : Prop := ∀ x ∈ l, ofBucket b x = false

variable {pre post : List Node}

theorem Clear.not_mem (h : Clear b pre) (i : Nat) : Node.item b i ∉ pre := by
  intro hc
  have := h _ hc
  simp [ofBucket] at this

theorem cut_around (h1 : Clear b pre) (m : Nat) : cut b (m + 1) (around b pre post (List.range (m + 1))) = some (pre, post) := by
  have hn := h1.not_mem 0
  have e1 : around b pre post (List.range (m + 1)) = pre ++ .item b 0 :: ((List.range' 1 m).map (.item b) ++ post) := by
    unfold around
    rw [range_split (i := 0) (by omega)]
    simp
  have e2 : Node.item b 0 :: ((List.range' 1 m).map (.item b) ++ post) = (List.range m).map (.item b) ++ .item b m :: post := by
    have : (List.range (m + 1)).map (Node.item b) = .item b 0 :: (List.range' 1 m).map (.item b) := by
      rw [range_split (i := 0) (by omega)]; simp
    rw [← List.cons_append, ← this, List.range_succ]; simp
  have hm : Node.item b m ∉ (List.range m).map (Node.item b) := by simp
  unfold cut
  simp only [Nat.add_sub_cancel]
  rw [e1, fromN_eq hn, beforeN_eq hn, if_pos]
  · rw [e2, fromN_eq hm]; rfl
  · refine ⟨by simp, ?_⟩
    rw [e2]; simp

theorem moved_around (h1 : Clear b pre) (m : Nat) :
    moved b (m + 1) (around b pre post (List.range (m + 1))) = some (around b pre post (List.range (m + 1))) := by
  unfold moved
  rw [cut_around h1]
  simp only
  rw [if_pos (by unfold around; rw [List.append_assoc])]

theorem relink_around (h1 : Clear b pre) (h2 : Clear b post) (m i : Nat) :
    relink b (m + 1) i (around b pre post (List.range (m + 1))) =
      some (around b pre post ((List.range (m + 2)).filter (fun j => decide (j ≠ i)))) := by
  unfold relink
  rw [cut_around h1]
  simp only
  rw [if_neg, List.append_assoc]
  · rfl
  · rw [List.any_eq_true]
    rintro ⟨x, hx, hb⟩
    rcases List.mem_append.1 hx with hx | hx
    · rw [h1 x hx] at hb; cases hb
    · rw [h2 x hx] at hb; cases hb

theorem filter_last (m : Nat) : (List.range (m + 1)).filter (fun j => decide (j ≠ m)) = List.range m := by
  rw [List.range_succ, List.filter_append, List.filter_eq_self.2 (by intro x hx; simp at hx ⊢; omega)]
  simp

theorem getSlot_room {p q : Pool} {xs : List Slot} {z : Nat} (h : OKP p xs z) (hz : 0 < z) (r : U64) (f : Nat) {i : Nat}
    (h1 : Clear b pre) (h2 : Clear b post) (hg : Pool.getSlot (f + 1) p r = .ok (q, i)) :
    getSlot b (f + 1) p r (around b pre post (List.range xs.length)) =
      some (around b pre post ((List.range (xs.length + 1)).filter (fun j => decide (j ≠ i)))) := by
  have hcap : (p.cap : Int) = xs.length + z := by unfold Pool.cap; rw [h.arr]; simp
  have hl : p.len.toNat = xs.length := by rw [h.len]; simp
  have happ : ∀ q' j, p.appendLast = some (q', j) → j = xs.length := by
    intro q' j ha
    unfold Pool.appendLast at ha
    split at ha
    · cases ha
    · injection ha with ha; injection ha with _ ha; rw [← ha, hl]
  simp only [Pool.getSlot] at hg
  unfold getSlot
  simp only
  split at hg
  · rename_i h0
    rw [if_pos h0]
    split at hg
    · rename_i x hx
      injection hg with hg; subst hg
      rw [happ _ _ hx, filter_last]
    · cases hg
  · rename_i h0
    rw [if_neg h0]
    have hx : xs ≠ [] := by rintro rfl; apply h0; rw [h.len]; rfl
    have hpos := List.length_pos_of_ne_nil hx
    rw [h.lastActive hx, h.findFree r _ (by omega)] at hg ⊢
    simp only at hg ⊢
    have hcl : ¬ ((p.cap : Int) = p.len) := by rw [hcap, h.len]; omega
    rw [if_neg hcl] at hg ⊢
    split at hg
    · rename_i hlt
      rw [if_pos hlt]
      split at hg
      · rename_i x hx
        injection hg with hg; subst hg
        rw [happ _ _ hx, filter_last]
      · cases hg
    · rename_i hlt
      rw [if_neg hlt]
      split at hg
      · rename_i j hj
        injection hg with hg; injection hg with _ hg; subst hg
        rw [hj]
        simp only
        rw [hl]
        obtain ⟨m, hm⟩ : ∃ m, xs.length = m + 1 := ⟨xs.length - 1, by omega⟩
        rw [hm]
        exact relink_around h1 h2 m _
      · cases hg

/-- `getWithFn` for a new hash in a bucket without deleted slots. -/
theorem getSlot_around {p q : Pool} {xs : List Slot} {z : Nat} (h : OKP p xs z) (r : U64) {i : Nat}
    (h1 : Clear b pre) (h2 : Clear b post) (hg : Pool.getSlot 2 p r = .ok (q, i)) (hsmall : (xs.length : Int) < 2 ^ 62) :
    getSlot b 2 p r (around b pre post (List.range xs.length)) =
      some (around b pre post ((List.range (xs.length + 1)).filter (fun j => decide (j ≠ i)))) := by
  by_cases hz : 0 < z
  · exact getSlot_room h hz r 1 h1 h2 hg
  have hz0 : z = 0 := by omega
  have hx : xs ≠ [] := fun hc => hz (h.room hc)
  have hpos := List.length_pos_of_ne_nil hx
  have hcap : (p.cap : Int) = xs.length := by unfold Pool.cap; rw [h.arr, hz0]; simp
  have hl : p.len.toNat = xs.length := by rw [h.len]; simp
  have hb := poolCap_bounds p.len (by rw [h.len]; omega)
  have hgt : p.len < poolCap p.len := hb.1
  have hex : p.expand = .ok { p with arr := p.arr.take p.len.toNat ++ List.replicate (poolCap p.len - p.len).toNat {} } := by
    unfold Pool.expand
    simp only
    rw [if_neg (by omega)]
  obtain ⟨p', hp'⟩ : ∃ p' : Pool, p' = { p with arr := p.arr.take p.len.toNat ++ List.replicate (poolCap p.len - p.len).toNat {} } := ⟨_, rfl⟩
  rw [← hp'] at hex
  have hq : OKP p' xs (poolCap p.len - p.len).toNat := by
    rw [hp']
    refine ⟨?_, h.len, h.sorted, h.live, fun hc => absurd hc hx⟩
    simp only [hl]; rw [h.arr, List.take_append_of_le_length (le_refl _), List.take_length]
  have e : Pool.getSlot 2 p r = Pool.getSlot 1 p' r := by
    rw [Pool.getSlot]
    simp only
    rw [if_neg (by rw [h.len]; omega), h.lastActive hx, h.findFree r _ (by omega)]
    simp only
    rw [if_pos (by rw [hcap, h.len]), hex]
  have e2 : getSlot b 2 p r (around b pre post (List.range xs.length)) = getSlot b 1 p' r (around b pre post (List.range xs.length)) := by
    have e3 : ∀ l, getSlot b 2 p r l = (moved b p.len.toNat l).bind (getSlot b 1 p' r) := by
      intro l
      conv_lhs => unfold getSlot
      simp only
      rw [if_neg (by rw [h.len]; omega), h.lastActive hx, h.findFree r _ (by omega)]
      simp only
      rw [if_pos (by rw [hcap, h.len]), hex]
    rw [e3, hl]
    obtain ⟨m, hm⟩ : ∃ m, xs.length = m + 1 := ⟨xs.length - 1, by omega⟩
    rw [hm, moved_around h1]
    rfl
  rw [e2]
  rw [e] at hg
  exact getSlot_room hq (by omega) r 0 h1 h2 hg

/-! ### in terms of the normal form -/

theorem DOk.live (hD : DOk D st) {P : Pool} {xs : List Slot} {z : Nat} (hP : st.pools b = some P) (h : OKP P xs z) (i : Nat) :
    D (.item b i) = false := by
  cases hc : D (.item b i) with
  | false => rfl
  | true =>
    obtain ⟨b', i', P', h1, h2, h3, h4⟩ := hD _ hc
    injection h1 with h1 h1'
    subst h1 h1'
    rw [hP] at h2; injection h2 with h2; subst h2
    have hl : P.len.toNat = xs.length := by rw [h.len]; simp
    rw [h.slot (by omega)] at h4
    rw [h.live _ (List.getElem_mem _)] at h4; cases h4

/-- The parts of the list around the slots of one bucket. -/
theorem lst_around (hbl : st.blist = A ++ n :: b :: B) (hnd : st.blist.Nodup) (hD : DOk D st)
    (hlive : ∀ i, D (.item b i) = false) : ∃ pre post, Clear b pre ∧ Clear b post ∧
      (∀ pools : Path → Option Pool, (∀ p, p ≠ b → pools p = st.pools p) → ∀ m len,
        lst D { st with pools := pools, mem := m, len := len } = around b pre post (List.range (plen pools b))) := by
  have hb1 : b ∉ B := by
    rw [hbl, List.nodup_append, List.nodup_cons, List.nodup_cons] at hnd
    exact hnd.2.1.2.1
  have hb2 : b ∉ n :: A := by
    rw [hbl, List.nodup_append, List.nodup_cons] at hnd
    intro hc
    rcases List.mem_cons.1 hc with rfl | hc
    · exact hnd.2.1.1 (by simp)
    · exact hnd.2.2 b hc b (by simp) rfl
  have hseg : ∀ p, p ≠ b → Clear b (seg st.pools p) := by
    intro p hp x hx
    rcases mem_seg.1 hx with rfl | ⟨i, _, rfl⟩
    · rfl
    · simp [ofBucket, hp]
  refine ⟨(lo st.pools B).filter (fun x => !D x) ++ [.dummy b], (hi st.pools n A).filter (fun x => !D x), ?_, ?_, ?_⟩
  · intro x hx
    rcases List.mem_append.1 hx with hx | hx
    · obtain ⟨p, hp, hx⟩ := mem_lo.1 (List.mem_of_mem_filter hx)
      exact hseg p (by rintro rfl; exact hb1 hp) x hx
    · rw [List.mem_singleton.1 hx]; rfl
  · intro x hx
    obtain ⟨p, hp, hx⟩ := mem_hi.1 (List.mem_of_mem_filter hx)
    exact hseg p (by rintro rfl; exact hb2 hp) x hx
  · intro pools hpools m len
    unfold lst
    rw [canon_eq (st := { st with pools := pools, mem := m, len := len }) hbl]
    simp only
    rw [lo_congr (g := st.pools) (by
        intro p hp; unfold plen; rw [hpools p (by rintro rfl; exact hb1 hp)]),
      hi_congr (g := st.pools) (by
        intro p hp; unfold plen; rw [hpools p (by rintro rfl; exact hb2 hp)])]
    unfold around seg
    rw [List.filter_append, List.filter_append, List.filter_cons, hD.dummy]
    have : ((List.range (plen pools b)).map (Node.item b)).filter (fun x => !D x) = (List.range (plen pools b)).map (Node.item b) := by
      rw [List.filter_eq_self]
      intro x hx
      obtain ⟨i, _, rfl⟩ := List.mem_map.1 hx
      rw [hlive]; rfl
    rw [this]
    simp

end SLM.EList
