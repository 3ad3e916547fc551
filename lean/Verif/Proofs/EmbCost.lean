import Verif.Model.EmbCost
import Verif.Proofs.EmbOps
/-! How many slots a lookup of an embedded map reads. -/
set_option autoImplicit false
namespace SLM.Emb

theorem probes_length (f : Nat → Bool) : ∀ (b fuel i j : Nat), j - i < 2 ^ b → (probes f fuel i j).length ≤ b := by
  intro b
  induction b with
  | zero =>
    intro fuel i j h
    cases fuel with
    | zero => simp [probes]
    | succ fuel => rw [probes, if_neg (by simp at h; omega)]; simp
  | succ b ih =>
    intro fuel i j h
    cases fuel with
    | zero => simp [probes]
    | succ fuel =>
      rw [probes]
      split
      · rw [pow_succ] at h
        simp only [List.length_cons]
        split
        · have := ih fuel i ((i + j) / 2) (by omega); omega
        · have := ih fuel ((i + j) / 2 + 1) j (by omega); omega
      · simp

theorem probes_range (f : Nat → Bool) : ∀ (fuel i j : Nat), ∀ x ∈ probes f fuel i j, i ≤ x ∧ x < j := by
  intro fuel
  induction fuel with
  | zero => intro i j x hx; simp [probes] at hx
  | succ fuel ih =>
    intro i j x hx
    rw [probes] at hx
    split at hx
    · simp only [List.mem_cons] at hx
      rcases hx with rfl | hx
      · omega
      · split at hx
        · have := ih _ _ x hx; omega
        · have := ih _ _ x hx; omega
    · cases hx

theorem backRead_le (arr : List Slot) : ∀ i, ∀ x ∈ backRead arr i, x ≤ i := by
  intro i
  induction i with
  | zero => intro x hx; simp [backRead] at hx; omega
  | succ i ih =>
    intro x hx
    rw [backRead, List.mem_cons] at hx
    rcases hx with rfl | hx
    · omega
    · split at hx
      · have := ih x hx; omega
      · cases hx

theorem backRead_skip (arr : List Slot) : ∀ i, skipBack arr i ∈ backRead arr i := by
  intro i
  induction i with
  | zero => simp [skipBack, backRead]
  | succ i ih =>
    rw [skipBack, backRead]
    split
    · exact List.mem_cons_of_mem _ ih
    · simp

theorem backRead_one {arr : List Slot} {i : Nat} (h : (arr.getD i {}).deleted = false) : backRead arr i = [i] := by
  cases i with
  | zero => rfl
  | succ i => rw [backRead, h]; simp

/-- Deleted slots among the first `n`. -/
def deadIn (arr : List Slot) (n : Nat) : Nat := (arr.take n).countP (·.deleted)

theorem backRead_length (arr : List Slot) : ∀ i, (backRead arr i).length ≤ 1 + deadIn arr (i + 1) := by
  intro i
  induction i with
  | zero => simp [backRead]
  | succ i ih =>
    by_cases hi : i + 1 < arr.length
    case neg =>
      rw [backRead_one (by simp [List.getD, List.getElem?_eq_none (show arr.length ≤ i + 1 by omega)])]
      simp
    rw [backRead]
    have h1 : arr.take (i + 1 + 1) = arr.take (i + 1) ++ [arr[i + 1]] := by rw [List.take_append_getElem]
    have h2 : arr.getD (i + 1) {} = arr[i + 1] := by simp [List.getD, hi]
    simp only [List.length_cons]
    split
    · rename_i hd
      have := ih
      unfold deadIn at this ⊢
      rw [h1, List.countP_append]
      rw [h2] at hd
      simp [hd]
      omega
    · simp

theorem deadIn_mono (arr : List Slot) {i n : Nat} (h : i ≤ n) : deadIn arr i ≤ deadIn arr n := by
  unfold deadIn
  apply List.Sublist.countP_le
  have : arr.take i = (arr.take n).take i := by rw [List.take_take, Nat.min_eq_left h]
  rw [this]
  exact List.take_sublist _ _

theorem flatMap_length_le {α : Type} {g : Nat → List α} {c : Nat} : ∀ (l : List Nat), (∀ x ∈ l, (g x).length ≤ c) → (l.flatMap g).length ≤ l.length * c := by
  intro l
  induction l with
  | nil => intro _; simp
  | cons a l ih =>
    intro h
    have h1 := h a (by simp)
    have h2 := ih (fun x hx => h x (by simp [hx]))
    simp only [List.flatMap_cons, List.length_append, List.length_cons, Nat.add_mul]
    omega

theorem two_log (n : Nat) : n - 0 < 2 ^ (Nat.log2 n + 1) := by
  rw [Nat.sub_zero]
  exact Nat.lt_log2_self

/-- Every array: the number of slots read, by the number of slots in use and of those marked deleted. -/
theorem Pool.reads_length (p : Pool) (r : U64) :
    (p.reads r).length ≤ (Nat.log2 p.len.toNat + 2) * (1 + deadIn p.arr p.len.toNat) + 1 := by
  have hb : ∀ x, x < p.len.toNat → (backRead p.arr x).length ≤ 1 + deadIn p.arr p.len.toNat := by
    intro x hx
    have h1 := backRead_length p.arr x
    have h2 := deadIn_mono p.arr (show x + 1 ≤ p.len.toNat by omega)
    omega
  unfold Pool.reads
  simp only [List.length_append]
  generalize hf : (fun i => decide (r ≤ (p.slot (skipBack p.arr i)).rev)) = f
  have h1 := flatMap_length_le (g := backRead p.arr) (c := 1 + deadIn p.arr p.len.toNat) (probes f p.len.toNat 0 p.len.toNat)
    (fun x hx => hb x (probes_range _ _ _ _ x hx).2)
  have h2 := probes_length f (Nat.log2 p.len.toNat + 1) p.len.toNat 0 p.len.toNat (two_log _)
  have h3 := Nat.mul_le_mul_right (1 + deadIn p.arr p.len.toNat) h2
  have h4 : (Nat.log2 p.len.toNat + 2) * (1 + deadIn p.arr p.len.toNat) =
      (Nat.log2 p.len.toNat + 1) * (1 + deadIn p.arr p.len.toNat) + (1 + deadIn p.arr p.len.toNat) := by
    rw [show Nat.log2 p.len.toNat + 2 = (Nat.log2 p.len.toNat + 1) + 1 by omega, Nat.add_mul, Nat.one_mul]
  split
  · rename_i hi
    have := hb (goSearch f p.len.toNat 0 p.len.toNat) (by omega)
    simp only [List.length_cons]
    split
    · omega
    · simp only [List.length_nil]; omega
  · simp only [List.length_nil]; omega

/-- What a lookup answers has been read. -/
theorem Pool.reads_hit {p : Pool} {r : U64} {i : Nat} (h : p.bsearch r = some i) : i ∈ p.reads r := by
  unfold Pool.bsearch at h
  unfold Pool.reads
  simp only at h ⊢
  split at h
  · rename_i hc
    injection h with h
    rw [if_pos hc.1, if_pos hc.2, ← h]
    simp [backRead_skip]
  · cases h

/-- Where all slots but perhaps the first are marked, the first probe alone goes through half of them. -/
theorem Pool.reads_linear {p : Pool} {r : U64} (h : ∀ i, 0 < i → i < p.len.toNat → (p.slot i).deleted = true) (hn : 0 < p.len.toNat) :
    p.len.toNat / 2 + 1 ≤ (p.reads r).length := by
  have hb : ∀ i, i < p.len.toNat → (backRead p.arr i).length = i + 1 := by
    intro i
    induction i with
    | zero => intro _; rfl
    | succ i ih =>
      intro hi
      have h1 := h (i + 1) (by omega) hi
      unfold Pool.slot at h1
      rw [backRead, if_pos h1, List.length_cons, ih (by omega)]
  unfold Pool.reads
  simp only [List.length_append]
  generalize (fun i => decide (r ≤ (p.slot (skipBack p.arr i)).rev)) = f
  obtain ⟨n, hn'⟩ : ∃ n, p.len.toNat = n + 1 := ⟨p.len.toNat - 1, by omega⟩
  have h2 : ∃ l, probes f p.len.toNat 0 p.len.toNat = p.len.toNat / 2 :: l := by
    rw [hn', probes, if_pos (by omega)]
    simp only [Nat.zero_add]
    exact ⟨_, rfl⟩
  obtain ⟨l, hl⟩ := h2
  rw [hl, List.flatMap_cons, List.length_append, hb _ (by omega)]
  omega

/-- Only slots in use are read. -/
theorem Pool.reads_lt (p : Pool) {r : U64} {i : Nat} (h : i ∈ p.reads r) : i < p.len.toNat := by
  unfold Pool.reads at h
  simp only [List.mem_append, List.mem_flatMap] at h
  rcases h with ⟨x, h1, h2⟩ | h
  · have := probes_range _ _ _ _ x h1
    have := backRead_le _ _ _ h2
    omega
  · split at h
    · rename_i hi
      rw [List.mem_cons] at h
      rcases h with rfl | h
      · omega
      · split at h
        · have := backRead_le _ _ _ h; omega
        · cases h
    · cases h

/-- The probes are those of the search: it answers the last index at which the predicate held, or the upper end. -/
theorem goSearch_probes (f : Nat → Bool) : ∀ (fuel i j : Nat), i ≤ j → j - i ≤ fuel →
    goSearch f fuel i j = ((probes f fuel i j).filter f).getLast?.getD j := by
  intro fuel
  induction fuel with
  | zero => intro i j h1 h2; simp only [goSearch, probes, List.filter_nil, List.getLast?_nil, Option.getD_none]; omega
  | succ fuel ih =>
    intro i j h1 h2
    rw [goSearch, probes]
    split
    · simp only [List.filter_cons]
      split
      · rename_i hf
        rw [ih i ((i + j) / 2) (by omega) (by omega), List.getLast?_cons]
        simp
      · rw [ih ((i + j) / 2 + 1) j (by omega) (by omega)]
    · simp; omega

/-- The slot answered by the walk back is the last one read. -/
theorem skipBack_last (arr : List Slot) : ∀ i, (backRead arr i).getLast? = some (skipBack arr i) := by
  intro i
  induction i with
  | zero => rfl
  | succ i ih =>
    rw [skipBack, backRead, List.getLast?_cons]
    split
    · rw [ih]; rfl
    · rfl

end SLM.Emb
