import Verif.Model.Embedded
import Verif.Proofs.Util
import Mathlib.Data.List.Basic
/-! The slot array of one bucket while nothing is deleted. -/
set_option autoImplicit false
namespace SLM.Emb

/-- `sort.Search` on a monotone predicate. -/
theorem goSearch_spec (f : Nat → Bool) : ∀ (fuel i j : Nat), i ≤ j → j ≤ i + fuel →
    (∀ x y, i ≤ x → x ≤ y → y < j → f x = true → f y = true) →
    i ≤ goSearch f fuel i j ∧ goSearch f fuel i j ≤ j ∧ (∀ x, i ≤ x → x < goSearch f fuel i j → f x = false) ∧
    (∀ x, goSearch f fuel i j ≤ x → x < j → f x = true) := by
  intro fuel
  induction fuel with
  | zero =>
    intro i j h1 h2 _
    simp only [goSearch]
    exact ⟨le_refl _, h1, fun x a b => by omega, fun x a b => by omega⟩
  | succ fuel ih =>
    intro i j h1 h2 hm
    simp only [goSearch]
    split
    · rename_i hij
      have hh : i ≤ (i + j) / 2 ∧ (i + j) / 2 < j := by omega
      split
      · rename_i hf
        obtain ⟨a1, a2, a3, a4⟩ := ih i ((i + j) / 2) (by omega) (by omega) (fun x y b1 b2 b3 => hm x y b1 b2 (by omega))
        refine ⟨a1, by omega, a3, ?_⟩
        intro x b1 b2
        by_cases hx : x < (i + j) / 2
        · exact a4 x b1 hx
        · exact hm _ x hh.1 (by omega) b2 hf
      · rename_i hf
        obtain ⟨a1, a2, a3, a4⟩ := ih ((i + j) / 2 + 1) j (by omega) (by omega) (fun x y b1 b2 b3 => hm x y (by omega) b2 b3)
        refine ⟨by omega, a2, ?_, a4⟩
        intro x b1 b2
        by_cases hx : (i + j) / 2 + 1 ≤ x
        · exact a3 x hx b2
        · by_contra hc
          simp only [Bool.not_eq_false] at hc
          exact hf (hm x _ b1 (by omega) hh.2 hc)
    · exact ⟨le_refl _, h1, fun x a b => by omega, fun x a b => by omega⟩

/-- A pool without deleted slots: `xs` are the stored items in strictly increasing order, then `z` unused slots. -/
structure OKP (p : Pool) (xs : List Slot) (z : Nat) : Prop where
  arr : p.arr = xs ++ List.replicate z ({} : Slot)
  len : p.len = xs.length
  sorted : xs.Pairwise (fun a b => a.rev < b.rev)
  live : ∀ s ∈ xs, s.deleted = false
  room : xs = [] → 0 < z

variable {p : Pool} {xs : List Slot} {z : Nat}

theorem OKP.slot (h : OKP p xs z) {i : Nat} (hi : i < xs.length) : p.slot i = xs[i] := by
  unfold Pool.slot
  rw [h.arr, List.getD_eq_getElem?_getD, List.getElem?_append_left hi, List.getElem?_eq_getElem hi]; rfl

theorem OKP.slot_live (h : OKP p xs z) {i : Nat} (hi : i < xs.length) : (p.arr.getD i {}).deleted = false := by
  have := h.slot hi
  unfold Pool.slot at this
  rw [this]; exact h.live _ (List.getElem_mem hi)

theorem OKP.skip (h : OKP p xs z) {i : Nat} (hi : i < xs.length) : skipBack p.arr i = i := by
  cases i with
  | zero => rfl
  | succ i =>
    simp only [skipBack]
    rw [if_neg (by rw [h.slot_live hi]; simp)]

theorem OKP.mono (h : OKP p xs z) {i j : Nat} (hj : j < xs.length) (hij : i < j) : (xs[i]).rev < (xs[j]).rev :=
  List.pairwise_iff_getElem.1 h.sorted i j (by omega) hj hij

theorem OKP.inj (h : OKP p xs z) {s t : Slot} (hs : s ∈ xs) (ht : t ∈ xs) (he : s.rev = t.rev) : s = t := by
  obtain ⟨i, hi, rfl⟩ := List.getElem_of_mem hs
  obtain ⟨j, hj, rfl⟩ := List.getElem_of_mem ht
  rcases lt_trichotomy i j with hij | hij | hij
  · have := h.mono hj hij; rw [he] at this; exact absurd this (BitVec.lt_irrefl _)
  · subst hij; rfl
  · have := h.mono hi hij; rw [he] at this; exact absurd this (BitVec.lt_irrefl _)

/-- What the binary search finds. -/
theorem OKP.bsearch (h : OKP p xs z) (r : U64) :
    (∃ i, ∃ hi : i < xs.length, p.bsearch r = some i ∧ (xs[i]).rev = r) ∨
    (p.bsearch r = none ∧ ∀ s ∈ xs, s.rev ≠ r) := by
  have hl : p.len.toNat = xs.length := by rw [h.len]; simp
  obtain ⟨f, hf⟩ : ∃ f : Nat → Bool, f = fun i => decide (r ≤ (p.slot (skipBack p.arr i)).rev) := ⟨_, rfl⟩
  have hfi : ∀ i, (hi : i < xs.length) → f i = decide (r ≤ (xs[i]).rev) := by
    intro i hi
    rw [hf]; simp only; rw [h.skip hi, h.slot hi]
  obtain ⟨_, a2, a3, a4⟩ := goSearch_spec f xs.length 0 xs.length (by omega) (by omega) (by
    intro x y _ hxy hy hx
    rw [hfi x (by omega)] at hx
    rw [hfi y hy]
    simp only [decide_eq_true_eq] at hx ⊢
    rcases Nat.eq_or_lt_of_le hxy with hc | hc
    · subst hc; exact hx
    · have := h.mono hy hc
      bv_omega)
  unfold Pool.bsearch
  simp only [hl]
  rw [← hf]
  generalize goSearch f xs.length 0 xs.length = idx at *
  by_cases hidx : idx < xs.length
  · by_cases hr : (xs[idx]).rev = r
    · left
      refine ⟨idx, hidx, ?_, hr⟩
      rw [if_pos ⟨by rw [h.len]; exact_mod_cast hidx, by rw [h.slot hidx]; exact hr⟩, h.skip hidx]
    · right
      refine ⟨by rw [if_neg]; rintro ⟨_, h2⟩; rw [h.slot hidx] at h2; exact hr h2, ?_⟩
      intro s hs he
      obtain ⟨j, hj, rfl⟩ := List.getElem_of_mem hs
      have h1 := a4 idx (le_refl _) hidx
      rw [hfi idx hidx] at h1
      simp only [decide_eq_true_eq] at h1
      rcases lt_trichotomy j idx with hc | hc | hc
      · have h2 := a3 j (by omega) hc
        rw [hfi j hj] at h2
        simp only [decide_eq_false_iff_not] at h2
        bv_omega
      · subst hc; exact hr he
      · have h2 := h.mono hj hc
        bv_omega
  · right
    refine ⟨by rw [if_neg]; rintro ⟨h2, _⟩; rw [h.len] at h2; exact hidx (by exact_mod_cast h2), ?_⟩
    intro s hs he
    obtain ⟨j, hj, rfl⟩ := List.getElem_of_mem hs
    have h2 := a3 j (by omega) (by omega)
    rw [hfi j hj] at h2
    simp only [decide_eq_false_iff_not] at h2
    bv_omega

theorem OKP.lookup (h : OKP p xs z) (r c : U64) :
    (∃ i, ∃ hi : i < xs.length, p.lookup r c = some i ∧ (xs[i]).rev = r ∧ (xs[i]).conflict = c) ∨
    (p.lookup r c = none ∧ ∀ s ∈ xs, ¬ (s.rev = r ∧ s.conflict = c)) := by
  unfold Pool.lookup
  rcases h.bsearch r with ⟨i, hi, h1, h2⟩ | ⟨h1, h2⟩
  · rw [h1]
    simp only
    rw [h.slot hi]
    by_cases hc : (xs[i]).conflict = c
    · left; exact ⟨i, hi, by rw [if_pos ⟨h2, hc⟩], h2, hc⟩
    · right
      refine ⟨by rw [if_neg (fun x => hc x.2)], ?_⟩
      rintro s hs ⟨h3, h4⟩
      have := h.inj hs (List.getElem_mem hi) (h3.trans h2.symm)
      subst this; exact hc h4
  · right
    rw [h1]
    exact ⟨rfl, fun s hs hc => h2 s hs hc.1⟩

/-! ### inserting -/

/-- The slot `i` of `q` is a fresh one at the place of `r`. -/
structure Placed (xs : List Slot) (r : U64) (q : Pool) (i : Nat) : Prop where
  le : i ≤ xs.length
  arr : ∃ z, q.arr = xs.take i ++ ({} : Slot) :: xs.drop i ++ List.replicate z ({} : Slot)
  len : q.len = xs.length + 1
  lo : ∀ s ∈ xs.take i, s.rev < r
  hi : ∀ s ∈ xs.drop i, r < s.rev

theorem Placed.slot {r : U64} {q : Pool} {i : Nat} (h : Placed xs r q i) : q.slot i = {} := by
  obtain ⟨z, hz⟩ := h.arr
  unfold Pool.slot
  have := h.le
  rw [hz, List.getD_eq_getElem?_getD, List.append_assoc, List.getElem?_append_right (by simp)]
  simp [List.length_take, Nat.min_eq_left h.le]

theorem Placed.okp {r : U64} {q : Pool} {i : Nat} (h : Placed xs r q i) (hp : OKP p xs z) {s : Slot} (hr : s.rev = r)
    (hd : s.deleted = false) : ∃ z, OKP { q with arr := q.arr.set i s } (xs.take i ++ s :: xs.drop i) z := by
  obtain ⟨z, hz⟩ := h.arr
  have hle := h.le
  refine ⟨z, ?_, ?_, ?_, ?_, ?_⟩
  · show q.arr.set i s = _
    rw [hz, List.append_assoc, List.set_append_right _ _ (by simp)]
    simp [List.length_take, Nat.min_eq_left hle]
  · show q.len = _
    rw [h.len]
    simp only [List.length_append, List.length_cons, List.length_take, List.length_drop, Nat.min_eq_left hle]
    omega
  · have hs := hp.sorted
    rw [← List.take_append_drop i xs] at hs
    rw [List.pairwise_append] at hs ⊢
    refine ⟨hs.1, ?_, ?_⟩
    · rw [List.pairwise_cons]
      exact ⟨fun t ht => by rw [hr]; exact h.hi t ht, hs.2.1⟩
    · intro a ha b hb
      rcases List.mem_cons.1 hb with rfl | hb
      · rw [hr]; exact h.lo a ha
      · exact hs.2.2 a ha b hb
  · intro t ht
    rcases List.mem_append.1 ht with h1 | h1
    · exact hp.live t (List.mem_of_mem_take h1)
    · rcases List.mem_cons.1 h1 with rfl | h1
      · exact hd
      · exact hp.live t (List.mem_of_mem_drop h1)
  · intro hc; simp at hc

theorem OKP.lastActive (h : OKP p xs z) (hne : xs ≠ []) : lastActive p.arr p.len.toNat = some (xs.length - 1) := by
  have hl : p.len.toNat = xs.length := by rw [h.len]; simp
  have hpos := List.length_pos_of_ne_nil hne
  rw [hl]
  obtain ⟨n, hn⟩ : ∃ n, xs.length = n + 1 := ⟨xs.length - 1, by omega⟩
  rw [hn]
  simp only [Emb.lastActive]
  rw [if_neg (by rw [h.slot_live (by omega)]; simp)]
  simp

theorem OKP.findFree (h : OKP p xs z) (r : U64) (t : Nat) (ht : t ≤ xs.length) : p.findFree r (some t) = none := by
  unfold Pool.findFree
  simp only
  split
  · rfl
  · rename_i hc
    rw [if_neg]
    have := h.slot_live (i := goSearch (fun i => decide (r < (p.slot i).rev)) t 0 t - 1) (by omega)
    intro hd
    exact Bool.false_ne_true (this.symm.trans hd)

theorem OKP.firstGE (h : OKP p xs z) (r : U64) :
    (∃ i, p.firstGE r = some i ∧ i < xs.length ∧ (∀ s ∈ xs.take i, s.rev < r) ∧ (∀ s ∈ xs.drop i, r ≤ s.rev)) ∨
    (p.firstGE r = none ∧ ∀ s ∈ xs, s.rev < r) := by
  have hl : p.len.toNat = xs.length := by rw [h.len]; simp
  unfold Pool.firstGE
  rw [hl]
  cases hf : (List.range xs.length).find? (fun i => !(p.slot i).deleted && decide (r ≤ (p.slot i).rev)) with
  | none =>
    right
    refine ⟨rfl, ?_⟩
    intro s hs
    obtain ⟨j, hj, rfl⟩ := List.getElem_of_mem hs
    rw [List.find?_eq_none] at hf
    have := hf j (by simpa using hj)
    rw [h.slot hj, h.live _ (List.getElem_mem hj)] at this
    simp at this
    bv_omega
  | some i =>
    left
    have h1 := List.mem_of_find?_eq_some hf
    have h2 := List.find?_some hf
    have hi : i < xs.length := by simpa using h1
    refine ⟨i, rfl, hi, ?_, ?_⟩
    · intro s hs
      obtain ⟨j, hj, rfl⟩ := List.getElem_of_mem hs
      rw [List.length_take] at hj
      rw [List.getElem_take]
      rw [List.find?_range_eq_some] at hf
      have := hf.2.2 j (by omega)
      rw [h.slot (by omega), h.live _ (List.getElem_mem _)] at this
      simp at this
      bv_omega
    · intro s hs
      obtain ⟨j, hj, rfl⟩ := List.getElem_of_mem hs
      rw [List.getElem_drop]
      rw [h.slot hi, h.live _ (List.getElem_mem hi)] at h2
      simp at h2
      rw [List.length_drop] at hj
      by_cases h0 : j = 0
      · subst h0; simpa using h2
      · have := h.mono (i := i) (j := i + j) (by omega) (by omega)
        bv_omega

theorem OKP.append (h : OKP p xs z) (hz : 0 < z) {r : U64} (hlt : ∀ s ∈ xs, s.rev < r) :
    ∃ q i, p.appendLast = some (q, i) ∧ Placed xs r q i := by
  have hcap : (p.cap : Int) = xs.length + z := by unfold Pool.cap; rw [h.arr]; simp
  unfold Pool.appendLast
  rw [if_neg (by rw [hcap, h.len]; omega)]
  refine ⟨_, _, rfl, ?_⟩
  have hl : p.len.toNat = xs.length := by rw [h.len]; simp
  rw [hl]
  refine ⟨le_refl _, ⟨z - 1, ?_⟩, by show p.len + 1 = _; rw [h.len], by simpa using hlt, by simp⟩
  show p.arr = _
  rw [h.arr]
  obtain ⟨y, rfl⟩ : ∃ y, z = y + 1 := ⟨z - 1, by omega⟩
  simp [List.replicate_succ]

/-- A pool with a free slot. -/
theorem OKP.getSlot_room (h : OKP p xs z) (hz : 0 < z) (r : U64) (hr : ∀ s ∈ xs, s.rev ≠ r) (f : Nat) :
    ∃ q i, Pool.getSlot (f + 1) p r = .ok (q, i) ∧ Placed xs r q i := by
  have hcap : (p.cap : Int) = xs.length + z := by unfold Pool.cap; rw [h.arr]; simp
  by_cases hx : xs = []
  · obtain ⟨q, i, h1, h2⟩ := h.append hz (r := r) (by subst hx; simp)
    refine ⟨q, i, ?_, h2⟩
    simp only [Pool.getSlot]
    rw [if_pos (by rw [h.len, hx]; rfl), h1]
  · have hpos := List.length_pos_of_ne_nil hx
    simp only [Pool.getSlot]
    rw [if_neg (by rw [h.len]; omega), h.lastActive hx, h.findFree r _ (by omega)]
    simp only
    rw [if_neg (by rw [hcap, h.len]; omega)]
    have hlast : xs.length - 1 < xs.length := by omega
    rw [h.slot hlast]
    split
    · rename_i hlt
      obtain ⟨q, i, h1, h2⟩ := h.append hz (r := r) (by
        intro s hs
        obtain ⟨j, hj, rfl⟩ := List.getElem_of_mem hs
        by_cases hc : j = xs.length - 1
        · subst hc; exact hlt
        · have := h.mono hlast (i := j) (by omega)
          bv_omega)
      refine ⟨q, i, ?_, h2⟩
      rw [h1]
    · rename_i hlt
      rcases h.firstGE r with ⟨i, h1, h2, h3, h4⟩ | ⟨_, h2⟩
      · rw [h1]
        refine ⟨_, _, rfl, ?_⟩
        have hl : p.len.toNat = xs.length := by rw [h.len]; simp
        refine ⟨by omega, ⟨max p.cap (xs.length + 1) - (xs.length + 1), ?_⟩, by show p.len + 1 = _; rw [h.len], h3, ?_⟩
        · show (p.insertAt i).arr = _
          simp only [Pool.insertAt, hl]
          rw [h.arr]
          rw [List.take_append_of_le_length (by omega), List.take_append_of_le_length (le_refl _), List.take_length]
        · intro s hs
          have h5 := h4 s hs
          have h6 := hr s (List.mem_of_mem_drop hs)
          bv_omega
      · exact absurd (h2 _ (List.getElem_mem hlast)) hlt

theorem OKP.expand (h : OKP p xs z) {q : Pool} (he : p.expand = .ok q) :
    ∃ z', OKP q xs z' ∨ (xs = []) := by
  by_cases hx : xs = []
  · exact ⟨0, Or.inr hx⟩
  unfold Pool.expand at he
  simp only at he
  split at he
  · cases he
  · injection he with he
    have hl : p.len.toNat = xs.length := by rw [h.len]; simp
    refine ⟨(poolCap p.len - p.len).toNat, Or.inl ⟨?_, ?_, h.sorted, h.live, fun hc => absurd hc hx⟩⟩
    · rw [← he]; simp only [hl]; rw [h.arr, List.take_append_of_le_length (le_refl _), List.take_length]
    · rw [← he]; exact h.len

/-- `getWithFn` for a new hash. -/
theorem OKP.getSlot (h : OKP p xs z) (r : U64) (hr : ∀ s ∈ xs, s.rev ≠ r) :
    (∃ q i, Pool.getSlot 2 p r = .ok (q, i) ∧ Placed xs r q i) ∨
    ((2:Int) ^ 62 ≤ xs.length ∧ ∃ c, Pool.getSlot 2 p r = .error c) := by
  by_cases hz : 0 < z
  · left; exact h.getSlot_room hz r hr 1
  have hz0 : z = 0 := by omega
  have hx : xs ≠ [] := fun hc => hz (h.room hc)
  have hpos := List.length_pos_of_ne_nil hx
  have hcap : (p.cap : Int) = xs.length := by unfold Pool.cap; rw [h.arr, hz0]; simp
  have e : Pool.getSlot 2 p r = match p.expand with | .error c => .error c | .ok q => Pool.getSlot 1 q r := by
    rw [Pool.getSlot]
    simp only
    rw [if_neg (by rw [h.len]; omega), h.lastActive hx, h.findFree r _ (by omega)]
    simp only
    rw [if_pos (by rw [hcap, h.len])]
    cases p.expand <;> rfl
  rw [e]
  by_cases hbig : (xs.length : Int) < 2 ^ 62
  · left
    have hb := poolCap_bounds p.len (by rw [h.len]; omega)
    have hgt : p.len < poolCap p.len := hb.1
    have hl : p.len.toNat = xs.length := by rw [h.len]; simp
    have hex : p.expand = .ok { p with arr := p.arr.take p.len.toNat ++ List.replicate (poolCap p.len - p.len).toNat {} } := by
      unfold Pool.expand
      simp only
      rw [if_neg (by omega)]
    rw [hex]
    simp only
    have hq : OKP { p with arr := p.arr.take p.len.toNat ++ List.replicate (poolCap p.len - p.len).toNat {} } xs
        (poolCap p.len - p.len).toNat := by
      refine ⟨?_, h.len, h.sorted, h.live, fun hc => absurd hc hx⟩
      simp only [hl]; rw [h.arr, List.take_append_of_le_length (le_refl _), List.take_length]
    exact hq.getSlot_room (by omega) r hr 0
  · cases hex : p.expand with
    | error c => right; exact ⟨by omega, c, rfl⟩
    | ok q =>
      simp only
      obtain ⟨z', hq | hc⟩ := h.expand hex
      · by_cases hz' : 0 < z'
        · left; exact hq.getSlot_room hz' r hr 0
        · right
          refine ⟨by omega, ?_⟩
          have hz0' : z' = 0 := by omega
          have hcap' : (q.cap : Int) = xs.length := by unfold Pool.cap; rw [hq.arr, hz0']; simp
          rw [Pool.getSlot]
          simp only
          rw [if_neg (by rw [hq.len]; omega), hq.lastActive hx, hq.findFree r _ (by omega)]
          simp only
          rw [if_pos (by rw [hcap', hq.len])]
          cases q.expand with
          | error c => exact ⟨c, rfl⟩
          | ok q' => exact ⟨_, rfl⟩
      · exact absurd hc hx

/-- Splitting. -/
theorem OKP.split (h : OKP p xs z) {i : Nat} (hi : i < xs.length) (h0 : 0 < i) :
    OKP (p.split i).1 (xs.take i) 0 ∧ OKP (p.split i).2 (xs.drop i) z := by
  have hs := h.sorted
  rw [← List.take_append_drop i xs, List.pairwise_append] at hs
  refine ⟨⟨?_, ?_, hs.1, fun s hs => h.live s (List.mem_of_mem_take hs), ?_⟩,
    ⟨?_, ?_, hs.2.1, fun s hs => h.live s (List.mem_of_mem_drop hs), ?_⟩⟩
  · simp only [Pool.split]; rw [h.arr, List.take_append_of_le_length (by omega)]; simp
  · simp only [Pool.split, List.length_take, Nat.min_eq_left (Nat.le_of_lt hi)]
  · intro hc
    have := congrArg List.length hc
    rw [List.length_take, Nat.min_eq_left (Nat.le_of_lt hi)] at this
    simp only [List.length_nil] at this; omega
  · simp only [Pool.split]; rw [h.arr, List.drop_append_of_le_length (by omega)]
  · simp only [Pool.split, List.length_drop]; rw [h.len]; omega
  · intro hc
    have := congrArg List.length hc
    rw [List.length_drop] at this
    simp only [List.length_nil] at this; omega

end SLM.Emb
