import Verif.Proofs.EmbPool
import Verif.Proofs.EmbTrie
/-! The invariant of embedded mode without deletions, and its preservation by `makeBucket2`. -/
set_option linter.unusedSimpArgs false
set_option autoImplicit false
namespace SLM.Emb

/-- `n` is the next larger member after `c`. -/
def Adj (bl : List Path) (n c : Path) : Prop :=
  n ∈ bl ∧ c ∈ bl ∧ bval c < bval n ∧ ∀ q ∈ bl, bval q ≤ bval c ∨ bval n ≤ bval q

variable {bl gl : List Path} {n c b : Path} {m : Path → Bkt} {st : St}

theorem adj_decomp (hd : bl.Pairwise (fun p q => bval q < bval p)) (h : Adj bl n c) : ∃ A B, bl = A ++ n :: c :: B := by
  obtain ⟨hn, hc, hlt, hgap⟩ := h
  obtain ⟨X, B, rfl⟩ := List.append_of_mem hc
  have hnX : n ∈ X := by
    rcases List.mem_append.1 hn with h | h
    · exact h
    · rcases List.mem_cons.1 h with rfl | h
      · omega
      · have := (List.pairwise_cons.1 (List.pairwise_append.1 hd).2.1).1 n h; omega
  obtain ⟨A, Y, rfl⟩ := List.append_of_mem hnX
  cases Y with
  | nil => exact ⟨A, B, by simp⟩
  | cons y Y =>
    exfalso
    have h1 := List.pairwise_append.1 hd
    have h2 : bval y < bval n := by
      have := List.pairwise_append.1 h1.1
      exact (List.pairwise_cons.1 this.2.1).1 y (by simp)
    have h3 : bval c < bval y := h1.2.2 y (by simp) c (by simp)
    have := hgap y (by simp)
    omega

theorem adj_of_decomp {A B : List Path} (hd : (A ++ n :: c :: B).Pairwise (fun p q => bval q < bval p)) :
    Adj (A ++ n :: c :: B) n c := by
  refine ⟨by simp, by simp, ?_, fun q hq => desc_gap hd hq⟩
  exact (List.pairwise_cons.1 (List.pairwise_append.1 hd).2.1).1 c (by simp)

theorem adj_next (hd : bl.Pairwise (fun p q => bval q < bval p)) (hh : ∃ rest, bl = [] :: rest) (hc : c ∈ bl)
    (hne : c ≠ []) : ∃ n, Adj bl n c := by
  obtain ⟨X, B, hX⟩ := List.append_of_mem hc
  obtain ⟨rest, hr⟩ := hh
  have hXn : X ≠ [] := by
    rintro rfl
    rw [hX] at hr; simp at hr; exact hne hr.1
  refine ⟨X.getLast hXn, ?_⟩
  have e : bl = X.dropLast ++ X.getLast hXn :: c :: B := by
    rw [hX]
    conv_lhs => rw [← List.dropLast_append_getLast hXn]
    simp
  rw [e] at hd ⊢
  exact adj_of_decomp hd

theorem bval_inj (hd : bl.Pairwise (fun p q => bval q < bval p)) {p q : Path} (hp : p ∈ bl) (hq : q ∈ bl)
    (h : bval p = bval q) : p = q := by
  obtain ⟨i, hi, rfl⟩ := List.getElem_of_mem hp
  obtain ⟨j, hj, rfl⟩ := List.getElem_of_mem hq
  rw [List.pairwise_iff_getElem] at hd
  rcases lt_trichotomy i j with hij | hij | hij
  · have := hd i j hi hj hij; omega
  · subst hij; rfl
  · have := hd j i hj hi hij; omega

/-- Neighbours after a member was added between `c` and `n`. -/
theorem adj_insert {bl' : List Path} (hd : bl.Pairwise (fun p q => bval q < bval p))
    (hd' : bl'.Pairwise (fun p q => bval q < bval p)) (h : Adj bl n c)
    (hmem : ∀ q, q ∈ bl' ↔ q ∈ bl ∨ q = b) (h1 : bval c < bval b) (h2 : bval b < bval n) {n' c' : Path}
    (h' : Adj bl' n' c') : (n' = n ∧ c' = b) ∨ (n' = b ∧ c' = c) ∨ (Adj bl n' c' ∧ c' ≠ c ∧ c' ≠ b ∧
      (bval n ≤ bval c' ∨ bval n' ≤ bval c)) := by
  obtain ⟨g1, g2, g3, g4⟩ := h
  obtain ⟨a1, a2, a3, a4⟩ := h'
  have k1 := a4 n ((hmem n).2 (Or.inl g1))
  have k2 := a4 c ((hmem c).2 (Or.inl g2))
  have k3 := a4 b ((hmem b).2 (Or.inr rfl))
  rcases (hmem n').1 a1 with hn' | rfl
  · have k4 := g4 n' hn'
    rcases (hmem c').1 a2 with hc' | rfl
    · have k5 := g4 c' hc'
      right; right
      refine ⟨⟨hn', hc', a3, fun q hq => a4 q ((hmem q).2 (Or.inl hq))⟩, ?_, ?_, ?_⟩
      · rintro rfl; omega
      · rintro rfl; omega
      · omega
    · left
      exact ⟨bval_inj hd hn' g1 (by omega), rfl⟩
  · right; left
    rcases (hmem c').1 a2 with hc' | rfl
    · have k5 := g4 c' hc'
      exact ⟨rfl, bval_inj hd hc' g2 (by omega)⟩
    · omega

/-- The interval from `c` to `n`: a power of two wide, aligned, and nothing known to the trie inside but its midpoint. -/
def Width (gl : List Path) (n c : Path) (k : Nat) : Prop :=
  bval c + 2 ^ k = bval n ∧ 2 ^ k ∣ bval c ∧ 4 ≤ k ∧
    ∀ q ∈ gl, bval c < bval q → bval q < bval n → bval q = bval c + 2 ^ k / 2

/-- The slots of `c`: sorted and inside the interval. -/
def Content (pools : Path → Option Pool) (n c : Path) : Prop :=
  ∃ P xs z, pools c = some P ∧ OKP P xs z ∧ ∀ s ∈ xs, bval c ≤ s.rev.toNat ∧ s.rev.toNat < bval n

/-- `gl`: the linked buckets and those that exist in the trie only. -/
structure EI (st : St) (gl : List Path) : Prop where
  bi : BI st.mem gl
  nz : NZ st.mem
  sh : Shallow st.mem
  sub : ∀ p ∈ st.blist, p ∈ gl
  head : ∃ rest, st.blist = [] :: rest
  desc : st.blist.Pairwise (fun p q => bval q < bval p)
  tops : ∀ i, i < 16 → [i] ∈ st.blist
  width : ∀ n c, Adj st.blist n c → ∃ k, Width gl n c k
  content : ∀ n c, Adj st.blist n c → Content st.pools n c
  pool : ∀ p, (st.pools p).isSome → p ∈ st.blist ∧ p ≠ []

/-- The slots in use. -/
def Pool.used (p : Pool) : List Slot := p.arr.take p.len.toNat

/-- A slot of some bucket. -/
def Stored (st : St) (s : Slot) : Prop := ∃ c P, st.pools c = some P ∧ s ∈ P.used

theorem OKP.used {p : Pool} {xs : List Slot} {z : Nat} (h : OKP p xs z) : p.used = xs := by
  unfold Pool.used
  have hl : p.len.toNat = xs.length := by rw [h.len]; simp
  rw [hl, h.arr, List.take_append_of_le_length (le_refl _), List.take_length]

/-! ### makeBucket2 -/

theorem prevAsB_eq {A B : List Path} (hd : (A ++ n :: c :: B).Pairwise (fun p q => bval q < bval p)) :
    prevAsB (A ++ n :: c :: B) c = n := by
  have hnd := desc_nodup hd
  unfold prevAsB
  rw [if_pos (by simp)]
  have hA : ∀ x ∈ A ++ [n], decide (x ≠ c) = true := by
    intro x hx
    have : x ≠ c := by
      rintro rfl
      rw [show A ++ n :: x :: B = (A ++ [n]) ++ x :: B by simp, List.nodup_append] at hnd
      exact hnd.2.2 x hx x (by simp) rfl
    simpa using this
  rw [show A ++ n :: c :: B = (A ++ [n]) ++ c :: B by simp, List.takeWhile_append_of_pos hA]
  simp

theorem newRevE_eq (h : BI m gl) (hn : n ∈ gl) (hc : c ∈ gl) (hcn : c ≠ []) {k : Nat} (hk : bval c + 2 ^ k = bval n)
    (hdv : 2 ^ k ∣ bval c) (h2 : 2 ≤ k) : (newRevE (m n).rev (m c).rev).toNat = bval c + 2 ^ k / 2 := by
  have hcr := h.rev_toNat hc hcn
  have hcl := h.lt c hc hcn
  obtain ⟨j, rfl⟩ : ∃ j, k = j + 2 := ⟨k - 2, by omega⟩
  have hp : 2 ^ (j + 2) = 4 * 2 ^ j := by rw [pow_add]; omega
  rw [hp] at hk hdv ⊢
  obtain ⟨x, hx⟩ := hdv
  have hodd : ∀ r : U64, (r &&& 1 > 0) ↔ r.toNat % 2 = 1 := by
    intro r
    rw [gt_iff_lt, BitVec.lt_def, BitVec.toNat_and]
    show 0 < r.toNat &&& 1 ↔ _
    rw [Nat.and_one_is_mod]; omega
  have hm4 : 4 * 2 ^ j * x = 4 * (2 ^ j * x) := by ring
  have e1 : ((m c).rev / 2).toNat = bval c / 2 := by rw [BitVec.toNat_udiv, hcr]; rfl
  unfold newRevE
  simp only
  by_cases hnn : n = []
  · subst hnn
    rw [bval_nil] at hk
    have e2 : ((m []).rev / 2).toNat = 2 ^ 63 - 1 := by rw [h.ti.root.1]; decide +kernel
    have e3 : ((m []).rev / 2 + (m c).rev / 2).toNat = 2 ^ 63 - 1 + bval c / 2 := by
      rw [BitVec.toNat_add, e1, e2]; omega
    rw [if_pos ((hodd _).2 (by rw [e3]; omega)), BitVec.toNat_add, e3]
    show (_ + 1) % 2 ^ 64 = _
    omega
  · have hnr := h.rev_toNat hn hnn
    have hnl := h.lt n hn hnn
    have e2 : ((m n).rev / 2).toNat = bval n / 2 := by rw [BitVec.toNat_udiv, hnr]; rfl
    have e3 : ((m n).rev / 2 + (m c).rev / 2).toNat = bval n / 2 + bval c / 2 := by
      rw [BitVec.toNat_add, e1, e2]; omega
    rw [if_neg (by rw [hodd, e3]; omega), e3]
    omega

theorem addBucket_eq (h : BI m gl) {A B : List Path} (hd : (A ++ n :: c :: B).Pairwise (fun p q => bval q < bval p))
    (hs : ∀ p ∈ A ++ n :: c :: B, p ∈ gl) (hb : b ∈ gl) (h1 : bval c < bval b) (h2 : bval b < bval n) :
    addBucket m (A ++ n :: c :: B) b = A ++ n :: b :: c :: B := by
  have hA : ∀ x ∈ A ++ [n], decide ((m x).rev > (m b).rev) = true := by
    intro x hx
    have hx' : x ∈ A ++ n :: c :: B := by
      simp only [List.mem_append, List.mem_cons, List.mem_singleton] at hx ⊢
      tauto
    have : bval n ≤ bval x := by
      rcases List.mem_append.1 hx with h | h
      · exact Nat.le_of_lt ((List.pairwise_append.1 hd).2.2 x h n (by simp))
      · simp at h; subst h; exact le_refl _
    have := (h.rev_lt_iff hb (hs x hx')).2 (by omega)
    simpa using this
  have hc : decide ((m c).rev > (m b).rev) = false := by
    have := (h.rev_lt_iff (hs c (by simp)) hb).2 h1
    simp only [decide_eq_false_iff_not]
    bv_omega
  have hne : (m c).rev ≠ (m b).rev := by
    have := (h.rev_lt_iff (hs c (by simp)) hb).2 h1
    intro hc; rw [hc] at this; exact BitVec.lt_irrefl _ this
  have e : A ++ n :: c :: B = (A ++ [n]) ++ c :: B := by simp
  unfold addBucket
  rw [e, List.takeWhile_append_of_pos hA, List.dropWhile_append_of_pos hA]
  simp only [List.takeWhile_cons, List.dropWhile_cons, hc]
  simp [hne]

theorem basePath_self (h : BI m gl) (hc : c ∈ gl) (hne : c ≠ []) : basePath m c = c := by
  obtain ⟨hv, ha⟩ := (h.mem_iff c hne).1 hc
  cases c with
  | nil => exact absurd rfl hne
  | cons i p =>
    unfold basePath
    simp [ha]

/-- The trie part of a split: after `bucketFromPoolE` for the midpoint the midpoint's bucket is known. -/
theorem mid_bucket (h : EI st gl) (ha : Adj st.blist n c) {k : Nat} (hw : Width gl n c k) (h5 : 5 ≤ k) {nr : U64}
    (hnr : nr.toNat = bval c + 2 ^ k / 2) (hc : c ≠ []) :
    ∃ m1 b gl', bucketFromPoolE st.mem nr = (m1, b) ∧ BI m1 gl' ∧ NZ m1 ∧ Shallow m1 ∧ b ≠ [] ∧ b ∈ gl' ∧
      bval b = nr.toNat ∧ (m1 b).rev = nr ∧ (∀ q, q ∈ gl' ↔ q ∈ gl ∨ q = b) := by
  obtain ⟨hk, hdv, _, hin⟩ := hw
  have h2k : 2 ^ k / 2 < 2 ^ k ∧ 0 < 2 ^ k / 2 := by
    obtain ⟨j, rfl⟩ : ∃ j, k = j + 1 := ⟨k - 1, by omega⟩
    rw [pow_succ]; have := Nat.two_pow_pos j; omega
  by_cases hex : ∃ q ∈ gl, bval c < bval q ∧ bval q < bval n
  · obtain ⟨q, hq, hq1, hq2⟩ := hex
    have hqv := hin q hq hq1 hq2
    have hqn : q ≠ [] := by
      rintro rfl
      have := h.sub n ha.1
      have hn' : bval n ≤ 2 ^ 64 := by
        by_cases hnn : n = []
        · subst hnn; rw [bval_nil]
        · have := h.bi.lt n this hnn; omega
      rw [bval_nil] at hq2; omega
    obtain ⟨hv, hal⟩ := (h.bi.mem_iff q hqn).1 hq
    have hval := h.bi.ti.val q hqn hv
    have hpv : pathVal q = nr.toNat := by
      have : bval q = pathVal q := by rw [bval, if_neg hqn]
      rw [← this, hqv, hnr]
    have hpq : pref nr q.length = q := by
      have := pref_pathVal q hval.2.2.2.2 hval.2.2.1
      rwa [hpv, BitVec.ofNat_toNat, BitVec.setWidth_eq] at this
    have hlen := h.sh q hqn hv
    have hpos := List.length_pos_of_ne_nil hqn
    have hlen2 : q.length ≠ 1 := by
      intro h1
      obtain ⟨i, rfl⟩ := List.length_eq_one_iff.1 h1
      have hi : i < 16 := hval.2.2.2.2 i (by simp)
      have := ha.2.2.2 [i] (h.tops i hi)
      omega
    have hlev : levelOf nr = q.length := by
      have h1 : levelOf nr ≤ q.length := by
        rw [levelOf_le nr _ (by omega), ← hpv]
        exact pathVal_dvd q (by omega)
      have h3 : ¬ levelOf nr ≤ q.length - 1 := by
        rw [levelOf_le nr _ (by omega), ← hpv]
        intro hd
        cases q with
        | nil => exact hqn rfl
        | cons i p =>
          have hi0 : i ≠ 0 := by
            rintro rfl
            have hpn : p ≠ [] := by rintro rfl; simp at hlen2
            have := (h.bi.ti.ali 0 p hv).2 ⟨rfl, hpn⟩
            rw [this] at hal; exact absurd hal (by simp)
          have hi16 : i < 16 := hval.2.2.2.2 i (by simp)
          simp only [pathVal, List.length_cons] at hd hlen
          have hdp := pathVal_dvd p (by omega)
          rw [Nat.add_sub_cancel] at hd
          have hd2 := (Nat.dvd_add_right hdp).1 hd
          rw [show 16 - p.length = (15 - p.length) + 1 by omega, pow_succ] at hd2
          rw [Nat.mul_comm] at hd2
          have := Nat.dvd_of_mul_dvd_mul_right (Nat.pos_of_ne_zero (by simp)) hd2
          have := Nat.le_of_dvd (by omega) this
          omega
      omega
    have hold := bucketFromPoolE_old h.bi.ti nr q.length hlev (by omega) (fun l h1 h2 =>
      h.bi.ti.valid_pref nr q.length l h1 h2 (by rw [hpq]; exact hv))
    rw [hpq] at hold
    refine ⟨st.mem, q, gl, hold, h.bi, h.nz, h.sh, hqn, hq, by rw [hqv, hnr], ?_, ?_⟩
    · apply BitVec.eq_of_toNat_eq
      rw [h.bi.rev_toNat hq hqn, hqv, hnr]
    · intro p
      constructor
      · exact Or.inl
      · rintro (h | rfl)
        · exact h
        · exact hq
  · have hagl : Adj gl n c := by
      refine ⟨h.sub n ha.1, h.sub c ha.2.1, ha.2.2.1, ?_⟩
      intro q hq
      by_contra hcon
      exact hex ⟨q, hq, by omega, by omega⟩
    obtain ⟨A, B, hgl⟩ := adj_decomp h.bi.desc hagl
    obtain ⟨⟨k', hk', hdv', hpre⟩, _⟩ := h.bi.neighbours hgl
    have hkk : k' = k := by
      have : 2 ^ k' = 2 ^ k := by omega
      exact Nat.pow_right_injective (le_refl 2) this
    subst hkk
    have x := split_core h.bi hgl hk hdv hpre (by omega) hnr
    obtain ⟨L, hL⟩ : ∃ L, L = 16 - (k' - 1) / 4 := ⟨_, rfl⟩
    rw [← hL] at x
    obtain ⟨m', e1, hnew⟩ := bucketFromPoolE_new h.bi.ti nr L x.lev x.two x.pre x.idx x.nv
    rw [x.rev] at hnew
    obtain ⟨hti, hV, hbi⟩ := x.after m' hnew
    have hmax : nr ≠ maxU64 := by
      rintro rfl
      have : maxU64.toNat = 2 ^ 64 - 1 := rfl
      obtain ⟨j, rfl⟩ : ∃ j, k' = j + 2 := ⟨k' - 2, by omega⟩
      have hp : 2 ^ (j + 2) = 4 * 2 ^ j := by rw [pow_add]; omega
      rw [hp] at hdv hnr
      obtain ⟨x, hx⟩ := hdv
      have hm4 : 4 * 2 ^ j * x = 4 * (2 ^ j * x) := by ring
      omega
    have hbi' := hbi hmax
    have hbm : (nib nr L :: pref nr (L - 1)) ∈ A ++ n :: (nib nr L :: pref nr (L - 1)) :: c :: B := by simp
    refine ⟨m', _, _, e1, hbi', NewBkt_nz x.idx h.nz hV, ?_, by simp, hbm, x.bv, ?_, ?_⟩
    · intro p hp hv
      rcases (hV p).1 hv with hv | rfl | rfl
      · exact h.sh p hp hv
      · simp only [List.length_cons, pref_length]; have := x.two; omega
      · simp only [List.length_cons, pref_length]; have := x.two; omega
    · apply BitVec.eq_of_toNat_eq
      rw [hbi'.rev_toNat hbm (by simp), x.bv]
    · intro q
      rw [hgl]; simp only [List.mem_append, List.mem_cons]; tauto

end SLM.Emb
