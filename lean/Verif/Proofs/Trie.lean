import Verif.Proofs.Lists
import Mathlib.Tactic.Ring
/-! The bucket trie: digits, path values, the invariant `TI`, and what `bucketFromPool` does to it. -/
set_option linter.unusedSimpArgs false
set_option autoImplicit false
namespace SLM

/-- The bucket at `p` is initialised. -/
def V (m : Path → Bkt) (p : Path) : Prop := (m p).level ≠ 0

def Digits (p : Path) : Prop := ∀ d ∈ p, d < 16

/-- The boundary spelled by the digits of a path. -/
def pathVal : Path → Nat
  | [] => 0
  | d :: p => pathVal p + d * 16 ^ (15 - p.length)

/-- The path of the first `l` digits of `r`. -/
def pref (r : U64) : Nat → Path
  | 0 => []
  | l + 1 => nib r (l + 1) :: pref r l

@[simp] theorem pref_length (r : U64) (l : Nat) : (pref r l).length = l := by
  induction l with
  | zero => rfl
  | succ l ih => simp [pref, ih]

theorem pref_ne_nil (r : U64) (l : Nat) (h : 1 ≤ l) : pref r l ≠ [] := by
  intro hc; have := congrArg List.length hc; simp at this; omega

theorem pow16 (n : Nat) : 16 ^ n = 2 ^ (4 * n) := by
  rw [show 16 = 2 ^ 4 from rfl, ← pow_mul]

theorem nib_eq (r : U64) (l : Nat) : nib r l = r.toNat / 16 ^ (16 - l) % 16 := by
  unfold nib
  rw [BitVec.toNat_and, BitVec.toNat_ushiftRight, Nat.shiftRight_eq_div_pow, pow16]
  show _ &&& 15 = _
  rw [show (15:Nat) = 2 ^ 4 - 1 from rfl, Nat.and_two_pow_sub_one_eq_mod]

theorem nib_lt (r : U64) (l : Nat) : nib r l < 16 := by rw [nib_eq]; omega

theorem pref_digits (r : U64) (l : Nat) : Digits (pref r l) := by
  induction l with
  | zero => intro d hd; simp [pref] at hd
  | succ l ih =>
    intro d hd
    simp only [pref, List.mem_cons] at hd
    rcases hd with rfl | h
    · exact nib_lt _ _
    · exact ih d h

theorem pathVal_pref (r : U64) (l : Nat) (h : l ≤ 16) :
    pathVal (pref r l) = r.toNat / 16 ^ (16 - l) * 16 ^ (16 - l) := by
  induction l with
  | zero =>
    have : r.toNat / 16 ^ 16 = 0 := Nat.div_eq_of_lt (by have := r.isLt; omega)
    show 0 = r.toNat / 16 ^ 16 * 16 ^ 16
    rw [this, Nat.zero_mul]
  | succ l ih =>
    simp only [pref, pathVal, pref_length, ih (by omega), nib_eq]
    obtain ⟨k, hk⟩ : ∃ k, 16 - l = k + 1 := ⟨15 - l, by omega⟩
    have hk1 : 16 - (l + 1) = k := by omega
    have hk2 : 15 - l = k := by omega
    rw [hk, hk1, hk2, pow_succ, ← Nat.div_div_eq_div_mul]
    generalize r.toNat / 16 ^ k = x
    have : x = x / 16 * 16 + x % 16 := by omega
    calc x / 16 * (16 ^ k * 16) + x % 16 * 16 ^ k = (x / 16 * 16 + x % 16) * 16 ^ k := by ring
      _ = x * 16 ^ k := by rw [← this]

theorem pathVal_pref_le (r : U64) (l : Nat) (h : l ≤ 16) : pathVal (pref r l) ≤ r.toNat := by
  rw [pathVal_pref r l h]; exact Nat.div_mul_le_self _ _

/-- Everything below a path lies in the path's digit block. -/
theorem pathVal_ext (q p : Path) (hd : Digits (q ++ p)) (hl : (q ++ p).length ≤ 16) :
    pathVal p ≤ pathVal (q ++ p) ∧
    pathVal (q ++ p) + 16 ^ (16 - (q ++ p).length) ≤ pathVal p + 16 ^ (16 - p.length) := by
  induction q with
  | nil => simp
  | cons d q ih =>
    simp only [List.cons_append, List.length_cons] at hl ⊢
    have hd' : Digits (q ++ p) := fun x hx => hd x (by simp only [List.cons_append, List.mem_cons]; exact Or.inr hx)
    have hdd : d < 16 := hd d (by simp)
    obtain ⟨h1, h2⟩ := ih hd' (by omega)
    simp only [pathVal]
    obtain ⟨k, hk⟩ : ∃ k, 16 - (q ++ p).length = k + 1 := ⟨15 - (q ++ p).length, by omega⟩
    have hk1 : 16 - ((q ++ p).length + 1) = k := by omega
    have hk2 : 15 - (q ++ p).length = k := by omega
    rw [hk1, hk2]
    rw [hk, pow_succ] at h2
    have : d * 16 ^ k + 16 ^ k ≤ 16 ^ k * 16 := by
      calc d * 16 ^ k + 16 ^ k = (d + 1) * 16 ^ k := by ring
        _ ≤ 16 * 16 ^ k := Nat.mul_le_mul_right _ hdd
        _ = _ := by ring
    omega

theorem pathVal_lt (p : Path) (hd : Digits p) (hl : p.length ≤ 16) : pathVal p < 2 ^ 64 := by
  have := pathVal_ext p [] (by simpa using hd) (by simpa using hl)
  simp [pathVal] at this
  have h2 : 0 < 16 ^ (16 - p.length) := Nat.pos_of_ne_zero (by simp)
  omega

/-! ### levelOf -/

theorem nibLoop_le (f : Nat) : ∀ (cur : U64) (n : Nat), cur.toNat < 16 ^ f → (nibLoop f cur ≤ n ↔ cur.toNat < 16 ^ n) := by
  induction f with
  | zero =>
    intro cur n h
    simp at h
    simp [nibLoop, h]
  | succ f ih =>
    intro cur n h
    simp only [nibLoop]
    split
    · rename_i h0
      subst h0
      simp
    · rename_i h0
      have hpos : 0 < cur.toNat := by
        rcases Nat.eq_zero_or_pos cur.toNat with h1 | h1
        · exact absurd (BitVec.eq_of_toNat_eq (by simpa using h1)) h0
        · exact h1
      have hs : (cur >>> 4).toNat = cur.toNat / 16 := by
        rw [BitVec.toNat_ushiftRight, Nat.shiftRight_eq_div_pow]
      rcases n with _ | n
      · simp; omega
      · rw [Nat.add_le_add_iff_right, ih _ n (by rw [hs, Nat.div_lt_iff_lt_mul (by omega)]; rwa [pow_succ] at h), hs,
          Nat.div_lt_iff_lt_mul (by omega), pow_succ]

theorem rev_lt_iff (r : U64) (n : Nat) (h : n ≤ 64) : (rev64 r).toNat < 2 ^ n ↔ 2 ^ (64 - n) ∣ r.toNat := by
  constructor
  · intro hlt
    apply Nat.dvd_of_mod_eq_zero
    apply Nat.eq_of_testBit_eq
    intro i
    rw [Nat.testBit_mod_two_pow, Nat.zero_testBit]
    by_cases hi : i < 64 - n
    · simp only [hi, decide_true, Bool.true_and]
      have h1 : (rev64 r).toNat.testBit (63 - i) = false :=
        Nat.testBit_lt_two_pow (lt_of_lt_of_le hlt (Nat.pow_le_pow_right (by omega) (by omega)))
      have h2 : (rev64 r).getLsbD (63 - i) = r.getLsbD i := by
        simp only [rev64, BitVec.getLsbD_reverse, BitVec.getMsbD_eq_getLsbD]
        rw [show 64 - 1 - (63 - i) = i by omega]
        simp; omega
      rw [← BitVec.testBit_toNat, ← BitVec.testBit_toNat] at h2
      rw [← h2, h1]
    · simp [hi]
  · intro hd
    apply Nat.lt_pow_two_of_testBit
    intro i hi
    rw [BitVec.testBit_toNat]
    simp only [rev64, BitVec.getLsbD_reverse, BitVec.getMsbD_eq_getLsbD]
    by_cases h64 : i < 64
    · obtain ⟨k, hk⟩ := hd
      rw [← BitVec.testBit_toNat, hk]
      have : (2 ^ (64 - n) * k).testBit (64 - 1 - i) = false := by
        rw [Nat.testBit_two_pow_mul]
        simp; omega
      simp [this]
    · simp [h64]

/-- `levelOf r` is the least number of digits that spell `r`. -/
theorem levelOf_le (r : U64) (n : Nat) (h : n ≤ 16) : levelOf r ≤ n ↔ 16 ^ (16 - n) ∣ r.toNat := by
  unfold levelOf
  rw [nibLoop_le 16 _ n (by have := (rev64 r).isLt; omega), pow16, rev_lt_iff _ _ (by omega), pow16]
  rw [show 64 - 4 * n = 4 * (16 - n) by omega]

theorem levelOf_le16 (r : U64) : levelOf r ≤ 16 := by
  rw [levelOf_le r 16 (le_refl _)]; simp

/-! ### the invariant of the trie -/

structure TI (m : Path → Bkt) : Prop where
  root : (m []).rev = maxU64 ∧ (m []).level ≠ 0
  top : ∀ i, i < 16 → V m [i]
  zero : ∀ p, ¬ V m p → (m p).state = 0 ∧ (m p).isAlias = false ∧ (m p).cnt = 0 ∧ (m p).downLen = 0 ∧ (m p).downCap = 0 ∧ (m p).rev = 0
  val : ∀ p, p ≠ [] → V m p → (m p).rev.toNat = pathVal p ∧ (m p).level = p.length ∧ p.length ≤ 16 ∧ (m p).state ≠ 0 ∧ Digits p
  parent : ∀ i p, p ≠ [] → V m (i :: p) → V m p ∧ i < (m p).downLen
  down : ∀ p, p ≠ [] → V m p → (m p).cnt = (m p).downLen ∧ (m p).downLen ≤ 16 ∧ ((m p).downLen = 0 → (m p).downCap = 0) ∧
    (0 < (m p).downLen → (m p).downCap = 16 ∧ V m (0 :: p))
  ali : ∀ i p, V m (i :: p) → ((m (i :: p)).isAlias = true ↔ i = 0 ∧ p ≠ [])

/-- Equal up to the bucket length counters. -/
def EqL (m m' : Path → Bkt) : Prop := ∀ p, { m p with len := 0 } = { m' p with len := 0 }

theorem EqL.fields {m m' : Path → Bkt} (h : EqL m m') (p : Path) :
    (m' p).level = (m p).level ∧ (m' p).rev = (m p).rev ∧ (m' p).cnt = (m p).cnt ∧ (m' p).downLen = (m p).downLen ∧
    (m' p).downCap = (m p).downCap ∧ (m' p).state = (m p).state ∧ (m' p).isAlias = (m p).isAlias := by
  have := h p
  simp only [Bkt.mk.injEq] at this
  tauto

theorem EqL.refl (m : Path → Bkt) : EqL m m := fun _ => rfl

theorem EqL.symm {m m' : Path → Bkt} (h : EqL m m') : EqL m' m := fun p => (h p).symm

theorem EqL.trans {m m' m'' : Path → Bkt} (h : EqL m m') (h' : EqL m' m'') : EqL m m'' := fun p => (h p).trans (h' p)

theorem EqL.len (m : Path → Bkt) (q : Path) (n : Int) : EqL m (upd m q { m q with len := n }) := by
  intro p; unfold upd; split
  · subst_vars; rfl
  · rfl

theorem EqL.V {m m' : Path → Bkt} (h : EqL m m') (p : Path) : V m' p ↔ V m p := by
  unfold SLM.V; rw [(h.fields p).1]

theorem TI.congr {m m' : Path → Bkt} (h : EqL m m') (t : TI m) : TI m' := by
  have hV := h.V
  have hf := h.fields
  constructor
  · rw [(hf []).1, (hf []).2.1]; exact t.root
  · intro i hi; rw [hV]; exact t.top i hi
  · intro p hp; rw [hV] at hp; have := t.zero p hp; have := hf p; simp_all
  · intro p hp hv; rw [hV] at hv; have := t.val p hp hv; have := hf p; simp_all
  · intro i p hp hv; rw [hV] at hv; rw [hV, (hf p).2.2.2.1]; exact t.parent i p hp hv
  · intro p hp hv; rw [hV] at hv; have := t.down p hp hv; have := hf p; rw [hV]; simp_all
  · intro i p hv; rw [hV] at hv; rw [(hf _).2.2.2.2.2.2]; exact t.ali i p hv

theorem basePath_congr {m m' : Path → Bkt} (h : EqL m m') (p : Path) : basePath m' p = basePath m p := by
  induction p with
  | nil => rfl
  | cons i p ih => simp only [basePath, ih, (h.fields (i :: p)).2.2.2.2.2.2]

theorem runOk_congr {m m' : Path → Bkt} (h : EqL m m') (ok : OkFn) : EqL (runOk m ok) (runOk m' ok) := by
  have hact : ∀ (m m' : Path → Bkt) (p : Path), EqL m m' → EqL (activate m p) (activate m' p) := by
    intro m m' p h
    unfold activate
    rw [(h.fields p).2.2.2.2.2.1]
    split
    · intro q; unfold upd; split
      · have := h p; simp only [Bkt.mk.injEq] at this ⊢; tauto
      · exact h q
    · exact h
  cases ok with
  | none => exact h
  | activate p => exact hact _ _ _ h
  | extend b idx =>
    simp only [runOk]
    apply hact
    rw [(h.fields b).2.2.2.1, (h.fields b).2.2.2.2.1]
    split
    · exact h
    · intro q; unfold upd; split
      · have := h b; simp only [Bkt.mk.injEq] at this ⊢; tauto
      · exact h q

/-! ### bucketFromPool -/

theorem TI.valid_ne_nil {m : Path → Bkt} (_t : TI m) (r : U64) (l : Nat) (h : 1 ≤ l) : pref r l ≠ [] := pref_ne_nil r l h

/-- One round through an existing child. -/
theorem bfp_step {m : Path → Bkt} (t : TI m) (r : U64) (l f : Nat) (hl : 1 ≤ l) (hv : V m (pref r (l + 1))) :
    bfpLoop r (f + 1) (l + 1) m (pref r l) = bfpLoop r f (l + 2) m (pref r (l + 1)) := by
  have hne := pref_ne_nil r l hl
  have hp := t.parent (nib r (l + 1)) (pref r l) hne hv
  have hd := t.down _ hne hp.1
  have hs := (t.val _ (pref_ne_nil r (l + 1) (by omega)) hv).2.2.2.1
  have ha : allocDowns m (pref r l) = m := by
    unfold allocDowns; rw [if_neg (by omega)]
  simp only [bfpLoop, ha]
  rw [if_neg (by omega), if_neg (by omega), if_neg (by omega), if_neg (by
    rintro ⟨_, h⟩; exact hs h)]
  rfl

/-- Rounds through existing prefixes of `r` change nothing. -/
theorem bfp_walk {m : Path → Bkt} (t : TI m) (r : U64) (g : Nat) : ∀ (f l : Nat), 1 ≤ l →
    (∀ j, l < j → j ≤ l + f → V m (pref r j)) →
    bfpLoop r (f + g) (l + 1) m (pref r l) = bfpLoop r g (l + f + 1) m (pref r (l + f)) := by
  intro f
  induction f with
  | zero => intro l _ _; simp
  | succ f ih =>
    intro l hl hv
    rw [show f + 1 + g = (f + g) + 1 by omega, bfp_step t r l (f + g) hl (hv (l + 1) (by omega) (by omega))]
    rw [ih (l + 1) (by omega) (fun j h1 h2 => hv j (by omega) (by omega))]
    rw [show l + 1 + f = l + (f + 1) by omega]

/-- What the memory looks like after a new bucket `idx :: b` was made and activated. -/
structure NewBkt (m m' : Path → Bkt) (b : Path) (idx : Nat) (r : U64) : Prop where
  other : ∀ p, p ≠ b → p ≠ idx :: b → p ≠ 0 :: b → m' p = m p
  zero : if (m b).cnt = 0 then m' (0 :: b) = { m (0 :: b) with level := (m b).level + 1, rev := (m b).rev, isAlias := true, state := 1 }
    else m' (0 :: b) = m (0 :: b)
  child : (m' (idx :: b)).level = (m b).level + 1 ∧ (m' (idx :: b)).rev = r ∧ (m' (idx :: b)).state = 2 ∧
    (m' (idx :: b)).isAlias = false ∧ (m' (idx :: b)).cnt = 0 ∧ (m' (idx :: b)).downLen = 0 ∧ (m' (idx :: b)).downCap = 0
  par : (m' b).level = (m b).level ∧ (m' b).rev = (m b).rev ∧ (m' b).state = (m b).state ∧ (m' b).isAlias = (m b).isAlias ∧
    (m' b).cnt = (m' b).downLen ∧ (m' b).downCap = 16 ∧ (m' b).downLen = max (m b).downLen (idx + 1)

theorem ne_cons (b : Path) (i : Nat) : b ≠ i :: b := by
  intro h; have := congrArg List.length h; simp at this

/-- The last round: the child does not exist yet. -/
theorem bfp_new {m : Path → Bkt} (t : TI m) (r : U64) (l : Nat) (b : Path) (hb : b ≠ []) (hvb : V m b)
    (hidx : nib r l ≠ 0) (hnv : ¬ V m (nib r l :: b)) :
    ∃ m1 ok, bfpLoop r 1 l m b = some (m1, nib r l :: b, ok) ∧
      (m1 (nib r l :: b)).isAlias = false ∧
      (m1 (nib r l :: b)).rev = (m b).rev ||| (BitVec.ofNat 64 (nib r l) <<< (4 * (16 - l))) ∧
      (∀ p, (m1 p).rev ≠ (m p).rev → p = nib r l :: b ∨ p = 0 :: b) ∧
      (∀ p, (m1 p).isAlias ≠ (m p).isAlias → p = 0 :: b) ∧
      NewBkt m (runOk m1 ok) b (nib r l) ((m b).rev ||| (BitVec.ofNat 64 (nib r l) <<< (4 * (16 - l)))) := by
  have hd := t.down b hb hvb
  have hz := t.zero _ hnv
  have hlt := nib_lt r l
  generalize hi : nib r l = i at *
  have n1 : ¬ b = i :: b := ne_cons b i
  have n2 : ¬ b = 0 :: b := ne_cons b 0
  have n1' : ¬ i :: b = b := fun h => ne_cons b i h.symm
  have n2' : ¬ 0 :: b = b := fun h => ne_cons b 0 h.symm
  have n3 : ¬ i :: b = 0 :: b := by simp [hidx]
  have n3' : ¬ 0 :: b = i :: b := by simp [Ne.symm hidx]
  have hni : ¬ 0 = i := Ne.symm hidx
  generalize hrr : (m b).rev ||| (BitVec.ofNat 64 i <<< (4 * (16 - l))) = rr
  by_cases hc : (m b).cnt = 0
  · -- first child of this bucket
    have hdl : (m b).downLen = 0 := by omega
    have e1 : allocDowns m b = upd (upd m b { m b with cnt := 1, downLen := 1, downCap := 16 }) (0 :: b)
        { (m (0 :: b)) with level := (m b).level + 1, rev := (m b).rev, isAlias := true, state := 1 } := by
      unfold allocDowns; rw [if_pos hc]; simp [upd]
    have hil : 1 ≤ i := by omega
    simp only [bfpLoop, hi, e1]
    simp [upd, n1, n2, n1', n2', n3, n3', hidx, hil, hrr]
    refine ⟨?_, ?_, ?_, ?_⟩
    · exact hz.2.1
    · intro p
      by_cases h1 : p = i :: b <;> by_cases h2 : p = b <;> by_cases h3 : p = 0 :: b <;> simp_all
    · intro p
      by_cases h1 : p = i :: b <;> by_cases h2 : p = b <;> by_cases h3 : p = 0 :: b <;> simp_all
    · constructor
      · intro p h1 h2 h3
        simp [runOk, activate, upd, n1, n2, n1', n2', n3, n3', hidx, show ¬ i < 1 by omega, show ¬ 16 ≤ i by omega, h1, h2, h3]
      · simp [hc, runOk, activate, upd, n1, n2, n1', n2', n3, n3', hidx, hni, show ¬ i < 1 by omega, show ¬ 16 ≤ i by omega]
      · simp [runOk, activate, upd, n1, n2, n1', n2', n3, n3', hidx, show ¬ i < 1 by omega, show ¬ 16 ≤ i by omega]
        tauto
      · simp [runOk, activate, upd, n1, n2, n1', n2', n3, n3', hidx, show ¬ i < 1 by omega, show ¬ 16 ≤ i by omega]
        omega
  · have e1 : allocDowns m b = m := by unfold allocDowns; rw [if_neg hc]
    have hcap := (hd.2.2.2 (by omega)).1
    by_cases hci : (m b).cnt ≤ i
    · simp only [bfpLoop, hi, e1]
      rw [if_neg (by omega), if_pos hci, if_pos hd.1]
      have hdi : ¬ i < (m b).downLen := by omega
      have h16 : ¬ 16 ≤ i := by omega
      refine ⟨_, _, rfl, ?_, ?_, ?_, ?_, ?_⟩
      · simp [upd, n1', hz.2.1]
      · simp [upd, n1, hrr]
      · intro p
        by_cases h1 : p = i :: b <;> by_cases h2 : p = b <;> simp_all [upd]
      · intro p
        by_cases h1 : p = i :: b <;> by_cases h2 : p = b <;> simp_all [upd]
      · constructor
        · intro p h1 h2 h3
          simp [runOk, activate, upd, n1, n1', hdi, hcap, h16, h1, h2]
        · simp [hc, runOk, activate, upd, n1, n1', n2', n3', hni, hdi, hcap, h16]
        · simp [runOk, activate, upd, n1, n1', hdi, hcap, h16, hrr]
          tauto
        · simp [runOk, activate, upd, n1, n1', hdi, hcap, h16]
          omega
    · simp only [bfpLoop, hi, e1]
      rw [if_neg (by omega), if_neg hci, if_neg (by omega), if_pos ⟨hidx, hz.1⟩]
      refine ⟨_, _, rfl, ?_, ?_, ?_, ?_, ?_⟩
      · simp [upd, hz.2.1]
      · simp [upd, hrr]
      · intro p
        by_cases h1 : p = i :: b <;> simp_all [upd]
      · intro p
        by_cases h1 : p = i :: b <;> simp_all [upd]
      · constructor
        · intro p h1 h2 h3
          simp [runOk, activate, upd, h2]
        · simp [hc, runOk, activate, upd, n3', hni]
        · simp [runOk, activate, upd, hrr]
          tauto
        · simp [runOk, activate, upd, n1, hcap]
          omega

/-- The trie invariant survives the creation of a bucket. -/
theorem NewBkt.ti {m m' : Path → Bkt} {b : Path} {idx : Nat} {r : U64} (t : TI m) (hb : b ≠ []) (hvb : V m b)
    (hidx : idx ≠ 0) (h16 : idx < 16) (hnv : ¬ V m (idx :: b)) (hlen : b.length < 16)
    (hr : r.toNat = pathVal (idx :: b)) (n : NewBkt m m' b idx r) :
    TI m' ∧ (∀ p, V m' p ↔ V m p ∨ p = idx :: b ∨ p = 0 :: b) := by
  have n1 : b ≠ idx :: b := ne_cons b idx
  have n2 : b ≠ 0 :: b := ne_cons b 0
  have n3 : (0 :: b) ≠ idx :: b := by simp [Ne.symm hidx]
  have hd := t.down b hb hvb
  have hvl := t.val b hb hvb
  have hlb : (m b).level = b.length := hvl.2.1
  -- child 0
  have hz : V m' (0 :: b) ∧ (m' (0 :: b)).rev = (m b).rev ∧ (m' (0 :: b)).level = b.length + 1 ∧ (m' (0 :: b)).state ≠ 0 ∧
      (m' (0 :: b)).isAlias = true ∧ (m' (0 :: b)).cnt = (m (0 :: b)).cnt ∧ (m' (0 :: b)).downLen = (m (0 :: b)).downLen ∧
      (m' (0 :: b)).downCap = (m (0 :: b)).downCap := by
    have := n.zero
    by_cases hc : (m b).cnt = 0
    · rw [if_pos hc] at this
      rw [V, this]; simp [hlb]
    · rw [if_neg hc] at this
      have hv0 := (hd.2.2.2 (by omega)).2
      have h0 := t.val (0 :: b) (by simp) hv0
      have ha := (t.ali 0 b hv0).2 ⟨rfl, hb⟩
      rw [V, this]
      refine ⟨hv0, BitVec.eq_of_toNat_eq ?_, by simpa using h0.2.1, h0.2.2.2.1, ha, rfl, rfl, rfl⟩
      rw [h0.1, hvl.1]; simp [pathVal]
  have hvi : V m' (idx :: b) := by rw [V, n.child.1]; omega
  have hvb' : V m' b := by rw [V, n.par.1]; exact hvb
  have hV : ∀ p, V m' p ↔ V m p ∨ p = idx :: b ∨ p = 0 :: b := by
    intro p
    by_cases h1 : p = b
    · subst h1; simp [hvb, hvb']
    by_cases h2 : p = idx :: b
    · subst h2; simp [hvi]
    by_cases h3 : p = 0 :: b
    · subst h3; simp [hz.1]
    have := n.other p h1 h2 h3
    simp [V, this, h2, h3]
  have hbn : ([] : Path) ≠ b := Ne.symm hb
  refine ⟨?_, hV⟩
  have hdig : ∀ i, i < 16 → Digits (i :: b) := by
    intro i hi d hd
    rcases List.mem_cons.1 hd with rfl | h
    · exact hi
    · exact hvl.2.2.2.2 d h
  constructor
  · rw [n.other [] hbn (by simp) (by simp)]; exact t.root
  · intro i hi; rw [hV]; exact Or.inl (t.top i hi)
  · intro p hp
    rw [hV] at hp
    simp only [not_or] at hp
    have h1 : p ≠ b := by rintro rfl; exact hp.1 hvb
    rw [n.other p h1 hp.2.1 hp.2.2]
    exact t.zero p hp.1
  · intro p hp hv
    by_cases h1 : p = b
    · subst h1
      rw [n.par.1, n.par.2.1, n.par.2.2.1]; exact hvl
    by_cases h2 : p = idx :: b
    · subst h2
      refine ⟨by rw [n.child.2.1, hr], by rw [n.child.1, hlb]; rfl, by simp; omega, by rw [n.child.2.2.1]; omega, hdig _ h16⟩
    by_cases h3 : p = 0 :: b
    · subst h3
      refine ⟨?_, by rw [hz.2.2.1]; rfl, by simp; omega, hz.2.2.2.1, hdig 0 (by omega)⟩
      rw [hz.2.1, hvl.1]; simp [pathVal]
    rw [n.other p h1 h2 h3]
    rw [hV] at hv
    exact t.val p hp (by tauto)
  · intro i p hp hv
    by_cases hpb : p = b
    · subst hpb
      refine ⟨hvb', ?_⟩
      rw [n.par.2.2.2.2.2.2]
      rw [hV] at hv
      rcases hv with h | h | h
      · have := (t.parent i p hp h).2; omega
      · injection h with h; omega
      · injection h with h; omega
    · have hv' : V m (i :: p) := by
        rw [hV] at hv
        rcases hv with h | h | h
        · exact h
        · injection h with _ h; exact absurd h hpb
        · injection h with _ h; exact absurd h hpb
      obtain ⟨h1, h2⟩ := t.parent i p hp hv'
      refine ⟨(hV p).2 (Or.inl h1), ?_⟩
      by_cases h3 : p = idx :: b
      · subst h3; exact absurd h1 hnv
      by_cases h4 : p = 0 :: b
      · subst h4; rw [hz.2.2.2.2.2.2.1]; exact h2
      rw [n.other p hpb h3 h4]; exact h2
  · intro p hp hv
    by_cases h1 : p = b
    · subst h1
      refine ⟨n.par.2.2.2.2.1, by rw [n.par.2.2.2.2.2.2]; omega, by rw [n.par.2.2.2.2.2.2]; omega,
        fun _ => ⟨n.par.2.2.2.2.2.1, hz.1⟩⟩
    by_cases h2 : p = idx :: b
    · subst h2
      rw [n.child.2.2.2.2.1, n.child.2.2.2.2.2.1, n.child.2.2.2.2.2.2]; simp
    by_cases h3 : p = 0 :: b
    · subst h3
      rw [hz.2.2.2.2.2.1, hz.2.2.2.2.2.2.1, hz.2.2.2.2.2.2.2]
      by_cases hv0 : V m (0 :: b)
      · have := t.down (0 :: b) (by simp) hv0
        refine ⟨this.1, this.2.1, this.2.2.1, fun h => ⟨(this.2.2.2 h).1, (hV _).2 (Or.inl (this.2.2.2 h).2)⟩⟩
      · have := t.zero _ hv0
        simp [this]
    rw [n.other p h1 h2 h3]
    rw [hV] at hv
    have := t.down p hp (by tauto)
    exact ⟨this.1, this.2.1, this.2.2.1, fun h => ⟨(this.2.2.2 h).1, (hV _).2 (Or.inl (this.2.2.2 h).2)⟩⟩
  · intro i p hv
    by_cases h2 : i :: p = idx :: b
    · rw [h2, n.child.2.2.2.1]
      injection h2 with h2 _; subst h2; simp [hidx]
    by_cases h3 : i :: p = 0 :: b
    · rw [h3, hz.2.2.2.2.1]
      injection h3 with h3 h4; subst h3 h4; simp [hb]
    have hv' : V m (i :: p) := by rw [hV] at hv; tauto
    by_cases h1 : i :: p = b
    · rw [h1, n.par.2.2.2.1, ← h1]; exact t.ali i p hv'
    rw [n.other _ h1 h2 h3]; exact t.ali i p hv'

end SLM
