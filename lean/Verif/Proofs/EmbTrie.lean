import Verif.Model.Embedded
import Verif.Proofs.EmbFind
import Verif.Proofs.Reach
/-! `bucketFromPoolEmbedded` on the trie. -/
set_option linter.unusedSimpArgs false
set_option autoImplicit false
namespace SLM.Emb
variable {m : Path → Bkt} {bl : List Path}

theorem allocE_same (t : TI m) {b : Path} (hb : b ≠ []) (hv : V m b) (h : 0 < (m b).downLen) : allocDownsE m b = m := by
  unfold allocDownsE
  rw [if_neg (by have := ((t.down b hb hv).2.2.2 h).1; omega)]

theorem bfpE_step (t : TI m) (r : U64) (l f : Nat) (hl : 1 ≤ l) (hv : V m (pref r (l + 1))) :
    bfpLoopE r (f + 1) (l + 1) m (pref r l) = bfpLoopE r f (l + 2) m (pref r (l + 1)) := by
  have hne := pref_ne_nil r l hl
  have hp := t.parent (nib r (l + 1)) (pref r l) hne hv
  have ha := allocE_same t hne hp.1 (by omega)
  have hg : growDowns m (pref r l) (nib r (l + 1)) = m := by
    unfold growDowns; rw [if_neg (by omega)]
  simp only [bfpLoopE, ha, hg]
  rw [if_neg (by exact hv)]
  rfl

theorem bfpE_walk (t : TI m) (r : U64) (g : Nat) : ∀ (f l : Nat), 1 ≤ l →
    (∀ j, l < j → j ≤ l + f → V m (pref r j)) →
    bfpLoopE r (f + g) (l + 1) m (pref r l) = bfpLoopE r g (l + f + 1) m (pref r (l + f)) := by
  intro f
  induction f with
  | zero => intro l _ _; simp
  | succ f ih =>
    intro l hl hv
    rw [show f + 1 + g = (f + g) + 1 by omega, bfpE_step t r l (f + g) hl (hv (l + 1) (by omega) (by omega))]
    rw [ih (l + 1) (by omega) (fun j h1 h2 => hv j (by omega) (by omega))]
    rw [show l + 1 + f = l + (f + 1) by omega]

/-- The last round when the child does not exist yet. -/
theorem bfpE_new (t : TI m) (r : U64) (l : Nat) (b : Path) (hb : b ≠ []) (hvb : V m b)
    (hidx : nib r l ≠ 0) (hnv : ¬ V m (nib r l :: b)) :
    (bfpLoopE r 1 l m b).2 = nib r l :: b ∧
      NewBkt m (bfpLoopE r 1 l m b).1 b (nib r l) ((m b).rev ||| (BitVec.ofNat 64 (nib r l) <<< (4 * (16 - l)))) := by
  have hd := t.down b hb hvb
  have hz := t.zero _ hnv
  have hlt := nib_lt r l
  have hlv : (m (nib r l :: b)).level = 0 := by simpa [V] using hnv
  generalize hi : nib r l = i at *
  have n1 : ¬ b = i :: b := ne_cons b i
  have n2 : ¬ b = 0 :: b := ne_cons b 0
  have n1' : ¬ i :: b = b := fun h => ne_cons b i h.symm
  have n2' : ¬ 0 :: b = b := fun h => ne_cons b 0 h.symm
  have n3 : ¬ i :: b = 0 :: b := by simp [hidx]
  have n3' : ¬ 0 :: b = i :: b := by simp [Ne.symm hidx]
  have hni : ¬ 0 = i := Ne.symm hidx
  generalize hrr : (m b).rev ||| (BitVec.ofNat 64 i <<< (4 * (16 - l))) = rr
  by_cases hc : (m b).cnt = 0
  · have hdl : (m b).downLen = 0 := by omega
    have hcap := hd.2.2.1 hdl
    have hil : 1 ≤ i := by omega
    have e1 : allocDownsE m b = upd (upd m b { m b with cnt := 1, downLen := 1, downCap := 16 }) (0 :: b)
        { (m (0 :: b)) with level := (m b).level + 1, rev := (m b).rev, isAlias := true, state := 1 } := by
      unfold allocDownsE; rw [if_pos hcap]; simp [upd]
    have e2 : bfpLoopE r 1 l m b = (upd (upd (allocDownsE m b) b { allocDownsE m b b with downLen := i + 1, cnt := i + 1 }) (i :: b)
        { m (i :: b) with level := (m b).level + 1, rev := rr, state := 2 }, i :: b) := by
      have hg : growDowns (allocDownsE m b) b i = upd (allocDownsE m b) b { allocDownsE m b b with downLen := i + 1, cnt := i + 1 } := by
        unfold growDowns
        rw [if_pos (by rw [e1]; simp [upd, n2, hil])]
      simp only [bfpLoopE, hi, hg]
      rw [if_pos (by rw [e1]; simp [upd, n1', hidx, hlv])]
      congr 1
      congr 1
      rw [e1]
      simp [upd, n1', hidx, n2, hrr]
    rw [e2, e1]
    refine ⟨rfl, ?_⟩
    constructor
    · intro p h1 h2 h3
      simp [upd, h1, h2, h3]
    · simp [hc, upd, hni, n2']
    · simp [upd, hz]
    · simp [upd, n1, n2]; omega
  · have hcap := (hd.2.2.2 (by omega)).1
    have e1 : allocDownsE m b = m := by unfold allocDownsE; rw [if_neg (by omega)]
    by_cases hci : (m b).downLen ≤ i
    · have e2 : bfpLoopE r 1 l m b = (upd (upd m b { m b with downLen := i + 1, cnt := i + 1 }) (i :: b)
          { m (i :: b) with level := (m b).level + 1, rev := rr, state := 2 }, i :: b) := by
        have hg : growDowns m b i = upd m b { m b with downLen := i + 1, cnt := i + 1 } := by
          unfold growDowns; rw [if_pos hci]
        simp only [bfpLoopE, hi, e1, hg]
        rw [if_pos (by simp [upd, n1', hlv])]
        simp [upd, n1', hrr]
      rw [e2]
      refine ⟨rfl, ?_⟩
      constructor
      · intro p h1 h2 h3
        simp [upd, h1, h2]
      · simp [hc, upd, hni, n2']
      · simp [upd, hz]
      · simp [upd, n1, hcap]; omega
    · have e2 : bfpLoopE r 1 l m b = (upd m (i :: b)
          { m (i :: b) with level := (m b).level + 1, rev := rr, state := 2 }, i :: b) := by
        have hg : growDowns m b i = m := by unfold growDowns; rw [if_neg hci]
        simp only [bfpLoopE, hi, e1, hg]
        rw [if_pos hlv]
        simp [upd, hrr]
      rw [e2]
      refine ⟨rfl, ?_⟩
      constructor
      · intro p h1 h2 h3
        simp [upd, h1, h2]
      · simp [hc, upd, hni]
      · simp [upd, hz]
      · simp [upd, n1, hcap]; omega

theorem NewBkt_nz {m' : Path → Bkt} {b : Path} {idx : Nat} (hidx : idx ≠ 0) (nz : NZ m)
    (hV : ∀ p, V m' p ↔ V m p ∨ p = idx :: b ∨ p = 0 :: b) : NZ m' := by
  intro p hp h
  rw [hV] at h
  rcases h with h | h | h
  · obtain ⟨i, h1, h2⟩ := nz p hp h
    exact ⟨i, h1, (hV _).2 (Or.inl h2)⟩
  · simp at h; exact absurd h.1.symm hidx
  · simp at h; subst h
    exact ⟨idx, hidx, (hV _).2 (Or.inr (Or.inl rfl))⟩

theorem initMem_nz : NZ initMem := by
  intro p hp h
  rw [initMem_V] at h
  rcases h with h | ⟨i, _, h⟩
  · cases h
  · simp at h; exact absurd h.2 hp

theorem initMem_shallow : Shallow initMem := by
  intro p hp h
  rw [initMem_V] at h
  rcases h with h | ⟨i, _, h⟩
  · exact absurd h hp
  · subst h; simp

/-- A midpoint whose bucket exists already: nothing changes. -/
theorem bucketFromPoolE_old (t : TI m) (r : U64) (L : Nat) (hL : levelOf r = L) (h2 : 2 ≤ L)
    (hv : ∀ l, 1 ≤ l → l ≤ L → V m (pref r l)) : bucketFromPoolE m r = (m, pref r L) := by
  unfold bucketFromPoolE
  rw [hL]
  have := bfpE_walk t r 0 (L - 1) 1 (le_refl _) (fun j h1 h3 => hv j (by omega) (by omega))
  rw [show L - 1 + 0 = L - 1 by omega, show 1 + (L - 1) = L by omega] at this
  exact this

/-- A midpoint whose bucket does not exist. -/
theorem bucketFromPoolE_new (t : TI m) (r : U64) (L : Nat) (hL : levelOf r = L) (h2 : 2 ≤ L)
    (hv : ∀ l, 1 ≤ l → l ≤ L - 1 → V m (pref r l)) (hidx : nib r L ≠ 0) (hnv : ¬ V m (nib r L :: pref r (L - 1))) :
    ∃ m', bucketFromPoolE m r = (m', nib r L :: pref r (L - 1)) ∧ NewBkt m m' (pref r (L - 1)) (nib r L)
      ((m (pref r (L - 1))).rev ||| (BitVec.ofNat 64 (nib r L) <<< (4 * (16 - L)))) := by
  have hw : bucketFromPoolE m r = bfpLoopE r 1 L m (pref r (L - 1)) := by
    unfold bucketFromPoolE
    rw [hL]
    have := bfpE_walk t r 1 (L - 2) 1 (le_refl _) (fun j h1 h3 => hv j (by omega) (by omega))
    rw [show L - 2 + 1 = L - 1 by omega, show 1 + (L - 2) + 1 = L by omega, show 1 + (L - 2) = L - 1 by omega] at this
    exact this
  obtain ⟨h1, h3⟩ := bfpE_new t r L _ (pref_ne_nil r _ (by omega)) (hv _ (by omega) (le_refl _)) hidx hnv
  exact ⟨_, by rw [hw, ← h1], h3⟩

end SLM.Emb
