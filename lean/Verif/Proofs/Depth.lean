import Verif.Proofs.Count
/-! How fine the bucket intervals can become: after `d` splits every boundary is a multiple of `2^(60-d)`. -/
set_option autoImplicit false
namespace SLM
open History

/-- Number of buckets beyond the initial 17. -/
def splits (st : St) : Nat := st.blist.length - 17

/-- Every interval is at least `2^(60-d)` long, and every boundary a multiple of it. -/
structure Coarse (bl : List Path) (d : Nat) : Prop where
  dvd : ∀ p ∈ bl, 2 ^ (60 - d) ∣ bval p
  gap : bl.IsChain (fun n c => bval c + 2 ^ (60 - d) ≤ bval n)

theorem Coarse.mono {bl : List Path} {d d' : Nat} (h : Coarse bl d) (hd : d ≤ d') : Coarse bl d' := by
  have hle : 2 ^ (60 - d') ≤ 2 ^ (60 - d) := Nat.pow_le_pow_right (by omega) (by omega)
  refine ⟨fun p hp => dvd_trans (pow_dvd_pow 2 (by omega)) (h.dvd p hp), h.gap.imp ?_⟩
  intro a b hab; omega

theorem Coarse.split {A B : List Path} {n b c : Path} {d : Nat} (h : Coarse (A ++ n :: c :: B) d) (hd : d < 60)
    (hm : 2 * bval b = bval c + bval n) : Coarse (A ++ n :: b :: c :: B) (d + 1) := by
  have hpow : 2 ^ (60 - d) = 2 * 2 ^ (60 - (d + 1)) := by
    rw [← pow_succ']; congr 1; omega
  have hg := List.isChain_append.1 h.gap
  have hg2 := List.isChain_cons_cons.1 hg.2.1
  obtain ⟨x, hx⟩ := h.dvd c (by simp)
  obtain ⟨y, hy⟩ := h.dvd n (by simp)
  have hgap := hg2.1
  have h1 := h.mono (Nat.le_succ d)
  constructor
  · intro p hp
    by_cases hpb : p = b
    · subst hpb
      refine ⟨x + y, ?_⟩
      have : 2 * bval p = 2 * (2 ^ (60 - (d + 1)) * (x + y)) := by rw [hm, hx, hy, hpow]; ring
      omega
    · apply h1.dvd p
      simp only [List.mem_append, List.mem_cons] at hp ⊢
      tauto
  · have h1g := List.isChain_append.1 h1.gap
    apply List.isChain_append.2
    refine ⟨h1g.1, ?_, ?_⟩
    · rw [List.isChain_cons_cons, List.isChain_cons_cons]
      refine ⟨?_, ?_, (List.isChain_cons_cons.1 h1g.2.1).2⟩
      · omega
      · omega
    · intro p hp q hq
      exact h1g.2.2 p hp q (by simpa using hq)

theorem split_new_len {mid st' : St} {A B : List Path} {n b c : Path} (h : NewBucket mid st' A B n b c) :
    st'.blist.length = mid.blist.length + 1 := by
  rw [h.new, h.old]; simp; omega

set_option maxRecDepth 20000 in
theorem coarse_init (cfg : Cfg) : Coarse (initSt cfg).blist 0 := by
  rw [initSt_blist]
  constructor
  · intro p hp
    simp only [List.mem_cons, List.mem_map, List.mem_range] at hp
    rcases hp with rfl | ⟨i, hi, rfl⟩
    · rw [bval_nil]; exact pow_dvd_pow 2 (by omega)
    · rw [bval_top]; exact Dvd.intro_left _ rfl
  · decide +kernel

theorem splits_init (cfg : Cfg) : (initSt cfg).blist.length = 17 := by rw [initSt_blist]; simp

/-- State of the split counter after `n` insertions. -/
structure DepthInv (st : St) (n : Nat) : Prop where
  len : 17 ≤ st.blist.length
  coarse : splits st < 60 → Coarse st.blist (splits st)
  few : (splits st = 0 ∧ ∀ p, (st.mem p).len ≤ n) ∨ (splits st : Int) ≤ n - st.maxPer

theorem EqL_refl_len (m : Path → Bkt) (p q : Path) (x : Int) : (upd m p { m p with len := x } q).len = if q = p then x else (m q).len := by
  unfold upd; split <;> simp_all

theorem step_depth (E : Env) {st : St} (h : Inv st) {n : Nat} (hd : DepthInv st n) (op : Op) :
    DepthInv (step E st op).1 (n + (if (storeHash E.H op).isSome then 1 else 0)) ∧ (step E st op).1.maxPer = st.maxPer := by
  have weak : ∀ st' : St, st'.blist = st.blist → st'.mem = st.mem → st'.maxPer = st.maxPer → ∀ k,
      DepthInv st' (n + k) ∧ st'.maxPer = st.maxPer := by
    intro st' h1 h2 h3 k
    have hs : splits st' = splits st := by unfold splits; rw [h1]
    refine ⟨⟨by rw [h1]; exact hd.len, by rw [hs, h1]; exact hd.coarse, ?_⟩, h3⟩
    rw [hs, h2, h3]
    rcases hd.few with ⟨ha, hb⟩ | ha
    · exact Or.inl ⟨ha, fun p => by have := hb p; push_cast; omega⟩
    · right; push_cast; omega
  rcases step_eff E h op with x | ⟨e, nv, b, x⟩ | ⟨key, e, x⟩ | ⟨st2, k, c, e, x⟩
  · obtain ⟨b, hb⟩ := x.same
    rw [hb]; exact weak { st with pool := b } rfl rfl rfl _
  · rw [x.res]; exact weak { st with items := setVal e.ref nv st.items } rfl rfl rfl _
  · rw [x.res]; exact weak { st with items := markDeleted st.itemFn e.ref st.items } rfl rfl rfl _
  · have hh : (storeHash E.H op).isSome = true := by rw [x.hash]; rfl
    simp only [hh, if_true]
    have hmax : (step E st op).1.maxPer = st.maxPer := by rw [(grow_len x.grow).2]; exact x.maxPer
    refine ⟨?_, hmax⟩
    have hlen2 : ∀ p, ((setMid st2 k (findBucket st.mem (rev64 k)) e).mem p).len ≤ (st.mem p).len + 1 := by
      intro p
      unfold setMid
      simp only [x.mem]
      split
      · rw [EqL_refl_len]; split
        · subst_vars; omega
        · omega
      · omega
    have hsn := x.setNew
    rw [setNew_eq] at hsn
    split at hsn
    · rename_i hgt
      have hgt' : st.maxPer < ((setMid st2 k (findBucket st.mem (rev64 k)) e).mem (findBucket st.mem (rev64 k))).len := by
        rw [← x.maxPer]; exact hgt
      have hfew1 : (1 : Int) + splits st ≤ (n + 1 : Nat) - st.maxPer ∨ (splits st : Int) + 1 ≤ (n + 1 : Nat) - st.maxPer := by
        rcases hd.few with ⟨ha, hb⟩ | ha
        · left
          have h1 := hlen2 (findBucket st.mem (rev64 k))
          have h2 := hb (findBucket st.mem (rev64 k))
          rw [ha]; push_cast; omega
        · right; push_cast; omega
      have hfew2 : (splits st : Int) + 1 ≤ (n + 1 : Nat) - st.maxPer := by omega
      rcases x.grow with hg | ⟨A, B, nn, b, c', hb⟩
      · have hbl : (step E st op).1.blist = st.blist := by rw [hg]; exact x.blist
        have hs : splits (step E st op).1 = splits st := by unfold splits; rw [hbl]
        refine ⟨by rw [hbl]; exact hd.len, by rw [hs, hbl]; exact hd.coarse, ?_⟩
        right; rw [hs, hmax]; omega
      · have hblm : (setMid st2 k (findBucket st.mem (rev64 k)) e).blist = st.blist := x.blist
        have hl := split_new_len hb
        rw [hblm] at hl
        have hs : splits (step E st op).1 = splits st + 1 := by
          unfold splits; rw [hl]; have := hd.len; omega
        refine ⟨by rw [hl]; have := hd.len; omega, ?_, ?_⟩
        · intro hlt
          rw [hs] at hlt ⊢
          rw [hb.new]
          apply Coarse.split
          · rw [← hb.old, hblm]; exact hd.coarse (by omega)
          · omega
          · exact hb.mid
        · right; rw [hs, hmax]; push_cast; push_cast at hfew2; omega
    · injection hsn with hsn
      have hbl : (step E st op).1.blist = st.blist := by rw [← hsn]; exact x.blist
      have hs : splits (step E st op).1 = splits st := by unfold splits; rw [hbl]
      refine ⟨by rw [hbl]; exact hd.len, by rw [hs, hbl]; exact hd.coarse, ?_⟩
      rw [hs, hmax]
      rcases hd.few with ⟨ha, hb⟩ | ha
      · refine Or.inl ⟨ha, fun p => ?_⟩
        rw [← hsn]
        have h1 := hlen2 p
        have h2 := hb p
        push_cast; omega
      · right; push_cast; omega

theorem depth_init (cfg : Cfg) : DepthInv (initSt cfg) 0 := by
  have hs : splits (initSt cfg) = 0 := by unfold splits; rw [splits_init]
  refine ⟨by rw [splits_init], fun _ => by rw [hs]; exact coarse_init cfg, Or.inl ⟨hs, ?_⟩⟩
  intro p
  rw [initSt_mem]
  match p with
  | [] => simp [initMem]
  | [i] => by_cases hi : i < 16 <;> simp [initMem, hi]
  | _ :: _ :: _ => simp [initMem]

/-- A boundary that is a multiple of `2^j` is the reversal of a hash below `2^(64-j)`. -/
theorem hash_lt_of_dvd {k : U64} {j : Nat} (hj : j ≤ 64) (h : 2 ^ j ∣ (rev64 k).toNat) : k.toNat < 2 ^ (64 - j) := by
  by_contra hc
  obtain ⟨i, hi, hb⟩ := Nat.exists_ge_and_testBit_of_ge_two_pow (Nat.le_of_not_lt hc)
  have hi64 : i < 64 := by
    by_contra h2
    have := Nat.testBit_lt_two_pow (Nat.lt_of_lt_of_le k.isLt (Nat.pow_le_pow_right (by omega) (Nat.le_of_not_lt h2)))
    rw [this] at hb; cases hb
  have h1 : (rev64 k).toNat.testBit (63 - i) = true := by
    have : k.getLsbD i = true := hb
    have h3 : (rev64 k).getLsbD (63 - i) = true := by
      unfold rev64
      rw [BitVec.getLsbD_reverse, BitVec.getMsbD_eq_getLsbD]
      simp only [show 63 - i < 64 by omega, decide_true, Bool.true_and]
      rw [show 64 - 1 - (63 - i) = i by omega]; exact this
    exact h3
  obtain ⟨x, hx⟩ := h
  rw [hx, Nat.testBit_two_pow_mul] at h1
  simp only [Bool.and_eq_true, decide_eq_true_eq] at h1
  omega

end SLM
