import Verif.Proofs.EmbList4
/-! The item list of embedded mode: splitting a bucket. -/
set_option linter.unusedSimpArgs false
set_option autoImplicit false
namespace SLM.EList
open Emb (Pool Slot EI clrSt clrP Adj OKP CP upool Width NotCrowded Stored adj_decomp prevAsB prevAsB_eq newRevE newRevE_eq mid_bucket addBucket addBucket_eq clr_upool)
variable {st st2 : Emb.St} {gl gl' A B : List Path} {n b c p : Path} {l0 : Int} {D : Node → Bool}

theorem rename_clear {idx : Nat} {l : List Node} (h : Clear c l) : l.map (renameSplit c b idx) = l := by
  conv_rhs => rw [← List.map_id l]
  apply List.map_congr_left
  intro x hx
  have := h x hx
  cases x with
  | dummy p => rfl
  | item q i =>
    simp only [ofBucket, decide_eq_false_iff_not] at this
    simp [renameSplit, this]

theorem rename_items {idx d : Nat} : ((List.range (idx + d)).map (Node.item c)).map (renameSplit c b idx) =
    (List.range idx).map (Node.item c) ++ (List.range d).map (Node.item b) := by
  rw [List.range_add, List.map_append, List.map_append]
  congr 1
  · rw [List.map_map]
    apply List.map_congr_left
    intro i hi
    have := List.mem_range.1 hi
    simp [renameSplit]; omega
  · rw [List.map_map, List.map_map]
    apply List.map_congr_left
    intro i hi
    simp [renameSplit]

theorem addDummy_lst (h2 : EI (clrSt st2 l0) gl') (hD : DOk D st) (hbl : st.blist = A ++ n :: c :: B)
    (hbl2 : st2.blist = A ++ n :: b :: c :: B) (hlc : ∀ i, D (.item c i) = false) (hlb : ∀ i, D (.item b i) = false)
    (hcne : c ≠ []) (hbne : b ≠ []) (hcb : bval c < bval b) (hbn : bval b < bval n) {L H : Pool} {idx d : Nat}
    (hpools : st2.pools = upool (upool st.pools c L) b H) (hL : L.len.toNat = idx) (hH : H.len.toNat = d) (hd : 0 < d)
    (hP : plen st.pools c = idx + d) (hoff : (H.slot 0).rev.toNat ≠ bval b) :
    addDummy st2 st.blist b ((lst D st).map (renameSplit c b idx)) = some (lst D st2) := by
  have hd2 : (A ++ n :: b :: c :: B).Pairwise (fun p q => bval q < bval p) := hbl2 ▸ h2.desc
  have hsub : ∀ q ∈ A ++ n :: b :: c :: B, q ∈ gl' := fun q hq => h2.sub q (by simp only [clrSt]; rw [hbl2]; exact hq)
  have hnd : (A ++ n :: b :: c :: B).Nodup := desc_nodup hd2
  have hcb' : c ≠ b := by rintro rfl; omega
  have hnotB : c ∉ B ∧ b ∉ B := by
    rw [List.nodup_append] at hnd
    obtain ⟨_, q2, _⟩ := hnd
    simp only [List.nodup_cons, List.mem_cons, not_or] at q2
    exact ⟨q2.2.2.1, q2.2.1.2⟩
  have hnotA : c ∉ n :: A ∧ b ∉ n :: A := by
    rw [List.nodup_append] at hnd
    obtain ⟨_, q2, q3⟩ := hnd
    simp only [List.nodup_cons, List.mem_cons, not_or] at q2
    refine ⟨?_, ?_⟩
    · simp only [List.mem_cons, not_or]
      exact ⟨fun e => q2.1.2.1 e.symm, fun e => q3 c e c (by simp) rfl⟩
    · simp only [List.mem_cons, not_or]
      exact ⟨fun e => q2.1.1 e.symm, fun e => q3 b e b (by simp) rfl⟩
  have hpl : ∀ p, p ≠ c → p ≠ b → plen st2.pools p = plen st.pools p := by
    intro p e1 e2
    unfold plen; rw [hpools]; simp [upool, e1, e2]
  have hplc : plen st2.pools c = idx := by unfold plen; rw [hpools]; simp [upool, hcb', hL]
  have hplb : plen st2.pools b = d := by unfold plen; rw [hpools]; simp [upool, hH]
  have hpb : st2.pools b = some H := by rw [hpools]; simp [upool]
  have hpc : st2.pools c = some L := by rw [hpools]; simp [upool, hcb']
  have hlo : lo st2.pools B = lo st.pools B := lo_congr (fun p hp => hpl p (by rintro rfl; exact hnotB.1 hp) (by rintro rfl; exact hnotB.2 hp))
  have hhi : hi st2.pools n A = hi st.pools n A := hi_congr (fun p hp => hpl p (by rintro rfl; exact hnotA.1 hp) (by rintro rfl; exact hnotA.2 hp))
  -- the two lists
  obtain ⟨L0, hL0⟩ : ∃ L0, L0 = (lo st.pools B).filter (fun x => !D x) := ⟨_, rfl⟩
  obtain ⟨H0, hH0⟩ : ∃ H0, H0 = (hi st.pools n A).filter (fun x => !D x) := ⟨_, rfl⟩
  have keep : ∀ (q : Path) (m : Nat), (∀ i, D (.item q i) = false) →
      (Node.dummy q :: (List.range m).map (Node.item q)).filter (fun x => !D x) = Node.dummy q :: (List.range m).map (Node.item q) := by
    intro q m hq
    rw [List.filter_eq_self]
    intro x hx
    rcases List.mem_cons.1 hx with rfl | hx
    · rw [hD.dummy]; rfl
    · obtain ⟨i, _, rfl⟩ := List.mem_map.1 hx
      rw [hq]; rfl
  have hseg : ∀ p, p ≠ c → Clear c (seg st.pools p) := by
    intro p hp x hx
    rcases mem_seg.1 hx with rfl | ⟨i, _, rfl⟩
    · rfl
    · simp [ofBucket, hp]
  have cl1 : Clear c L0 := by
    intro x hx
    rw [hL0] at hx
    obtain ⟨p, hp, hx⟩ := mem_lo.1 (List.mem_of_mem_filter hx)
    exact hseg p (by rintro rfl; exact hnotB.1 hp) x hx
  have cl2 : Clear c H0 := by
    intro x hx
    rw [hH0] at hx
    obtain ⟨p, hp, hx⟩ := mem_hi.1 (List.mem_of_mem_filter hx)
    exact hseg p (by rintro rfl; exact hnotA.1 hp) x hx
  have e1 : (lst D st).map (renameSplit c b idx) =
      (L0 ++ Node.dummy c :: (List.range idx).map (Node.item c)) ++ Node.item b 0 :: ((List.range' 1 (d - 1)).map (Node.item b) ++ H0) := by
    unfold lst
    rw [canon_eq hbl, List.filter_append, List.filter_append, seg, hP, keep c _ hlc, ← hL0, ← hH0]
    rw [List.map_append, List.map_append, rename_clear cl1, rename_clear cl2, List.map_cons, rename_items]
    obtain ⟨d', rfl⟩ : ∃ d', d = d' + 1 := ⟨d - 1, by omega⟩
    rw [show List.range (d' + 1) = 0 :: List.range' 1 d' by rw [List.range_eq_range', List.range'_succ]]
    simp [renameSplit]
  have e2 : lst D st2 =
      (L0 ++ Node.dummy c :: (List.range idx).map (Node.item c)) ++ Node.dummy b :: Node.item b 0 :: ((List.range' 1 (d - 1)).map (Node.item b) ++ H0) := by
    unfold lst
    rw [canon_eq (A := A ++ [n]) (n := b) (b := c) (B := B) (by rw [hbl2]; simp), List.filter_append, List.filter_append, hlo, seg, hplc, keep c _ hlc, ← hL0]
    have : hi st2.pools b (A ++ [n]) = seg st2.pools b ++ hi st2.pools n A := by
      unfold hi; simp
    rw [this, hhi, List.filter_append, seg, hplb, keep b _ hlb, ← hH0]
    obtain ⟨d', rfl⟩ : ∃ d', d = d' + 1 := ⟨d - 1, by omega⟩
    rw [show List.range (d' + 1) = 0 :: List.range' 1 d' by rw [List.range_eq_range', List.range'_succ]]
    simp
  have bic : BI st2.mem gl' := h2.bi
  have hAn : ∀ x ∈ A ++ [n], decide ((st2.mem x).rev > (st2.mem b).rev) = true := by
    intro x hx
    have : bval n ≤ bval x := by
      rcases List.mem_append.1 hx with h | h
      · exact Nat.le_of_lt ((List.pairwise_append.1 hd2).2.2 x h n (by simp))
      · simp at h; subst h; exact le_refl _
    have := (bic.rev_lt_iff (hsub b (by simp)) (hsub x (by simp at hx ⊢; tauto))).2 (by omega)
    simpa using this
  have hlt : (st2.mem c).rev < (st2.mem b).rev := (bic.rev_lt_iff (hsub c (by simp)) (hsub b (by simp))).2 hcb
  have hcd : decide ((st2.mem c).rev > (st2.mem b).rev) = false := by
    simp only [decide_eq_false_iff_not]; bv_omega
  have hbase : basePath st2.mem c = c := Emb.basePath_self bic (hsub c (by simp)) hcne
  have hdrop : st.blist.dropWhile (fun q => decide ((st2.mem q).rev > (st2.mem b).rev)) = c :: B := by
    rw [hbl, show A ++ n :: c :: B = (A ++ [n]) ++ c :: B by simp, List.dropWhile_append_of_pos hAn]
    simp only [List.dropWhile_cons, hcd]
    rfl
  have hdc := dummy_rev h2 (p := c) (by rw [hbl2]; simp) hcne
  have hdb := dummy_rev h2 (p := b) (by rw [hbl2]; simp) hbne
  have ha1 : Adj st2.blist n b := by
    rw [hbl2]
    exact Emb.adj_of_decomp hd2
  have ha2 : Adj st2.blist b c := by
    rw [hbl2, show A ++ n :: b :: c :: B = (A ++ [n]) ++ b :: c :: B by simp] at *
    exact Emb.adj_of_decomp hd2
  unfold addDummy
  rw [hdrop]
  simp only
  rw [if_neg (by intro hc; rw [hc] at hlt; exact BitVec.lt_irrefl _ hlt), hbase, e1, e2, if_neg (by simp)]
  congr 1
  apply add2_eq
  · intro hc
    rcases List.mem_append.1 hc with hc | hc
    · rw [hL0] at hc
      obtain ⟨p, hp, hx⟩ := mem_lo.1 (List.mem_of_mem_filter hc)
      rcases mem_seg.1 hx with hx | ⟨i, _, hx⟩
      · cases hx
      · injection hx with hx; subst hx; exact hnotB.2 hp
    · simp [hcb'] at hc
  · simp
  · intro x hx
    rw [BitVec.le_def, hdb]
    rcases List.mem_append.1 hx with hx | hx
    · rw [hL0, ← hlo] at hx
      have := lo_bounds (A := A ++ [n]) (n := b) (b := c) (B := B) h2 (by rw [hbl2]; simp) (List.mem_of_mem_filter hx)
      omega
    · rcases List.mem_cons.1 hx with rfl | hx
      · rw [hdc]; omega
      · obtain ⟨i, hi, rfl⟩ := List.mem_map.1 hx
        have := item_bounds h2 ha2 hpc (i := i) (by rw [hL]; exact List.mem_range.1 hi)
        simp only [revOf, hpc]; omega
  · have := item_bounds h2 ha1 hpb (i := 0) (by omega)
    rw [BitVec.lt_def, hdb]
    simp only [revOf, hpb]; omega

theorem addBucket_sub {m : Path → Bkt} {bl : List Path} : ∀ q ∈ bl, q ∈ Emb.addBucket m bl b := by
  intro q hq
  unfold Emb.addBucket
  simp only
  split
  · exact hq
  · rename_i t lo ht
    split
    · exact hq
    · rw [← List.takeWhile_append_dropWhile (p := fun q => decide ((m q).rev > (m b).rev)) (l := bl), ht] at hq
      simp at hq ⊢
      tauto

theorem makeBucket2_sub : ∀ (fuel : Nat) (st st' : Emb.St) (c : Path), Emb.makeBucket2 fuel st c = .ok st' →
    ∀ q ∈ st.blist, q ∈ st'.blist := by
  intro fuel
  induction fuel with
  | zero => intro st st' c h; simp [Emb.makeBucket2] at h
  | succ fuel ih =>
    intro st st' c h q hq
    simp only [Emb.makeBucket2] at h
    repeat' split at h
    all_goals first
      | (injection h with h; subst h; exact hq)
      | (cases h; done)
      | exact ih _ _ _ h q (addBucket_sub q hq)
      | (injection h with h; subst h; exact addBucket_sub q hq)

theorem makeBucket2_lst (l : Int) : ∀ (fuel : Nat) (st : Emb.St) (gl : List Path) (n c : Path) (k : Nat) (P : Pool) (st' : Emb.St),
    EI (clrSt st l) gl → Adj st.blist n c → Width gl n c k → k ≤ fuel → st.pools c = some P → clrP P = P →
    P.len > st.maxPer → NotCrowded st.maxPer (Stored (clrSt st l)) → Emb.makeBucket2 fuel st c = .ok st' → DOk D st →
    (∀ s ∈ P.used, ∀ q ∈ st'.blist, q ∉ st.blist → s.rev.toNat ≠ bval q) →
    makeBucket2 fuel st c (lst D st) = some (lst D st') ∧ DOk D st' := by
  intro fuel
  induction fuel with
  | zero =>
    intro st gl n c k P st' h ha hw hk
    have := hw.2.2.1; omega
  | succ fuel ih =>
    intro st gl n c k P st' h ha hw hfu hP hclr hlen hcr hmk hD hoff
    have hP' : (clrSt st l).pools c = some P := by simp [clrSt, hP, hclr]
    have ha' : Adj (clrSt st l).blist n c := ha
    have h5 := h.wide hcr ha' hw hP' hlen
    have hcn := h.adj_ne ha'
    obtain ⟨A, B, hbl⟩ := adj_decomp h.desc ha'
    have hbl' : st.blist = A ++ n :: c :: B := hbl
    obtain ⟨P', xs, z, g1, g2, g3⟩ := h.content n c ha'
    rw [hP'] at g1; injection g1 with g1; subst g1
    have hprev : prevAsB st.blist c = n := by rw [hbl']; exact prevAsB_eq (hbl ▸ h.desc)
    have hnr := newRevE_eq h.bi (h.sub n ha.1) (h.sub c ha.2.1) hcn hw.1 hw.2.1 (by omega)
    have hmm : (clrSt st l).mem = st.mem := rfl
    rw [hmm] at hnr
    generalize hnrr : newRevE (st.mem n).rev (st.mem c).rev = nr at hnr
    have h2k : 2 ^ k / 2 < 2 ^ k ∧ 0 < 2 ^ k / 2 := by
      obtain ⟨j, rfl⟩ : ∃ j, k = j + 1 := ⟨k - 1, by omega⟩
      rw [pow_succ]; have := Nat.two_pow_pos j; omega
    obtain ⟨m1, b, gl', e1, hbi, hnz, hsh, hbn, hbgl, hbv, hbr, hgl⟩ := mid_bucket h ha' hw h5 hnr hcn
    rw [hmm] at e1
    have hkk := hw.1
    have hnr0 : nr ≠ 0 := by
      rintro rfl; simp at hnr; omega
    have hnin : b ∉ st.blist := by
      intro hb
      have := ha.2.2.2 b hb
      omega
    have hbasec : basePath m1 c = c := Emb.basePath_self hbi ((hgl c).2 (Or.inl (h.sub c ha.2.1))) hcn
    have hbaseb : basePath m1 b = b := Emb.basePath_self hbi hbgl hbn
    have hng : ¬ ((m1 b).rev = 0 ∧ (m1 b).level > 1) := by rintro ⟨h0, _⟩; exact hnr0 (hbr ▸ h0)
    simp only [Emb.makeBucket2] at hmk
    rw [hprev, hnrr, if_neg hnr0, e1] at hmk
    simp only [hng, if_false] at hmk
    rw [if_neg hnin, hbasec, hP] at hmk
    simp only at hmk
    simp only [makeBucket2]
    rw [hprev, hnrr, if_neg hnr0, e1]
    simp only [hng, if_false]
    rw [if_neg hnin, hbasec, hP]
    simp only
    rcases g2.firstGE nr with ⟨i, f1, f2, f3, f4⟩ | ⟨f1, f2⟩
    · unfold Pool.findIdx at hmk ⊢
      rw [f1] at hmk ⊢
      cases i with
      | zero => injection hmk with hmk; subst hmk; exact ⟨rfl, hD⟩
      | succ i =>
        simp only at hmk ⊢
        obtain ⟨hE, a1, a2, w1, w2⟩ := h.linked ha' hw h5 hbi hnz hsh hbn (by rw [hbv, hnr]) hgl hbl hP' g2 g3 f2 (by omega)
          (by intro s hs; have := f3 s hs; rw [hbv]; bv_omega) (by intro s hs; have := f4 s hs; rw [hbv]; bv_omega)
        have hadd : addBucket m1 st.blist b = A ++ n :: b :: c :: B := by
          rw [hbl']
          exact addBucket_eq hbi (hbl ▸ h.desc) (fun p hp => (hgl p).2 (Or.inl (h.sub p (hbl ▸ hp)))) hbgl (by omega) (by omega)
        rw [hadd, hbaseb] at hmk ⊢
        have hcneb : c ≠ b := by rintro rfl; exact hnin ha.2.1
        obtain ⟨ok1, ok2⟩ := g2.split f2 (by omega)
        obtain ⟨st2, hst2⟩ : ∃ st2 : Emb.St, st2 = { st with mem := m1, pools := upool (upool st.pools c (P.split (i + 1)).1) b (P.split (i + 1)).2, blist := A ++ n :: b :: c :: B } := ⟨_, rfl⟩
        have hst2' : ({ clrSt st l with mem := m1, pools := upool (upool (clrSt st l).pools c (P.split (i + 1)).1) b (P.split (i + 1)).2, blist := A ++ n :: b :: c :: B } : Emb.St) = clrSt st2 l := by
          rw [hst2]
          unfold clrSt
          simp only
          rw [clr_upool, clr_upool, ok1.clr, ok2.clr]
        rw [hst2'] at hE
        rw [← hst2] at hmk ⊢
        have hpl : st2.pools = upool (upool st.pools c (P.split (i + 1)).1) b (P.split (i + 1)).2 := by rw [hst2]
        have hstc : ∀ s, Stored (clrSt st2 l) s → Stored (clrSt st l) s := by
          rintro s ⟨p, Q, hQ, hs⟩
          rw [← hst2'] at hQ
          simp only [upool] at hQ
          by_cases e1 : p = b
          · rw [if_pos e1] at hQ; injection hQ with hQ; subst hQ
            rw [ok2.used] at hs
            exact ⟨c, P, hP', by rw [g2.used]; exact List.mem_of_mem_drop hs⟩
          · rw [if_neg e1] at hQ
            by_cases e2 : p = c
            · rw [if_pos e2] at hQ; injection hQ with hQ; subst hQ
              rw [ok1.used] at hs
              exact ⟨c, P, hP', by rw [g2.used]; exact List.mem_of_mem_take hs⟩
            · rw [if_neg e2] at hQ
              exact ⟨p, Q, hQ, hs⟩
        have hmp : st2.maxPer = st.maxPer := by rw [hst2]
        have hbl2 : st2.blist = A ++ n :: b :: c :: B := by rw [hst2]
        have hcr' : NotCrowded st2.maxPer (Stored (clrSt st2 l)) := by
          rw [hmp]
          intro L hL h1 h2
          refine hcr L hL (fun r hr => ?_) h2
          obtain ⟨s, x1, x2⟩ := h1 r hr
          exact ⟨s, hstc s x1, x2⟩
        have hnp : st.pools b = none := by
          cases hc : st.pools b with
          | none => rfl
          | some Q => exact absurd (h.pool b (by simp [clrSt, hc])).1 hnin
        have hlc := hD.live hP g2
        have hlb : ∀ i, D (.item b i) = false := by
          intro i
          cases hc : D (.item b i) with
          | false => rfl
          | true =>
            obtain ⟨b', i', P', q1, q2, _⟩ := hD _ hc
            injection q1 with q1 _; subst q1
            rw [hnp] at q2; cases q2
        have hD2 : DOk D st2 := by
          intro x hx
          obtain ⟨b', i', P', q1, q2, q3, q4⟩ := hD x hx
          refine ⟨b', i', P', q1, ?_, q3, q4⟩
          have n1 : b' ≠ b := by rintro rfl; rw [q1, hlb] at hx; cases hx
          have n2 : b' ≠ c := by rintro rfl; rw [q1, hlc] at hx; cases hx
          rw [hpl]; simp [upool, n1, n2, q2]
        have hsubst : ∀ q ∈ st2.blist, q ∈ st'.blist := by
          intro q hq
          split at hmk
          · exact makeBucket2_sub _ _ _ _ hmk q hq
          · split at hmk
            · exact makeBucket2_sub _ _ _ _ hmk q hq
            · injection hmk with hmk; subst hmk; exact hq
        have hlenP : P.len.toNat = xs.length := by rw [g2.len]; simp
        have hlen1 : (P.split (i + 1)).1.len.toNat = i + 1 := by rw [ok1.len]; simp; omega
        have hlen2 : (P.split (i + 1)).2.len.toNat = xs.length - (i + 1) := by rw [ok2.len]; simp
        have hs0 : (P.split (i + 1)).2.slot 0 ∈ P.used := by
          rw [ok2.slot (i := 0) (by simp; omega), g2.used]
          exact List.mem_of_mem_drop (List.getElem_mem _)
        have hl2 := addDummy_lst (st := st) (st2 := st2) hE hD hbl' hbl2 hlc hlb hcn hbn (by omega) (by omega) hpl hlen1 hlen2 (by omega)
          (by simp only [plen, hP, hlenP]; omega)
          (hoff _ hs0 b (hsubst b (by rw [hbl2]; simp)) hnin)
        rw [hl2]
        simp only
        have hsb : ∀ q ∈ st'.blist, q ∉ st2.blist → q ∉ st.blist := by
          intro q _ hq hc
          apply hq
          rw [hbl2]; rw [hbl'] at hc
          simp at hc ⊢; tauto
        split at hmk
        · rename_i hhi
          rw [if_pos hhi]
          exact ih st2 gl' n b (k - 1) (P.split (i + 1)).2 st' hE (hbl2 ▸ a1) w1 (by omega)
            (by rw [hpl]; simp [upool]) ok2.clr (by rw [hmp]; exact hhi) hcr' hmk hD2
            (by intro s hs q hq hq'
                rw [ok2.used] at hs
                exact hoff s (by rw [g2.used]; exact List.mem_of_mem_drop hs) q hq (hsb q hq hq'))
        · rename_i hhi
          rw [if_neg hhi]
          split at hmk
          · rename_i hlo
            rw [if_pos hlo]
            exact ih st2 gl' b c (k - 1) (P.split (i + 1)).1 st' hE (hbl2 ▸ a2) w2 (by omega)
              (by rw [hpl]; simp [upool, hcneb]) ok1.clr (by rw [hmp]; exact hlo) hcr' hmk hD2
              (by intro s hs q hq hq'
                  rw [ok1.used] at hs
                  exact hoff s (by rw [g2.used]; exact List.mem_of_mem_take hs) q hq (hsb q hq hq'))
          · rename_i hlo
            rw [if_neg hlo]
            injection hmk with hmk; subst hmk
            exact ⟨rfl, hD2⟩
    · unfold Pool.findIdx at hmk ⊢
      rw [f1] at hmk ⊢
      injection hmk with hmk; subst hmk; exact ⟨rfl, hD⟩

end SLM.EList
