import Verif.Proofs.EmbList5
/-! The item list of embedded mode: `Set`. -/
set_option linter.unusedSimpArgs false
set_option autoImplicit false
namespace SLM.EList
open Spec (PMap)
open Emb (Pool Slot EI clrSt clrP Adj OKP CP upool Stored RelD FoundD KOK NotCrowded Placed)
variable {st st1 : Emb.St} {gl gl' A B : List Path} {n b c p : Path} {l0 : Int} {D : Node → Bool} {H : HashFns} {K : List (U64 × U64)} {s : PMap}

/-- No stored key is on a boundary that splits made, and none has the hash of ones. -/
structure Off (K : List (U64 × U64)) (bl : List Path) : Prop where
  grid : ∀ kc ∈ K, ∀ q ∈ bl, 2 ≤ q.length → (rev64 kc.1).toNat ≠ bval q
  max : ∀ kc ∈ K, kc.1 ≠ maxU64

theorem rev64_max : rev64 maxU64 = maxU64 := by decide +kernel

theorem Off.lt {bl : List Path} (h : Off K bl) {kc : U64 × U64} (hk : kc ∈ K) : rev64 kc.1 < maxU64 := by
  have h1 := h.max kc hk
  have h2 : rev64 kc.1 ≠ maxU64 := fun hc => h1 (rev64_inj (hc.trans rev64_max.symm))
  have h3 : (rev64 kc.1).toNat ≠ maxU64.toNat := fun hc => h2 (BitVec.eq_of_toNat_eq hc)
  have h4 : maxU64.toNat = 2 ^ 64 - 1 := by decide +kernel
  have := (rev64 kc.1).isLt
  rw [BitVec.lt_def]; omega

theorem lst_congr (h1 : st1.blist = st.blist) (h2 : ∀ p, plen st1.pools p = plen st.pools p) : lst D st1 = lst D st := by
  unfold lst canon
  rw [h1]
  congr 1
  apply List.flatMap_congr
  intro p _
  exact seg_congr (h2 p)

theorem lst_filter {x : Node} : (lst D st).filter (fun y => decide (y ≠ x)) =
    (lst (fun y => D y && decide (y ≠ x)) st).filter (fun y => decide (y ≠ x)) := by
  unfold lst
  rw [List.filter_filter, List.filter_filter]
  apply List.filter_congr
  intro y _
  by_cases h : y = x <;> simp [h]

theorem drop_twice {x : Node} (h : D x = false) : (fun y => D y && decide (y ≠ x)) = D := by
  funext y
  by_cases hy : y = x
  · subst hy; simp [h]
  · simp [hy]

theorem drop_again {x : Node} : (fun y => (D y && decide (y ≠ x)) && decide (y ≠ x)) = fun y => D y && decide (y ≠ x) := by
  funext y
  by_cases hy : y = x <;> simp [hy]

theorem around_filter {pre post : List Node} {m i : Nat} (h1 : Clear b pre) (h2 : Clear b post) :
    (around b pre post (List.range m)).filter (fun x => decide (x ≠ .item b i)) =
      around b pre post ((List.range m).filter (fun j => decide (j ≠ i))) := by
  have hk : ∀ l, Clear b l → l.filter (fun x => decide (x ≠ Node.item b i)) = l := by
    intro l hl
    rw [List.filter_eq_self]
    intro x hx
    have := hl x hx
    simp only [decide_eq_true_eq]
    rintro rfl
    simp [ofBucket] at this
  unfold around
  rw [List.filter_append, List.filter_append, hk _ h1, hk _ h2, List.filter_map]
  congr 3
  apply List.filter_congr
  intro j _
  simp

theorem top_lt (h : EI st gl) {d : Nat} (hd : [d] ∈ st.blist) : d < 16 := by
  have hv := ((h.bi.mem_iff [d] (by simp)).1 (h.sub _ hd)).1
  exact (h.bi.ti.val [d] (by simp) hv).2.2.2.2 d (by simp)

/-- New slot in a bucket without deleted slots. -/
theorem insert_lst (h : RelD H K st gl s) (hK : KOK st.maxPer K) {str : List (BitVec 8)} (hmem : (H.mem str, H.xx str) ∈ K)
    {P : Pool} {us : List Slot} {z : Nat} (f : FoundD st (rev64 (H.mem str)) b n P us z)
    (hno : ∀ x ∈ us, x.deleted = false → ¬ (x.rev = rev64 (H.mem str) ∧ x.conflict = H.xx str))
    (hlive : ∀ x ∈ P.arr, x.deleted = false) (v : IVal) (hD : DOk D st) {q : Pool} {i : Nat}
    (hg : Pool.getSlot 2 P (rev64 (H.mem str)) = .ok (q, i)) {st' : Emb.St}
    (hl : Emb.link (Emb.setSlot st b q i { rev := rev64 (H.mem str), conflict := H.xx str, key := str, val := v }) b (rev64 (H.mem str)) false = .ok st')
    (hE' : EI (clrSt st' 0) gl') (hoff : Off K st'.blist) :
    ∃ l1, getSlot b 2 P (rev64 (H.mem str)) (lst D st) = some l1 ∧
      link (Emb.setSlot st b q i { rev := rev64 (H.mem str), conflict := H.xx str, key := str, val := v }) b (rev64 (H.mem str)) (.item b i)
        (rev64 (H.mem str)) false l1 = some (lst D st') ∧ DOk D st' := by
  obtain ⟨hclr, hus⟩ := h.plain f hlive
  have hokp : OKP P us z := by have := f.found.okp; rwa [hclr, hus] at this
  have hulive : ∀ x ∈ us, x.deleted = false := hokp.live
  have hnr : ∀ x, Stored st x → x.rev ≠ rev64 (H.mem str) := by
    intro x hx hc
    have h1 := h.fresh hK hmem f hno x hx hc
    rw [hulive x ((f.stored_iff hc).1 hx)] at h1; cases h1
  have hnr' : ∀ x ∈ us, x.rev ≠ rev64 (H.mem str) := fun x hx => hnr x ⟨b, P, f.pool, by rw [f.cp.used]; exact hx⟩
  have hin : ∀ x ∈ us, bval b ≤ x.rev.toNat ∧ x.rev.toNat < bval n := fun x hx => f.found.inside (Emb.clr x) (List.mem_map_of_mem hx)
  have hlen : (us.length : Int) < 2 ^ 62 := by
    have h1 : (us.map (fun x => (rev64 x.rev, x.conflict))).length ≤ K.length := by
      apply List.Subperm.length_le
      apply List.subperm_of_subset
      · rw [List.Nodup, List.pairwise_map]
        refine hokp.sorted.imp ?_
        intro a b hlt hc
        injection hc with h1 _
        rw [rev64_inj h1] at hlt; exact BitVec.lt_irrefl _ hlt
      · intro y hy
        obtain ⟨x, hx, rfl⟩ := List.mem_map.1 hy
        exact h.mem x ⟨b, P, f.pool, by rw [f.cp.used]; exact hx⟩
    rw [List.length_map] at h1
    have := hK.small
    omega
  have g2 : Placed us (rev64 (H.mem str)) q i := by
    rcases hokp.getSlot (rev64 (H.mem str)) hnr' with ⟨q', i', g1, g2⟩ | ⟨g1, _⟩
    · rw [hg] at g1; injection g1 with g1; injection g1 with g1 g1'; subst g1 g1'; exact g2
    · omega
  obtain ⟨y, hy⟩ : ∃ y : Slot, y = { rev := rev64 (H.mem str), conflict := H.xx str, key := str, val := v } := ⟨_, rfl⟩
  rw [← hy] at hl ⊢
  have y1 : y.rev = rev64 (H.mem str) := by rw [hy]
  have y2 : y.conflict = H.xx str := by rw [hy]
  obtain ⟨z', hQ⟩ := g2.okp hokp y1 (by rw [hy])
  obtain ⟨Q, hQd⟩ : ∃ Q : Pool, Q = { q with arr := q.arr.set i y } := ⟨_, rfl⟩
  rw [← hQd] at hQ
  have hm : ∀ x, x ∈ us.take i ++ y :: us.drop i ↔ x = y ∨ x ∈ us := by
    intro x
    conv_rhs => rw [← List.take_append_drop i us]
    simp only [List.mem_append, List.mem_cons]; exact or_left_comm
  obtain ⟨st1, hst1⟩ : ∃ st1, st1 = Emb.setSlot st b q i y := ⟨_, rfl⟩
  rw [← hst1] at hl ⊢
  have hpl1 : st1.pools = upool st.pools b Q := by rw [hst1, hQd]; rfl
  have hbl1 : st1.blist = st.blist := by rw [hst1]; rfl
  have hmp1 : st1.maxPer = st.maxPer := by rw [hst1]; rfl
  have hb1 : st1.pools b = some Q := by rw [hpl1]; simp [upool]
  have hst : ∀ x, Stored st1 x ↔ x = y ∨ Stored st x := by
    intro x
    rw [hst1]
    unfold Emb.setSlot
    rw [Emb.stored_replace, ← hQd, hQ.used, hm, Emb.stored_split f.pool, f.cp.used]
    exact or_assoc
  have hcs : clrSt st1 0 = Emb.setSlot (clrSt st 0) b q i y := by
    rw [hst1]
    unfold Emb.setSlot clrSt
    simp only
    rw [Emb.clr_upool, ← hQd, hQ.clr]
  have hE : EI (clrSt st1 0) gl := by
    rw [hcs]
    unfold Emb.setSlot
    rw [← hQd]
    apply h.ei.replace f.found.adj hQ
    intro x hx
    rcases (hm x).1 hx with rfl | hx
    · rw [y1]; exact ⟨f.found.lo, f.found.hi⟩
    · exact hin x hx
  have hmemK : ∀ x, Stored st1 x → (rev64 x.rev, x.conflict) ∈ K := by
    intro x hx
    rcases (hst x).1 hx with rfl | hx
    · rw [y1, y2, rev64_rev64]; exact hmem
    · exact h.mem x hx
  have hcr : NotCrowded st1.maxPer (Stored (clrSt st1 0)) := by
    rw [hmp1]
    intro L h1 h2 h3
    refine hK.sparse L h1 ?_ h3
    intro r hr
    obtain ⟨x, hx, rfl⟩ := h2 r hr
    obtain ⟨x', hx', rfl⟩ := (Emb.stored_clr x).1 hx
    exact ⟨_, hmemK x' hx'⟩
  have ha1 : Adj st1.blist n b := by rw [hbl1]; exact f.found.adj
  -- the list
  have hlv := hD.live f.pool hokp
  have hD1 : DOk D st1 := by
    intro x hx
    obtain ⟨b', i', P', q1, q2, q3, q4⟩ := hD x hx
    refine ⟨b', i', P', q1, ?_, q3, q4⟩
    have n2 : b' ≠ b := by rintro rfl; rw [q1, hlv] at hx; cases hx
    rw [hpl1]; simp [upool, n2, q2]
  obtain ⟨A, B, hbl⟩ := Emb.adj_decomp h.ei.desc f.found.adj
  have hbl : st.blist = A ++ n :: b :: B := hbl
  obtain ⟨pre, post, c1, c2, hgen⟩ := lst_around hbl (desc_nodup h.ei.desc) hD hlv
  have hlP : plen st.pools b = us.length := by simp only [plen, f.pool]; rw [f.cp.len]; simp
  have hlQ : Q.len.toNat = us.length + 1 := by rw [hQd]; simp only; rw [g2.len]; omega
  have hl0 : lst D st = around b pre post (List.range us.length) := by
    have := hgen st.pools (fun _ _ => rfl) st.mem st.len
    rw [hlP] at this; exact this
  have hl1 : lst D st1 = around b pre post (List.range (us.length + 1)) := by
    have := hgen st1.pools (by intro p hp; rw [hpl1]; simp [upool, hp]) st1.mem st1.len
    rw [show plen st1.pools b = us.length + 1 by simp only [plen, hb1]; exact hlQ] at this
    rw [← this]
    exact lst_congr hbl1 (fun _ => rfl)
  refine ⟨_, by rw [hl0]; exact getSlot_around hokp _ c1 c2 hg hlen, ?_⟩
  rw [← around_filter c1 c2, ← hl1]
  have hsi : Q.slot i = y := by
    have hle := g2.le
    rw [hQ.slot (i := i) (by simp; omega)]
    rw [List.getElem_append_right (by simp)]
    simp [Nat.min_eq_left hle]
  have hi' : i < Q.len.toNat := by rw [hlQ]; have := g2.le; omega
  have hlt := hoff.lt hmem
  have hins := setInsert_lst (st := st1) hE hD1 ha1 hb1 hi' (by rw [hsi, y1]; exact hlt) (by rw [hsi, y1])
  rw [drop_twice (hlv i)] at hins
  unfold link
  rw [hins]
  simp only
  unfold Emb.link at hl
  simp only at hl
  by_cases hsp : rev64 (H.mem str) < maxU64 ∧ False = False ∧ Emb.blen st1.pools st1.mem b > st1.maxPer
  · rw [if_pos (by simpa using hsp)]
    rw [if_pos (by simpa using hsp)] at hl
    cases hmk : Emb.makeBucket2 64 st1 b with
    | error e => rw [hmk] at hl; cases hl
    | ok st2 =>
      rw [hmk] at hl
      simp only at hl
      injection hl with hl
      obtain ⟨k, hw⟩ := hE.width n b ha1
      have hk := hE.width_le ha1 hw.1
      have hbl2 : st'.blist = st2.blist := by rw [← hl]
      have hpl2 : st'.pools = st2.pools := by rw [← hl]
      obtain ⟨r1, r2⟩ := makeBucket2_lst 0 64 st1 gl n b k Q st2 hE ha1 hw (by omega) hb1 hQ.clr (by
        have := hsp.2.2; unfold Emb.blen at this; rw [hb1] at this; exact this) hcr hmk hD1 (by
        intro x hx q' hq' hq''
        have hx' := hmemK x ⟨b, Q, hb1, hx⟩
        have := hoff.grid _ hx' q' (by rw [hbl2]; exact hq') (by
          by_contra hc
          have hc : q'.length < 2 := by omega
          match q', hc with
          | [], _ =>
            obtain ⟨rest, hr⟩ := hE.head
            apply hq''
            have hr : st1.blist = [] :: rest := hr
            rw [hr]; simp
          | [d], _ =>
            by_cases hd : d < 16
            · exact hq'' (hE.tops d hd)
            · exact hd (top_lt hE' (by simp only [clrSt]; rw [hbl2]; exact hq')))
        rwa [rev64_rev64] at this)
      rw [r1]
      refine ⟨?_, ?_⟩
      · congr 1; exact (lst_congr hbl2 (fun p => by rw [hpl2])).symm
      · intro x hx
        obtain ⟨b', i', P', q1, q2, q3⟩ := r2 x hx
        exact ⟨b', i', P', q1, by rw [hpl2]; exact q2, q3⟩
  · rw [if_neg (by simpa using hsp)]
    rw [if_neg (by simpa using hsp)] at hl
    simp only at hl
    injection hl with hl
    have hbl2 : st'.blist = st1.blist := by rw [← hl]
    have hpl2 : st'.pools = st1.pools := by rw [← hl]
    refine ⟨?_, ?_⟩
    · congr 1; exact (lst_congr hbl2 (fun p => by rw [hpl2])).symm
    · intro x hx
      obtain ⟨b', i', P', q1, q2, q3⟩ := hD1 x hx
      exact ⟨b', i', P', q1, by rw [hpl2]; exact q2, q3⟩

end SLM.EList
