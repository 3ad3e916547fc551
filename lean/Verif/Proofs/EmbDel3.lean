import Verif.Proofs.EmbDel2
/-! Purge of a bucket's last slot, and the two ways of storing a new key. -/
set_option linter.unusedSimpArgs false
set_option autoImplicit false
namespace SLM.Emb
open Spec (PMap Ans)
variable {bl gl : List Path} {n c b : Path} {m : Path → Bkt} {st : St} {H : HashFns} {K : List (U64 × U64)} {s : PMap}

/-- Purge of the last slot, the slot before it being live. -/
theorem RelD.purgeLast (h : RelD H K st gl s) {k cc : U64} {P : Pool} {us : List Slot} {z : Nat} (f : FoundD st (rev64 k) b n P us z)
    {i : Nat} (hi : i < us.length) (e1 : (us[i]).rev = rev64 k) (e2 : (us[i]).conflict = cc) (hl : i + 1 = us.length)
    (hprev : 0 < i → (P.slot (i - 1)).deleted = false) :
    RelD H K { st with pools := upool st.pools b ({ arr := P.arr.set i { us[i] with deleted := true }, len := P.len - 1 } : Pool).shrinkLen } gl
      (s.del (k, cc)) := by
  obtain ⟨y, hy⟩ : ∃ y, y = ({ us[i] with deleted := true } : Slot) := ⟨_, rfl⟩
  rw [← hy]
  have hlen : P.len = (i : Int) + 1 := by rw [f.cp.len]; omega
  have hcap := f.cp.cap
  have hsh : ({ arr := P.arr.set i y, len := P.len - 1 } : Pool).shrinkLen = { arr := P.arr.set i y, len := i } := by
    unfold Pool.shrinkLen
    simp only
    rw [if_neg]
    · rw [hlen]; simp
    · rintro ⟨h1, h2⟩
      rw [hlen] at h1 h2
      have hi0 : 0 < i := by omega
      have := hprev hi0
      unfold Pool.slot at this h2
      simp only at h2
      rw [show ((i : Int) + 1 - 1 - 1).toNat = i - 1 by omega, List.getD_eq_getElem?_getD,
        List.getElem?_set_ne (by omega), ← List.getD_eq_getElem?_getD, this] at h2
      cases h2
  rw [hsh]
  obtain ⟨Q, hQ⟩ : ∃ Q : Pool, Q = { arr := P.arr.set i y, len := i } := ⟨_, rfl⟩
  rw [← hQ]
  have htake : P.arr.take i = us.take i := by
    have := congrArg (List.take i) f.cp.arr
    rwa [List.take_take, Nat.min_eq_left (by omega)] at this
  have hused : Q.used = us.take i := by
    rw [hQ]; unfold Pool.used; simp only [Int.toNat_natCast]
    rw [List.take_set_of_le (le_refl _), htake]
  have hclr : clrP Q = { arr := (us.take i).map clr ++ List.replicate (z + 1) ({} : Slot), len := i } := by
    have hu := hused
    rw [hQ] at hu ⊢
    unfold Pool.used at hu
    unfold clrP
    simp only [Int.toNat_natCast] at hu ⊢
    rw [hu, List.length_set, show P.arr.length - i = z + 1 by omega]
  have hokp : OKP (clrP Q) ((us.take i).map clr) (z + 1) := by
    rw [hclr]
    refine ⟨rfl, by simp only [List.length_map, List.length_take]; rw [Nat.min_eq_left (by omega)], ?_, ?_, fun _ => by omega⟩
    · have := f.cp.okp.sorted
      rw [List.pairwise_map] at this ⊢
      exact this.sublist (List.take_sublist _ _)
    · intro x hx
      obtain ⟨y, _, rfl⟩ := List.mem_map.1 hx
      rfl
  have hmem : ∀ x, x ∈ us.take i ↔ x ∈ us ∧ x.rev ≠ rev64 k := by
    intro x
    constructor
    · intro hx
      refine ⟨List.mem_of_mem_take hx, ?_⟩
      obtain ⟨j, hj, rfl⟩ := List.getElem_of_mem hx
      rw [List.length_take] at hj
      rw [List.getElem_take]
      have := f.cp.mono hi (i := j) (by omega)
      rw [e1] at this
      intro hc; rw [hc] at this; exact BitVec.lt_irrefl _ this
    · rintro ⟨hx, hr⟩
      obtain ⟨j, hj, rfl⟩ := List.getElem_of_mem hx
      have hne : j ≠ i := by rintro rfl; exact hr e1
      have : (us.take i)[j]'(by rw [List.length_take]; omega) = us[j] := List.getElem_take
      rw [← this]; exact List.getElem_mem _
  have hst : ∀ x, Stored { st with pools := upool st.pools b Q } x ↔ Stored st x ∧ x.rev ≠ rev64 k := by
    intro x
    rw [stored_replace, stored_split f.pool, hused, hmem, f.cp.used]
    constructor
    · rintro (h | ho)
      · exact ⟨Or.inl h.1, h.2⟩
      · refine ⟨Or.inr ho, ?_⟩
        obtain ⟨q, Q, g1, g2, g3⟩ := ho
        exact fun hc => g1 (f.only g2 g3 hc)
    · rintro ⟨h | h, hr⟩
      · exact Or.inl ⟨h, hr⟩
      · exact Or.inr h
  refine ⟨?_, ?_, ?_, h.fn, ?_, fun x hx => h.mem x ((hst x).1 hx).1, fun x hx => h.key x ((hst x).1 hx).1⟩
  · have e : clrSt { st with pools := upool st.pools b Q } 0 = { clrSt st 0 with pools := upool (clrSt st 0).pools b (clrP Q) } := by
      unfold clrSt
      simp only
      rw [clr_upool]
    rw [e]
    apply h.ei.replace f.found.adj hokp
    intro x hx
    obtain ⟨x', hx', rfl⟩ := List.mem_map.1 hx
    exact f.found.inside (clr x') (List.mem_map_of_mem ((hmem x').1 hx').1)
  · intro p P' hP' hpos
    simp only [upool] at hP'
    split at hP'
    · injection hP' with hP'; subst hP'
      rw [hQ] at hpos ⊢
      have hpos' : 0 < i := by simpa using hpos
      have := h.head b P f.pool (by omega)
      unfold Pool.slot at this ⊢
      simp only
      rw [List.getD_eq_getElem?_getD, List.getElem?_set_ne (by omega), ← List.getD_eq_getElem?_getD]
      exact this
    · exact h.head p P' hP' hpos
  · intro p P' hP' x hx
    simp only [upool] at hP'
    split at hP'
    · injection hP' with hP'; subst hP'
      rw [hQ] at hx
      simp only [Int.toNat_natCast] at hx
      rw [List.drop_set, if_neg (by omega), Nat.sub_self] at hx
      have hi2 : i < P.arr.length := by omega
      rw [List.drop_eq_getElem_cons hi2, List.set_cons_zero] at hx
      rcases List.mem_cons.1 hx with rfl | hx
      · right; rw [hy]
      · exact h.tail b P f.pool x (by rw [hlen]; exact hx)
    · exact h.tail p P' hP' x hx
  · intro k' c' v
    simp only [PMap.del]
    by_cases hkc : (k', c') = (k, cc)
    · rw [if_pos hkc]
      injection hkc with a1 a2; subst a1 a2
      constructor
      · intro hv; cases hv
      · rintro ⟨x, x1, x0, x2, x3, x4⟩
        exact absurd x2 ((hst x).1 x1).2
    · rw [if_neg hkc, h.abs]
      constructor
      · rintro ⟨x, x1, x0, x2, x3, x4⟩
        refine ⟨x, (hst x).2 ⟨x1, ?_⟩, x0, x2, x3, x4⟩
        intro hc
        apply hkc
        have hxx := f.eq hi e1 x1 hc
        rw [rev64_inj (x2.symm.trans hc), ← x3, hxx, e2]
      · rintro ⟨x, x1, x0, x2, x3, x4⟩
        exact ⟨x, ((hst x).1 x1).1, x0, x2, x3, x4⟩

/-- No live slot has the hash of a key that was not found. -/
theorem RelD.fresh (h : RelD H K st gl s) (hK : KOK st.maxPer K) {k cc : U64} (hmem : (k, cc) ∈ K) {P : Pool} {us : List Slot}
    {z : Nat} (f : FoundD st (rev64 k) b n P us z) (hno : ∀ x ∈ us, x.deleted = false → ¬ (x.rev = rev64 k ∧ x.conflict = cc)) :
    ∀ x, Stored st x → x.rev = rev64 k → x.deleted = true := by
  intro x hx hr
  have h1 := h.mem x hx
  rw [hr, rev64_rev64] at h1
  cases hd : x.deleted with
  | true => rfl
  | false => exact absurd ⟨hr, hK.one _ _ _ h1 hmem⟩ (hno x ((f.stored_iff hr).1 hx) hd)

/-- A bucket whose array has no deleted slot is what it is without marks. -/
theorem RelD.plain (h : RelD H K st gl s) {r : U64} {P : Pool} {us : List Slot}
    {z : Nat} (f : FoundD st r b n P us z) (hlive : ∀ x ∈ P.arr, x.deleted = false) :
    clrP P = P ∧ us.map clr = us := by
  have hl : P.len.toNat = us.length := by rw [f.cp.len]; simp
  have hus : us.map clr = us := by
    conv_rhs => rw [← List.map_id us]
    apply List.map_congr_left
    intro x hx
    apply clr_live
    apply hlive
    rw [← f.cp.arr] at hx
    exact List.mem_of_mem_take hx
  refine ⟨?_, hus⟩
  have hd : P.arr.drop us.length = List.replicate (P.arr.length - us.length) ({} : Slot) := by
    rw [List.eq_replicate_iff]
    refine ⟨by simp, ?_⟩
    intro x hx
    rcases h.tail b P f.pool x (by rw [hl]; exact hx) with h1 | h1
    · exact h1
    · rw [hlive x (List.mem_of_mem_drop hx)] at h1; cases h1
  unfold clrP
  rw [hl, f.cp.arr, hus, ← hd]
  conv_lhs => enter [1, 1]; rw [← f.cp.arr]
  rw [List.take_append_drop]

/-- A new slot in a bucket without deleted slots. -/
theorem RelD.insert (h : RelD H K st gl s) (hK : KOK st.maxPer K) {str : List (BitVec 8)} (hmem : (H.mem str, H.xx str) ∈ K)
    {P : Pool} {us : List Slot} {z : Nat} (f : FoundD st (rev64 (H.mem str)) b n P us z)
    (hno : ∀ x ∈ us, x.deleted = false → ¬ (x.rev = rev64 (H.mem str) ∧ x.conflict = H.xx str))
    (hlive : ∀ x ∈ P.arr, x.deleted = false) (v : IVal) :
    ∃ q i st' gl', Pool.getSlot 2 P (rev64 (H.mem str)) = .ok (q, i) ∧ q.slot i = {} ∧
      link (Emb.setSlot st b q i { rev := rev64 (H.mem str), conflict := H.xx str, key := str, val := v }) b (rev64 (H.mem str)) false = .ok st' ∧
      st'.maxPer = st.maxPer ∧ RelD H K st' gl' { s.put (H.mem str, H.xx str) v with fn := .sample } ∧
      (Few st.maxPer K → gl' = gl ∧ st'.blist = st.blist) := by
  obtain ⟨hclr, hus⟩ := h.plain f hlive
  have hokp : OKP P us z := by have := f.found.okp; rwa [hclr, hus] at this
  have hulive : ∀ x ∈ us, x.deleted = false := hokp.live
  have hnr : ∀ x, Stored st x → x.rev ≠ rev64 (H.mem str) := by
    intro x hx hc
    have h1 := h.fresh hK hmem f hno x hx hc
    rw [hulive x ((f.stored_iff hc).1 hx)] at h1; cases h1
  have hnr' : ∀ x ∈ us, x.rev ≠ rev64 (H.mem str) := fun x hx => hnr x ⟨b, P, f.pool, by rw [f.cp.used]; exact hx⟩
  have hin : ∀ x ∈ us, bval b ≤ x.rev.toNat ∧ x.rev.toNat < bval n := fun x hx => f.found.inside (clr x) (List.mem_map_of_mem hx)
  have hlen : (us.length : Int) < 2 ^ 62 := by
    have h1 : (us.map (fun x => (rev64 x.rev, x.conflict))).length ≤ K.length := by
      apply List.Subperm.length_le
      apply List.subperm_of_subset
      · rw [List.Nodup, List.pairwise_map]
        refine hokp.sorted.imp ?_
        intro a b hlt hc
        injection hc with h1 _
        rw [rev64_inj h1] at hlt; exact BitVec.lt_irrefl _ hlt
      · intro y hy
        obtain ⟨x, hx, rfl⟩ := List.mem_map.1 hy
        exact h.mem x ⟨b, P, f.pool, by rw [f.cp.used]; exact hx⟩
    rw [List.length_map] at h1
    have := hK.small
    omega
  rcases hokp.getSlot (rev64 (H.mem str)) hnr' with ⟨q, i, g1, g2⟩ | ⟨g1, _⟩
  swap
  · omega
  obtain ⟨y, hy⟩ : ∃ y : Slot, y = { rev := rev64 (H.mem str), conflict := H.xx str, key := str, val := v } := ⟨_, rfl⟩
  rw [← hy]
  have y0 : y.deleted = false := by rw [hy]
  have y1 : y.rev = rev64 (H.mem str) := by rw [hy]
  have y2 : y.conflict = H.xx str := by rw [hy]
  have y3 : y.val = v := by rw [hy]
  have y4 : y.key = str := by rw [hy]
  obtain ⟨z', hQ⟩ := g2.okp hokp y1 (by rw [hy])
  have hm : ∀ x, x ∈ us.take i ++ y :: us.drop i ↔ x = y ∨ x ∈ us := by
    intro x
    conv_rhs => rw [← List.take_append_drop i us]
    simp only [List.mem_append, List.mem_cons]; exact or_left_comm
  have hst : ∀ x, Stored (Emb.setSlot st b q i y) x ↔ x = y ∨ Stored st x := by
    intro x
    unfold Emb.setSlot
    rw [stored_replace, hQ.used, hm, stored_split f.pool, f.cp.used]
    exact or_assoc
  have hcs : clrSt (Emb.setSlot st b q i y) 0 = Emb.setSlot (clrSt st 0) b q i y := by
    unfold Emb.setSlot clrSt
    simp only
    rw [clr_upool, hQ.clr]
  have hE : EI (clrSt (Emb.setSlot st b q i y) 0) gl := by
    rw [hcs]
    apply h.ei.replace f.found.adj hQ
    intro x hx
    rcases (hm x).1 hx with rfl | hx
    · rw [y1]; exact ⟨f.found.lo, f.found.hi⟩
    · exact hin x hx
  have hmemK : ∀ x, Stored (Emb.setSlot st b q i y) x → (rev64 x.rev, x.conflict) ∈ K := by
    intro x hx
    rcases (hst x).1 hx with rfl | hx
    · rw [y1, y2, rev64_rev64]; exact hmem
    · exact h.mem x hx
  have hcr : NotCrowded st.maxPer (Stored (clrSt (Emb.setSlot st b q i y) 0)) := by
    intro L h1 h2 h3
    refine hK.sparse L h1 ?_ h3
    intro r hr
    obtain ⟨x, hx, rfl⟩ := h2 r hr
    obtain ⟨x', hx', rfl⟩ := (stored_clr x).1 hx
    exact ⟨_, hmemK x' hx'⟩
  obtain ⟨st', r1, r2, r3, r4, r5⟩ := link_clr (st := Emb.setSlot st b q i y) hE f.found.adj (P := { q with arr := q.arr.set i y })
    (by simp [Emb.setSlot, upool]) hQ.clr (rev64 (H.mem str)) hcr
  obtain ⟨st0, gl', t1, t2, _, _, _, t6⟩ := link_ok (b := b) hE f.found.adj (P := { q with arr := q.arr.set i y })
    (by rw [hcs]; simp [Emb.setSlot, upool]) (rev64 (H.mem str)) hcr
  rw [r2] at t1
  injection t1 with t1
  have hE' : EI (clrSt st' 0) gl' := by
    rw [← t1] at t2
    exact t2.congr (EqL.refl _) 0
  have hst' : ∀ x, Stored st' x ↔ x = y ∨ Stored st x := fun x => (r3 x).trans (hst x)
  have hpool : ∀ p P', st'.pools p = some P' → st.pools p = some P' ∨ ∃ xs z, OKP P' xs z := by
    intro p P' hP'
    rcases r4 p P' hP' with h1 | h1
    · simp only [Emb.setSlot, upool] at h1
      split at h1
      · injection h1 with h1; subst h1; exact Or.inr ⟨_, _, hQ⟩
      · exact Or.inl h1
    · exact Or.inr h1
  refine ⟨q, i, st', gl', g1, g2.slot, r1, r5, ⟨hE', ?_, ?_, rfl, ?_, fun x hx => hmemK x ((r3 x).1 hx), ?_⟩, ?_⟩
  · intro p P' hP' hpos
    rcases hpool p P' hP' with h1 | ⟨xs, z, h1⟩
    · exact h.head p P' h1 hpos
    · exact clr_slot0 h1
  · intro p P' hP' x hx
    rcases hpool p P' hP' with h1 | ⟨xs, z, h1⟩
    · exact h.tail p P' h1 x hx
    · left
      have hl : P'.len.toNat = xs.length := by rw [h1.len]; simp
      rw [hl, h1.arr, List.drop_left] at hx
      exact List.eq_of_mem_replicate hx
  · intro k' c' v'
    simp only [PMap.put]
    by_cases hkc : (k', c') = (H.mem str, H.xx str)
    · rw [if_pos hkc]
      injection hkc with e1 e2; subst e1 e2
      constructor
      · intro hv; injection hv with hv
        exact ⟨y, (hst' y).2 (Or.inl rfl), y0, y1, y2, by rw [y3, hv]⟩
      · rintro ⟨x, x1, _, x2, x3, x4⟩
        rcases (hst' x).1 x1 with rfl | hc
        · rw [← x4, y3]
        · exact absurd x2 (hnr x hc)
    · rw [if_neg hkc, h.abs]
      constructor
      · rintro ⟨x, x1, x2⟩
        exact ⟨x, (hst' x).2 (Or.inr x1), x2⟩
      · rintro ⟨x, x1, x0, x2, x3, x4⟩
        rcases (hst' x).1 x1 with rfl | x1
        · exact absurd (by rw [rev64_inj (x2.symm.trans y1), ← x3, y2]) hkc
        · exact ⟨x, x1, x0, x2, x3, x4⟩
  · intro x hx
    rcases (hst' x).1 hx with rfl | hx
    · rw [y1, y2, y4, rev64_rev64]; exact ⟨rfl, rfl⟩
    · exact h.key x hx
  · intro hfew
    have hbl : ∀ X : St, clrSt X 1 = st0 → X.blist = st0.blist := by rintro X rfl; rfl
    suffices hle : ({ q with arr := q.arr.set i y } : Pool).len ≤ st.maxPer by
      obtain ⟨a1, a2⟩ := t6 hle
      refine ⟨a1, ?_⟩
      have : st'.blist = st0.blist := by rw [← t1]; rfl
      rw [this, a2]; rfl
    show q.len ≤ _
    have hl := hQ.len
    change q.len = _ at hl
    rw [hl]
    obtain ⟨k, hw⟩ := h.ei.width n b f.found.adj
    have hk := h.ei.width_le f.found.adj hw.1
    have hx := hfew ((us.take i ++ y :: us.drop i).map (·.rev)) (by
        rw [List.Nodup, List.pairwise_map]
        exact hQ.sorted.imp (fun {a b} h hc => by rw [hc] at h; exact BitVec.lt_irrefl _ h)) (by
        intro r hr
        obtain ⟨x, hx, rfl⟩ := List.mem_map.1 hr
        refine ⟨x.conflict, hmemK x ((hst x).2 ?_)⟩
        rcases (hm x).1 hx with hx | hx
        · exact Or.inl hx
        · exact Or.inr ⟨b, P, f.pool, by rw [f.cp.used]; exact hx⟩) (by
        have hin : ∀ x ∈ us.take i ++ y :: us.drop i, bval b ≤ x.rev.toNat ∧ x.rev.toNat < bval b + 2 ^ k := by
          intro x hx
          rw [hw.1]
          rcases (hm x).1 hx with rfl | hx
          · rw [y1]; exact ⟨f.found.lo, f.found.hi⟩
          · exact hin x hx
        intro r hr r' hr'
        obtain ⟨x, hx, rfl⟩ := List.mem_map.1 hr
        obtain ⟨x', hx', rfl⟩ := List.mem_map.1 hr'
        rw [block_div hw.2.1 hk (hin x hx).1 (hin x hx).2, block_div hw.2.1 hk (hin x' hx').1 (hin x' hx').2])
    rw [List.length_map] at hx
    exact_mod_cast hx

/-- A deleted slot in the right place is used again. -/
theorem RelD.reuse (h : RelD H K st gl s) (hK : KOK st.maxPer K) {str : List (BitVec 8)} (hmem : (H.mem str, H.xx str) ∈ K)
    {P : Pool} {us : List Slot} {z : Nat} (f : FoundD st (rev64 (H.mem str)) b n P us z)
    (hno : ∀ x ∈ us, x.deleted = false → ¬ (x.rev = rev64 (H.mem str) ∧ x.conflict = H.xx str)) {i : Nat} (hi : i < us.length)
    (hlo : ∀ j, (hj : j ≤ i) → (us[j]'(by omega)).rev ≤ rev64 (H.mem str))
    (hhi : (hj : i + 1 < us.length) → rev64 (H.mem str) < (us[i + 1]).rev) (hd : (us[i]).deleted = true) (v : IVal)
    (hle : P.len ≤ st.maxPer) :
    ∃ st', link (Emb.setSlot st b P i { rev := rev64 (H.mem str), conflict := H.xx str, key := str, val := v }) b (rev64 (H.mem str)) false = .ok st' ∧
      st'.maxPer = st.maxPer ∧ RelD H K st' gl { s.put (H.mem str, H.xx str) v with fn := .sample } ∧ st'.blist = st.blist := by
  obtain ⟨y, hy⟩ : ∃ y : Slot, y = { rev := rev64 (H.mem str), conflict := H.xx str, key := str, val := v } := ⟨_, rfl⟩
  rw [← hy]
  have y0 : y.deleted = false := by rw [hy]
  have y1 : y.rev = rev64 (H.mem str) := by rw [hy]
  have y2 : y.conflict = H.xx str := by rw [hy]
  have y3 : y.val = v := by rw [hy]
  have y4 : y.key = str := by rw [hy]
  obtain ⟨g1, g2, g3, g4⟩ := h.setSlot f hi y
    (fun j hj => by
      rw [y1]
      have a1 := f.cp.mono hi hj
      have a2 := hlo i (le_refl _)
      bv_omega)
    (fun j hj hij => by
      rw [y1]
      have a1 := hhi (by omega)
      by_cases e : j = i + 1
      · subst e; exact a1
      · have := f.cp.mono hj (i := i + 1) (by omega); bv_omega) (Or.inr y1) (by rw [y0]; simp)
  have hdel : ∀ x, Stored st x → x.rev = (us[i]).rev → x.deleted = true := by
    intro x hx hr
    obtain ⟨q, Q, hQ, hs⟩ := hx
    have hq : q = b := by
      have hx' : Stored st x := ⟨q, Q, hQ, hs⟩
      obtain ⟨hq, hqn⟩ := h.ei.pool q (by simp [clrSt, hQ])
      obtain ⟨n', ha'⟩ := adj_next h.ei.desc h.ei.head hq hqn
      obtain ⟨P', xs', z', g1', g2', g3'⟩ := h.ei.content n' q ha'
      simp only [clrSt, hQ, Option.map_some, Option.some.injEq] at g1'
      subst g1'
      have hx' := g3' (clr x) (by rw [← g2'.used, used_clr]; exact List.mem_map_of_mem hs)
      simp only [clr_rev, hr] at hx'
      have hi' := f.found.inside (clr us[i]) (List.mem_map_of_mem (List.getElem_mem hi))
      exact (adj_le h.ei.desc f.found.adj ha' (x := (us[i]).rev.toNat) hi'.1 hi'.2 hx'.1 hx'.2).2
    subst hq
    rw [f.pool] at hQ; injection hQ with hQ; subst hQ
    rw [f.cp.used] at hs
    rw [f.cp.inj hs (List.getElem_mem hi) hr]; exact hd
  have hfr := h.fresh hK hmem f hno
  have hlink : ∀ st1 : St, blen st1.pools st1.mem b ≤ st1.maxPer → link st1 b (rev64 (H.mem str)) false = .ok { st1 with
      len := st1.len + 1,
      mem := if (st1.mem b).level > 0 then upd st1.mem b { st1.mem b with len := (st1.mem b).len + 1 } else st1.mem } := by
    intro st1 hb
    unfold link
    simp only
    rw [if_neg (by rintro ⟨_, _, h3⟩; omega)]
  have hE : ∀ st1 : St, EqL st1.mem (if (st1.mem b).level > 0 then upd st1.mem b { st1.mem b with len := (st1.mem b).len + 1 } else st1.mem) := by
    intro st1
    split
    · exact EqL.len _ _ _
    · exact EqL.refl _
  rw [hlink _ (by unfold blen; simp only [Emb.setSlot, upool, if_true]; exact hle)]
  refine ⟨_, rfl, rfl, ⟨?_, g2, g3, rfl, ?_, ?_, ?_⟩, rfl⟩
  · exact g1.congr (hE _) 0
  · intro k' c' v'
    have hS : ∀ x, Stored { Emb.setSlot st b P i y with
      len := (Emb.setSlot st b P i y).len + 1,
      mem := if ((Emb.setSlot st b P i y).mem b).level > 0 then upd (Emb.setSlot st b P i y).mem b { (Emb.setSlot st b P i y).mem b with len := ((Emb.setSlot st b P i y).mem b).len + 1 } else (Emb.setSlot st b P i y).mem } x ↔ _ := g4
    simp only [PMap.put]
    by_cases hkc : (k', c') = (H.mem str, H.xx str)
    · rw [if_pos hkc]
      injection hkc with e1 e2; subst e1 e2
      constructor
      · intro hv; injection hv with hv
        exact ⟨y, (hS y).2 (Or.inl rfl), y0, y1, y2, by rw [y3, hv]⟩
      · rintro ⟨x, x1, x0, x2, x3, x4⟩
        rcases (hS x).1 x1 with rfl | ⟨hc, _⟩
        · rw [← x4, y3]
        · rw [hfr x hc x2] at x0; cases x0
    · rw [if_neg hkc, h.abs]
      constructor
      · rintro ⟨x, x1, x0, x2⟩
        refine ⟨x, (hS x).2 (Or.inr ⟨x1, ?_⟩), x0, x2⟩
        intro hc
        rw [hdel x x1 hc] at x0; cases x0
      · rintro ⟨x, x1, x0, x2, x3, x4⟩
        rcases (hS x).1 x1 with rfl | ⟨x1, _⟩
        · exact absurd (by rw [rev64_inj (x2.symm.trans y1), ← x3, y2]) hkc
        · exact ⟨x, x1, x0, x2, x3, x4⟩
  · intro x hx
    rcases (g4 x).1 hx with rfl | ⟨hx, _⟩
    · rw [y1, y2, rev64_rev64]; exact hmem
    · exact h.mem x hx
  · intro x hx
    rcases (g4 x).1 hx with rfl | ⟨hx, _⟩
    · rw [y1, y2, y4, rev64_rev64]; exact ⟨rfl, rfl⟩
    · exact h.key x hx

end SLM.Emb
