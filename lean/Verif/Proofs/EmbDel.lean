import Verif.Proofs.EmbRun
/-! Embedded mode with deletions: a state is compared with the one in which nothing is marked deleted. -/
set_option linter.unusedSimpArgs false
set_option autoImplicit false
namespace SLM.Emb
open Spec (PMap Ans)
variable {bl gl : List Path} {n c b : Path} {m : Path → Bkt} {st : St}

/-- A slot without its mark. -/
def clr (s : Slot) : Slot := { s with deleted := false }

/-- A pool with no marks and with zero slots beyond its length. -/
def clrP (p : Pool) : Pool :=
  { p with arr := (p.arr.take p.len.toNat).map clr ++ List.replicate (p.arr.length - p.len.toNat) ({} : Slot) }

def clrSt (st : St) (l : Int) : St := { st with len := l, pools := fun p => (st.pools p).map clrP }

theorem clr_live {s : Slot} (h : s.deleted = false) : clr s = s := by
  cases s; simp only [clr] at *; rw [h]

@[simp] theorem clr_rev (s : Slot) : (clr s).rev = s.rev := rfl
@[simp] theorem clr_conflict (s : Slot) : (clr s).conflict = s.conflict := rfl
@[simp] theorem clr_val (s : Slot) : (clr s).val = s.val := rfl
@[simp] theorem clr_key (s : Slot) : (clr s).key = s.key := rfl

theorem OKP.clr {p : Pool} {xs : List Slot} {z : Nat} (h : OKP p xs z) : clrP p = p := by
  have hl : p.len.toNat = xs.length := by rw [h.len]; simp
  have hx : xs.map Emb.clr = xs := by
    conv_rhs => rw [← List.map_id xs]
    exact List.map_congr_left (fun s hs => clr_live (h.live s hs))
  have e1 : p.arr.take p.len.toNat = xs := by
    rw [hl, h.arr, List.take_append_of_le_length (le_refl _), List.take_length]
  have e2 : p.arr.length - p.len.toNat = z := by rw [hl, h.arr]; simp
  unfold clrP
  rw [e1, e2, hx, ← h.arr]

theorem clr_upool (f : Path → Option Pool) (c : Path) (x : Pool) :
    (fun p => (upool f c x p).map clrP) = upool (fun p => (f p).map clrP) c (clrP x) := by
  funext p
  simp only [upool]
  split <;> simp

/-- What a cleared pool says of the pool. -/
structure CP (p : Pool) (us : List Slot) (z : Nat) : Prop where
  okp : OKP (clrP p) (us.map clr) z
  used : p.used = us
  len : p.len = us.length
  arr : p.arr.take us.length = us
  cap : p.arr.length = us.length + z

theorem OKP.cp {p : Pool} {xs : List Slot} {z : Nat} (h : OKP (clrP p) xs z) :
    CP p p.used z ∧ p.used.map Emb.clr = xs := by
  have hl : p.len = xs.length := h.len
  have hn : p.len.toNat = xs.length := by rw [hl]; simp
  have ha := h.arr
  simp only [clrP, hn] at ha
  have hle : xs.length ≤ p.arr.length := by
    have := congrArg List.length ha
    simp at this; omega
  have hlen : ((p.arr.take xs.length).map Emb.clr).length = xs.length := by simp [hle]
  obtain ⟨a1, a2⟩ := List.append_inj ha hlen
  have hu : p.used = p.arr.take xs.length := by unfold Pool.used; rw [hn]
  have hul : p.used.length = xs.length := by rw [hu]; simp [hle]
  refine ⟨⟨by rw [hu, a1]; exact h, rfl, by rw [hul]; exact hl, by rw [hul, hu], ?_⟩, by rw [hu, a1]⟩
  have := congrArg List.length a2
  simp at this
  omega

theorem CP.slot {p : Pool} {us : List Slot} {z : Nat} (h : CP p us z) {i : Nat} (hi : i < us.length) : p.slot i = us[i] := by
  unfold Pool.slot
  have hc := h.cap
  have : i < p.arr.length := by omega
  rw [List.getD_eq_getElem?_getD, List.getElem?_eq_getElem this]
  simp only [Option.getD_some]
  have e := h.arr
  have : us[i]? = p.arr[i]? := by rw [← e, List.getElem?_take, if_pos (by simpa [e] using hi)]
  rw [List.getElem?_eq_getElem hi, List.getElem?_eq_getElem (by omega)] at this
  injection this with this
  exact this.symm

theorem CP.mono {p : Pool} {us : List Slot} {z : Nat} (h : CP p us z) {i j : Nat} (hj : j < us.length) (hij : i < j) :
    (us[i]).rev < (us[j]).rev := by
  have := h.okp.mono (i := i) (j := j) (by simpa using hj) hij
  simpa using this

/-- Walking back ends at the last slot that is not deleted. -/
theorem skipBack_spec {arr : List Slot} (h0 : (arr.getD 0 {}).deleted = false) : ∀ i, skipBack arr i ≤ i ∧
    (arr.getD (skipBack arr i) {}).deleted = false ∧ ∀ j, skipBack arr i < j → j ≤ i → (arr.getD j {}).deleted = true := by
  intro i
  induction i with
  | zero => exact ⟨le_refl _, h0, fun j h1 h2 => by simp only [skipBack] at h1; omega⟩
  | succ i ih =>
    simp only [skipBack]
    split
    · rename_i hd
      refine ⟨by omega, ih.2.1, ?_⟩
      intro j h1 h2
      by_cases hj : j = i + 1
      · subst hj; exact hd
      · exact ih.2.2 j h1 (by omega)
    · rename_i hd
      exact ⟨le_refl _, by simpa using hd, fun j h1 h2 => by omega⟩

/-- The binary search over an array with deleted slots finds exactly the live ones. -/
theorem CP.bsearch {p : Pool} {us : List Slot} {z : Nat} (h : CP p us z) (h0 : 0 < p.len → (p.slot 0).deleted = false) (r : U64) :
    (∃ i, ∃ hi : i < us.length, p.bsearch r = some i ∧ (us[i]).rev = r ∧ (us[i]).deleted = false) ∨
    (p.bsearch r = none ∧ ∀ s ∈ us, s.deleted = false → s.rev ≠ r) := by
  have hl : p.len.toNat = us.length := by rw [h.len]; simp
  by_cases hus : us = []
  · right
    subst hus
    simp at hl
    refine ⟨?_, by simp⟩
    unfold Pool.bsearch
    simp only
    rw [if_neg]
    rintro ⟨h1, _⟩
    omega
  have hpos := List.length_pos_of_ne_nil hus
  have hlive := h0 (by rw [h.len]; omega)
  have hsk := skipBack_spec (arr := p.arr) hlive
  have hlt : ∀ i, i < us.length → skipBack p.arr i < us.length := fun i hi => lt_of_le_of_lt (hsk i).1 hi
  obtain ⟨f, hf⟩ : ∃ f : Nat → Bool, f = fun i => decide (r ≤ (p.slot (skipBack p.arr i)).rev) := ⟨_, rfl⟩
  have hfi : ∀ i, (hi : i < us.length) → f i = decide (r ≤ (us[skipBack p.arr i]'(hlt i hi)).rev) := by
    intro i hi
    rw [hf]; simp only; rw [h.slot (hlt i hi)]
  have hskm : ∀ i j, i ≤ j → skipBack p.arr i ≤ skipBack p.arr j := by
    intro i j hij
    by_contra hc
    have h1 := (hsk j).2.2 (skipBack p.arr i) (by omega) (le_trans (hsk i).1 hij)
    have h2 := (hsk i).2.1
    rw [h1] at h2; cases h2
  have hle : ∀ i j, (hj : j < us.length) → (hij : i ≤ j) → (us[i]'(by omega)).rev ≤ (us[j]).rev := by
    intro i j hj hij
    rcases Nat.eq_or_lt_of_le hij with hc | hc
    · subst hc; bv_omega
    · have := h.mono hj hc; bv_omega
  obtain ⟨_, a2, a3, a4⟩ := goSearch_spec f us.length 0 us.length (by omega) (by omega) (by
    intro x y _ hxy hy hx
    rw [hfi x (by omega)] at hx
    rw [hfi y hy]
    simp only [decide_eq_true_eq] at hx ⊢
    have := hle _ _ (hlt y hy) (hskm x y hxy)
    bv_omega)
  unfold Pool.bsearch
  simp only [hl]
  rw [← hf]
  generalize goSearch f us.length 0 us.length = idx at *
  by_cases hidx : idx < us.length
  · have h4 := a4 idx (le_refl _) hidx
    rw [hfi idx hidx] at h4
    simp only [decide_eq_true_eq] at h4
    have h6 := hle _ _ hidx (hsk idx).1
    by_cases hr : (us[idx]).rev = r
    · have hself : skipBack p.arr idx = idx := by
        by_contra hne
        have := h.mono hidx (lt_of_le_of_ne (hsk idx).1 hne)
        bv_omega
      left
      refine ⟨idx, hidx, ?_, hr, ?_⟩
      · rw [if_pos ⟨by rw [h.len]; exact_mod_cast hidx, by rw [h.slot hidx]; exact hr⟩, hself]
      · have := (hsk idx).2.1
        rw [hself] at this
        have e := h.slot hidx
        unfold Pool.slot at e
        rw [e] at this; exact this
    · right
      refine ⟨by rw [if_neg]; rintro ⟨_, h2⟩; rw [h.slot hidx] at h2; exact hr h2, ?_⟩
      intro s hs hd he
      obtain ⟨j, hj, rfl⟩ := List.getElem_of_mem hs
      have hsj : skipBack p.arr j = j := by
        cases j with
        | zero => rfl
        | succ j =>
          simp only [skipBack]
          have e := h.slot hj
          unfold Pool.slot at e
          rw [if_neg (by rw [e, hd]; simp)]
      rcases lt_trichotomy j idx with hc | hc | hc
      · have h2 := a3 j (by omega) hc
        rw [hfi j hj] at h2
        simp only [hsj, decide_eq_false_iff_not] at h2
        bv_omega
      · subst hc; exact hr he
      · have h2 := h.mono hj hc
        bv_omega
  · right
    refine ⟨by rw [if_neg]; rintro ⟨h2, _⟩; rw [h.len] at h2; exact hidx (by exact_mod_cast h2), ?_⟩
    intro s hs hd he
    obtain ⟨j, hj, rfl⟩ := List.getElem_of_mem hs
    have hsj : skipBack p.arr j = j := by
      cases j with
      | zero => rfl
      | succ j =>
        simp only [skipBack]
        have e := h.slot hj
        unfold Pool.slot at e
        rw [if_neg (by rw [e, hd]; simp)]
    have h2 := a3 j (by omega) (by omega)
    rw [hfi j hj] at h2
    simp only [hsj, decide_eq_false_iff_not] at h2
    bv_omega

theorem CP.inj {p : Pool} {us : List Slot} {z : Nat} (h : CP p us z) {s t : Slot} (hs : s ∈ us) (ht : t ∈ us) (he : s.rev = t.rev) : s = t := by
  obtain ⟨i, hi, rfl⟩ := List.getElem_of_mem hs
  obtain ⟨j, hj, rfl⟩ := List.getElem_of_mem ht
  rcases lt_trichotomy i j with hij | hij | hij
  · have := h.mono hj hij; rw [he] at this; exact absurd this (BitVec.lt_irrefl _)
  · subst hij; rfl
  · have := h.mono hi hij; rw [he] at this; exact absurd this (BitVec.lt_irrefl _)

theorem CP.lookup {p : Pool} {us : List Slot} {z : Nat} (h : CP p us z) (h0 : 0 < p.len → (p.slot 0).deleted = false) (r c : U64) :
    (∃ i, ∃ hi : i < us.length, p.lookup r c = some i ∧ (us[i]).rev = r ∧ (us[i]).conflict = c ∧ (us[i]).deleted = false) ∨
    (p.lookup r c = none ∧ ∀ s ∈ us, s.deleted = false → ¬ (s.rev = r ∧ s.conflict = c)) := by
  unfold Pool.lookup
  rcases h.bsearch h0 r with ⟨i, hi, h1, h2, h3⟩ | ⟨h1, h2⟩
  · rw [h1]
    simp only
    rw [h.slot hi]
    by_cases hc : (us[i]).conflict = c
    · left; exact ⟨i, hi, by rw [if_pos ⟨h2, hc⟩], h2, hc, h3⟩
    · right
      refine ⟨by rw [if_neg (fun x => hc x.2)], ?_⟩
      rintro s hs _ ⟨h3, h4⟩
      have := h.inj hs (List.getElem_mem hi) (h3.trans h2.symm)
      subst this; exact hc h4
  · right
    rw [h1]
    exact ⟨rfl, fun s hs hd hc => h2 s hs hd hc.1⟩

/-! ### splitting a bucket without deleted slots, beside others that have some -/

theorem clr_slot0 {xs : List Slot} {z : Nat} {p : Pool} (h : OKP p xs z) : (p.slot 0).deleted = false := by
  unfold Pool.slot
  rw [h.arr]
  cases xs with
  | nil => cases z <;> simp [List.replicate_succ]
  | cons x xs => simpa using h.live x (by simp)

theorem makeBucket2_clr (l : Int) : ∀ (fuel : Nat) (st : St) (gl : List Path) (n c : Path) (k : Nat) (P : Pool),
    EI (clrSt st l) gl → Adj st.blist n c → Width gl n c k → k ≤ fuel → st.pools c = some P → clrP P = P →
    P.len > st.maxPer → NotCrowded st.maxPer (Stored (clrSt st l)) →
    ∃ st', makeBucket2 fuel st c = .ok st' ∧ makeBucket2 fuel (clrSt st l) c = .ok (clrSt st' l) ∧
      (∀ s, Stored st' s ↔ Stored st s) ∧ (∀ q Q, st'.pools q = some Q → st.pools q = some Q ∨ ∃ xs z, OKP Q xs z) ∧
      st'.len = st.len ∧ st'.maxPer = st.maxPer := by
  intro fuel
  induction fuel with
  | zero =>
    intro st gl n c k P h ha hw hk
    have := hw.2.2.1; omega
  | succ fuel ih =>
    intro st gl n c k P h ha hw hfu hP hclr hlen hcr
    have hP' : (clrSt st l).pools c = some P := by simp [clrSt, hP, hclr]
    have ha' : Adj (clrSt st l).blist n c := ha
    have h5 := h.wide hcr ha' hw hP' hlen
    have hcn := h.adj_ne ha'
    obtain ⟨A, B, hbl⟩ := adj_decomp h.desc ha'
    have hbl' : st.blist = A ++ n :: c :: B := hbl
    obtain ⟨P', xs, z, g1, g2, g3⟩ := h.content n c ha'
    rw [hP'] at g1; injection g1 with g1; subst g1
    have hprev : prevAsB st.blist c = n := by rw [hbl']; exact prevAsB_eq (hbl ▸ h.desc)
    have hprev' : prevAsB (clrSt st l).blist c = n := hprev
    have hnr := newRevE_eq h.bi (h.sub n ha.1) (h.sub c ha.2.1) hcn hw.1 hw.2.1 (by omega)
    have hmm : (clrSt st l).mem = st.mem := rfl
    rw [hmm] at hnr
    generalize hnrr : newRevE (st.mem n).rev (st.mem c).rev = nr at hnr
    have h2k : 2 ^ k / 2 < 2 ^ k ∧ 0 < 2 ^ k / 2 := by
      obtain ⟨j, rfl⟩ : ∃ j, k = j + 1 := ⟨k - 1, by omega⟩
      rw [pow_succ]; have := Nat.two_pow_pos j; omega
    obtain ⟨m1, b, gl', e1, hbi, hnz, hsh, hbn, hbgl, hbv, hbr, hgl⟩ := mid_bucket h ha' hw h5 hnr hcn
    rw [hmm] at e1
    have hkk := hw.1
    have hnr0 : nr ≠ 0 := by
      rintro rfl; simp at hnr; omega
    have hnin : b ∉ st.blist := by
      intro hb
      have := ha.2.2.2 b hb
      omega
    have hnin' : b ∉ (clrSt st l).blist := hnin
    have hbasec : basePath m1 c = c := basePath_self hbi ((hgl c).2 (Or.inl (h.sub c ha.2.1))) hcn
    have hbaseb : basePath m1 b = b := basePath_self hbi hbgl hbn
    have hzz : ∃ st', (Except.ok { st with mem := m1 } : Except Crash St) = .ok st' ∧
        (Except.ok { clrSt st l with mem := m1 } : Except Crash St) = .ok (clrSt st' l) ∧
      (∀ s, Stored st' s ↔ Stored st s) ∧ (∀ q Q, st'.pools q = some Q → st.pools q = some Q ∨ ∃ xs z, OKP Q xs z) ∧
      st'.len = st.len ∧ st'.maxPer = st.maxPer :=
      ⟨_, rfl, rfl, fun s => Iff.rfl, fun q Q hq => Or.inl hq, rfl, rfl⟩
    simp only [makeBucket2]
    rw [hprev, hprev', hmm, hnrr, if_neg hnr0, if_neg hnr0, e1]
    simp only
    have hng : ¬ ((m1 b).rev = 0 ∧ (m1 b).level > 1) := by rintro ⟨h0, _⟩; exact hnr0 (hbr ▸ h0)
    simp only [hng, if_false]
    rw [if_neg hnin, if_neg hnin', hbasec, hP, hP']
    simp only
    rcases g2.firstGE nr with ⟨i, f1, f2, f3, f4⟩ | ⟨f1, f2⟩
    · unfold Pool.findIdx
      rw [f1]
      cases i with
      | zero => exact hzz
      | succ i =>
        simp only
        obtain ⟨hE, a1, a2, w1, w2⟩ := h.linked ha' hw h5 hbi hnz hsh hbn (by rw [hbv, hnr]) hgl hbl hP' g2 g3 f2 (by omega)
          (by intro s hs; have := f3 s hs; rw [hbv]; bv_omega) (by intro s hs; have := f4 s hs; rw [hbv]; bv_omega)
        have hadd : addBucket m1 st.blist b = A ++ n :: b :: c :: B := by
          rw [hbl']
          exact addBucket_eq hbi (hbl ▸ h.desc) (fun p hp => (hgl p).2 (Or.inl (h.sub p (hbl ▸ hp)))) hbgl (by omega) (by omega)
        have hadd' : addBucket m1 (clrSt st l).blist b = A ++ n :: b :: c :: B := hadd
        rw [hadd, hadd', hbaseb]
        have hcneb : c ≠ b := by rintro rfl; exact hnin ha.2.1
        obtain ⟨ok1, ok2⟩ := g2.split f2 (by omega)
        obtain ⟨st2, hst2⟩ : ∃ st2 : St, st2 = { st with mem := m1, pools := upool (upool st.pools c (P.split (i + 1)).1) b (P.split (i + 1)).2, blist := A ++ n :: b :: c :: B } := ⟨_, rfl⟩
        have hst2' : ({ clrSt st l with mem := m1, pools := upool (upool (clrSt st l).pools c (P.split (i + 1)).1) b (P.split (i + 1)).2, blist := A ++ n :: b :: c :: B } : St) = clrSt st2 l := by
          rw [hst2]
          unfold clrSt
          simp only
          rw [clr_upool, clr_upool, ok1.clr, ok2.clr]
        rw [hst2'] at hE ⊢
        rw [← hst2]
        have hpl : st2.pools = upool (upool st.pools c (P.split (i + 1)).1) b (P.split (i + 1)).2 := by rw [hst2]
        have hold : ∀ q Q, st2.pools q = some Q → st.pools q = some Q ∨ ∃ xs z, OKP Q xs z := by
          intro q Q hQ
          rw [hpl] at hQ
          simp only [upool] at hQ
          split at hQ
          · injection hQ with hQ; subst hQ; exact Or.inr ⟨_, _, ok2⟩
          · split at hQ
            · injection hQ with hQ; subst hQ; exact Or.inr ⟨_, _, ok1⟩
            · exact Or.inl hQ
        have hst : ∀ s, Stored st2 s ↔ Stored st s := by
          intro s
          unfold Stored
          rw [hpl]
          constructor
          · rintro ⟨p, Q, hQ, hs⟩
            simp only [upool] at hQ
            by_cases e1 : p = b
            · rw [if_pos e1] at hQ; injection hQ with hQ; subst hQ
              rw [ok2.used] at hs
              exact ⟨c, P, hP, by rw [g2.used]; exact List.mem_of_mem_drop hs⟩
            · rw [if_neg e1] at hQ
              by_cases e2 : p = c
              · rw [if_pos e2] at hQ; injection hQ with hQ; subst hQ
                rw [ok1.used] at hs
                exact ⟨c, P, hP, by rw [g2.used]; exact List.mem_of_mem_take hs⟩
              · rw [if_neg e2] at hQ
                exact ⟨p, Q, hQ, hs⟩
          · rintro ⟨p, Q, hQ, hs⟩
            by_cases e2 : p = c
            · subst e2
              rw [hP] at hQ; injection hQ with hQ; subst hQ
              rw [g2.used, ← List.take_append_drop (i + 1) xs] at hs
              rcases List.mem_append.1 hs with hs | hs
              · exact ⟨p, (P.split (i + 1)).1, by simp [upool, hcneb], by rw [ok1.used]; exact hs⟩
              · exact ⟨b, (P.split (i + 1)).2, by simp [upool], by rw [ok2.used]; exact hs⟩
            · have e1 : p ≠ b := by
                rintro rfl
                exact hnin (h.pool p (by simp [clrSt, hQ])).1
              exact ⟨p, Q, by simp [upool, e1, e2, hQ], hs⟩
        have hstc : ∀ s, Stored (clrSt st2 l) s → Stored (clrSt st l) s := by
          rintro s ⟨p, Q, hQ, hs⟩
          rw [← hst2'] at hQ
          simp only [upool] at hQ
          by_cases e1 : p = b
          · rw [if_pos e1] at hQ; injection hQ with hQ; subst hQ
            rw [ok2.used] at hs
            exact ⟨c, P, hP', by rw [g2.used]; exact List.mem_of_mem_drop hs⟩
          · rw [if_neg e1] at hQ
            by_cases e2 : p = c
            · rw [if_pos e2] at hQ; injection hQ with hQ; subst hQ
              rw [ok1.used] at hs
              exact ⟨c, P, hP', by rw [g2.used]; exact List.mem_of_mem_take hs⟩
            · rw [if_neg e2] at hQ
              exact ⟨p, Q, hQ, hs⟩
        have hmp : st2.maxPer = st.maxPer := by rw [hst2]
        have hln : st2.len = st.len := by rw [hst2]
        have hbl2 : st2.blist = A ++ n :: b :: c :: B := by rw [hst2]
        have hcr' : NotCrowded st2.maxPer (Stored (clrSt st2 l)) := by
          rw [hmp]
          intro L hL h1 h2
          refine hcr L hL (fun r hr => ?_) h2
          obtain ⟨s, x1, x2⟩ := h1 r hr
          exact ⟨s, hstc s x1, x2⟩
        have hmp' : (clrSt st l).maxPer = st.maxPer := rfl
        rw [hmp']
        have hfin : ∀ st' : St, ∀ (X Y : Except Crash St), X = .ok st' ∧ Y = .ok (clrSt st' l) ∧
            (∀ s, Stored st' s ↔ Stored st2 s) ∧ (∀ q Q, st'.pools q = some Q → st2.pools q = some Q ∨ ∃ xs z, OKP Q xs z) ∧
            st'.len = st2.len ∧ st'.maxPer = st2.maxPer →
            ∃ st', X = .ok st' ∧ Y = .ok (clrSt st' l) ∧
              (∀ s, Stored st' s ↔ Stored st s) ∧ (∀ q Q, st'.pools q = some Q → st.pools q = some Q ∨ ∃ xs z, OKP Q xs z) ∧
              st'.len = st.len ∧ st'.maxPer = st.maxPer := by
          rintro st' X Y ⟨r1, r2, r3, r4, r5, r6⟩
          refine ⟨st', r1, r2, fun s => (r3 s).trans (hst s), ?_, r5.trans hln, r6.trans hmp⟩
          intro q Q hq
          rcases r4 q Q hq with hq | hq
          · exact hold q Q hq
          · exact Or.inr hq
        split
        · rename_i hhi
          obtain ⟨st', r⟩ := ih st2 gl' n b (k - 1) (P.split (i + 1)).2 hE (hbl2 ▸ a1) w1 (by omega)
            (by rw [hpl]; simp [upool]) ok2.clr (by rw [hmp]; exact hhi) hcr'
          exact hfin st' _ _ r
        · split
          · rename_i hlo
            obtain ⟨st', r⟩ := ih st2 gl' b c (k - 1) (P.split (i + 1)).1 hE (hbl2 ▸ a2) w2 (by omega)
              (by rw [hpl]; simp [upool, hcneb]) ok1.clr (by rw [hmp]; exact hlo) hcr'
            exact hfin st' _ _ r
          · exact hfin st2 _ _ ⟨rfl, rfl, fun s => Iff.rfl, fun q Q hq => Or.inl hq, rfl, rfl⟩
    · unfold Pool.findIdx
      rw [f1]
      exact hzz

theorem link_clr {l : Int} (h : EI (clrSt st l) gl) (ha : Adj st.blist n b) {P : Pool} (hP : st.pools b = some P) (hclr : clrP P = P)
    (r : U64) (hcr : NotCrowded st.maxPer (Stored (clrSt st l))) :
    ∃ st', link st b r false = .ok st' ∧ link (clrSt st l) b r false = .ok (clrSt st' (l + 1)) ∧
      (∀ s, Stored st' s ↔ Stored st s) ∧ (∀ q Q, st'.pools q = some Q → st.pools q = some Q ∨ ∃ xs z, OKP Q xs z) ∧
      st'.maxPer = st.maxPer := by
  have hb : blen (clrSt st l).pools (clrSt st l).mem b = blen st.pools st.mem b := by
    unfold blen; simp [clrSt, hP, hclr]
  unfold link
  simp only
  rw [hb]
  by_cases hsp : r < maxU64 ∧ True ∧ blen st.pools st.mem b > st.maxPer
  · rw [if_pos (by simpa using hsp), if_pos (by simpa [clrSt] using hsp)]
    obtain ⟨k, hw⟩ := h.width n b ha
    have hk := h.width_le ha hw.1
    obtain ⟨st1, r1, r2, r3, r4, r5, r6⟩ := makeBucket2_clr l 64 st gl n b k P h ha hw (by omega) hP hclr (by
      have := hsp.2.2; unfold blen at this; rw [hP] at this; exact this) hcr
    rw [r1, r2]
    exact ⟨_, rfl, rfl, r3, r4, r6⟩
  · rw [if_neg (by simpa using hsp), if_neg (by simpa [clrSt] using hsp)]
    exact ⟨_, rfl, rfl, fun s => Iff.rfl, fun q Q hq => Or.inl hq, rfl⟩

end SLM.Emb
