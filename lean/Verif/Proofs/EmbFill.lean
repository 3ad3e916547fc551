import Verif.Proofs.EmbRun
import Verif.Proofs.EmbWork
/-! How full the buckets of embedded mode get. -/
set_option linter.unusedSimpArgs false
set_option autoImplicit false
namespace SLM.Emb
open Spec (PMap Ans)
variable {bl gl : List Path} {n c b : Path} {st : St}

/-- The midpoint of a bucket's interval. -/
def midOf (n c : Path) : Nat := (bval c + bval n) / 2

/-- The midpoint's bucket is in the trie. -/
def Tried (st : St) (n c : Path) : Prop := ∃ q, q ≠ [] ∧ V st.mem q ∧ (st.mem q).isAlias = false ∧ bval q = midOf n c

/-- The division of a bucket was tried in vain exactly when it is over the limit; then all its keys are in one half. -/
def Half (st : St) (n c : Path) : Prop :=
  ∀ P, st.pools c = some P → (Tried st n c → P.len > st.maxPer) ∧ (P.len > st.maxPer → Tried st n c ∧
    ((∀ x ∈ P.used, x.rev.toNat < midOf n c) ∨ (P.len = st.maxPer + 1 ∧ ∀ x ∈ P.used, midOf n c ≤ x.rev.toNat)))

def Full (st : St) : Prop := ∀ n c, Adj st.blist n c → Half st n c

/-- What a bucket may hold when its division starts. -/
def Ready (st : St) (n c : Path) (P : Pool) : Prop :=
  P.len ≤ st.maxPer + 1 ∨ (∀ x ∈ P.used, x.rev.toNat < midOf n c) ∨
    (P.len = st.maxPer + 2 ∧ ∃ y ∈ P.used, y.rev.toNat < midOf n c ∧ ∀ x ∈ P.used, x = y ∨ midOf n c ≤ x.rev.toNat)

theorem Width.mid {k : Nat} (hw : Width gl n c k) : midOf n c = bval c + 2 ^ k / 2 := by
  unfold midOf; have := hw.1; omega

/-- `makeBucket2` up to the search for the first key of the upper half. -/
theorem makeBucket2_head (fuel : Nat) {k : Nat} {P : Pool} (h : EI st gl) (ha : Adj st.blist n c) (hw : Width gl n c k) (h5 : 5 ≤ k)
    (hP : st.pools c = some P) :
    ∃ m1 b gl' nr, EI { st with mem := m1 } gl' ∧ BI m1 gl' ∧ NZ m1 ∧ Shallow m1 ∧ b ≠ [] ∧ b ∈ gl' ∧ b ∉ st.blist ∧
      bval b = midOf n c ∧ nr.toNat = midOf n c ∧ (∀ q, q ∈ gl' ↔ q ∈ gl ∨ q = b) ∧
      makeBucket2 (fuel + 1) st c = match P.findIdx nr with
        | none => .ok { st with mem := m1 }
        | some 0 => .ok { st with mem := m1 }
        | some (i + 1) =>
          let st2 := { st with mem := m1, pools := upool (upool st.pools c (P.split (i + 1)).1) b (P.split (i + 1)).2,
                               blist := addBucket m1 st.blist b }
          if (P.split (i + 1)).2.len > st.maxPer then makeBucket2 fuel st2 b
          else if (P.split (i + 1)).1.len > st.maxPer then makeBucket2 fuel st2 c
          else .ok st2 := by
  have hcn := h.adj_ne ha
  obtain ⟨A, B, hbl⟩ := adj_decomp h.desc ha
  have hprev : prevAsB st.blist c = n := by rw [hbl]; exact prevAsB_eq (hbl ▸ h.desc)
  have hnr := newRevE_eq h.bi (h.sub n ha.1) (h.sub c ha.2.1) hcn hw.1 hw.2.1 (by omega)
  generalize hnrr : newRevE (st.mem n).rev (st.mem c).rev = nr at hnr
  have h2k : 2 ^ k / 2 < 2 ^ k ∧ 0 < 2 ^ k / 2 := by
    obtain ⟨j, rfl⟩ : ∃ j, k = j + 1 := ⟨k - 1, by omega⟩
    rw [pow_succ]; have := Nat.two_pow_pos j; omega
  obtain ⟨m1, b, gl', e1, hbi, hnz, hsh, hbn, hbgl, hbv, hbr, hgl⟩ := mid_bucket h ha hw h5 hnr hcn
  have hkk := hw.1
  have hnr0 : nr ≠ 0 := by
    rintro rfl; simp at hnr; omega
  have hnin : b ∉ st.blist := by
    intro hb
    have := ha.2.2.2 b hb
    omega
  have hbasec : basePath m1 c = c := basePath_self hbi ((hgl c).2 (Or.inl (h.sub c ha.2.1))) hcn
  have hbaseb : basePath m1 b = b := basePath_self hbi hbgl hbn
  refine ⟨m1, b, gl', nr, h.zombie ha hw hbi hnz hsh (by rw [hbv, hnr]) hgl, hbi, hnz, hsh, hbn, hbgl, hnin,
    by rw [hw.mid, hbv, hnr], by rw [hw.mid, hnr], hgl, ?_⟩
  simp only [makeBucket2]
  rw [hprev, hnrr, if_neg hnr0, e1]
  simp only
  rw [if_neg (by rintro ⟨h0, _⟩; exact hnr0 (hbr ▸ h0)), if_neg hnin, hbasec, hP, hbaseb]
  simp only
  rcases P.findIdx nr with _ | _ | i <;> rfl

theorem Width.between {k : Nat} (hw : Width gl n c k) : bval c < midOf n c ∧ midOf n c < bval n := by
  have h1 := hw.mid
  have h2 := hw.1
  have h3 : 2 ^ k / 2 < 2 ^ k ∧ 0 < 2 ^ k / 2 := by
    have := hw.2.2.1
    obtain ⟨j, rfl⟩ : ∃ j, k = j + 1 := ⟨k - 1, by omega⟩
    rw [pow_succ]; have := Nat.two_pow_pos j; omega
  omega

theorem tried_iff (h : BI st.mem gl) : Tried st n c ↔ ∃ q ∈ gl, q ≠ [] ∧ bval q = midOf n c := by
  constructor
  · rintro ⟨q, q1, q2, q3, q4⟩
    exact ⟨q, (h.mem_iff q q1).2 ⟨q2, q3⟩, q1, q4⟩
  · rintro ⟨q, q0, q1, q4⟩
    obtain ⟨q2, q3⟩ := (h.mem_iff q q1).1 q0
    exact ⟨q, q1, q2, q3, q4⟩

theorem Half.mono {gl' : List Path} {st' : St} (hb : BI st.mem gl) (hb' : BI st'.mem gl') (hg : ∀ q, bval q = midOf n c → (q ∈ gl' ↔ q ∈ gl))
    (hp : st'.pools c = st.pools c) (hmx : st'.maxPer = st.maxPer) (hh : Half st n c) : Half st' n c := by
  have ht : Tried st' n c ↔ Tried st n c := by
    rw [tried_iff hb, tried_iff hb']
    constructor
    · rintro ⟨q, x1, x2, x3⟩; exact ⟨q, (hg q x3).1 x1, x2, x3⟩
    · rintro ⟨q, x1, x2, x3⟩; exact ⟨q, (hg q x3).2 x1, x2, x3⟩
  intro P hP
  rw [hp] at hP
  rw [hmx, ht]
  exact hh P hP

theorem makeBucket2_fill : ∀ (fuel : Nat) (st : St) (gl : List Path) (n c : Path) (k : Nat) (P : Pool), EI st gl →
    Adj st.blist n c → Width gl n c k → k ≤ fuel → st.pools c = some P → P.len > st.maxPer →
    NotCrowded st.maxPer (Stored st) → 1 ≤ st.maxPer → Ready st n c P → (∀ n' c', Adj st.blist n' c' → c' ≠ c → Half st n' c') →
    ∀ st', makeBucket2 fuel st c = .ok st' → Full st' := by
  intro fuel
  induction fuel with
  | zero => intro st gl n c k P h ha hw hk; have := hw.2.2.1; omega
  | succ fuel ih =>
    intro st gl n c k P h ha hw hfu hP hlen hcr h1 hR hoth st' hst'
    have h5 := h.wide hcr ha hw hP hlen
    obtain ⟨m1, b, gl', nr, hz, hbi, hnz, hsh, hbn, hbgl, hnin, hbv, hnr, hgl, e⟩ := makeBucket2_head fuel h ha hw h5 hP
    rw [e] at hst'
    obtain ⟨A, B, hbl⟩ := adj_decomp h.desc ha
    obtain ⟨P', xs, z, g1, g2, g3⟩ := h.content n c ha
    rw [hP] at g1; injection g1 with g1; subst g1
    have hU := g2.used
    have hne : xs ≠ [] := by
      rintro rfl
      rw [g2.len] at hlen; simp at hlen; omega
    obtain ⟨x0, hx0⟩ := List.exists_mem_of_ne_nil _ hne
    obtain ⟨hbV, hbA⟩ := (hbi.mem_iff b hbn).1 hbgl
    have hbet := hw.between
    have hoff : ∀ n' c', Adj st.blist n' c' → c' ≠ c → ∀ q, bval q = midOf n' c' → (q ∈ gl' ↔ q ∈ gl) := by
      intro n' c' ha' hcc q hq
      obtain ⟨k', hw'⟩ := h.width n' c' ha'
      have hbet' := hw'.between
      rw [hgl]
      constructor
      · rintro (hq' | rfl)
        · exact hq'
        · exact absurd (adj_unique h.desc ha ha' (x := bval q) (by omega) (by omega) (by omega) (by omega)).2 hcc
      · exact Or.inl
    have hzomb : ((∀ x ∈ P.used, x.rev.toNat < midOf n c) ∨ (P.len = st.maxPer + 1 ∧ ∀ x ∈ P.used, midOf n c ≤ x.rev.toNat)) →
        Full { st with mem := m1 } := by
      intro hc n' c' ha'
      by_cases hcc : c' = c
      · subst hcc
        have hn : n' = n := by
          have k1 := ha.2.2.2 n' ha'.1
          have k2 := ha'.2.2.2 n ha.1
          have := ha.2.2.1
          have := ha'.2.2.1
          exact bval_inj h.desc ha'.1 ha.1 (by omega)
        subst hn
        intro Q hQ
        have : Q = P := by rw [show st.pools c' = some Q from hQ] at hP; injection hP
        subst this
        exact ⟨fun _ => hlen, fun _ => ⟨⟨b, hbn, hbV, hbA, hbv⟩, hc⟩⟩
      · exact (hoth n' c' ha' hcc).mono h.bi hbi (hoff n' c' ha' hcc) rfl rfl
    rcases g2.firstGE nr with ⟨i, f1, f2, f3, f4⟩ | ⟨f1, f2⟩
    · unfold Pool.findIdx at hst'
      rw [f1] at hst'
      have f3' : ∀ s ∈ xs.take i, s.rev.toNat < midOf n c := by intro s hs; have := f3 s hs; rw [← hnr]; bv_omega
      have f4' : ∀ s ∈ xs.drop i, midOf n c ≤ s.rev.toNat := by intro s hs; have := f4 s hs; rw [← hnr]; bv_omega
      have hdr : ∃ s, s ∈ xs.drop i := ⟨xs[i], by rw [List.mem_drop_iff_getElem]; exact ⟨0, by omega, by simp⟩⟩
      cases i with
      | zero =>
        simp only [Except.ok.injEq] at hst'
        subst hst'
        have hall : ∀ x ∈ P.used, midOf n c ≤ x.rev.toNat := by
          intro x hx; rw [hU] at hx; exact f4' x (by simpa using hx)
        apply hzomb
        right
        refine ⟨?_, hall⟩
        rcases hR with hR | hR | ⟨hR, y, hy0, hy1, hy⟩
        · omega
        · have := hR x0 (by rw [hU]; exact hx0)
          have := hall x0 (by rw [hU]; exact hx0)
          omega
        · have := hall y hy0
          omega
      | succ i =>
        simp only at hst'
        obtain ⟨s0, hs0⟩ := hdr
        obtain ⟨hE, a1, a2, w1, w2⟩ := h.linked ha hw h5 hbi hnz hsh hbn (by rw [hbv, hw.mid]) hgl hbl hP g2 g3 f2 (by omega)
          (by intro s hs; rw [hbv]; exact f3' s hs) (by intro s hs; rw [hbv]; exact f4' s hs)
        have hcb : bval c < bval b := by have := a2.2.2.1; omega
        have hbn' : bval b < bval n := by have := a1.2.2.1; omega
        have hadd : addBucket m1 st.blist b = A ++ n :: b :: c :: B := by
          rw [hbl]
          exact addBucket_eq hbi (hbl ▸ h.desc) (fun p hp => (hgl p).2 (Or.inl (h.sub p (hbl ▸ hp)))) hbgl hcb hbn'
        rw [hadd] at hst'
        have hcneb : c ≠ b := by rintro rfl; exact hnin ha.2.1
        obtain ⟨ok1, ok2⟩ := g2.split f2 (by omega)
        have hmem : ∀ q, q ∈ A ++ n :: b :: c :: B ↔ q ∈ st.blist ∨ q = b := by
          intro q; rw [hbl]; simp only [List.mem_append, List.mem_cons]; tauto
        obtain ⟨st2, hst2⟩ : ∃ st2 : St, st2 = { st with mem := m1, pools := upool (upool st.pools c (P.split (i + 1)).1) b (P.split (i + 1)).2, blist := A ++ n :: b :: c :: B } := ⟨_, rfl⟩
        rw [← hst2] at hst' hE
        have hbl2 : st2.blist = A ++ n :: b :: c :: B := by rw [hst2]
        have hmx2 : st2.maxPer = st.maxPer := by rw [hst2]
        have hsub : ∀ s, Stored st2 s → Stored st s := by
          rintro s ⟨p, Q, hQ, hs⟩
          rw [hst2] at hQ
          simp only [upool] at hQ
          by_cases e1 : p = b
          · rw [if_pos e1] at hQ; injection hQ with hQ; subst hQ
            rw [ok2.used] at hs
            exact ⟨c, P, hP, by rw [hU]; exact List.mem_of_mem_drop hs⟩
          · rw [if_neg e1] at hQ
            by_cases e2 : p = c
            · rw [if_pos e2] at hQ; injection hQ with hQ; subst hQ
              rw [ok1.used] at hs
              exact ⟨c, P, hP, by rw [hU]; exact List.mem_of_mem_take hs⟩
            · rw [if_neg e2] at hQ
              exact ⟨p, Q, hQ, hs⟩
        have hold : ∀ n' c', Adj st2.blist n' c' → c' ≠ b → c' ≠ c → Half st2 n' c' := by
          intro n' c' ha' e1 e2
          rw [hbl2] at ha'
          have hdesc : (A ++ n :: b :: c :: B).Pairwise (fun p q => bval q < bval p) := hbl2 ▸ hE.desc
          rcases adj_insert h.desc hdesc ha hmem hcb hbn' ha' with ⟨_, rfl⟩ | ⟨_, rfl⟩ | ⟨x1, _⟩
          · exact absurd rfl e1
          · exact absurd rfl e2
          · refine (hoth n' c' x1 e2).mono h.bi (by rw [hst2]; exact hbi) (hoff n' c' x1 e2) ?_ hmx2
            rw [hst2]; simp [upool, e1, e2]
        have hl1 : (P.split (i + 1)).1.len = ((i + 1 : Nat) : Int) := rfl
        have hl2 : (P.split (i + 1)).2.len = P.len - ((i + 1 : Nat) : Int) := rfl
        have hlt : ((i + 1 : Nat) : Int) < P.len := by rw [g2.len]; exact_mod_cast f2
        have hnone : ∀ q ∈ gl', bval c < bval q → bval q < bval n → bval q = bval b := by
          intro q hq x1 x2
          rcases (hgl q).1 hq with hq | rfl
          · rw [hbv, hw.mid]; exact hw.2.2.2 q hq x1 x2
          · rfl
        have hlow : ∀ n' c', Adj st2.blist n' c' → c' = c → (P.split (i + 1)).1.len ≤ st.maxPer → Half st2 n' c' := by
          rintro n' c' ha' rfl hle Q hQ
          rw [hst2] at hQ
          simp only [upool, if_neg hcneb, if_true] at hQ
          injection hQ with hQ; subst hQ
          rw [hmx2]
          refine ⟨?_, fun hl => by omega⟩
          intro ht
          obtain ⟨q, q1, _, q3⟩ := (tried_iff hE.bi).1 ht
          obtain ⟨k', hw'⟩ := hE.width n' c' ha'
          have hbet' := hw'.between
          have := ha'.2.2.2 b (by rw [hbl2]; exact (hmem b).2 (Or.inr rfl))
          have := hnone q q1 (by omega) (by omega)
          omega
        have hhigh : ∀ n' c', Adj st2.blist n' c' → c' = b → (P.split (i + 1)).2.len ≤ st.maxPer → Half st2 n' c' := by
          rintro n' c' ha' rfl hle Q hQ
          rw [hst2] at hQ
          simp only [upool, if_true] at hQ
          injection hQ with hQ; subst hQ
          rw [hmx2]
          refine ⟨?_, fun hl => by omega⟩
          intro ht
          obtain ⟨q, q1, _, q3⟩ := (tried_iff hE.bi).1 ht
          obtain ⟨k', hw'⟩ := hE.width n' c' ha'
          have hbet' := hw'.between
          have := ha'.2.2.2 n (by rw [hbl2]; exact (hmem n).2 (Or.inl ha.1))
          have := hnone q q1 (by omega) (by omega)
          omega
        rcases hR with hR | hR | ⟨hR, y, hy0, hy1, hy⟩
        · rw [if_neg (by omega), if_neg (by omega)] at hst'
          simp only [Except.ok.injEq] at hst'
          subst hst'
          intro n' c' ha'
          by_cases e1 : c' = b
          · exact hhigh n' c' ha' e1 (by omega)
          · by_cases e2 : c' = c
            · exact hlow n' c' ha' e2 (by omega)
            · exact hold n' c' ha' e1 e2
        · have := hR s0 (by rw [hU]; exact List.mem_of_mem_drop hs0)
          have := f4' s0 hs0
          omega
        · -- one key below, the rest above
          have hi0 : i = 0 := by
            by_contra hi
            have hy' : ∀ x ∈ xs.take (i + 1), x = y := by
              intro x hx
              rcases hy x (by rw [hU]; exact List.mem_of_mem_take hx) with h | h
              · exact h
              · have := f3' x hx; omega
            have t0 : xs[0]'(by omega) = y := hy' _ (by rw [List.mem_take_iff_getElem]; exact ⟨0, by omega, rfl⟩)
            have t1 : xs[1]'(by omega) = y := hy' _ (by rw [List.mem_take_iff_getElem]; exact ⟨1, by omega, rfl⟩)
            have := g2.mono (i := 0) (j := 1) (by omega) (by omega)
            rw [t0, t1] at this
            exact BitVec.lt_irrefl _ this
          subst hi0
          rw [if_pos (by rw [hl2, hR]; omega)] at hst'
          refine ih st2 gl' n b (k - 1) (P.split (0 + 1)).2 hE (by rw [hbl2]; exact a1) w1 (by omega) (by rw [hst2]; simp [upool])
            (by rw [hl2, hR, hmx2]; omega) ?_ (by rw [hmx2]; exact h1) (Or.inl (by rw [hl2, hR, hmx2]; omega)) ?_ st' hst'
          · intro L hL x1 x2
            rw [hmx2]
            refine hcr L hL (fun r hr => ?_) x2
            obtain ⟨s, y1, y2⟩ := x1 r hr
            exact ⟨s, hsub s y1, y2⟩
          · intro n' c' ha' e1
            by_cases e2 : c' = c
            · exact hlow n' c' ha' e2 (by rw [hl1]; omega)
            · exact hold n' c' ha' e1 e2
    · unfold Pool.findIdx at hst'
      rw [f1] at hst'
      simp only [Except.ok.injEq] at hst'
      subst hst'
      apply hzomb
      left
      intro x hx
      rw [hU] at hx
      have := f2 x hx
      rw [← hnr]; bv_omega

variable {H : HashFns} {K : List (U64 × U64)} {s : PMap}

/-- Changing slots without changing their number or hashes. -/
theorem Full.same (hF : Full st) {P Q : Pool} (hP : st.pools b = some P) (hl : Q.len = P.len)
    (hr : ∀ x ∈ Q.used, ∃ y ∈ P.used, y.rev = x.rev) : Full { st with pools := upool st.pools b Q } := by
  intro n c ha R hR
  by_cases e : c = b
  · subst e
    simp only [upool, if_true] at hR
    injection hR with hR; subst hR
    obtain ⟨h1, h2⟩ := hF n c ha P hP
    show (Tried st n c → Q.len > st.maxPer) ∧ (Q.len > st.maxPer → Tried st n c ∧ _)
    rw [hl]
    refine ⟨h1, fun hx => ⟨(h2 hx).1, ?_⟩⟩
    rcases (h2 hx).2 with h2 | ⟨h2, h3⟩
    · left
      intro x hx
      obtain ⟨y, hy, e⟩ := hr x hx
      rw [← e]; exact h2 y hy
    · right
      refine ⟨h2, ?_⟩
      intro x hx
      obtain ⟨y, hy, e⟩ := hr x hx
      rw [← e]; exact h3 y hy
  · simp only [upool, if_neg e] at hR
    exact hF n c ha R hR

/-- A key that is looked up in a bucket over the limit is below the midpoint. -/
theorem below_mid (h : EI st gl) {r : U64} {k cc : U64} (hr : r = rev64 k) {P : Pool} {o : Option Nat} (hf : find st k cc = some (b, P, o))
    (ha : Adj st.blist n b) {q : Path} (q1 : q ≠ []) (q2 : V st.mem q) (q3 : (st.mem q).isAlias = false) (q4 : bval q = midOf n b) :
    r.toNat < midOf n b := by
  subst hr
  obtain ⟨_, _, _, o4⟩ := owner_spec h.bi h.nz h.sh (rev64 k)
  have hb : basePath st.mem (findBucket st.mem (rev64 k)) = b := by
    unfold find at hf
    simp only at hf
    split at hf
    · cases hf
    · injection hf with hf; injection hf
  rw [hb] at o4
  by_contra hc
  have := o4 q ((h.bi.mem_iff q q1).2 ⟨q2, q3⟩) q1 (by omega)
  obtain ⟨k', hw⟩ := h.width n b ha
  have := hw.mid
  have h2 : 0 < 2 ^ k' / 2 := by
    have := hw.2.2.1
    obtain ⟨j, rfl⟩ : ∃ j, k' = j + 1 := ⟨k' - 1, by omega⟩
    rw [pow_succ]; have := Nat.two_pow_pos j; omega
  omega

/-- The state after the new slot was filled in, before the counters. -/
theorem inserted (h : RelE H K st gl s) (hK : KOK st.maxPer K) {str : List (BitVec 8)} (hmem : (H.mem str, H.xx str) ∈ K)
    {P : Pool} {xs : List Slot} {z : Nat} (f : Found st (rev64 (H.mem str)) b n P xs z) {q : Pool} {i : Nat}
    (hg : Pool.getSlot 2 P (rev64 (H.mem str)) = .ok (q, i)) (hno : ∀ x ∈ xs, x.rev ≠ rev64 (H.mem str))
    (hlen : (xs.length : Int) < 2 ^ 62) {y : Slot} (y1 : y.rev = rev64 (H.mem str)) (y2 : y.conflict = H.xx str) (y3 : y.deleted = false) :
    ∃ Q z' st1, (setSlot st b q i y = st1 ∧ st1.blist = st.blist ∧ st1 = { st with pools := upool st.pools b Q }) ∧
      OKP Q (xs.take i ++ y :: xs.drop i) z' ∧ EI st1 gl ∧ st1.pools b = some Q ∧ NotCrowded st1.maxPer (Stored st1) := by
  rcases f.okp.getSlot (rev64 (H.mem str)) hno with ⟨q', i', g1, g2⟩ | ⟨g1, _⟩
  swap
  · omega
  rw [hg] at g1; injection g1 with g1; injection g1 with g1 g1'; subst g1; subst g1'
  obtain ⟨z', hQ⟩ := g2.okp f.okp y1 y3
  have hm : ∀ x, x ∈ xs.take i ++ y :: xs.drop i ↔ x = y ∨ x ∈ xs := by
    intro x
    conv_rhs => rw [← List.take_append_drop i xs]
    simp only [List.mem_append, List.mem_cons]; exact or_left_comm
  refine ⟨{ q with arr := q.arr.set i y }, z', _, ⟨rfl, rfl, rfl⟩, hQ, ?_, by simp [setSlot, upool], ?_⟩
  · apply h.ei.replace f.adj hQ
    intro x hx
    rcases (hm x).1 hx with rfl | hx
    · rw [y1]; exact ⟨f.lo, f.hi⟩
    · exact f.inside x hx
  · intro L k1 k2 k3
    refine hK.sparse L k1 ?_ k3
    intro r hr
    obtain ⟨x, hx, rfl⟩ := k2 r hr
    unfold setSlot at hx
    rw [stored_replace, hQ.used, hm] at hx
    refine ⟨x.conflict, ?_⟩
    rcases hx with (rfl | hx) | ⟨p, Q', _, hQ', hx⟩
    · rw [y1, y2, rev64_rev64]; exact hmem
    · exact h.mem x ⟨b, P, f.pool, by rw [f.okp.used]; exact hx⟩
    · exact h.mem x ⟨p, Q', hQ', hx⟩

/-- A new key keeps the buckets as they should be. -/
theorem insert_full (h : RelE H K st gl s) (hK : KOK st.maxPer K) (h1 : 1 ≤ st.maxPer) (hF : Full st) {str : List (BitVec 8)}
    (hmem : (H.mem str, H.xx str) ∈ K) (hmax : rev64 (H.mem str) < maxU64)
    {P : Pool} {xs : List Slot} {z : Nat} (f : Found st (rev64 (H.mem str)) b n P xs z)
    (hfi : find st (H.mem str) (H.xx str) = some (b, P, none))
    {v : IVal} {q : Pool} {i : Nat} (hg : Pool.getSlot 2 P (rev64 (H.mem str)) = .ok (q, i))
    (hno : ∀ x ∈ xs, x.rev ≠ rev64 (H.mem str)) (hlen : (xs.length : Int) < 2 ^ 62) {st' : St}
    (hl : link (setSlot st b q i { rev := rev64 (H.mem str), conflict := H.xx str, key := str, val := v }) b (rev64 (H.mem str)) false = .ok st') :
    Full st' := by
  obtain ⟨y, hy⟩ : ∃ y : Slot, y = { rev := rev64 (H.mem str), conflict := H.xx str, key := str, val := v } := ⟨_, rfl⟩
  rw [← hy] at hl
  have y1 : y.rev = rev64 (H.mem str) := by rw [hy]
  obtain ⟨Q, z', st1, ⟨hS, hbl, hst1⟩, hQ, hE, hP1, hcr⟩ := inserted h hK hmem f hg hno hlen y1 (by rw [hy]) (by rw [hy])
  rw [hS] at hl
  have hm : ∀ x, x ∈ xs.take i ++ y :: xs.drop i ↔ x = y ∨ x ∈ xs := by
    intro x
    conv_rhs => rw [← List.take_append_drop i xs]
    simp only [List.mem_append, List.mem_cons]; exact or_left_comm
  have hQl : Q.len = P.len + 1 := by
    rw [hQ.len, f.okp.len]
    have : (xs.take i ++ y :: xs.drop i).length = xs.length + 1 := by
      simp only [List.length_append, List.length_cons, List.length_take, List.length_drop]; omega
    rw [this]; simp
  have hmx : st1.maxPer = st.maxPer := by rw [hst1]
  have ha : Adj st1.blist n b := by rw [hbl]; exact f.adj
  have hoth : ∀ n' c', Adj st1.blist n' c' → c' ≠ b → Half st1 n' c' := by
    intro n' c' ha' e R hR
    rw [hst1] at hR
    simp only [upool, if_neg e] at hR
    have := hF n' c' (by rw [← hbl]; exact ha') R hR
    rw [hst1]; exact this
  have hready : Ready st1 n b Q := by
    unfold Ready
    rw [hmx, hQ.used, hQl]
    by_cases hle : P.len ≤ st.maxPer
    · left; omega
    · obtain ⟨⟨p, p1, p2, p3, p4⟩, h2⟩ := (hF n b f.adj P f.pool).2 (by omega)
      have hlt := below_mid h.ei rfl hfi f.adj p1 p2 p3 p4
      rw [f.okp.used] at h2
      rcases h2 with h2 | ⟨h2, h3⟩
      · right; left
        intro x hx
        rcases (hm x).1 hx with rfl | hx
        · rw [y1]; exact hlt
        · exact h2 x hx
      · right; right
        refine ⟨by omega, y, (hm y).2 (Or.inl rfl), by rw [y1]; exact hlt, ?_⟩
        intro x hx
        rcases (hm x).1 hx with hx | hx
        · exact Or.inl hx
        · exact Or.inr (h3 x hx)
  have hcount : ∀ st2 : St, ∀ gl2, EI st2 gl2 → Full st2 → Full { st2 with
        len := st2.len + 1,
        mem := if (st2.mem b).level > 0 then upd st2.mem b { st2.mem b with len := (st2.mem b).len + 1 } else st2.mem } := by
    intro st2 gl2 hE2 hF2 n' c' ha'
    have hEq : EqL st2.mem (if (st2.mem b).level > 0 then upd st2.mem b { st2.mem b with len := (st2.mem b).len + 1 } else st2.mem) := by
      split
      · exact EqL.len _ _ _
      · exact EqL.refl _
    exact (hF2 n' c' ha').mono hE2.bi (hE2.bi.congr hEq) (fun q _ => Iff.rfl) rfl rfl
  unfold link at hl
  simp only at hl
  by_cases hsp : Q.len > st.maxPer
  · rw [if_pos ⟨hmax, trivial, by simp only [blen, hP1, hmx]; exact hsp⟩] at hl
    obtain ⟨k, hw⟩ := hE.width n b ha
    have hk := hE.width_le ha hw.1
    obtain ⟨st2, gl2, r1, r2, _⟩ := makeBucket2_ok 64 st1 gl n b k Q hE ha hw (by omega) hP1 (by rw [hmx]; exact hsp) hcr
    have hfl := makeBucket2_fill 64 st1 gl n b k Q hE ha hw (by omega) hP1 (by rw [hmx]; exact hsp) hcr (by rw [hmx]; exact h1) hready hoth st2 r1
    rw [r1] at hl
    simp only [Except.ok.injEq] at hl
    subst hl
    exact hcount st2 gl2 r2 hfl
  · rw [if_neg (by rintro ⟨_, _, x⟩; simp only [blen, hP1, hmx] at x; exact hsp x)] at hl
    simp only [Except.ok.injEq] at hl
    subst hl
    apply hcount st1 gl hE
    intro n' c' ha'
    by_cases e : c' = b
    · subst e
      intro R hR
      rw [hP1] at hR; injection hR with hR; subst hR
      rw [hmx]
      refine ⟨fun ht => ?_, fun hl => absurd hl hsp⟩
      have ht' : Tried st n' c' := by rw [hst1] at ht; exact ht
      have := (hF n' c' (by rw [← hbl]; exact ha') P f.pool).1 ht'
      omega
    · exact hoth n' c' ha' e

/-- `Set` of a string key. -/
theorem set_full (h : RelE H K st gl s) (hK : KOK st.maxPer K) (h1 : 1 ≤ st.maxPer) (hF : Full st) {str : List (BitVec 8)}
    (hmem : (H.mem str, H.xx str) ∈ K) (hmax : rev64 (H.mem str) < maxU64) (v : IVal) : Full (opSet H st (.str str) v).1 := by
  unfold opSet
  simp only [keyToHash]
  rcases h.find (H.mem str) (H.xx str) with ⟨h0, hg⟩ | ⟨b, n, P, xs, z, f, ⟨i, hi, e0, e1, e2, e3⟩ | ⟨e0, e2, hno⟩⟩
  · rw [h0]; exact hF
  · rw [e0]
    simp only [Emb.update, f.okp.slot hi]
    have hsame : ∀ w, Full (setSlot st b P i { xs[i] with val := w }) := by
      intro w
      refine hF.same f.pool rfl ?_
      intro x hx
      rw [f.okp.used]
      have hx' : x ∈ (P.arr.set i { xs[i] with val := w }).take P.len.toNat := hx
      rw [f.okp.arr, List.set_append_left _ _ hi, f.okp.len] at hx'
      simp only [Int.toNat_natCast] at hx'
      rw [List.take_left' (by simp)] at hx'
      rcases List.mem_or_eq_of_mem_set hx' with hx' | rfl
      · exact ⟨x, hx', rfl⟩
      · exact ⟨xs[i], List.getElem_mem hi, rfl⟩
    split
    · exact hF
    · exact hsame _
  · rw [e0]
    obtain ⟨q, i, st', gl', g1, g2, g3, g4, g5, g6⟩ := h.insert hK hmem f hno v
    simp only [g1, g2]
    have hsv : setValue .sample ({} : Slot).val v = .ok (v, v.isSome) := by
      cases v <;> rfl
    have hc : claim {} (rev64 (H.mem str)) (H.xx str) = { rev := rev64 (H.mem str), conflict := H.xx str } := by
      simp [claim]
    simp only [hc, hsv]
    have hsv' : setValue .sample (none : IVal) v = .ok (v, v.isSome) := hsv
    simp only [hsv', g3, finish]
    refine insert_full h hK h1 hF hmem hmax f e0 g1 ?_ ?_ g3
    · intro x hx hc
      have hx1 := h.mem x ⟨b, P, f.pool, by rw [f.okp.used]; exact hx⟩
      rw [hc, rev64_rev64] at hx1
      exact hno x hx ⟨hc, hK.one _ _ _ hx1 hmem⟩
    · have hx1 : (xs.map (fun x => (rev64 x.rev, x.conflict))).length ≤ K.length := by
        apply List.Subperm.length_le
        apply List.subperm_of_subset
        · rw [List.Nodup, List.pairwise_map]
          refine f.okp.sorted.imp ?_
          intro a b hlt hc
          injection hc with h1 _
          rw [rev64_inj h1] at hlt; exact BitVec.lt_irrefl _ hlt
        · intro y hy
          obtain ⟨x, hx, rfl⟩ := List.mem_map.1 hy
          exact h.mem x ⟨b, P, f.pool, by rw [f.okp.used]; exact hx⟩
      rw [List.length_map] at hx1
      exact lt_of_le_of_lt (Int.ofNat_le.2 hx1) hK.small

theorem stepE_full (h : RelE H K st gl s) (hK : KOK st.maxPer K) (h1 : 1 ≤ st.maxPer) (hF : Full st) {op : Op} (hp : Plain op)
    (hk : ∀ kc, setHash H op = some kc → kc ∈ K) (hmx : ∀ kc, setHash H op = some kc → rev64 kc.1 < maxU64) : Full (step H st op).1 := by
  cases op with
  | set key v =>
    cases key with
    | str str => exact set_full h hK h1 hF (hk (H.mem str, H.xx str) rfl) (hmx (H.mem str, H.xx str) rfl) v
    | _ => exact absurd hp (by simp [Plain])
  | storeItem str v r => exact absurd hp (by simp [Plain])
  | delete k => exact absurd hp (by simp [Plain])
  | purge k => exact absurd hp (by simp [Plain])
  | _ => exact hF

theorem run_full {mp : Nat} (h1 : 1 ≤ mp) (hK : KOK mp K) : ∀ (ops : List Op) (st : St) (gl : List Path) (s : PMap), RelE H K st gl s →
    st.maxPer = mp → Full st → (∀ op ∈ ops, Plain op) → (∀ op ∈ ops, ∀ kc, setHash H op = some kc → kc ∈ K) →
    (∀ op ∈ ops, ∀ kc, setHash H op = some kc → rev64 kc.1 < maxU64) → (∀ c, Out.crash c ∉ (run H st ops).2) →
    Full (run H st ops).1 := by
  intro ops
  induction ops with
  | nil => intro st gl s _ _ hF _ _ _ _; exact hF
  | cons op ops ih =>
    intro st gl s h hm hF hp hk hmx hc
    simp only [Emb.run] at hc ⊢
    rcases h.step (hm ▸ hK) (hp op (by simp)) (hk op (by simp)) with ⟨h2, _⟩ | ⟨⟨gl', h2, _⟩, h3, _⟩
    · exact absurd (by rw [h2]; simp) (hc .stackOverflow)
    · exact ih _ gl' _ h2 (h3.trans hm) (stepE_full h (hm ▸ hK) (hm ▸ h1) hF (hp op (by simp)) (hk op (by simp)) (hmx op (by simp)))
        (fun o ho => hp o (by simp [ho])) (fun o ho => hk o (by simp [ho])) (fun o ho => hmx o (by simp [ho]))
        (fun c hx => hc c (List.mem_cons_of_mem _ hx))

theorem initE_full (mp : Nat) (h1 : 1 ≤ mp) : Full (initSt mp) := by
  intro n c ha P hP
  unfold initSt at hP
  simp only at hP
  split at hP
  · injection hP with hP; subst hP
    refine ⟨fun ht => ?_, fun hl => ?_⟩
    · have hE := init_EI mp h1
      obtain ⟨q, q1, _, q3⟩ := (tried_iff hE.bi).1 ht
      obtain ⟨k, hw⟩ := hE.width n c ha
      have := hw.between
      have := ha.2.2.2 q q1
      omega
    · have : (0 : Int) > ((initSt mp).maxPer : Int) := hl
      omega
  · cases hP

/-! ### keys in the lower halves only -/

/-- In the lower half of its first bucket. -/
def LowR (r : U64) : Prop := r.toNat % 2 ^ 60 < 2 ^ 59

/-- Nothing was divided and only lower halves are in use. -/
structure Low (mp : Nat) (st : St) : Prop where
  bl : st.blist = (initSt mp).blist
  low : ∀ x, Stored st x → LowR x.rev

theorem init_mid {mp : Nat} (ha : Adj (initSt mp).blist n b) {r : U64} (h1 : bval b ≤ r.toNat) (h2 : r.toNat < bval n) (hl : LowR r) :
    r.toNat < midOf n b := by
  obtain ⟨t, e1, e2⟩ := init_adj ha
  unfold LowR at hl
  unfold midOf
  rw [e1] at h1 ⊢; rw [e2] at h2 ⊢
  omega

/-- Lookups of low keys come back. -/
theorem Low.find {mp : Nat} (hL : Low mp st) (h : EI st gl) {k : U64} (hl : LowR (rev64 k)) (cc : U64) : find st k cc ≠ none := by
  unfold Emb.find
  simp only
  obtain ⟨o1, o2, o3, o4⟩ := owner_spec h.bi h.nz h.sh (rev64 k)
  generalize basePath st.mem (findBucket st.mem (rev64 k)) = b at *
  suffices hb : b ∈ st.blist by
    obtain ⟨n, ha⟩ := adj_next h.desc h.head hb o2
    obtain ⟨P, xs, z, g1, _⟩ := h.content n b ha
    rw [g1]; simp
  have ht : (rev64 k).toNat / 2 ^ 60 < 16 := by have := (rev64 k).isLt; omega
  have htop := h.tops _ ht
  have htv := bval_top ((rev64 k).toNat / 2 ^ 60)
  have hdm := Nat.div_add_mod (rev64 k).toNat (2 ^ 60)
  unfold LowR at hl
  generalize (rev64 k).toNat / 2 ^ 60 = t at *
  obtain ⟨n, ha⟩ := adj_next h.desc h.head htop (by simp)
  have hge := o4 [t] (h.sub _ htop) (by simp) (by omega)
  have ha0 := ha
  rw [hL.bl] at ha0
  obtain ⟨t', e1, e2⟩ := init_adj ha0
  by_cases hv : bval b = bval [t]
  · rw [bval_inj h.bi.desc o1 (h.sub _ htop) hv]; exact htop
  · exfalso
    obtain ⟨j, hw⟩ := h.width n [t] ha
    have hj := hw.1
    have := hw.2.2.2 b o1 (by omega) (by omega)
    omega

/-- No bucket is divided. -/
theorem makeBucket2_low (fuel : Nat) {k : Nat} {P : Pool} {xs : List Slot} {z : Nat} (h : EI st gl) (ha : Adj st.blist n c) (hw : Width gl n c k) (h5 : 5 ≤ k)
    (hP : st.pools c = some P) (hok : OKP P xs z) (hlow : ∀ x ∈ xs, x.rev.toNat < midOf n c) {st' : St}
    (he : makeBucket2 (fuel + 1) st c = .ok st') : st'.blist = st.blist := by
  obtain ⟨m1, b, gl', nr, _, _, _, _, _, _, _, _, hnr, _, e⟩ := makeBucket2_head fuel h ha hw h5 hP
  rw [e] at he
  have : P.findIdx nr = none := by
    unfold Pool.findIdx
    rcases hok.firstGE nr with ⟨i, _, f2, _, f4⟩ | ⟨f1, _⟩
    · have hm : xs[i] ∈ xs.drop i := by rw [List.mem_drop_iff_getElem]; exact ⟨0, by omega, by simp⟩
      have x1 := f4 _ hm
      have x2 := hlow _ (List.mem_of_mem_drop hm)
      rw [← hnr] at x2
      bv_omega
    · exact f1
  rw [this] at he
  simp only [Except.ok.injEq] at he
  rw [← he]

/-- A Set of a low key: no crash, nothing divided. -/
theorem Low.set {mp : Nat} (hL : Low mp st) (hm : st.maxPer = mp) (h : RelE H K st gl s) (hK : KOK mp K) {str : List (BitVec 8)}
    (hmem : (H.mem str, H.xx str) ∈ K) (hl : LowR (rev64 (H.mem str))) (v : IVal) :
    (opSet H st (.str str) v).1.blist = st.blist ∧ ∀ c, (opSet H st (.str str) v).2 ≠ .crash c := by
  subst hm
  unfold opSet
  simp only [keyToHash]
  rcases h.find (H.mem str) (H.xx str) with ⟨h0, hg⟩ | ⟨b, n, P, xs, z, f, ⟨i, hi, e0, e1, e2, e3⟩ | ⟨e0, e2, hno⟩⟩
  · exact absurd h0 (hL.find h.ei hl _)
  · rw [e0]
    simp only [Emb.update]
    split <;> exact ⟨rfl, fun c hc => by cases hc⟩
  · rw [e0]
    obtain ⟨q, i, st', gl', g1, g2, g3, g4, g5, g6⟩ := h.insert hK hmem f hno v
    simp only [g1, g2]
    have hsv : setValue .sample ({} : Slot).val v = .ok (v, v.isSome) := by
      cases v <;> rfl
    have hc : claim {} (rev64 (H.mem str)) (H.xx str) = { rev := rev64 (H.mem str), conflict := H.xx str } := by
      simp [claim]
    simp only [hc, hsv]
    have hsv' : setValue .sample (none : IVal) v = .ok (v, v.isSome) := hsv
    simp only [hsv', g3, finish]
    refine ⟨?_, fun c hc => by cases hc⟩
    have hnr : ∀ x ∈ xs, x.rev ≠ rev64 (H.mem str) := by
      intro x hx hc
      have hx1 := h.mem x ⟨b, P, f.pool, by rw [f.okp.used]; exact hx⟩
      rw [hc, rev64_rev64] at hx1
      exact hno x hx ⟨hc, hK.one _ _ _ hx1 hmem⟩
    have hlen : (xs.length : Int) < 2 ^ 62 := by
      have hx1 : (xs.map (fun x => (rev64 x.rev, x.conflict))).length ≤ K.length := by
        apply List.Subperm.length_le
        apply List.subperm_of_subset
        · rw [List.Nodup, List.pairwise_map]
          refine f.okp.sorted.imp ?_
          intro a b hlt hc
          injection hc with h1 _
          rw [rev64_inj h1] at hlt; exact BitVec.lt_irrefl _ hlt
        · intro y hy
          obtain ⟨x, hx, rfl⟩ := List.mem_map.1 hy
          exact h.mem x ⟨b, P, f.pool, by rw [f.okp.used]; exact hx⟩
      rw [List.length_map] at hx1
      exact lt_of_le_of_lt (Int.ofNat_le.2 hx1) hK.small
    obtain ⟨y, hy⟩ : ∃ y : Slot, y = { rev := rev64 (H.mem str), conflict := H.xx str, key := str, val := v } := ⟨_, rfl⟩
    rw [← hy] at g3
    have y1 : y.rev = rev64 (H.mem str) := by rw [hy]
    have y2 : y.conflict = H.xx str := by rw [hy]
    obtain ⟨Q, z', st1, hS, hQ, hE, hP1, hcr⟩ := inserted h hK hmem f g1 hnr hlen y1 y2 (by rw [hy])
    rw [hS.1] at g3
    have ha : Adj st1.blist n b := by rw [hS.2.1]; exact f.adj
    have hx : ∀ x ∈ xs.take i ++ y :: xs.drop i, x.rev.toNat < midOf n b := by
      intro x hx
      have ha0 := f.adj
      rw [hL.bl] at ha0
      have : x = y ∨ x ∈ xs := by
        rcases List.mem_append.1 hx with hx | hx
        · exact Or.inr (List.mem_of_mem_take hx)
        · rcases List.mem_cons.1 hx with hx | hx
          · exact Or.inl hx
          · exact Or.inr (List.mem_of_mem_drop hx)
      rcases this with rfl | hx
      · rw [y1]; exact init_mid ha0 f.lo f.hi hl
      · exact init_mid ha0 (f.inside x hx).1 (f.inside x hx).2 (hL.low x ⟨b, P, f.pool, by rw [f.okp.used]; exact hx⟩)
    unfold link at g3
    simp only at g3
    split at g3
    · cases g3
    · rename_i st2 hst2
      simp only [Except.ok.injEq] at g3
      subst g3
      show st2.blist = st.blist
      rw [← hS.2.1]
      split at hst2
      · rename_i hsp
        have hlQ : Q.len > st1.maxPer := by have h9 := hsp.2.2; simp only [blen, hP1] at h9; exact h9
        obtain ⟨k, hw⟩ := hE.width n b ha
        have h5 := hE.wide hcr ha hw hP1 hlQ
        exact makeBucket2_low 63 hE ha hw h5 hP1 hQ hx hst2
      · simp only [Except.ok.injEq] at hst2
        rw [hst2]

/-- Every hash the operation addresses is low. -/
def OpLow (H : HashFns) : Op → Prop
  | .set key _ => ∀ kc, keyToHash H key = some kc → LowR (rev64 kc.1)
  | .get key => ∀ kc, keyToHash H key = some kc → LowR (rev64 kc.1)
  | .loadItem key => ∀ kc, keyToHash H key = some kc → LowR (rev64 kc.1)
  | .getByHash k _ => LowR (rev64 k)
  | .loadItemByHash k _ => LowR (rev64 k)
  | _ => True

theorem Low.step {mp : Nat} (hL : Low mp st) (hm : st.maxPer = mp) (h : RelE H K st gl s) (hK : KOK mp K) {op : Op} (hp : Plain op)
    (hk : ∀ kc, setHash H op = some kc → kc ∈ K) (hl : OpLow H op) :
    (step H st op).1.blist = st.blist ∧ ∀ c, (step H st op).2 ≠ .crash c := by
  have hg : ∀ k c, LowR (rev64 k) → ∀ x, opGetByHash st k c ≠ .crash x := by
    intro k c hk x hx
    unfold opGetByHash at hx
    split at hx
    · rename_i h0; exact hL.find h.ei hk c h0
    · cases hx
    · cases hx
  have hi : ∀ k c, LowR (rev64 k) → ∀ x, opLoadItemByHash st k c ≠ .crash x := by
    intro k c hk x hx
    unfold opLoadItemByHash at hx
    split at hx
    · rename_i h0; exact hL.find h.ei hk c h0
    · cases hx
    · cases hx
  cases op with
  | set key v =>
    cases key with
    | str str => exact hL.set hm h hK (hk (H.mem str, H.xx str) rfl) (hl (H.mem str, H.xx str) rfl) v
    | _ => exact absurd hp (by simp [Plain])
  | storeItem str v r => exact absurd hp (by simp [Plain])
  | delete k => exact absurd hp (by simp [Plain])
  | purge k => exact absurd hp (by simp [Plain])
  | get key =>
    refine ⟨rfl, ?_⟩
    simp only [Emb.step, opGet]
    cases hh : keyToHash H key with
    | none => intro c hc; cases hc
    | some kc => exact hg kc.1 kc.2 (hl kc hh)
  | getByHash k c => exact ⟨rfl, hg k c hl⟩
  | loadItem key =>
    refine ⟨rfl, ?_⟩
    simp only [Emb.step, opLoadItem]
    cases hh : keyToHash H key with
    | none => intro c hc; cases hc
    | some kc => exact hi kc.1 kc.2 (hl kc hh)
  | loadItemByHash k c => exact ⟨rfl, hi k c hl⟩
  | len => exact ⟨rfl, fun c hc => by cases hc⟩

theorem setHash_low {op : Op} (h : OpLow H op) {kc : U64 × U64} (hk : setHash H op = some kc) : LowR (rev64 kc.1) := by
  cases op with
  | set key v =>
    cases key with
    | str str => exact h kc hk
    | _ => cases hk
  | _ => cases hk

theorem run_low {mp : Nat} (hK : KOK mp K) (hKl : ∀ kc ∈ K, LowR (rev64 kc.1)) : ∀ (ops : List Op) (st : St) (gl : List Path) (s : PMap),
    RelE H K st gl s → st.maxPer = mp → st.blist = (initSt mp).blist → (∀ op ∈ ops, Plain op) →
    (∀ op ∈ ops, ∀ kc, setHash H op = some kc → kc ∈ K) → (∀ op ∈ ops, OpLow H op) →
    (run H st ops).1.blist = (initSt mp).blist ∧ ∀ c, Out.crash c ∉ (run H st ops).2 := by
  intro ops
  induction ops with
  | nil => intro st gl s _ _ hb _ _ _; exact ⟨hb, fun c hc => by cases hc⟩
  | cons op ops ih =>
    intro st gl s h hm hb hp hk hl
    have hL : Low mp st := ⟨hb, fun x hx => by have := hKl _ (h.mem x hx); rwa [rev64_rev64] at this⟩
    obtain ⟨h1, h2⟩ := hL.step hm h hK (hp op (by simp)) (hk op (by simp)) (hl op (by simp))
    simp only [Emb.run]
    rcases h.step (hm ▸ hK) (hp op (by simp)) (hk op (by simp)) with ⟨h3, _⟩ | ⟨⟨gl', h3, _⟩, h4, _⟩
    · exact absurd h3 (h2 _)
    · obtain ⟨i1, i2⟩ := ih _ gl' _ h3 (h4.trans hm) (h1.trans hb) (fun o ho => hp o (by simp [ho])) (fun o ho => hk o (by simp [ho]))
        (fun o ho => hl o (by simp [ho]))
      refine ⟨i1, fun c hc => ?_⟩
      rcases List.mem_cons.1 hc with hc | hc
      · exact h2 c hc.symm
      · exact i2 c hc

/-! ### when a lookup does not come back -/

theorem best_below (x : Nat) : ∀ l : List Path, (∃ c ∈ l, bval c ≤ x) → ∃ c ∈ l, bval c ≤ x ∧ ∀ q ∈ l, bval q ≤ x → bval q ≤ bval c := by
  intro l
  induction l with
  | nil => rintro ⟨c, hc, _⟩; cases hc
  | cons a l ih =>
    rintro ⟨c, hc, hx⟩
    by_cases hl : ∃ c ∈ l, bval c ≤ x
    · obtain ⟨d, d1, d2, d3⟩ := ih hl
      by_cases ha : bval a ≤ x ∧ bval d < bval a
      · refine ⟨a, by simp, ha.1, ?_⟩
        intro q hq hqx
        rcases List.mem_cons.1 hq with rfl | hq
        · exact le_refl _
        · have := d3 q hq hqx; omega
      · refine ⟨d, by simp [d1], d2, ?_⟩
        intro q hq hqx
        rcases List.mem_cons.1 hq with rfl | hq
        · omega
        · exact d3 q hq hqx
    · rcases List.mem_cons.1 hc with rfl | hc
      · refine ⟨c, by simp, hx, ?_⟩
        intro q hq hqx
        rcases List.mem_cons.1 hq with rfl | hq
        · exact le_refl _
        · exact absurd ⟨q, hq, hqx⟩ hl
      · exact absurd ⟨c, hc, hx⟩ hl

/-- Every hash is in the interval of one linked bucket. -/
theorem EI.interval (h : EI st gl) (r : U64) : ∃ n c, Adj st.blist n c ∧ bval c ≤ r.toNat ∧ r.toNat < bval n := by
  obtain ⟨c, c1, c2, c3⟩ := best_below r.toNat st.blist ⟨[0], h.tops 0 (by omega), by rw [bval_top]; omega⟩
  have hcn : c ≠ [] := by
    rintro rfl
    rw [bval_nil] at c2
    have := r.isLt
    omega
  obtain ⟨n, ha⟩ := adj_next h.desc h.head c1 hcn
  refine ⟨n, c, ha, c2, ?_⟩
  by_contra hc
  have := c3 n ha.1 (by omega)
  have := ha.2.2.1
  omega

/-- A lookup does not come back exactly when the division of the key's bucket was tried in vain and the key is in the upper half. -/
theorem find_none_iff (h : EI st gl) (hF : Full st) (k cc : U64) :
    find st k cc = none ↔ ∃ n c P, Adj st.blist n c ∧ bval c ≤ (rev64 k).toNat ∧ (rev64 k).toNat < bval n ∧ st.pools c = some P ∧
      P.len > st.maxPer ∧ midOf n c ≤ (rev64 k).toNat := by
  have hfind : find st k cc = none ↔ st.pools (basePath st.mem (findBucket st.mem (rev64 k))) = none := by
    unfold find
    simp only
    split
    · rename_i h0; simp [h0]
    · rename_i p h0; simp [h0]
  rw [hfind]
  obtain ⟨o1, o2, o3, o4⟩ := owner_spec h.bi h.nz h.sh (rev64 k)
  generalize basePath st.mem (findBucket st.mem (rev64 k)) = b at *
  constructor
  · intro hb
    obtain ⟨n, c, ha, h1, h2⟩ := h.interval (rev64 k)
    obtain ⟨P, xs, z, g1, g2, g3⟩ := h.content n c ha
    have hcn := h.adj_ne ha
    have hcb : bval c ≤ bval b := o4 c (h.sub c ha.2.1) hcn h1
    have hne : bval c ≠ bval b := by
      intro he
      have := bval_inj h.bi.desc (h.sub c ha.2.1) o1 he
      subst this
      rw [hb] at g1; cases g1
    obtain ⟨k', hw⟩ := h.width n c ha
    have hm := hw.2.2.2 b o1 (by omega) (by omega)
    rw [← hw.mid] at hm
    exact ⟨n, c, P, ha, h1, h2, g1, (hF n c ha P g1).1 ((tried_iff h.bi).2 ⟨b, o1, o2, hm⟩), by omega⟩
  · rintro ⟨n, c, P, ha, h1, h2, hP, hl, hm⟩
    obtain ⟨q, q1, q2, q3⟩ := (tried_iff h.bi).1 ((hF n c ha P hP).2 hl).1
    obtain ⟨k', hw⟩ := h.width n c ha
    have hbet := hw.between
    have := o4 q q1 q2 (by omega)
    by_contra hb
    have hbl := (h.pool b (Option.isSome_iff_ne_none.2 hb)).1
    have := ha.2.2.2 b hbl
    omega

/-- A Set that finds its bucket comes back. -/
theorem RelE.set_comes_back (h : RelE H K st gl s) (hK : KOK st.maxPer K) {str : List (BitVec 8)} (hmem : (H.mem str, H.xx str) ∈ K) (v : IVal)
    (hf : Emb.find st (H.mem str) (H.xx str) ≠ none) (c : Crash) : (opSet H st (.str str) v).2 ≠ .crash c := by
  unfold opSet
  simp only [keyToHash]
  rcases h.find (H.mem str) (H.xx str) with ⟨h0, hg⟩ | ⟨b, n, P, xs, z, f, ⟨i, hi, e0, e1, e2, e3⟩ | ⟨e0, e2, hno⟩⟩
  · exact absurd h0 hf
  · rw [e0]
    simp only [Emb.update]
    split <;> (intro hc; cases hc)
  · rw [e0]
    obtain ⟨q, i, st', gl', g1, g2, g3, g4, g5, g6⟩ := h.insert hK hmem f hno v
    simp only [g1, g2]
    have hsv : setValue .sample ({} : Slot).val v = .ok (v, v.isSome) := by
      cases v <;> rfl
    have hc : claim {} (rev64 (H.mem str)) (H.xx str) = { rev := rev64 (H.mem str), conflict := H.xx str } := by
      simp [claim]
    simp only [hc, hsv]
    have hsv' : setValue .sample (none : IVal) v = .ok (v, v.isSome) := hsv
    simp only [hsv', g3, finish]
    intro hc; cases hc

end SLM.Emb
