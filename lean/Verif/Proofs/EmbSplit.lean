import Verif.Proofs.EmbInv
/-! `makeBucket2` keeps the invariant and the stored slots. -/
set_option linter.unusedSimpArgs false
set_option autoImplicit false
namespace SLM.Emb
variable {bl gl : List Path} {n c b : Path} {m : Path → Bkt} {st : St}

theorem adj_unique {n' c' : Path} (hd : bl.Pairwise (fun p q => bval q < bval p)) (h : Adj bl n c) (h' : Adj bl n' c') {x : Nat}
    (h1 : bval c < x) (h2 : x < bval n) (h3 : bval c' < x) (h4 : x < bval n') : n' = n ∧ c' = c := by
  have k1 := h.2.2.2 n' h'.1
  have k2 := h.2.2.2 c' h'.2.1
  have k3 := h'.2.2.2 n h.1
  have k4 := h'.2.2.2 c h.2.1
  exact ⟨bval_inj hd h'.1 h.1 (by omega), bval_inj hd h'.2.1 h.2.1 (by omega)⟩

theorem adj_le {n' c' : Path} (hd : bl.Pairwise (fun p q => bval q < bval p)) (h : Adj bl n c) (h' : Adj bl n' c') {x : Nat}
    (h1 : bval c ≤ x) (h2 : x < bval n) (h3 : bval c' ≤ x) (h4 : x < bval n') : n' = n ∧ c' = c := by
  have k1 := h.2.2.2 n' h'.1
  have k2 := h.2.2.2 c' h'.2.1
  have k3 := h'.2.2.2 n h.1
  have k4 := h'.2.2.2 c h.2.1
  exact ⟨bval_inj hd h'.1 h.1 (by omega), bval_inj hd h'.2.1 h.2.1 (by omega)⟩

theorem EI.adj_ne (h : EI st gl) (ha : Adj st.blist n c) : c ≠ [] := by
  rintro rfl
  have := h.sub n ha.1
  have hn' : bval n ≤ 2 ^ 64 := by
    by_cases hnn : n = []
    · subst hnn; rw [bval_nil]
    · have := h.bi.lt n this hnn; omega
  have := ha.2.2.1
  rw [bval_nil] at this; omega

theorem EI.width_le (h : EI st gl) (ha : Adj st.blist n c) {k : Nat} (hk : bval c + 2 ^ k = bval n) : k ≤ 60 := by
  have hcn := h.adj_ne ha
  have hcl := h.bi.lt c (h.sub c ha.2.1) hcn
  have hup : bval n ≤ (bval c / 2 ^ 60 + 1) * 2 ^ 60 := by
    by_cases hi : bval c / 2 ^ 60 + 1 < 16
    · have := ha.2.2.2 _ (h.tops _ hi)
      rw [bval_top] at this
      have h3 : bval c < (bval c / 2 ^ 60 + 1) * 2 ^ 60 := by omega
      omega
    · obtain ⟨r, hr⟩ := h.head
      have := ha.2.2.2 [] (by rw [hr]; simp)
      rw [bval_nil] at this
      omega
  by_contra hgt
  have : 2 ^ 61 ≤ 2 ^ k := Nat.pow_le_pow_right (by omega) (by omega)
  omega

/-- Nothing linked, only the trie grew. -/
theorem EI.zombie (h : EI st gl) (ha : Adj st.blist n c) {k : Nat} (hw : Width gl n c k) {m1 : Path → Bkt} {gl' : List Path}
    (hbi : BI m1 gl') (hnz : NZ m1) (hsh : Shallow m1) (hbv : bval b = bval c + 2 ^ k / 2)
    (hgl : ∀ q, q ∈ gl' ↔ q ∈ gl ∨ q = b) : EI { st with mem := m1 } gl' := by
  refine ⟨hbi, hnz, hsh, fun p hp => (hgl p).2 (Or.inl (h.sub p hp)), h.head, h.desc, h.tops, ?_, h.content, h.pool⟩
  intro n' c' ha'
  obtain ⟨k', hw'⟩ := h.width n' c' ha'
  refine ⟨k', hw'.1, hw'.2.1, hw'.2.2.1, ?_⟩
  intro q hq h1 h2
  rcases (hgl q).1 hq with hq | rfl
  · exact hw'.2.2.2 q hq h1 h2
  · have hk := hw.1
    have h2k : 2 ^ k / 2 < 2 ^ k ∧ 0 < 2 ^ k / 2 := by
      have := hw.2.2.1
      obtain ⟨j, rfl⟩ : ∃ j, k = j + 1 := ⟨k - 1, by omega⟩
      rw [pow_succ]; have := Nat.two_pow_pos j; omega
    obtain ⟨rfl, rfl⟩ := adj_unique h.desc ha ha' (x := bval q) (by omega) (by omega) h1 h2
    have hkk : k' = k := by
      have := hw'.1
      have : 2 ^ k' = 2 ^ k := by omega
      exact Nat.pow_right_injective (le_refl 2) this
    subst hkk
    exact hbv

/-- A split. -/
theorem EI.linked (h : EI st gl) (ha : Adj st.blist n c) {k : Nat} (hw : Width gl n c k) (h5 : 5 ≤ k)
    {m1 : Path → Bkt} {gl' : List Path}
    (hbi : BI m1 gl') (hnz : NZ m1) (hsh : Shallow m1) (hbn : b ≠ []) (hbv : bval b = bval c + 2 ^ k / 2)
    (hgl : ∀ q, q ∈ gl' ↔ q ∈ gl ∨ q = b) {A B : List Path} (hbl : st.blist = A ++ n :: c :: B) {P : Pool} {xs : List Slot}
    {z i : Nat} (hP : st.pools c = some P) (hok : OKP P xs z) (hin : ∀ s ∈ xs, bval c ≤ s.rev.toNat ∧ s.rev.toNat < bval n)
    (hi : i < xs.length) (hi0 : 0 < i) (hlo : ∀ s ∈ xs.take i, s.rev.toNat < bval b)
    (hhi : ∀ s ∈ xs.drop i, bval b ≤ s.rev.toNat) :
    EI { st with mem := m1, pools := upool (upool st.pools c (P.split i).1) b (P.split i).2, blist := A ++ n :: b :: c :: B } gl' ∧
      Adj (A ++ n :: b :: c :: B) n b ∧ Adj (A ++ n :: b :: c :: B) b c ∧ Width gl' n b (k - 1) ∧ Width gl' b c (k - 1) := by
  obtain ⟨hk, hdv, _, hmid⟩ := hw
  have hhalf : 2 ^ k / 2 = 2 ^ (k - 1) := by
    obtain ⟨j, rfl⟩ : ∃ j, k = j + 1 := ⟨k - 1, by omega⟩
    rw [pow_succ, Nat.mul_div_cancel _ (by omega)]; rfl
  have h2k' : 2 ^ k = 2 ^ (k - 1) + 2 ^ (k - 1) := by
    obtain ⟨j, rfl⟩ : ∃ j, k = j + 1 := ⟨k - 1, by omega⟩
    rw [pow_succ]; simp; omega
  have hpos := Nat.two_pow_pos (k - 1)
  have hcb : bval c < bval b := by omega
  have hbn' : bval b < bval n := by omega
  have hmem : ∀ q, q ∈ A ++ n :: b :: c :: B ↔ q ∈ st.blist ∨ q = b := by
    intro q; rw [hbl]; simp only [List.mem_append, List.mem_cons]; tauto
  have hdesc : (A ++ n :: b :: c :: B).Pairwise (fun p q => bval q < bval p) := by
    have hd := h.desc
    rw [hbl, List.pairwise_append] at hd
    rw [List.pairwise_append]
    obtain ⟨d1, d2, d3⟩ := hd
    rw [List.pairwise_cons, List.pairwise_cons] at d2
    obtain ⟨d4, d5, d6⟩ := d2
    refine ⟨d1, ?_, ?_⟩
    · rw [List.pairwise_cons, List.pairwise_cons, List.pairwise_cons]
      refine ⟨?_, ?_, d5, d6⟩
      · intro p hp
        rcases List.mem_cons.1 hp with rfl | hp
        · exact hbn'
        · exact d4 p hp
      · intro p hp
        rcases List.mem_cons.1 hp with rfl | hp
        · exact hcb
        · exact lt_trans (d5 p hp) hcb
    · intro p hp q hq
      simp only [List.mem_cons] at hq
      rcases hq with rfl | rfl | hq
      · exact d3 p hp q (by simp)
      · exact lt_trans hbn' (d3 p hp n (by simp))
      · exact d3 p hp q (by simp [hq])
  have a1 : Adj (A ++ n :: b :: c :: B) n b := adj_of_decomp hdesc
  have a2 : Adj (A ++ n :: b :: c :: B) b c := by
    have := adj_of_decomp (A := A ++ [n]) (n := b) (c := c) (B := B) (by simpa using hdesc)
    simpa using this
  have w1 : Width gl' n b (k - 1) := by
    refine ⟨by omega, ?_, by omega, ?_⟩
    · rw [hbv, hhalf]
      exact Nat.dvd_add (dvd_trans (pow_dvd_pow 2 (by omega)) hdv) (dvd_refl _)
    · intro q hq h1 h2
      rcases (hgl q).1 hq with hq | rfl
      · have := hmid q hq (by omega) h2; omega
      · omega
  have w2 : Width gl' b c (k - 1) := by
    refine ⟨by omega, dvd_trans (pow_dvd_pow 2 (by omega)) hdv, by omega, ?_⟩
    · intro q hq h1 h2
      rcases (hgl q).1 hq with hq | rfl
      · have := hmid q hq h1 (by omega); omega
      · omega
  have hcn : c ≠ [] := h.adj_ne ha
  have hcneb : c ≠ b := by rintro rfl; omega
  obtain ⟨ok1, ok2⟩ := hok.split hi hi0
  refine ⟨⟨hbi, hnz, hsh, ?_, ?_, hdesc, ?_, ?_, ?_, ?_⟩, a1, a2, w1, w2⟩
  · intro p hp
    rcases (hmem p).1 hp with hp | rfl
    · exact (hgl p).2 (Or.inl (h.sub p hp))
    · exact (hgl p).2 (Or.inr rfl)
  · obtain ⟨r, hr⟩ := h.head
    show ∃ rest, A ++ n :: b :: c :: B = [] :: rest
    rw [hbl] at hr
    cases A with
    | nil => simp at hr ⊢; exact hr.1
    | cons a A => simp at hr ⊢; exact hr.1
  · intro i hi
    exact (hmem _).2 (Or.inl (h.tops i hi))
  · intro n' c' ha'
    rcases adj_insert h.desc hdesc ha hmem hcb hbn' ha' with ⟨rfl, rfl⟩ | ⟨rfl, rfl⟩ | ⟨h1, h2, h3, h4⟩
    · exact ⟨_, w1⟩
    · exact ⟨_, w2⟩
    · obtain ⟨k', g1, g2, g3, g4⟩ := h.width n' c' h1
      refine ⟨k', g1, g2, g3, ?_⟩
      intro q hq x1 x2
      rcases (hgl q).1 hq with hq | rfl
      · exact g4 q hq x1 x2
      · omega
  · intro n' c' ha'
    rcases adj_insert h.desc hdesc ha hmem hcb hbn' ha' with ⟨rfl, rfl⟩ | ⟨rfl, rfl⟩ | ⟨h1, h2, h3, h4⟩
    · refine ⟨_, _, _, by simp [upool], ok2, ?_⟩
      intro s hs
      exact ⟨hhi s hs, (hin s (List.mem_of_mem_drop hs)).2⟩
    · refine ⟨_, _, _, by simp [upool, hcneb], ok1, ?_⟩
      intro s hs
      exact ⟨(hin s (List.mem_of_mem_take hs)).1, hlo s hs⟩
    · obtain ⟨P', xs', z', g1, g2, g3⟩ := h.content n' c' h1
      exact ⟨P', xs', z', by simp [upool, h2, h3, g1], g2, g3⟩
  · intro p hp
    simp only [upool] at hp
    by_cases e1 : p = b
    · subst e1; exact ⟨(hmem _).2 (Or.inr rfl), hbn⟩
    · rw [if_neg e1] at hp
      by_cases e2 : p = c
      · subst e2; exact ⟨(hmem _).2 (Or.inl ha.2.1), hcn⟩
      · rw [if_neg e2] at hp
        exact ⟨(hmem _).2 (Or.inl (h.pool p hp).1), (h.pool p hp).2⟩

/-- At most `maxPer` of the stored hashes agree in all but the last four bits. -/
def NotCrowded (maxPer : Nat) (S : Slot → Prop) : Prop :=
  ∀ L : List U64, L.Nodup → (∀ r ∈ L, ∃ s, S s ∧ s.rev = r) → (∀ r ∈ L, ∀ r' ∈ L, r.toNat / 16 = r'.toNat / 16) →
    L.length ≤ maxPer

theorem EI.wide (h : EI st gl) (hcr : NotCrowded st.maxPer (Stored st)) (ha : Adj st.blist n c) {k : Nat} (hw : Width gl n c k)
    {P : Pool} (hP : st.pools c = some P) (hlen : P.len > st.maxPer) : 5 ≤ k := by
  by_contra hk
  have h4 : k = 4 := by have := hw.2.2.1; omega
  subst h4
  obtain ⟨P', xs, z, g1, g2, g3⟩ := h.content n c ha
  rw [hP] at g1; injection g1 with g1; subst g1
  have := hcr (xs.map (·.rev)) (by
      rw [List.Nodup, List.pairwise_map]
      exact g2.sorted.imp (fun {a b} h hc => by rw [hc] at h; exact BitVec.lt_irrefl _ h)) (by
      intro r hr
      obtain ⟨s, hs, rfl⟩ := List.mem_map.1 hr
      exact ⟨s, ⟨c, P, hP, by rw [g2.used]; exact hs⟩, rfl⟩) (by
      intro r hr r' hr'
      obtain ⟨s, hs, rfl⟩ := List.mem_map.1 hr
      obtain ⟨s', hs', rfl⟩ := List.mem_map.1 hr'
      have x1 := g3 s hs
      have x2 := g3 s' hs'
      have x3 := hw.1
      obtain ⟨y, hy⟩ := hw.2.1
      omega)
  rw [List.length_map] at this
  rw [g2.len] at hlen
  omega

theorem makeBucket2_ok : ∀ (fuel : Nat) (st : St) (gl : List Path) (n c : Path) (k : Nat) (P : Pool), EI st gl →
    Adj st.blist n c → Width gl n c k → k ≤ fuel → st.pools c = some P → P.len > st.maxPer →
    NotCrowded st.maxPer (Stored st) →
    ∃ st' gl', makeBucket2 fuel st c = .ok st' ∧ EI st' gl' ∧ st'.maxPer = st.maxPer ∧ st'.len = st.len ∧
      (∀ s, Stored st' s ↔ Stored st s) ∧ (∀ p ∈ st.blist, p ∈ st'.blist) := by
  intro fuel
  induction fuel with
  | zero =>
    intro st gl n c k P h ha hw hk
    have := hw.2.2.1; omega
  | succ fuel ih =>
    intro st gl n c k P h ha hw hfu hP hlen hcr
    have h5 := h.wide hcr ha hw hP hlen
    have hcn := h.adj_ne ha
    obtain ⟨A, B, hbl⟩ := adj_decomp h.desc ha
    obtain ⟨P', xs, z, g1, g2, g3⟩ := h.content n c ha
    rw [hP] at g1; injection g1 with g1; subst g1
    have hprev : prevAsB st.blist c = n := by rw [hbl]; exact prevAsB_eq (hbl ▸ h.desc)
    have hnr := newRevE_eq h.bi (h.sub n ha.1) (h.sub c ha.2.1) hcn hw.1 hw.2.1 (by omega)
    generalize hnrr : newRevE (st.mem n).rev (st.mem c).rev = nr at hnr
    have h2k : 2 ^ k / 2 < 2 ^ k ∧ 0 < 2 ^ k / 2 := by
      obtain ⟨j, rfl⟩ : ∃ j, k = j + 1 := ⟨k - 1, by omega⟩
      rw [pow_succ]; have := Nat.two_pow_pos j; omega
    obtain ⟨m1, b, gl', e1, hbi, hnz, hsh, hbn, hbgl, hbv, hbr, hgl⟩ := mid_bucket h ha hw h5 hnr hcn
    have hkk := hw.1
    have hnr0 : nr ≠ 0 := by
      rintro rfl; simp at hnr; omega
    have hnin : b ∉ st.blist := by
      intro hb
      have := ha.2.2.2 b hb
      omega
    have hbasec : basePath m1 c = c := basePath_self hbi ((hgl c).2 (Or.inl (h.sub c ha.2.1))) hcn
    have hbaseb : basePath m1 b = b := basePath_self hbi hbgl hbn
    have hz := h.zombie ha hw hbi hnz hsh (by rw [hbv, hnr]) hgl
    have hzz : ∃ st' gl', (Except.ok { st with mem := m1 } : Except Crash St) = .ok st' ∧ EI st' gl' ∧ st'.maxPer = st.maxPer ∧
        st'.len = st.len ∧ (∀ s, Stored st' s ↔ Stored st s) ∧ (∀ p ∈ st.blist, p ∈ st'.blist) :=
      ⟨_, gl', rfl, hz, rfl, rfl, fun s => Iff.rfl, fun p hp => hp⟩
    simp only [makeBucket2]
    rw [hprev, hnrr, if_neg hnr0, e1]
    simp only
    rw [if_neg (by rintro ⟨h0, _⟩; exact hnr0 (hbr ▸ h0)), if_neg hnin, hbasec, hP]
    simp only
    rcases g2.firstGE nr with ⟨i, f1, f2, f3, f4⟩ | ⟨f1, f2⟩
    · unfold Pool.findIdx
      rw [f1]
      cases i with
      | zero => exact hzz
      | succ i =>
        simp only
        obtain ⟨hE, a1, a2, w1, w2⟩ := h.linked ha hw h5 hbi hnz hsh hbn (by rw [hbv, hnr]) hgl hbl hP g2 g3 f2 (by omega)
          (by intro s hs; have := f3 s hs; rw [hbv]; bv_omega) (by intro s hs; have := f4 s hs; rw [hbv]; bv_omega)
        have hadd : addBucket m1 st.blist b = A ++ n :: b :: c :: B := by
          rw [hbl]
          exact addBucket_eq hbi (hbl ▸ h.desc) (fun p hp => (hgl p).2 (Or.inl (h.sub p (hbl ▸ hp)))) hbgl (by omega) (by omega)
        rw [hadd, hbaseb]
        have hcneb : c ≠ b := by rintro rfl; exact hnin ha.2.1
        obtain ⟨ok1, ok2⟩ := g2.split f2 (by omega)
        have hst : ∀ s, Stored { st with mem := m1, pools := upool (upool st.pools c (P.split (i + 1)).1) b (P.split (i + 1)).2, blist := A ++ n :: b :: c :: B } s ↔ Stored st s := by
          intro s
          constructor
          · rintro ⟨p, Q, hQ, hs⟩
            simp only [upool] at hQ
            by_cases e1 : p = b
            · rw [if_pos e1] at hQ; injection hQ with hQ; subst hQ
              rw [ok2.used] at hs
              exact ⟨c, P, hP, by rw [g2.used]; exact List.mem_of_mem_drop hs⟩
            · rw [if_neg e1] at hQ
              by_cases e2 : p = c
              · rw [if_pos e2] at hQ; injection hQ with hQ; subst hQ
                rw [ok1.used] at hs
                exact ⟨c, P, hP, by rw [g2.used]; exact List.mem_of_mem_take hs⟩
              · rw [if_neg e2] at hQ
                exact ⟨p, Q, hQ, hs⟩
          · rintro ⟨p, Q, hQ, hs⟩
            by_cases e2 : p = c
            · subst e2
              rw [hP] at hQ; injection hQ with hQ; subst hQ
              rw [g2.used, ← List.take_append_drop (i + 1) xs] at hs
              rcases List.mem_append.1 hs with hs | hs
              · exact ⟨p, (P.split (i + 1)).1, by simp [upool, hcneb], by rw [ok1.used]; exact hs⟩
              · exact ⟨b, (P.split (i + 1)).2, by simp [upool], by rw [ok2.used]; exact hs⟩
            · have e1 : p ≠ b := by
                rintro rfl
                exact hnin (h.pool p (by rw [hQ]; rfl)).1
              exact ⟨p, Q, by simp [upool, e1, e2, hQ], hs⟩
        have hsubl : ∀ p ∈ st.blist, p ∈ A ++ n :: b :: c :: B := by
          intro p hp; rw [hbl] at hp
          simp only [List.mem_append, List.mem_cons] at hp ⊢; tauto
        have hcr' : NotCrowded st.maxPer (Stored { st with mem := m1, pools := upool (upool st.pools c (P.split (i + 1)).1) b (P.split (i + 1)).2, blist := A ++ n :: b :: c :: B }) := by
          intro L hL h1 h2
          refine hcr L hL (fun r hr => ?_) h2
          obtain ⟨s, x1, x2⟩ := h1 r hr
          exact ⟨s, (hst s).1 x1, x2⟩
        split
        · rename_i hhi
          obtain ⟨st', gl'', r1, r2, r3, r4, r5, r6⟩ := ih _ gl' n b (k - 1) (P.split (i + 1)).2 hE a1 w1 (by omega)
            (by simp [upool]) hhi hcr'
          exact ⟨st', gl'', r1, r2, r3, r4, fun s => (r5 s).trans (hst s), fun p hp => r6 p (hsubl p hp)⟩
        · split
          · rename_i hlo
            obtain ⟨st', gl'', r1, r2, r3, r4, r5, r6⟩ := ih _ gl' b c (k - 1) (P.split (i + 1)).1 hE a2 w2 (by omega)
              (by simp [upool, hcneb]) hlo hcr'
            exact ⟨st', gl'', r1, r2, r3, r4, fun s => (r5 s).trans (hst s), fun p hp => r6 p (hsubl p hp)⟩
          · exact ⟨_, gl', rfl, hE, rfl, rfl, hst, hsubl⟩
    · unfold Pool.findIdx
      rw [f1]
      exact hzz

end SLM.Emb
