import Verif.Proofs.Inv
/-! Splitting an interval: what `bucketFromPool` returns for the midpoint, and the invariant afterwards. -/
set_option autoImplicit false
namespace SLM
variable {m : Path → Bkt} {bl : List Path}

theorem levelOf_mid (nr : U64) (c k : Nat) (hk1 : 1 ≤ k) (hk : k ≤ 60) (hdv : 2 ^ k ∣ c) (hnr : nr.toNat = c + 2 ^ k / 2) :
    levelOf nr = 16 - (k - 1) / 4 := by
  obtain ⟨j, rfl⟩ : ∃ j, k = j + 1 := ⟨k - 1, by omega⟩
  obtain ⟨x, rfl⟩ := hdv
  have hnr' : nr.toNat = 2 ^ j * (2 * x + 1) := by
    rw [hnr, pow_succ, Nat.mul_div_cancel _ (by omega)]; ring
  have key : ∀ q, q ≤ 16 → (levelOf nr ≤ q ↔ 4 * (16 - q) ≤ j) := by
    intro q hq
    rw [levelOf_le nr q hq, pow16, hnr']
    constructor
    · intro hd
      by_contra hc
      have h1 : 2 ^ (j + 1) ∣ 2 ^ j * (2 * x + 1) := dvd_trans (pow_dvd_pow 2 (by omega)) hd
      rw [pow_succ] at h1
      have := Nat.dvd_of_mul_dvd_mul_left (Nat.two_pow_pos j) h1
      omega
    · intro hle
      exact dvd_trans (pow_dvd_pow 2 hle) (Dvd.intro _ rfl)
  have h1 := (key (16 - j / 4) (by omega)).2 (by omega)
  have h2 : ¬ levelOf nr ≤ 15 - j / 4 := by
    rw [key _ (by omega)]; omega
  simp only [Nat.add_sub_cancel]
  omega

theorem div_mid (c k j : Nat) (hdv : 2 ^ k ∣ c) (hj : k ≤ j) : (c + 2 ^ k / 2) / 2 ^ j = c / 2 ^ j := by
  obtain ⟨x, rfl⟩ := hdv
  have hp := Nat.two_pow_pos k
  obtain ⟨d, rfl⟩ : ∃ d, j = k + d := ⟨j - k, by omega⟩
  rw [pow_add, ← Nat.div_div_eq_div_mul, ← Nat.div_div_eq_div_mul, Nat.mul_add_div hp, Nat.mul_div_cancel_left _ hp,
    Nat.div_eq_of_lt (a := 2 ^ k / 2) (by omega)]
  rfl

structure SplitOK (m : Path → Bkt) (bl A B : List Path) (n c : Path) (nr : U64) (m1 : Path → Bkt) (b : Path) (ok : OkFn) : Prop where
  ne : b ≠ []
  bv : bval b = nr.toNat
  notin : b ∉ bl
  ali : (m1 b).isAlias = false
  rev : (m1 b).rev = nr
  same : ∀ p ∈ bl, (m1 p).rev = (m p).rev ∧ (m1 p).isAlias = (m p).isAlias
  bi : nr ≠ maxU64 → ∀ M, EqL m1 M → BI (runOk M ok) (A ++ n :: b :: c :: B)
  mono : ∀ M, EqL m1 M → TI (runOk M ok)
  hd : b.head? ≠ some 0
  vch : ∀ M, EqL m1 M → ∀ p, V (runOk M ok) p ↔ V m p ∨ p = b ∨ p = 0 :: b.tail
  dch : ∀ M, EqL m1 M → ∀ p, (runOk M ok p).downLen = if p = b.tail then max (m p).downLen (b.headD 0 + 1) else (m p).downLen
  lvs : ∀ lv l, (V m (0 :: b.tail) → poolLevels m nr lv l = lv l) ∧
    (¬ V m (0 :: b.tail) → (poolLevels m nr lv l).Perm (if l = b.length then (0 :: b.tail) :: lv l else lv l))
  root : ∀ M, EqL m1 M → (runOk M ok []).level = (m []).level

/-- Facts about the midpoint of an interval, and the invariant after its bucket was made. -/
structure MidOK (m : Path → Bkt) (bl A B : List Path) (n c : Path) (nr : U64) (L : Nat) : Prop where
  two : 2 ≤ L
  le16 : L ≤ 16
  lev : levelOf nr = L
  pre : ∀ l, 1 ≤ l → l ≤ L - 1 → V m (pref nr l)
  idx : nib nr L ≠ 0
  nv : ¬ V m (nib nr L :: pref nr (L - 1))
  bv : bval (nib nr L :: pref nr (L - 1)) = nr.toNat
  notin : nib nr L :: pref nr (L - 1) ∉ bl
  zin : 0 :: pref nr (L - 1) ∉ bl
  rev : (m (pref nr (L - 1))).rev ||| (BitVec.ofNat 64 (nib nr L) <<< (4 * (16 - L))) = nr
  after : ∀ m', NewBkt m m' (pref nr (L - 1)) (nib nr L) nr →
    TI m' ∧ (∀ p, V m' p ↔ V m p ∨ p = nib nr L :: pref nr (L - 1) ∨ p = 0 :: pref nr (L - 1)) ∧
    (nr ≠ maxU64 → BI m' (A ++ n :: (nib nr L :: pref nr (L - 1)) :: c :: B))

set_option maxHeartbeats 1600000 in
theorem split_core (h : BI m bl) {A B : List Path} {n c : Path} (hbl : bl = A ++ n :: c :: B) {k : Nat}
    (hk : bval c + 2 ^ k = bval n) (hdv : 2 ^ k ∣ bval c)
    (hpre : ∀ l, 1 ≤ l → l ≤ 15 - (k - 1) / 4 → V m (pref (BitVec.ofNat 64 (bval c)) l))
    (hk1 : 1 ≤ k) {nr : U64} (hnr : nr.toNat = bval c + 2 ^ k / 2) :
    MidOK m bl A B n c nr (16 - (k - 1) / 4) := by
  obtain ⟨_, hlt, hc, hn⟩ := h.neighbours hbl
  have hw := h.width hbl hk
  have hcm : c ∈ bl := by rw [hbl]; simp
  have hcl := h.lt c hcm hc
  have hlev := levelOf_mid nr (bval c) k hk1 hw hdv hnr
  obtain ⟨L, hL⟩ : ∃ L, L = 16 - (k - 1) / 4 := ⟨_, rfl⟩
  have hL2 : 2 ≤ L ∧ L ≤ 16 := by omega
  rw [← hL] at hlev
  have hcn : (BitVec.ofNat 64 (bval c)).toNat = bval c := by
    rw [BitVec.toNat_ofNat, Nat.mod_eq_of_lt (by omega)]
  -- prefixes
  have hprefix : ∀ l, l ≤ L - 1 → pref nr l = pref (BitVec.ofNat 64 (bval c)) l := by
    intro l hl
    apply pref_congr
    intro j hj hj1
    rw [hcn, hnr, pow16]
    exact div_mid _ _ _ hdv (by omega)
  have hvp : ∀ l, 1 ≤ l → l ≤ L - 1 → V m (pref nr l) := by
    intro l h1 h2
    rw [hprefix l h2]; exact hpre l h1 (by omega)
  obtain ⟨b0, hb0⟩ : ∃ b0, b0 = pref nr (L - 1) := ⟨_, rfl⟩
  have hb0ne : b0 ≠ [] := hb0 ▸ pref_ne_nil nr _ (by omega)
  have hvb : V m b0 := hb0 ▸ hvp (L - 1) (by omega) (le_refl _)
  have hb0len : b0.length = L - 1 := by rw [hb0, pref_length]
  have hdvL : 16 ^ (16 - L) ∣ nr.toNat := (levelOf_le nr L hL2.2).1 (by omega)
  have hndv : ¬ 16 ^ (16 - (L - 1)) ∣ nr.toNat := fun hd => by
    have := (levelOf_le nr (L - 1) (by omega)).2 hd; omega
  have hidx : nib nr L ≠ 0 := by
    intro h0
    apply hndv
    rw [nib_eq] at h0
    obtain ⟨x, hx⟩ := hdvL
    have hq : 0 < 16 ^ (16 - L) := Nat.pos_of_ne_zero (by simp)
    rw [hx, Nat.mul_div_cancel_left _ hq] at h0
    rw [hx, show 16 - (L - 1) = (16 - L) + 1 by omega, pow_succ]
    exact Nat.mul_dvd_mul_left _ (Nat.dvd_of_mod_eq_zero h0)
  have hprefL : pref nr L = nib nr L :: b0 := by
    rw [hb0]
    obtain ⟨L', rfl⟩ : ∃ L', L = L' + 1 := ⟨L - 1, by omega⟩
    rfl
  have hpv : pathVal (nib nr L :: b0) = nr.toNat := by
    rw [← hprefL, pathVal_pref nr L hL2.2, Nat.div_mul_cancel hdvL]
  have hbv : bval (nib nr L :: b0) = nr.toNat := by rw [bval, if_neg (by simp), hpv]
  have h2k : 2 ^ k / 2 < 2 ^ k ∧ 0 < 2 ^ k / 2 := by
    obtain ⟨j, rfl⟩ : ∃ j, k = j + 1 := ⟨k - 1, by omega⟩
    rw [pow_succ]; have := Nat.two_pow_pos j; omega
  have hnotin : nib nr L :: b0 ∉ bl := by
    intro hm
    have := desc_gap (hbl ▸ h.desc) (hbl ▸ hm)
    rw [hbv, hnr] at this
    omega
  have hnv : ¬ V m (nib nr L :: b0) := by
    intro hv
    apply hnotin
    rw [h.mem_iff _ (by simp)]
    refine ⟨hv, ?_⟩
    have := h.ti.ali _ _ hv
    cases ha : (m (nib nr L :: b0)).isAlias
    · rfl
    · rw [ha] at this; exact absurd (this.1 rfl).1 hidx
  have hrev_eq : (m b0).rev ||| (BitVec.ofNat 64 (nib nr L) <<< (4 * (16 - L))) = nr := by
    apply BitVec.eq_of_toNat_eq
    have hb0v := (h.ti.val b0 hb0ne hvb)
    rw [BitVec.toNat_or, hb0v.1, BitVec.toNat_shiftLeft, BitVec.toNat_ofNat]
    have hi16 := nib_lt nr L
    have hdv0 := pathVal_dvd b0 (by omega)
    rw [hb0len] at hdv0
    obtain ⟨x, hx⟩ := hdv0
    have e1 : 16 - (L - 1) = (16 - L) + 1 := by omega
    rw [Nat.mod_eq_of_lt (by omega : nib nr L < 2 ^ 64), Nat.shiftLeft_eq, ← pow16]
    have hsum : pathVal b0 + nib nr L * 16 ^ (16 - L) = nr.toNat := by
      rw [← hpv]; simp only [pathVal, hb0len]
      rw [show 15 - (L - 1) = 16 - L by omega]
    have hlt64 := nr.isLt
    rw [Nat.mod_eq_of_lt (by omega)]
    rw [← hsum, hx, e1]
    rw [pow16 (16 - L + 1)]
    rw [Nat.two_pow_add_eq_or_of_lt]
    rw [← pow16, pow_succ]
    have hq : 0 < 16 ^ (16 - L) := Nat.pos_of_ne_zero (by simp)
    calc nib nr L * 16 ^ (16 - L) < 16 * 16 ^ (16 - L) := Nat.mul_lt_mul_of_pos_right hi16 hq
      _ = _ := by ring
  have h0nl : (0 :: b0) ∉ bl := by
    intro hm
    have := (h.mem_iff _ (by simp)).1 hm
    have h2 := (h.ti.ali 0 b0 this.1).2 ⟨rfl, hb0ne⟩
    rw [h2] at this; exact absurd this.2 (by simp)
  rw [← hL]
  refine ⟨hL2.1, hL2.2, hlev, hvp, hidx, hb0 ▸ hnv, hb0 ▸ hbv, hb0 ▸ hnotin, hb0 ▸ h0nl, hb0 ▸ hrev_eq, ?_⟩
  rw [← hb0]
  intro m' hnew
  obtain ⟨hti, hV⟩ := hnew.ti h.ti hb0ne hvb hidx (nib_lt _ _) hnv (by omega) (by rw [hpv])
  refine ⟨hti, hV, ?_⟩
  · intro hmax
    have hmono : ∀ p, V m p → V (m') p := fun p hp => (hV p).2 (Or.inl hp)
    have hdymono : ∀ x y, DyR m x y → DyR (m') x y := by
      rintro x y ⟨k, h1, h2, h3⟩
      exact ⟨k, h1, h2, fun l a b => hmono _ (h3 l a b)⟩
    have hhalf : 2 ^ k / 2 = 2 ^ (k - 1) := by
      obtain ⟨j, rfl⟩ : ∃ j, k = j + 1 := ⟨k - 1, by omega⟩
      rw [pow_succ, Nat.mul_div_cancel _ (by omega)]; rfl
    have h2k' : 2 ^ k = 2 ^ (k - 1) + 2 ^ (k - 1) := by
      obtain ⟨j, rfl⟩ : ∃ j, k = j + 1 := ⟨k - 1, by omega⟩
      rw [pow_succ]; simp; omega
    have hb'1 : bval c < bval (nib nr L :: b0) := by rw [hbv, hnr]; omega
    have hb'2 : bval (nib nr L :: b0) < bval n := by rw [hbv, hnr]; omega
    constructor
    · exact hti
    · obtain ⟨rest, hr⟩ := h.head
      rw [hbl] at hr
      cases A with
      | nil => simp at hr ⊢; exact hr.1
      | cons a A => simp at hr ⊢; exact hr.1
    · have hd := h.desc
      rw [hbl, List.pairwise_append] at hd
      rw [List.pairwise_append]
      obtain ⟨d1, d2, d3⟩ := hd
      rw [List.pairwise_cons, List.pairwise_cons] at d2
      obtain ⟨d4, d5, d6⟩ := d2
      refine ⟨d1, ?_, ?_⟩
      · rw [List.pairwise_cons, List.pairwise_cons, List.pairwise_cons]
        refine ⟨?_, ?_, d5, d6⟩
        · intro p hp
          rcases List.mem_cons.1 hp with rfl | hp
          · exact hb'2
          · exact d4 p hp
        · intro p hp
          rcases List.mem_cons.1 hp with rfl | hp
          · exact hb'1
          · exact lt_trans (d5 p hp) hb'1
      · intro p hp q hq
        simp only [List.mem_cons] at hq
        rcases hq with rfl | rfl | hq
        · exact d3 p hp q (by simp)
        · exact lt_trans hb'2 (d3 p hp n (by simp))
        · exact d3 p hp q (by simp [hq])
    · intro p hp
      have hmem : p ∈ A ++ n :: (nib nr L :: b0) :: c :: B ↔ p ∈ bl ∨ p = nib nr L :: b0 := by
        rw [hbl]; simp only [List.mem_append, List.mem_cons]; tauto
      rw [hmem, h.mem_iff p hp, hV]
      constructor
      · rintro (⟨h1, h2⟩ | rfl)
        · refine ⟨Or.inl h1, ?_⟩
          have hpl := (h.mem_iff p hp).2 ⟨h1, h2⟩
          have hne1 : p ≠ nib nr L :: b0 := by rintro rfl; exact hnotin hpl
          have hne0 : p ≠ 0 :: b0 := by rintro rfl; exact h0nl hpl
          by_cases hpb : p = b0
          · subst hpb; rw [hnew.par.2.2.2.1]; exact h2
          · rw [hnew.other p hpb hne1 hne0]; exact h2
        · exact ⟨Or.inr (Or.inl rfl), hnew.child.2.2.2.1⟩
      · rintro ⟨hv, ha⟩
        by_cases hne1 : p = nib nr L :: b0
        · exact Or.inr hne1
        left
        by_cases hne0 : p = 0 :: b0
        · subst hne0
          have := (hti.ali 0 b0 ((hV _).2 (Or.inr (Or.inr rfl)))).2 ⟨rfl, hb0ne⟩
          rw [this] at ha; exact absurd ha (by simp)
        · refine ⟨by tauto, ?_⟩
          by_cases hpb : p = b0
          · subst hpb; rw [hnew.par.2.2.2.1] at ha; exact ha
          · rw [hnew.other p hpb hne1 hne0] at ha; exact ha
    · intro p hp hpn
      have hmem : p ∈ A ++ n :: (nib nr L :: b0) :: c :: B ↔ p ∈ bl ∨ p = nib nr L :: b0 := by
        rw [hbl]; simp only [List.mem_append, List.mem_cons]; tauto
      rcases hmem.1 hp with h1 | rfl
      · exact h.lt p h1 hpn
      · rw [hbv]
        have : nr.toNat ≠ 2 ^ 64 - 1 := fun hc => hmax (BitVec.eq_of_toNat_eq (by rw [hc]; rfl))
        have := nr.isLt
        omega
    · have hd := h.dy
      rw [hbl, List.isChain_append] at hd
      obtain ⟨d1, d2, d3⟩ := hd
      rw [List.isChain_cons_cons] at d2
      rw [List.isChain_append]
      refine ⟨d1.imp hdymono, ?_, ?_⟩
      · rw [List.isChain_cons_cons, List.isChain_cons_cons]
        refine ⟨⟨k - 1, ?_, ?_, ?_⟩, ⟨k - 1, ?_, ?_, ?_⟩, d2.2.imp hdymono⟩
        · rw [hbv, hnr, hhalf]; omega
        · rw [hbv, hnr, hhalf]
          exact Nat.dvd_add (dvd_trans (pow_dvd_pow 2 (by omega)) hdv) (dvd_refl _)
        · intro l hl1 hl2
          rw [hbv, BitVec.ofNat_toNat, BitVec.setWidth_eq]
          by_cases hlL : l ≤ L - 1
          · exact hmono _ (hvp l hl1 hlL)
          · have : l = L := by omega
            rw [this, hprefL]; exact (hV _).2 (Or.inr (Or.inl rfl))
        · rw [hbv, hnr, hhalf]
        · exact dvd_trans (pow_dvd_pow 2 (by omega)) hdv
        · intro l hl1 hl2
          by_cases hlL : l ≤ L - 1
          · exact hmono _ (hpre l hl1 (by omega))
          · have hlL' : l = L := by omega
            subst hlL'
            have e : pref (BitVec.ofNat 64 (bval c)) l = nib (BitVec.ofNat 64 (bval c)) l :: b0 := by
              obtain ⟨L', rfl⟩ : ∃ L', l = L' + 1 := ⟨l - 1, by omega⟩
              rw [hb0]
              simp only [pref, Nat.add_sub_cancel]
              rw [hprefix L' (by omega)]
            rw [e]
            by_cases hz : nib (BitVec.ofNat 64 (bval c)) l = 0
            · rw [hz]; exact (hV _).2 (Or.inr (Or.inr rfl))
            · -- the digit is non-zero: the path is `c` itself
              apply hmono
              rw [← e]
              have hcv := ((h.mem_iff c hc).1 hcm).1
              have hcval := h.ti.val c hc hcv
              have hcp : pref (BitVec.ofNat 64 (bval c)) c.length = c := by
                rw [bval, if_neg hc]; exact pref_pathVal c hcval.2.2.2.2 hcval.2.2.1
              have hcl : l ≤ c.length := by
                by_contra hcon
                apply hz
                rw [nib_eq, hcn, bval, if_neg hc]
                have hdd := pathVal_dvd c hcval.2.2.1
                have hdd' : 16 ^ (16 - l) * 16 ∣ pathVal c := by
                  rw [← pow_succ]; exact dvd_trans (pow_dvd_pow 16 (by omega)) hdd
                obtain ⟨x, hx⟩ := hdd'
                have hq : 0 < 16 ^ (16 - l) := Nat.pos_of_ne_zero (by simp)
                rw [hx, Nat.mul_assoc, Nat.mul_div_cancel_left _ hq]; omega
              rw [← hcp] at hcv
              exact h.ti.valid_pref _ c.length l hl1 hcl hcv
      · intro x hx y hy
        have hy' : y = n := by simpa using hy.symm
        subst hy'
        exact hdymono _ _ (d3 x hx y (by simp))

theorem split_new (h : BI m bl) {A B : List Path} {n c : Path} (hbl : bl = A ++ n :: c :: B) {k : Nat}
    (hk : bval c + 2 ^ k = bval n) (hdv : 2 ^ k ∣ bval c)
    (hpre : ∀ l, 1 ≤ l → l ≤ 15 - (k - 1) / 4 → V m (pref (BitVec.ofNat 64 (bval c)) l))
    (hk1 : 1 ≤ k) {nr : U64} (hnr : nr.toNat = bval c + 2 ^ k / 2) :
    ∃ m1 b ok, bucketFromPool m nr = some (m1, b, ok) ∧ SplitOK m bl A B n c nr m1 b ok := by
  obtain ⟨L, hL⟩ : ∃ L, L = 16 - (k - 1) / 4 := ⟨_, rfl⟩
  have x := split_core h hbl hk hdv hpre hk1 hnr
  rw [← hL] at x
  have htwo := x.two
  have h16 := x.le16
  obtain ⟨b0, hb0⟩ : ∃ b0, b0 = pref nr (L - 1) := ⟨_, rfl⟩
  have hb0ne : b0 ≠ [] := hb0 ▸ pref_ne_nil nr _ (by omega)
  have hvb : V m b0 := hb0 ▸ x.pre (L - 1) (by omega) (le_refl _)
  have hidx := x.idx
  have hnv := x.nv
  have hbv := x.bv
  have hnotin := x.notin
  have h0nl := x.zin
  have hrev_eq := x.rev
  have hafter := x.after
  rw [← hb0] at hnv hbv hnotin h0nl hrev_eq hafter
  have hwalk : bucketFromPool m nr = bfpLoop nr 1 L m b0 := by
    unfold bucketFromPool
    rw [x.lev]
    have := bfp_walk h.ti nr 1 (L - 2) 1 (le_refl _) (fun j h1 h2 => x.pre j (by omega) (by omega))
    rw [show L - 2 + 1 = L - 1 by omega, show 1 + (L - 2) + 1 = L by omega, show 1 + (L - 2) = L - 1 by omega, ← hb0] at this
    exact this
  obtain ⟨m1, ok, hrun, hali, hrev, hrevs, halis, hnew⟩ := bfp_new h.ti nr L b0 hb0ne hvb hidx hnv
  rw [hrev_eq] at hrev hnew
  obtain ⟨hti, hV, hbi⟩ := hafter _ hnew
  have hsame : ∀ p ∈ bl, (m1 p).rev = (m p).rev ∧ (m1 p).isAlias = (m p).isAlias := by
    intro p hp
    constructor
    · by_contra hcon
      rcases hrevs p hcon with rfl | rfl
      · exact hnotin hp
      · exact h0nl hp
    · by_contra hcon
      have := halis p hcon; subst this
      exact h0nl hp
  refine ⟨m1, nib nr L :: b0, ok, by rw [hwalk, hrun], ⟨by simp, hbv, hnotin, hali, hrev, hsame, ?_, ?_, by simpa using hidx, ?_, ?_, ?_, ?_⟩⟩
  · intro hmax M hM
    exact (hbi hmax).congr (runOk_congr hM ok)
  · intro M hM
    exact hti.congr (runOk_congr hM ok)
  · intro M hM p
    rw [List.tail_cons, ← hV p]
    unfold V
    rw [((runOk_congr hM ok).fields p).1]
  · intro M hM p
    rw [List.tail_cons, List.headD_cons, ((runOk_congr hM ok).fields p).2.2.2.1]
    by_cases hp : p = b0
    · rw [if_pos hp, hp]; exact hnew.par.2.2.2.2.2.2
    · rw [if_neg hp]
      by_cases h1 : p = nib nr L :: b0
      · rw [h1, hnew.child.2.2.2.2.2.1, (h.ti.zero _ hnv).2.2.2.1]
      · by_cases h2 : p = 0 :: b0
        · have hz := hnew.zero
          rw [h2]
          split at hz
          · rw [hz]
          · rw [hz]
        · rw [hnew.other p hp h1 h2]
  · intro lv l
    have hlen : (nib nr L :: b0).length = L := by rw [List.length_cons, hb0, pref_length]; omega
    have e : poolLevels m nr lv = bfpLevels nr 1 L m b0 lv := by
      unfold poolLevels
      rw [x.lev]
      have := bfpLevels_walk h.ti nr lv 1 (L - 2) 1 (le_refl _) (fun j h1 h2 => x.pre j (by omega) (by omega))
      rw [show L - 2 + 1 = L - 1 by omega, show 1 + (L - 2) + 1 = L by omega, show 1 + (L - 2) = L - 1 by omega, ← hb0] at this
      exact this
    rw [e, hlen]
    exact bfpLevels_last h.ti nr lv hb0ne hvb L (by rw [hb0, pref_length]; omega) l
  · intro M hM
    rw [((runOk_congr hM ok).fields []).1, hnew.other [] (fun e => hb0ne e.symm) (by simp) (by simp)]

end SLM
