import Verif.Proofs.Split
/-! makeBucket: either nothing, or one new bucket at the midpoint, or the head-empty panic. -/
set_option autoImplicit false
namespace SLM

theorem takeWhile_split {α} (p : α → Bool) (A B : List α) (hA : ∀ x ∈ A, p x = true) (hB : ∀ x, B.head? = some x → p x = false) :
    (A ++ B).takeWhile p = A ∧ (A ++ B).dropWhile p = B := by
  rw [List.takeWhile_append_of_pos hA, List.dropWhile_append_of_pos hA]
  cases B with
  | nil => simp
  | cons b B => have := hB b rfl; simp [this]

theorem insAt_perm (e : Entry) (l : List Entry) : (insAt e l).Perm (e :: l) := by
  unfold insAt
  have h := List.perm_middle (a := e) (l₁ := l.takeWhile (fun x => decide (x.rev ≤ e.rev)))
    (l₂ := l.dropWhile (fun x => decide (x.rev ≤ e.rev)))
  rwa [List.takeWhile_append_dropWhile] at h

theorem mem_insAt {e x : Entry} {l : List Entry} : x ∈ insAt e l ↔ x = e ∨ x ∈ l := by
  rw [(insAt_perm e l).mem_iff, List.mem_cons]

theorem Ins.perm {e : Entry} {l l' : List Entry} (h : Ins e l l') : l' = l ∨ l'.Perm (e :: l) := by
  rcases h with rfl | ⟨pre, d, post, rfl, rfl⟩
  · exact Or.inl rfl
  · exact Or.inr List.perm_middle

theorem insAt_sorted {e : Entry} {l : List Entry} (hs : Sorted l) : Sorted (insAt e l) := by
  unfold insAt
  have hl := List.takeWhile_append_dropWhile (p := fun x : Entry => decide (x.rev ≤ e.rev)) (l := l)
  have hs' := hs
  rw [← hl, Sorted, List.pairwise_append] at hs'
  obtain ⟨h1, h2, h3⟩ := hs'
  have ht : ∀ x ∈ l.takeWhile (fun x => decide (x.rev ≤ e.rev)), x.rev ≤ e.rev := by
    intro x hx; simpa using List.mem_takeWhile_imp hx
  have hd : ∀ x ∈ l.dropWhile (fun x => decide (x.rev ≤ e.rev)), e.rev ≤ x.rev := by
    intro x hx
    cases hdw : l.dropWhile (fun x => decide (x.rev ≤ e.rev)) with
    | nil => rw [hdw] at hx; simp at hx
    | cons y ys =>
      have hne : l.dropWhile (fun x => decide (x.rev ≤ e.rev)) ≠ [] := by rw [hdw]; simp
      have := List.head_dropWhile_not (p := fun x : Entry => decide (x.rev ≤ e.rev)) (l := l) hne
      simp only [hdw, List.head_cons] at this
      have hy : ¬ y.rev ≤ e.rev := by simpa using this
      rw [hdw] at hx h2
      rcases List.mem_cons.1 hx with rfl | hx
      · bv_omega
      · have := (List.pairwise_cons.1 h2).1 x hx
        bv_omega
  rw [Sorted, List.pairwise_append]
  refine ⟨h1, List.pairwise_cons.2 ⟨hd, h2⟩, ?_⟩
  intro x hx y hy
  rcases List.mem_cons.1 hy with rfl | hy
  · exact ht x hx
  · exact h3 x hx y hy

/-- The effect of a successful bucket creation. -/
structure NewBucket (st st' : St) (A B : List Path) (n b c : Path) : Prop where
  old : st.blist = A ++ n :: c :: B
  new : st'.blist = A ++ n :: b :: c :: B
  items : st'.items = insAt (dummyEntry b (bvRev b)) st.items
  mid : 2 * bval b = bval c + bval n
  notin : b ∉ st.blist
  ne : b ≠ []
  same : st'.maxPer = st.maxPer ∧ st'.mode = st.mode ∧ st'.itemFn = st.itemFn ∧ st'.pool = st.pool ∧ st'.len = st.len ∧
    st'.nextId = st.nextId
  hd : b.head? ≠ some 0
  vch : ∀ p, V st'.mem p ↔ V st.mem p ∨ p = b ∨ p = 0 :: b.tail
  dch : ∀ p, (st'.mem p).downLen = if p = b.tail then max (st.mem p).downLen (b.headD 0 + 1) else (st.mem p).downLen
  lvp : (∀ l, ∀ p ∈ st.lv l, p ≠ [] → p.length = l) → ∀ l, (st'.lv l).Perm
    (if l = b.length then b :: (if (st.mem (0 :: b.tail)).level = 0 then (0 :: b.tail) :: st.lv l else st.lv l) else st.lv l)
  root : (st'.mem []).level = (st.mem []).level

def Grow (st st' : St) : Prop := st' = st ∨ ∃ A B n b c, NewBucket st st' A B n b c

/-- As `Grow`, and the split interval holds `er`. -/
def GrowAt (er : U64) (st st' : St) : Prop :=
  st' = st ∨ ∃ A B n b c, NewBucket st st' A B n b c ∧ (st.mem c).rev ≤ er ∧ (er < (st.mem n).rev ∨ n = [])

/-- As `GrowAt`, and why nothing changed if nothing did: no boundary is below `er`, or the interval that holds `er` has size one. -/
def GrowHow (er : U64) (st st' : St) : Prop :=
  (st' = st ∧ (st.searchBucket er = none ∨ ∃ A B n c, st.blist = A ++ n :: c :: B ∧ bval n = bval c + 1 ∧ (st.mem c).rev ≤ er ∧
    (er < (st.mem n).rev ∨ n = []))) ∨
  ∃ A B n b c, NewBucket st st' A B n b c ∧ (st.mem c).rev ≤ er ∧ (er < (st.mem n).rev ∨ n = [])

theorem GrowHow.at {er : U64} {st st' : St} (h : GrowHow er st st') : GrowAt er st st' := by
  rcases h with h | h
  · exact Or.inl h.1
  · exact Or.inr h

theorem GrowAt.grow {er : U64} {st st' : St} (h : GrowAt er st st') : Grow st st' := by
  rcases h with h | ⟨A, B, n, b, c, h, _⟩
  · exact Or.inl h
  · exact Or.inr ⟨A, B, n, b, c, h⟩

theorem II.dummy_mem {items : List Entry} {nextId : Nat} {bl : List Path} (h : II items nextId bl) (p : Path) :
    (items.any (fun e => decide (e.ref = .dummy p)) = true) ↔ p ∈ bl := by
  rw [List.any_eq_true]
  constructor
  · rintro ⟨e, he, hr⟩
    exact (h.dum e he p (by simpa using hr)).1
  · intro hp
    exact ⟨_, h.has p hp, by simp [dummyEntry]⟩

theorem basePath_self {m : Path → Bkt} {bl : List Path} (h : BI m bl) {p : Path} (hp : p ∈ bl) : basePath m p = p := by
  cases p with
  | nil => rfl
  | cons i p =>
    have := ((h.mem_iff (i :: p) (by simp)).1 hp).2
    simp [basePath, this]

theorem basePath_of_not_alias {m : Path → Bkt} {p : Path} (h : (m p).isAlias = false) : basePath m p = p := by
  cases p with
  | nil => rfl
  | cons i p => simp [basePath, h]

theorem Inv.newBucket_ii {items : List Entry} {nextId : Nat} {bl bl' : List Path} (h : II items nextId bl) (b : Path) (hb : b ∉ bl)
    (hbl : ∀ p, p ∈ bl' ↔ p ∈ bl ∨ p = b) : II (insAt (dummyEntry b (bvRev b)) items) nextId bl' := by
  have hperm := insAt_perm (dummyEntry b (bvRev b)) items
  constructor
  · exact insAt_sorted h.sorted
  · rw [refs, (hperm.map _).nodup_iff, List.map_cons, List.nodup_cons]
    refine ⟨?_, h.nodup⟩
    intro hc
    obtain ⟨e, he, hr⟩ := List.mem_map.1 hc
    exact hb (h.dum e he b (by simpa [dummyEntry] using hr)).1
  · intro e he p hp
    rcases mem_insAt.1 he with rfl | he
    · have : b = p := by simpa [dummyEntry] using hp
      subst this; exact ⟨(hbl _).2 (Or.inr rfl), rfl⟩
    · have := h.dum e he p hp
      exact ⟨(hbl _).2 (Or.inl this.1), this.2⟩
  · intro e he n hn
    rcases mem_insAt.1 he with rfl | he
    · simp [dummyEntry] at hn
    · exact h.itm e he n hn
  · intro p hp
    rcases (hbl p).1 hp with h1 | rfl
    · exact mem_insAt.2 (Or.inr (h.has p h1))
    · exact mem_insAt.2 (Or.inl rfl)

/-- map.go makeBucket never livelocks or dereferences nil; its only failure is the head-empty panic, which needs the
boundary 2^64 - 2. -/
theorem makeBucketAt_how {st : St} (h : Inv st) (er : U64) :
    (∃ st', makeBucketAt st er = .ok st' ∧ Inv st' ∧ GrowHow er st st') ∨
    (makeBucketAt st er = .error .bucketHeadEmpty ∧ ∃ p ∈ st.blist, (st.mem p).rev = maxU64 - 1) := by
  have hb := h.bi
  have hi := h.ii
  unfold makeBucketAt
  cases hs : st.searchBucket er with
  | none => left; exact ⟨st, rfl, h, Or.inl ⟨rfl, Or.inl hs⟩⟩
  | some c0 =>
    have hc0 : c0 ∈ st.blist ∧ (st.mem c0).rev < er := by
      unfold St.searchBucket at hs
      have h1 := List.find?_some hs
      have h2 := List.mem_of_find?_eq_some hs
      exact ⟨(List.dropWhile_sublist _).subset h2, by simpa using h1⟩
    simp only
    rw [if_neg (by have := hc0.2; bv_omega)]
    obtain ⟨A, c, n, B, hclimb, hbl, hcle, hnext⟩ := climb_start hb er hc0.1 hc0.2
    rw [hclimb]
    simp only
    obtain ⟨⟨k, hk, hdv, hpre⟩, hlt, hcne, hnA⟩ := hb.neighbours hbl
    have hcm : c ∈ st.blist := by rw [hbl]; simp
    have hnm : n ∈ st.blist := by rw [hbl]; simp
    have hcr := hb.rev_toNat hcm hcne
    have hner : ¬ (st.mem n).rev < er := by
      rcases hnext with h1 | h1
      · bv_omega
      · have : n = [] := hnA.2 h1
        subst this
        have := hb.root_toNat
        bv_omega
    rw [if_neg (by
      rintro (h1 | h1)
      · exact hner h1
      · bv_omega)]
    have hnr := newBoundary_eq hb hbl hk hdv
    generalize newBoundary (st.mem c).rev (st.mem n).rev (decide (c = n)) = nr at hnr
    have hnr0 : nr ≠ 0 := by
      rintro rfl
      rw [show (0 : U64).toNat = 0 from rfl] at hnr
      have hk0 : k = 0 := by
        by_contra hk0
        have : 1 ≤ 2 ^ k / 2 := by
          obtain ⟨j, rfl⟩ : ∃ j, k = j + 1 := ⟨k - 1, by omega⟩
          rw [pow_succ, Nat.mul_div_cancel _ (by omega)]; exact Nat.two_pow_pos j
        omega
      subst hk0
      have hn1 : bval n = 1 := by omega
      have hnn : n ≠ [] := by rintro rfl; rw [bval_nil] at hn1; omega
      rcases hnext with h1 | h1
      · have := hb.rev_toNat hnm hnn
        have := hc0.2
        bv_omega
      · exact hnn (hnA.2 h1)
    rw [if_neg hnr0]
    by_cases hk0 : k = 0
    · -- interval of size one: the boundary already exists
      subst hk0
      left
      have hnr' : nr.toNat = bval c := by rw [hnr]; simp
      have hcv := ((hb.mem_iff c hcne).1 hcm)
      have hcval := hb.ti.val c hcne hcv.1
      have hnre : nr = BitVec.ofNat 64 (pathVal c) := by
        apply BitVec.eq_of_toNat_eq
        rw [hnr', BitVec.toNat_ofNat, bval, if_neg hcne, Nat.mod_eq_of_lt (pathVal_lt c hcval.2.2.2.2 hcval.2.2.1)]
      have hcp : pref nr c.length = c := by rw [hnre]; exact pref_pathVal c hcval.2.2.2.2 hcval.2.2.1
      have hbvc : bval c = pathVal c := by rw [bval, if_neg hcne]
      have hclen : 1 ≤ c.length := by cases c with | nil => exact absurd rfl hcne | cons _ _ => simp
      have hlev : levelOf nr = c.length := by
        have h1 : levelOf nr ≤ c.length := by
          rw [levelOf_le nr _ hcval.2.2.1, hnr', hbvc]; exact pathVal_dvd c hcval.2.2.1
        have h2 : ¬ levelOf nr ≤ c.length - 1 := by
          rw [levelOf_le nr _ (by omega), hnr', hbvc]
          intro hd
          cases c with
          | nil => exact hcne rfl
          | cons d q =>
            simp only [List.length_cons, Nat.add_sub_cancel] at hd hcval
            have hdd : d < 16 := hcval.2.2.2.2 d (by simp)
            have hq := pathVal_dvd q (by omega)
            simp only [pathVal] at hd
            have h3 := (Nat.dvd_add_right hq).1 hd
            rw [show 16 - q.length = (15 - q.length) + 1 by omega, pow_succ, Nat.mul_comm d] at h3
            have h4 := Nat.dvd_of_mul_dvd_mul_left (Nat.pos_of_ne_zero (by simp)) h3
            have hd0 : d = 0 := by omega
            subst hd0
            by_cases hq0 : q = []
            · subst hq0
              apply hnr0
              apply BitVec.eq_of_toNat_eq
              rw [hnr', hbvc]; simp [pathVal]
            · have := (hb.ti.ali 0 q hcv.1).2 ⟨rfl, hq0⟩
              rw [this] at hcv; exact absurd hcv.2 (by simp)
        omega
      have hrun : bucketFromPool st.mem nr = some (st.mem, c, .none) := by
        unfold bucketFromPool
        rw [hlev]
        have := bfp_walk hb.ti nr 0 (c.length - 1) 1 (le_refl _) (fun j h1 h2 =>
          hb.ti.valid_pref nr c.length j (by omega) (by omega) (by rw [hcp]; exact hcv.1))
        simp only [Nat.add_zero] at this
        rw [show 1 + (c.length - 1) = c.length by omega, hcp] at this
        exact this
      have hlv : poolLevels st.mem nr st.lv = st.lv := by
        unfold poolLevels
        rw [hlev]
        have := bfpLevels_walk hb.ti nr st.lv 0 (c.length - 1) 1 (le_refl _) (fun j h1 h2 =>
          hb.ti.valid_pref nr c.length j (by omega) (by omega) (by rw [hcp]; exact hcv.1))
        simp only [Nat.add_zero] at this
        exact this
      rw [hrun]
      simp only [hlv]
      rw [if_pos (by rw [basePath_self hb hcm, hi.dummy_mem]; exact hcm)]
      exact ⟨st, rfl, h, Or.inl ⟨rfl, Or.inr ⟨A, B, n, c, hbl, by omega, hcle, hnext.imp_right hnA.2⟩⟩⟩
    · obtain ⟨m1, b, ok, hrun, S⟩ := split_new hb hbl hk hdv hpre (by omega) hnr
      rw [hrun]
      simp only
      rw [basePath_of_not_alias S.ali, if_neg (by rw [hi.dummy_mem]; exact S.notin)]
      simp only [S.rev, ne_eq, not_true_eq_false, if_false]
      rw [if_neg (by rintro ⟨h1, _⟩; exact hnr0 h1)]
      have hlv1 := poolLevels_ok hrun h.lv
      have hE4 : EqL m1 (moveLen m1 b c (countTo nr (fromRef (.dummy (basePath m1 c)) st.items))) :=
        (EqL.len m1 b _).trans (EqL.len _ c _)
      generalize moveLen m1 b c (countTo nr (fromRef (.dummy (basePath m1 c)) st.items)) = m4 at hE4
      unfold linkBucket
      have hrev4 : ∀ p ∈ st.blist, (m4 p).rev = (st.mem p).rev := by
        intro p hp; rw [(hE4.fields p).2.1]; exact (S.same p hp).1
      have hrevb : (m4 b).rev = nr := by rw [(hE4.fields b).2.1]; exact S.rev
      have h2k : 2 * (2 ^ k / 2) = 2 ^ k ∧ 0 < 2 ^ k / 2 := by
        obtain ⟨j, rfl⟩ : ∃ j, k = j + 1 := ⟨k - 1, by omega⟩
        rw [pow_succ]; have := Nat.two_pow_pos j; omega
      -- all listed boundaries above n are beyond nr, c and below are not
      have hcnr : (st.mem c).rev < nr := by rw [BitVec.lt_def, hcr, hnr]; omega
      by_cases hmax : nr = maxU64
      · -- the new boundary would be 2^64 - 1
        right
        have hnn : n = [] := by
          by_contra hnn
          have := hb.lt n hnm hnn
          have h3 : nr.toNat = 2 ^ 64 - 1 := by rw [hmax]; rfl
          omega
        subst hnn
        have hA : A = [] := hnA.1 rfl
        subst hA
        have hd : st.blist.dropWhile (fun q => decide ((m4 q).rev > (m4 b).rev)) = st.blist := by
          rw [hbl]
          simp only [List.nil_append]
          rw [List.dropWhile_cons_of_neg]
          rw [hrev4 [] hb.nil_mem, hrevb, hb.ti.root.1, hmax]; simp
        rw [hd]
        have hbl' : st.blist = [] :: c :: B := by simpa using hbl
        constructor
        · rw [hbl']
          simp only
          rw [if_pos]
          rw [hrev4 [] hb.nil_mem, hrevb, hb.ti.root.1, hmax]
        · refine ⟨c, hcm, ?_⟩
          apply BitVec.eq_of_toNat_eq
          rw [hcr]
          have h3 : nr.toNat = 2 ^ 64 - 1 := by rw [hmax]; rfl
          have h4 : (maxU64 - 1).toNat = 2 ^ 64 - 2 := by decide +kernel
          rw [bval_nil] at hk
          omega
      · left
        have hnnr : nr < (st.mem n).rev := by
          by_cases hnn : n = []
          · subst hnn
            rw [hb.ti.root.1]
            have : nr.toNat ≠ 2 ^ 64 - 1 := fun hc => hmax (BitVec.eq_of_toNat_eq (by rw [hc]; rfl))
            rw [BitVec.lt_def]
            have := nr.isLt
            show _ < 2 ^ 64 - 1
            omega
          · rw [BitVec.lt_def, hb.rev_toNat hnm hnn]; omega
        have hsplit : st.blist.takeWhile (fun q => decide ((m4 q).rev > (m4 b).rev)) = A ++ [n] ∧
            st.blist.dropWhile (fun q => decide ((m4 q).rev > (m4 b).rev)) = c :: B := by
          have hbl2 : st.blist = (A ++ [n]) ++ c :: B := by rw [hbl]; simp
          have := takeWhile_split (fun q => decide ((m4 q).rev > (m4 b).rev)) (A ++ [n]) (c :: B) ?_ ?_
          · rw [← hbl2] at this; exact this
          · intro x hx
            have hxm : x ∈ st.blist := by rw [hbl2]; exact List.mem_append_left _ hx
            rw [hrev4 x hxm, hrevb]
            simp only [List.mem_append, List.mem_singleton] at hx
            rcases hx with hx | rfl
            · have hd := hb.desc
              rw [hbl, List.pairwise_append] at hd
              have := (hb.rev_lt_iff hnm hxm).2 (hd.2.2 x hx n (by simp))
              simp; bv_omega
            · simpa using hnnr
          · intro x hx
            have : x = c := by simpa using hx.symm
            subst this
            rw [hrev4 x hcm, hrevb]
            simp; bv_omega
        rw [hsplit.1, hsplit.2]
        simp only
        rw [if_neg (by rw [hrev4 c hcm, hrevb]; bv_omega)]
        have hbp : basePath m4 c = c := by
          apply basePath_of_not_alias
          rw [(hE4.fields c).2.2.2.2.2.2, (S.same c hcm).2]
          exact ((hb.mem_iff c hcne).1 hcm).2
        have hbrev : bvRev b = nr := by
          apply BitVec.eq_of_toNat_eq
          have h1 : bval b = pathVal b := by rw [bval, if_neg S.ne]
          rw [bvRev, if_neg S.ne, BitVec.toNat_ofNat, ← h1, S.bv, Nat.mod_eq_of_lt nr.isLt]
        have hcrev := hb.rev_eq hcm
        have hadd : add2 st.items (.dummy (basePath m4 c)) (dummyEntry b (m4 b).rev) none =
            insAt (dummyEntry b (bvRev b)) st.items := by
          rw [hbp, hrevb, hbrev]
          apply add2_insAt hi.sorted hi.nodup
          · refine ⟨_, hi.has c hcm, rfl, ?_⟩
            show bvRev c ≤ nr
            rw [← hcrev]; bv_omega
          · refine ⟨_, hi.has [] hb.nil_mem, ?_⟩
            show nr < bvRev []
            rw [← hb.rev_eq hb.nil_mem, hb.ti.root.1]
            have : nr.toNat ≠ 2 ^ 64 - 1 := fun hc => hmax (BitVec.eq_of_toNat_eq (by rw [hc]; rfl))
            rw [BitVec.lt_def]
            have := nr.isLt
            show _ < 2 ^ 64 - 1
            omega
        rw [hadd]
        have hbl3 : (A ++ [n]) ++ b :: c :: B = A ++ n :: b :: c :: B := by simp
        rw [hbl3]
        refine ⟨_, rfl, ⟨S.bi hmax m4 hE4, ?_, ?_⟩, Or.inr ⟨A, B, n, b, c, ?_, hcle, hnext.imp_right hnA.2⟩⟩
        · apply Inv.newBucket_ii hi b S.notin
          intro p
          rw [hbl]; simp only [List.mem_append, List.mem_cons]; tauto
        · have hV : ∀ p, V m4 p ↔ V m1 p := fun p => by unfold V; rw [(hE4.fields p).1]
          have hl4 : LvOk m4 (poolLevels st.mem nr st.lv) := hlv1.mono (fun p hp => (hV p).2 hp) (fun p hp => (hV _).1 hp)
          have hbv : V m4 b := by
            rw [← V_runOk_iff ok]
            exact (((S.bi hmax m4 hE4).mem_iff b S.ne).1 (by simp)).1
          exact (hl4.insert hbv _ _ _).mono (fun p hp => (V_runOk_iff ok).2 hp) (fun p hp => (V_runOk_iff ok).1 hp)
        · constructor
          · exact hbl
          · rfl
          · rfl
          · rw [S.bv, hnr]; omega
          · exact S.notin
          · exact S.ne
          · exact ⟨rfl, rfl, rfl, rfl, rfl, rfl⟩
          · exact S.hd
          · exact S.vch m4 hE4
          · exact S.dch m4 hE4
          · intro hlen l
            have ti4 := S.mono m4 hE4
            have hvb : V (runOk m4 ok) b := (((S.bi hmax m4 hE4).mem_iff b S.ne).1 (by simp)).1
            have hbval := ti4.val b S.ne hvb
            have hlev : (m4 b).level = b.length := by rw [← (runOk_fields m4 ok b).1]; exact hbval.2.1
            have hV : ∀ p, V m4 p ↔ V m1 p := fun p => by unfold V; rw [(hE4.fields p).1]
            have hnvb : ¬ V st.mem b := by
              intro hv
              apply S.notin
              rw [hb.mem_iff b S.ne]
              refine ⟨hv, ?_⟩
              cases b with
              | nil => exact absurd rfl S.ne
              | cons i q =>
                cases ha : (st.mem (i :: q)).isAlias with
                | false => rfl
                | true => exact absurd (by rw [((hb.ti.ali i q hv).1 ha).1]; rfl) S.hd
            -- the list of the level after bucketFromPool
            have hpl : (poolLevels st.mem nr st.lv b.length).Perm
                (if (st.mem (0 :: b.tail)).level = 0 then (0 :: b.tail) :: st.lv b.length else st.lv b.length) := by
              have := S.lvs st.lv b.length
              by_cases h0 : (st.mem (0 :: b.tail)).level = 0
              · rw [if_pos h0]
                have := this.2 (fun h => h h0)
                rwa [if_pos rfl] at this
              · rw [if_neg h0, this.1 h0]
            have hne : ∀ q ∈ poolLevels st.mem nr st.lv b.length, (m4 q).rev ≠ (m4 b).rev := by
              intro q hq he
              by_cases hqn : q = []
              · subst hqn
                rw [hrev4 [] hb.nil_mem, hb.ti.root.1, hrevb] at he
                exact hmax he.symm
              · have hvq : V (runOk m4 ok) q := by
                  rw [V_runOk_iff, hV]
                  exact hlv1.val _ q hq
                have hqval := ti4.val q hqn hvq
                have hql : q.length = b.length ∧ q ≠ b := by
                  have hq2 := hpl.subset hq
                  split at hq2
                  · rcases List.mem_cons.1 hq2 with e | hq2
                    · refine ⟨?_, ?_⟩
                      · rw [e]
                        cases b with
                        | nil => exact absurd rfl S.ne
                        | cons i r => rfl
                      · rintro rfl
                        apply S.hd
                        rw [e]; rfl
                    · exact ⟨hlen _ q hq2 hqn, by rintro rfl; exact hnvb (h.lv.val _ _ hq2)⟩
                  · exact ⟨hlen _ q hq2 hqn, by rintro rfl; exact hnvb (h.lv.val _ _ hq2)⟩
                apply hql.2
                have h1 := pref_pathVal q hqval.2.2.2.2 hqval.2.2.1
                have h2 := pref_pathVal b hbval.2.2.2.2 hbval.2.2.1
                have h3 : pathVal q = pathVal b := by
                  rw [← hqval.1, ← hbval.1, (runOk_fields m4 ok q).2, (runOk_fields m4 ok b).2, he]
                rw [h3, hql.1, h2] at h1
                exact h1.symm
            show (setLv (poolLevels st.mem nr st.lv) (m4 b).level (levelInsert st.loneEmpty m4 (A ++ n :: b :: c :: B) b
              (poolLevels st.mem nr st.lv (m4 b).level)) l).Perm _
            rw [hlev]
            unfold setLv
            split
            · next e =>
              subst e
              exact (levelInsert_perm hne).trans (hpl.cons b)
            · next e =>
              have := S.lvs st.lv l
              by_cases h0 : V st.mem (0 :: b.tail)
              · rw [this.1 h0]
              · have := this.2 h0
                rwa [if_neg e] at this
          · exact S.root m4 hE4

theorem makeBucketAt_near {st : St} (h : Inv st) (er : U64) :
    (∃ st', makeBucketAt st er = .ok st' ∧ Inv st' ∧ GrowAt er st st') ∨
    (makeBucketAt st er = .error .bucketHeadEmpty ∧ ∃ p ∈ st.blist, (st.mem p).rev = maxU64 - 1) := by
  rcases makeBucketAt_how h er with ⟨st', h1, h2, h3⟩ | h1
  · exact Or.inl ⟨st', h1, h2, h3.at⟩
  · exact Or.inr h1

theorem makeBucketAt_spec {st : St} (h : Inv st) (er : U64) :
    (∃ st', makeBucketAt st er = .ok st' ∧ Inv st' ∧ Grow st st') ∨
    (makeBucketAt st er = .error .bucketHeadEmpty ∧ ∃ p ∈ st.blist, (st.mem p).rev = maxU64 - 1) := by
  rcases makeBucketAt_near h er with ⟨st', h1, h2, h3⟩ | h1
  · exact Or.inl ⟨st', h1, h2, h3.grow⟩
  · exact Or.inr h1

end SLM
