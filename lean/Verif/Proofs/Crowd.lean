import Verif.Proofs.Depth
/-!
Local bound on the depth of the bucket tree: an interval is only halved by storing a new item in it.
-/
set_option autoImplicit false
namespace SLM
open History

/-- How many values of `S` lie in the same block of size `2^(60-j)` as `x`. -/
def cnt (j x : Nat) (S : List Nat) : Nat := S.countP (fun r => decide (r / 2 ^ (60 - j) = x / 2 ^ (60 - j)))

theorem cnt_cons (j x r : Nat) (S : List Nat) : cnt j x (r :: S) = cnt j x S + if r / 2 ^ (60 - j) = x / 2 ^ (60 - j) then 1 else 0 := by
  unfold cnt; rw [List.countP_cons]; simp

theorem cnt_congr {j x y : Nat} (h : x / 2 ^ (60 - j) = y / 2 ^ (60 - j)) (S : List Nat) : cnt j x S = cnt j y S := by
  unfold cnt; rw [h]

/-- A boundary of depth `> e` has, for every `j ≤ e`, at least `e + 1 - j` stored values around it. -/
def Crowd (S : List Nat) (bl : List Path) : Prop :=
  ∀ p ∈ bl, ∀ j e, j ≤ e → e < 60 → ¬ 2 ^ (60 - e) ∣ bval p → e + 1 - j ≤ cnt j (bval p) S

theorem Crowd.mono {S : List Nat} {bl : List Path} (h : Crowd S bl) (r : Nat) : Crowd (r :: S) bl := by
  intro p hp j e hj he hd
  have := h p hp j e hj he hd
  rw [cnt_cons]; omega

theorem div_block {a x k m : Nat} (hk : k ≤ m) (ha : 2 ^ k ∣ a) (h1 : a ≤ x) (h2 : x < a + 2 ^ k) : x / 2 ^ m = a / 2 ^ m := by
  obtain ⟨q, rfl⟩ := ha
  obtain ⟨i, rfl⟩ := Nat.exists_eq_add_of_le hk
  rw [pow_add, ← Nat.div_div_eq_div_mul, ← Nat.div_div_eq_div_mul]
  congr 1
  have hp := Nat.two_pow_pos k
  rw [Nat.mul_div_cancel_left _ hp]
  apply Nat.div_eq_of_lt_le
  · rw [Nat.mul_comm]; omega
  · rw [Nat.add_mul, Nat.mul_comm q]; omega

theorem Crowd.split {S : List Nat} {A B : List Path} {n b c : Path} {k r : Nat} (h : Crowd S (A ++ n :: c :: B))
    (hk : bval c + 2 ^ k = bval n) (hdv : 2 ^ k ∣ bval c) (hmid : 2 * bval b = bval c + bval n)
    (hn64 : n = [] ∨ bval n < 2 ^ 64) (hr1 : bval c ≤ r) (hr2 : r < bval n) : Crowd (r :: S) (A ++ n :: b :: c :: B) := by
  intro p hp j e hj he hd
  by_cases hpb : p = b
  · subst hpb
    have hk0 : k ≠ 0 := by rintro rfl; simp at hk; omega
    obtain ⟨i, rfl⟩ : ∃ i, k = i + 1 := ⟨k - 1, by omega⟩
    have hpow : 2 ^ (i + 1) = 2 * 2 ^ i := by rw [pow_succ]; ring
    have hip := Nat.two_pow_pos i
    have hb : bval p = bval c + 2 ^ i := by omega
    have hdb : 2 ^ i ∣ bval p := by
      rw [hb]
      exact Nat.dvd_add (dvd_trans (pow_dvd_pow 2 (by omega)) hdv) (dvd_refl _)
    have hei : i + 1 ≤ 60 - e := by
      by_contra hc
      exact hd (dvd_trans (pow_dvd_pow 2 (by omega)) hdb)
    have hcr : r / 2 ^ (60 - j) = bval c / 2 ^ (60 - j) := div_block (by omega) hdv hr1 (by omega)
    have hcb : bval p / 2 ^ (60 - j) = bval c / 2 ^ (60 - j) := div_block (k := i + 1) (by omega) hdv (by omega) (by omega)
    rw [cnt_cons, if_pos (by rw [hcr, hcb])]
    by_cases hje : j = e
    · omega
    · -- one end of the interval is an odd multiple of its length
      have hodd : (¬ 2 ^ (i + 2) ∣ bval c) ∨ (¬ 2 ^ (i + 2) ∣ bval n ∧ 2 ^ (i + 2) ∣ bval c) := by
        by_cases hc : 2 ^ (i + 2) ∣ bval c
        · right
          refine ⟨?_, hc⟩
          intro hn
          have h3 : 2 ^ (i + 2) ∣ 2 ^ (i + 1) := by
            have : bval n - bval c = 2 ^ (i + 1) := by omega
            rw [← this]; exact Nat.dvd_sub hn hc
          have := Nat.le_of_dvd (Nat.two_pow_pos _) h3
          rw [pow_succ 2 (i + 1)] at this
          omega
        · exact Or.inl hc
      rcases hodd with ho | ⟨ho, hc2⟩
      · have := h c (by simp) j (e - 1) (by omega) (by omega) (fun hx => ho (dvd_trans (pow_dvd_pow 2 (by omega)) hx))
        rw [cnt_congr hcb]; omega
      · have := h n (by simp) j (e - 1) (by omega) (by omega) (fun hx => ho (dvd_trans (pow_dvd_pow 2 (by omega)) hx))
        have hnb : bval n / 2 ^ (60 - j) = bval c / 2 ^ (60 - j) := by
          apply div_block (k := i + 2) (by omega) hc2 (by omega)
          rw [pow_succ 2 (i + 1)]; omega
        rw [cnt_congr hcb, ← cnt_congr hnb]; omega
  · have hp' : p ∈ A ++ n :: c :: B := by
      simp only [List.mem_append, List.mem_cons] at hp ⊢; tauto
    have := h p hp' j e hj he hd
    rw [cnt_cons]; omega

theorem crowd_init (cfg : Cfg) : Crowd [] (initSt cfg).blist := by
  intro p hp j e _ _ hd
  have := (coarse_init cfg).dvd p hp
  exact absurd (dvd_trans (pow_dvd_pow 2 (by omega)) this) hd

/-- The item before a new item, in the list right after the insertion. -/
theorem pred_insAt {l : List Entry} {e : Entry} (hf : e.ref ∉ refs l) :
    beforeRef e.ref (insAt e l) = l.takeWhile (fun x => decide (x.rev ≤ e.rev)) := by
  unfold insAt
  refine (before_from_of_split ?_).1
  intro hc
  obtain ⟨x, hx, hr⟩ := List.mem_map.1 hc
  exact hf (List.mem_map.2 ⟨x, (List.takeWhile_sublist _).subset hx, hr⟩)

/-- A new item: whatever bucket is split, the item lies in its interval. -/
theorem new_crowd {E : Env} {st st2 : St} {op : Op} {r : St × Out} {k c : U64} {e : Entry} (g : Good st)
    (x : EffNew E st op r st2 k c e) (hits : (setMid st2 k (findBucket st.mem (rev64 k)) e).items = insAt e st.items)
    {S : List Nat} (hc : Crowd S st.blist) : Crowd (e.rev.toNat :: S) r.1.blist := by
  have hmid := x.midinv
  have hbl : (setMid st2 k (findBucket st.mem (rev64 k)) e).blist = st.blist := x.blist
  have hsn := x.setNew
  rw [setNew_eq] at hsn
  generalize hm : setMid st2 k (findBucket st.mem (rev64 k)) e = mid at *
  split at hsn
  · unfold makeBucket at hsn
    have hfresh : e.ref ∉ refs st.items := by
      intro hcon
      obtain ⟨y, hy, hr⟩ := List.mem_map.1 hcon
      have := (g.inv.ii.itm y hy st.nextId (by rw [hr, x.ref])).2
      omega
    have hin : e ∈ mid.items := by rw [hits]; exact mem_insAt.2 (Or.inl rfl)
    rw [if_pos (by rw [List.any_eq_true]; exact ⟨e, hin, by simp⟩)] at hsn
    rw [hits, pred_insAt hfresh] at hsn
    cases hp : (st.items.takeWhile (fun x => decide (x.rev ≤ e.rev))).getLast? with
    | none =>
      rw [hp] at hsn
      injection hsn with hsn
      rw [← hsn, hbl]; exact hc.mono _
    | some pe =>
      rw [hp] at hsn
      simp only at hsn
      rcases makeBucketAt_near hmid pe.rev with ⟨st', h1, _, h3⟩ | ⟨h1, _⟩
      · rw [hsn] at h1
        injection h1 with h1
        rcases h3 with h3 | ⟨A, B, n, b, c', hb, hle, hlt⟩
        · rw [h1, h3, hbl]; exact hc.mono _
        · rw [h1, hb.new]
          have hold := hb.old
          rw [hbl] at hold
          obtain ⟨⟨k', hk', hdv, _⟩, _, hcne, _⟩ := hmid.bi.neighbours hb.old
          have hcm : c' ∈ mid.blist := by rw [hb.old]; simp
          have hnm : n ∈ mid.blist := by rw [hb.old]; simp
          have hpem := List.mem_of_getLast? hp
          have hpele : pe.rev ≤ e.rev := by simpa using List.mem_takeWhile_imp hpem
          have hcr := hmid.bi.rev_toNat hcm hcne
          have hn64 : n = [] ∨ bval n < 2 ^ 64 := by
            by_cases hn : n = []
            · exact Or.inl hn
            · right; have := hmid.bi.lt n hnm hn; omega
          refine Crowd.split (k := k') (hold ▸ hc) hk' hdv hb.mid hn64 ?_ ?_
          · rw [← hcr]; bv_omega
          · by_cases hn : n = []
            · subst hn; rw [bval_nil]; exact e.rev.isLt
            · rw [← hmid.bi.rev_toNat hnm hn]
              rcases hlt with hlt | hlt
              · by_contra hge
                -- then the sentinel of n would be before e, hence not after its predecessor
                have hdm : dummyEntry n (bvRev n) ∈ st.items := g.inv.ii.has n (hbl ▸ hnm)
                have hrn : (mid.mem n).rev = bvRev n := hmid.bi.rev_eq hnm
                have hle2 : bvRev n ≤ e.rev := by rw [← hrn]; bv_omega
                have hs := g.inv.ii.sorted
                have htw : dummyEntry n (bvRev n) ∈ st.items.takeWhile (fun x => decide (x.rev ≤ e.rev)) := by
                  have happ := List.takeWhile_append_dropWhile (p := fun x : Entry => decide (x.rev ≤ e.rev)) (l := st.items)
                  rw [← happ] at hdm
                  rcases List.mem_append.1 hdm with h | h
                  · exact h
                  · exfalso
                    cases hdw : st.items.dropWhile (fun x => decide (x.rev ≤ e.rev)) with
                    | nil => rw [hdw] at h; cases h
                    | cons y ys =>
                      have hy : ¬ y.rev ≤ e.rev := by
                        have := List.head?_dropWhile_not (fun x : Entry => decide (x.rev ≤ e.rev)) st.items
                        rw [hdw] at this
                        simpa using this
                      rw [hdw] at h
                      rcases List.mem_cons.1 h with h | h
                      · rw [← h] at hy; exact hy hle2
                      · rw [← happ, hdw] at hs
                        have h3 := (List.pairwise_cons.1 (List.pairwise_append.1 hs).2.1).1 _ h
                        apply hy
                        exact BitVec.le_trans h3 hle2
                have hs2 : Sorted (st.items.takeWhile (fun x => decide (x.rev ≤ e.rev))) := hs.sublist (List.takeWhile_sublist _)
                have h4 : bvRev n ≤ pe.rev := sorted_getLast hs2 hp htw
                rw [hrn] at hlt
                bv_omega
              · exact absurd hlt hn
      · rw [hsn] at h1; cases h1
  · injection hsn with hsn
    rw [← hsn, hbl]; exact hc.mono _

end SLM
