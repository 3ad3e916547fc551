import Verif.Props.Sum
import Verif.Props.Told
/-!
C99, what a division does to the counters: the new bucket, the upper half, gets the number of items of the lower half plus two.
-/
set_option autoImplicit false
set_option maxRecDepth 20000
namespace SLM
open History

theorem alias_upd {m : Path → Bkt} {q p : Path} {x : Bkt} (hx : x.isAlias = (m q).isAlias) : (upd m q x p).isAlias = (m p).isAlias := by
  unfold upd
  split
  · next e => subst e; exact hx
  · rfl

theorem alias_activate (m : Path → Bkt) (q p : Path) : (activate m q p).isAlias = (m p).isAlias := by
  unfold activate
  split
  · exact alias_upd rfl
  · rfl

theorem alias_runOk (m : Path → Bkt) (ok : OkFn) (p : Path) : (runOk m ok p).isAlias = (m p).isAlias := by
  cases ok with
  | none => rfl
  | activate q => exact alias_activate m q p
  | extend b i =>
    simp only [runOk]
    rw [alias_activate]
    split
    · rfl
    · exact alias_upd rfl

theorem mem_linkBucket {st : St} {m : Path → Bkt} {b : Path} {ok : OkFn} {st' : St} (h : linkBucket st m b ok = .ok st') : st'.mem = runOk m ok := by
  unfold linkBucket at h
  simp only at h
  split at h
  · cases h
  · split at h
    · cases h
    · injection h with h; subst h; rfl

/-- A bucket that was never set up has the counter 0. -/
def Fresh0 (st : St) : Prop := ∀ p, ¬ V st.mem p → (st.mem p).len = 0

theorem NewBucket.fresh {st st' : St} {A B : List Path} {n b c : Path} (h : Inv st) (x : NewBucket st st' A B n b c) : ¬ V st.mem b := by
  intro hv
  apply x.notin
  rw [h.bi.mem_iff b x.ne]
  refine ⟨hv, ?_⟩
  cases hb : b with
  | nil => exact absurd hb x.ne
  | cons i q =>
    subst hb
    cases ha : (st.mem (i :: q)).isAlias with
    | false => rfl
    | true => exact absurd (by rw [((h.bi.ti.ali i q hv).1 ha).1]; rfl) x.hd

/-- The interval that holds a hash is unique. -/
theorem gap_unique {st : St} (h : BI st.mem st.blist) {er : U64} {A B A' B' : List Path} {n c n' c' : Path} (h1 : st.blist = A ++ n :: c :: B)
    (h2 : st.blist = A' ++ n' :: c' :: B') (l1 : (st.mem c).rev ≤ er) (l2 : (st.mem c').rev ≤ er) (u1 : er < (st.mem n).rev ∨ n = [])
    (u2 : er < (st.mem n').rev ∨ n' = []) : c = c' := by
  have key : ∀ {A B A' B' : List Path} {n c n' c' : Path}, st.blist = A ++ n :: c :: B → st.blist = A' ++ n' :: c' :: B' → (st.mem c').rev ≤ er →
      (er < (st.mem n).rev ∨ n = []) → ¬ bval c < bval c' := by
    intro A B A' B' n c n' c' h1 h2 l2 u1 hlt
    have hne' := (h.neighbours h2).2.2.1
    have hc' : c' ∈ st.blist := by rw [h2]; simp
    have hnm : n ∈ st.blist := by rw [h1]; simp
    have hd := h.desc
    rw [h1] at hc'
    rw [h1, List.pairwise_append] at hd
    have h4 := List.pairwise_cons.1 (List.pairwise_cons.1 hd.2.1).2
    have hge : bval n ≤ bval c' := by
      rcases List.mem_append.1 hc' with hc | hc
      · exact Nat.le_of_lt (hd.2.2 c' hc n (by simp))
      · rcases List.mem_cons.1 hc with hc | hc
        · rw [hc]
        · rcases List.mem_cons.1 hc with hc | hc
          · rw [hc] at hlt; omega
          · have := h4.1 c' hc; omega
    have hc2 : c' ∈ st.blist := by rw [h2]; simp
    have r' := h.rev_toNat hc2 hne'
    have hlt' := h.lt c' hc2 hne'
    by_cases hn : n = []
    · subst hn
      rw [bval_nil] at hge
      omega
    · have r := h.rev_toNat hnm hn
      rcases u1 with u1 | u1
      · rw [BitVec.lt_def] at u1
        rw [BitVec.le_def] at l2
        omega
      · exact hn u1
  have a := key h1 h2 l2 u1
  have b := key h2 h1 l1 u2
  have e : bval c = bval c' := by omega
  have hc : c ∈ st.blist := by rw [h1]; simp
  have hc' : c' ∈ st.blist := by rw [h2]; simp
  by_contra hne
  have hp := h.desc
  rw [List.pairwise_iff_getElem] at hp
  obtain ⟨i, hi, rfl⟩ := List.mem_iff_getElem.1 hc
  obtain ⟨j, hj, rfl⟩ := List.mem_iff_getElem.1 hc'
  rcases Nat.lt_trichotomy i j with hij | hij | hij
  · have := hp i j hi hj hij; omega
  · subst hij; exact hne rfl
  · have := hp j i hj hi hij; omega

theorem mk_len {st : St} (h : Inv st) (hz : Fresh0 st) {er : U64} {st' : St} (hm : makeBucketAt st er = .ok st') :
    st' = st ∨ ∃ A B n b c, NewBucket st st' A B n b c ∧ (st'.mem b).len = countTo (bvRev b) (fromRef (.dummy c) st.items) ∧
      (st'.mem b).len + (st'.mem c).len = (st.mem c).len ∧ ∀ p, p ≠ b → p ≠ c → (st'.mem p).len = (st.mem p).len := by
  rcases makeBucketAt_near h er with ⟨s, h1, hinv, h3⟩ | ⟨h1, _⟩
  swap
  · rw [hm] at h1; cases h1
  rw [hm] at h1
  injection h1 with h1
  subst h1
  rcases h3 with rfl | ⟨A, B, n, b, c, x, l1, u1⟩
  · exact Or.inl rfl
  right
  refine ⟨A, B, n, b, c, x, ?_⟩
  have hbne : b ≠ c := by rintro rfl; exact x.notin (by rw [x.old]; simp)
  have hgrow : st'.blist ≠ st.blist := by
    intro hc
    have := congrArg List.length hc
    rw [x.new, x.old] at this
    simp at this
  have hcm' : c ∈ st'.blist := by rw [x.new]; simp
  have hbm' : b ∈ st'.blist := by rw [x.new]; simp
  have hcne := (h.bi.neighbours x.old).2.2.1
  have hali := ((hinv.bi.mem_iff c hcne).1 hcm').2
  have hbrev := hinv.bi.rev_eq hbm'
  unfold makeBucketAt at hm
  split at hm
  · injection hm with hm; exact absurd (by rw [← hm]) hgrow
  · next c0 hs =>
    have hc0 : c0 ∈ st.blist ∧ (st.mem c0).rev < er := by
      unfold St.searchBucket at hs
      have h1 := List.find?_some hs
      have h2 := List.mem_of_find?_eq_some hs
      exact ⟨(List.dropWhile_sublist _).subset h2, by simpa using h1⟩
    rw [if_neg (by have := hc0.2; bv_omega)] at hm
    obtain ⟨A', c', n', B', hclimb, hbl, hcle, hnext⟩ := climb_start h.bi er hc0.1 hc0.2
    rw [hclimb] at hm
    have hcc : c = c' := gap_unique h.bi x.old hbl l1 hcle u1 (hnext.imp_right (h.bi.neighbours hbl).2.2.2.2)
    subst hcc
    simp only at hm
    split at hm
    · injection hm with hm; exact absurd (by rw [← hm]) hgrow
    · split at hm
      · cases hm
      · split at hm
        · cases hm
        · next m1 b' ok hb =>
          have h1 := len_bfpLoop _ _ _ _ _ _ _ _ hb
          split at hm
          · injection hm with hm; exact absurd (by rw [← hm]) hgrow
          · generalize hm2 : (if (m1 b').rev ≠ newBoundary (st.mem c).rev (st.mem n').rev (decide (c = n')) then
              upd m1 b' { m1 b' with rev := newBoundary (st.mem c).rev (st.mem n').rev (decide (c = n')), len := 0 } else m1) = m2 at hm
            split at hm
            · injection hm with hm; exact absurd (by rw [← hm]) hgrow
            · obtain ⟨⟨H, L, e1, e2⟩, e3⟩ := len_linkBucket hm
              have e4 := mem_linkBucket hm
              simp only at e1
              have hbb : b' = b := by
                have : b ∈ st'.blist := hbm'
                rw [e2] at this
                rcases List.mem_append.1 this with h5 | h5
                · exact absurd (by rw [e1]; exact List.mem_append_left _ h5) x.notin
                · rcases List.mem_cons.1 h5 with h5 | h5
                  · exact h5.symm
                  · exact absurd (by rw [e1]; exact List.mem_append_right _ h5) x.notin
              subst hbb
              have h2 : ∀ p, p ≠ b' → (m2 p).len = (st.mem p).len := by
                intro p hp
                rw [← hm2, ← h1 p]
                split
                · unfold upd; rw [if_neg hp]
                · rfl
              have h2b : (m2 b').len = 0 := by
                rw [← hm2]
                split
                · simp [upd]
                · rw [h1]; exact hz b' (x.fresh h)
              have hal2 : (m2 c).isAlias = false := by
                rw [← hali, e4, alias_runOk]
                simp [moveLen, upd, Ne.symm hbne]
              have hrv : (m2 b').rev = bvRev b' := by
                rw [← hbrev, e4, (runOk_fields _ ok b').2]
                simp [moveLen, upd, hbne, Ne.symm hbne]
              rw [basePath_of_not_alias hal2, hrv] at e3
              refine ⟨?_, ?_, fun p hpb hpc => ?_⟩
              · rw [e3]
                simp [moveLen, upd, hbne, h2b]
              · rw [e3, e3, ← h2 c (Ne.symm hbne)]
                simp [moveLen, upd, hbne, Ne.symm hbne]
              · rw [e3, ← h2 p hpb]
                simp [moveLen, upd, hpb, hpc]

theorem EffNew.made {E : Env} {st st2 : St} {op : Op} {r : St × Out} {k c : U64} {e : Entry} (x : EffNew E st op r st2 k c e) :
    r.1 = setMid st2 k (findBucket st.mem (rev64 k)) e ∨ ∃ er, makeBucketAt (setMid st2 k (findBucket st.mem (rev64 k)) e) er = .ok r.1 := by
  have hsn := x.setNew
  rw [setNew_eq] at hsn
  split at hsn
  · unfold makeBucket at hsn
    split at hsn
    · split at hsn
      · exact Or.inr ⟨_, hsn⟩
      · injection hsn with hsn; exact Or.inl hsn.symm
    · exact Or.inr ⟨_, hsn⟩
  · injection hsn with hsn; exact Or.inl hsn.symm

theorem EffNew.fresh0 {E : Env} {st st2 : St} {op : Op} {r : St × Out} {k c : U64} {e : Entry} (h : Inv st) (hz : Fresh0 st) (x : EffNew E st op r st2 k c e) :
    Fresh0 (setMid st2 k (findBucket st.mem (rev64 k)) e) := by
  intro p hp
  have hE := setMid_eqL st2 k (findBucket st.mem (rev64 k)) e
  rw [x.mem] at hE
  have hv : ¬ V st.mem p := by
    unfold V at hp ⊢
    rw [(hE.fields p).1] at hp
    exact hp
  have hne : p ≠ findBucket st.mem (rev64 k) := by
    rintro rfl
    exact hv (findBucket_spec h.bi.ti _).1
  show ((if (st2.mem _).level > 0 then _ else _ : Path → Bkt) p).len = _
  rw [x.mem]
  split
  · simp [upd, hne, hz p hv]
  · exact hz p hv

theorem step_fresh0 (E : Env) {st : St} (h : Inv st) (hz : Fresh0 st) (op : Op) : Fresh0 (step E st op).1 := by
  rcases step_eff E h op with x | ⟨e, nv, b, x⟩ | ⟨key, e, x⟩ | ⟨st2, k, c, e, x⟩
  · obtain ⟨b, hb⟩ := x.same; rw [hb]; exact hz
  · rw [x.res]; exact hz
  · rw [x.res]; exact hz
  · have hf := x.fresh0 h hz
    rcases x.made with hm | ⟨er, hm⟩
    · rw [hm]; exact hf
    · rcases mk_len x.midinv hf hm with hs | ⟨A, B, n, b, c', nb, _, _, h3⟩
      · rw [hs]; exact hf
      · intro p hp
        rw [nb.vch] at hp
        have hc : V (setMid st2 k (findBucket st.mem (rev64 k)) e).mem c' :=
          ((x.midinv.bi.mem_iff c' (x.midinv.bi.neighbours nb.old).2.2.1).1 (by rw [nb.old]; simp)).1
        rw [h3 p (fun h => hp (Or.inr (Or.inl h))) (by rintro rfl; exact hp (Or.inl hc))]
        exact hf p (fun h => hp (Or.inl h))

theorem reachable_fresh0 {E : Env} {st : St} (h : Reachable E st) : Fresh0 st := by
  obtain ⟨cfg, ops, rfl⟩ := h
  have : ∀ (ops : List Op) (st : St), Inv st → Fresh0 st → Fresh0 (run E st ops).1 := by
    intro ops
    induction ops with
    | nil => intro st _ h; exact h
    | cons op ops ih =>
      intro st hi h
      rw [run_cons]
      exact ih _ (step_inv E hi op) (step_fresh0 E hi h op)
  refine this ops _ (inv_init cfg) ?_
  intro p _
  rw [initSt_mem]
  match p with
  | [] => rfl
  | [i] => simp only [initMem]; split <;> rfl
  | _ :: _ :: _ => rfl

theorem countTo_split {r : U64} {L D : List Entry} (hL : ∀ x ∈ L, x.rev ≤ r) {d : Entry} {D' : List Entry} (hD : D = d :: D') (hd : r < d.rev) :
    countTo r (L ++ D) = L.length + 1 := by
  induction L with
  | nil => subst hD; simp only [List.nil_append, countTo]; rw [if_pos hd]; rfl
  | cons x xs ih =>
    simp only [List.cons_append, countTo]
    rw [if_neg (by have := hL x (by simp); bv_omega), ih (fun y hy => hL y (by simp [hy]))]
    simp

/-- What a division does to the counters, in every reachable map (C99 fails by it): the new bucket, which is the upper half, gets the number of items of the lower half (plus two, for two
sentinels), and that number is taken off the lower half's counter.  `c` is the divided bucket, `b` the new one; DumpEntry shows the sentinel of `c`, the items `L`
the bucket `c` holds, and the sentinel of `b`, in this order. -/
theorem C99_division_partial {E : Env} {st : St} (h : Reachable E st) {op : Op} (hl : st.blist.length < (step E st op).1.blist.length) :
    ∃ A B n b c P L R, st.blist = A ++ n :: c :: B ∧ (step E st op).1.blist = A ++ n :: b :: c :: B ∧
      (step E st op).1.items = P ++ dummyEntry c (bvRev c) :: L ++ dummyEntry b (bvRev b) :: R ∧ (∀ x ∈ L, x.dummy = false) ∧
      ((step E st op).1.mem b).len = L.length + 2 ∧
      (((step E st op).1.mem b).len + ((step E st op).1.mem c).len = (st.mem c).len ∨
        ((step E st op).1.mem b).len + ((step E st op).1.mem c).len = (st.mem c).len + 1) := by
  have hi := h.inv
  rcases step_eff E hi op with x | ⟨e, nv, b, x⟩ | ⟨key, e, x⟩ | ⟨st2, k, c0, e, x⟩
  · obtain ⟨b, hb⟩ := x.same; rw [hb] at hl; exact absurd hl (Nat.lt_irrefl _)
  · rw [x.res] at hl; exact absurd hl (Nat.lt_irrefl _)
  · rw [x.res] at hl; exact absurd hl (Nat.lt_irrefl _)
  · have hf := x.fresh0 hi (reachable_fresh0 h)
    have hbl : (setMid st2 k (findBucket st.mem (rev64 k)) e).blist = st.blist := x.blist
    have hlenc : ∀ p, ((setMid st2 k (findBucket st.mem (rev64 k)) e).mem p).len = (st.mem p).len ∨
        ((setMid st2 k (findBucket st.mem (rev64 k)) e).mem p).len = (st.mem p).len + 1 := by
      intro p
      show ((if (st2.mem _).level > 0 then _ else _ : Path → Bkt) p).len = _ ∨ ((if (st2.mem _).level > 0 then _ else _ : Path → Bkt) p).len = _
      rw [x.mem]
      split
      · by_cases hp : p = findBucket st.mem (rev64 k)
        · right; subst hp; simp [upd]
        · left; simp [upd, hp]
      · exact Or.inl rfl
    have hmi := x.midinv
    have hri := x.inv
    rcases x.made with hm | ⟨er, hm⟩
    · rw [hm, hbl] at hl; exact absurd hl (Nat.lt_irrefl _)
    · generalize (step E st op).1 = st' at *
      generalize setMid st2 k (findBucket st.mem (rev64 k)) e = mid at *
      rcases mk_len hmi hf hm with hs | ⟨A, B, n, b, c, nb, h1, h2, _⟩
      · rw [hs, hbl] at hl; exact absurd hl (Nat.lt_irrefl _)
      · have hbm : b ∈ st'.blist := by rw [nb.new]; simp
        have hcm : c ∈ mid.blist := by rw [nb.old]; simp
        have hnb := hmi.bi.neighbours nb.old
        have hcb : bval c < bval b := by have := nb.mid; omega
        have hb64 := hri.bi.lt b hbm nb.ne
        have hbr : (bvRev b).toNat = bval b := by rw [← hri.bi.rev_eq hbm, hri.bi.rev_toNat hbm nb.ne]
        have hcr : (bvRev c).toNat = bval c := by rw [← hmi.bi.rev_eq hcm, hmi.bi.rev_toNat hcm hnb.2.2.1]
        have hmax : (bvRev ([] : Path)).toNat = 2 ^ 64 - 1 := rfl
        have hsp := List.takeWhile_append_dropWhile (p := fun y : Entry => decide (y.rev ≤ bvRev b)) (l := mid.items)
        have hD : ∀ y ∈ mid.items.dropWhile (fun y => decide (y.rev ≤ bvRev b)), bvRev b < y.rev :=
          insAt_after (e := dummyEntry b (bvRev b)) hmi.ii.sorted
        have hT : ∀ y ∈ mid.items.takeWhile (fun y => decide (y.rev ≤ bvRev b)), y.rev ≤ bvRev b := by
          intro y hy; simpa using List.mem_takeWhile_imp hy
        have hits : st'.items = mid.items.takeWhile (fun y => decide (y.rev ≤ bvRev b)) ++ dummyEntry b (bvRev b) ::
            mid.items.dropWhile (fun y => decide (y.rev ≤ bvRev b)) := nb.items
        generalize mid.items.takeWhile (fun y => decide (y.rev ≤ bvRev b)) = T at hsp hT hits
        generalize mid.items.dropWhile (fun y => decide (y.rev ≤ bvRev b)) = D at hsp hD hits
        have hdc : dummyEntry c (bvRev c) ∈ T := by
          have := hmi.ii.has c hcm
          rw [← hsp] at this
          rcases List.mem_append.1 this with hx | hx
          · exact hx
          · have := hD _ hx
            have e0 : (dummyEntry c (bvRev c)).rev = bvRev c := rfl
            rw [e0, BitVec.lt_def] at this
            omega
        obtain ⟨P, L, rfl⟩ := List.append_of_mem hdc
        have hroot : dummyEntry [] (bvRev []) ∈ D := by
          have := hmi.ii.has [] hmi.bi.nil_mem
          rw [← hsp] at this
          rcases List.mem_append.1 this with hx | hx
          · have := hT _ hx
            have e0 : (dummyEntry ([] : Path) (bvRev [])).rev = bvRev [] := rfl
            rw [e0, BitVec.le_def] at this
            omega
          · exact hx
        have hnd := hmi.ii.nodup
        rw [← hsp] at hnd
        have hnd2 : (refs (P ++ dummyEntry c (bvRev c) :: (L ++ D))).Nodup := by simpa [refs] using hnd
        have hnd3 := hnd2
        unfold refs at hnd3
        rw [List.map_append, List.nodup_append, List.map_cons, List.nodup_cons] at hnd3
        have hfrom : fromRef (.dummy c) mid.items = dummyEntry c (bvRev c) :: (L ++ D) := by
          rw [← hsp, List.append_assoc, List.cons_append]
          unfold fromRef
          rw [List.dropWhile_append_of_pos]
          · rw [List.dropWhile_cons_of_neg (by simp [dummyEntry])]
          · intro y hy
            have := hnd3.2.2 y.ref (List.mem_map.2 ⟨y, hy, rfl⟩) (.dummy c) (by simp [dummyEntry])
            simpa using this
        have hso := hmi.ii.sorted
        rw [← hsp, List.append_assoc, List.cons_append, Sorted, List.pairwise_append, List.pairwise_cons] at hso
        refine ⟨A, B, n, b, c, P, L, D, by rw [← hbl]; exact nb.old, nb.new, ?_, ?_, ?_, ?_⟩
        · rw [hits]
        · intro y hy
          cases hd : y.dummy with
          | false => rfl
          | true =>
            exfalso
            have hym : y ∈ mid.items := by rw [← hsp]; simp [hy]
            cases hr : y.ref with
            | item m => have := (hmi.ii.itm y hym m hr).1; rw [hd] at this; cases this
            | dummy p =>
              obtain ⟨hp, hye⟩ := hmi.ii.dum y hym p hr
              have hyr : y.rev = bvRev p := by rw [hye]; rfl
              have h5 := hT y (by simp [hy])
              have h6 := hso.2.1.1 y (by simp [hy])
              have e0 : (dummyEntry c (bvRev c)).rev = bvRev c := rfl
              rw [hyr, BitVec.le_def] at h5
              rw [e0, hyr, BitVec.le_def] at h6
              have hpn : p ≠ [] := by rintro rfl; omega
              have hpr : (bvRev p).toNat = bval p := by rw [← hmi.bi.rev_eq hp, hmi.bi.rev_toNat hp hpn]
              have hpc : p ≠ c := by
                rintro rfl
                apply hnd3.2.1.1
                rw [List.mem_map]
                exact ⟨y, by simp [hy], by rw [hr]; rfl⟩
              have hde := hmi.bi.desc
              have hmidb := nb.mid
              rw [nb.old] at hp hde
              rw [List.pairwise_append] at hde
              have h7 := (List.pairwise_cons.1 (List.pairwise_cons.1 hde.2.1).2).1
              rcases List.mem_append.1 hp with hp | hp
              · have := hde.2.2 p hp n (by simp); omega
              · rcases List.mem_cons.1 hp with hp | hp
                · subst hp; omega
                · rcases List.mem_cons.1 hp with hp | hp
                  · exact hpc hp
                  · have := h7 p hp; omega
        · rw [h1, hfrom]
          cases D with
          | nil => cases hroot
          | cons d D' =>
            have := countTo_split (r := bvRev b) (L := dummyEntry c (bvRev c) :: L) (D := d :: D') (fun y hy => hT y (List.mem_append_right _ hy)) rfl
              (hD d (by simp))
            rw [List.cons_append] at this
            rw [this]
            simp
            omega
        · rcases hlenc c with h3 | h3
          · left; rw [h2, h3]
          · right; rw [h2, h3]

/-- A store that divides a bucket. -/
theorem C99_division_applies : (run exE (initSt { maxPer := 3 }) (fillOps.take 3)).1.blist.length <
    (step exE (run exE (initSt { maxPer := 3 }) (fillOps.take 3)).1 (fillOps.getD 3 (.len))).1.blist.length := by decide +kernel

/-- The hypotheses of `C99_division_partial` are met by it. -/
example : ∃ b, b ∈ (step exE (run exE (initSt { maxPer := 3 }) (fillOps.take 3)).1 (fillOps.getD 3 (.len))).1.blist ∧
    2 ≤ ((step exE (run exE (initSt { maxPer := 3 }) (fillOps.take 3)).1 (fillOps.getD 3 (.len))).1.mem b).len := by
  obtain ⟨A, B, n, b, c, P, L, R, _, h2, _, _, h5, _⟩ := C99_division_partial (E := exE) (st := (run exE (initSt { maxPer := 3 }) (fillOps.take 3)).1)
    ⟨_, _, rfl⟩ C99_division_applies
  exact ⟨b, by rw [h2]; simp, by omega⟩

end SLM
