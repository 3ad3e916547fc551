import Verif.Model.NearEntry
import Verif.Props.Told
import Verif.Props.Dump
import Verif.Props.Locate
/-!
C117: NextEntry and PrevEntry of the bucket FindBucket names.
-/
set_option autoImplicit false
set_option maxRecDepth 20000
namespace SLM
open History

/-- The list around the head of a bucket. -/
theorem head_around {st : St} (h : Inv st) {b : Path} (hb : V st.mem b) (hne : bvRev (basePath st.mem b) ≠ maxU64) :
    ∃ P d n R, st.items = P ++ d :: n :: R ∧ d.rev = (st.mem b).rev ∧ d.dummy = true ∧ beforeRef (st.head b) st.items = P ∧
      fromRef (st.head b) st.items = d :: n :: R ∧ (∀ y ∈ st.items, y.dummy = true → y.rev = (st.mem b).rev → y = d) ∧ n ≠ d ∧ d ∉ P := by
  obtain ⟨f1, f2⟩ := basePath_spec h.bi b hb
  have hm := h.ii.has _ f1
  obtain ⟨P, Q, hPQ⟩ := List.append_of_mem hm
  have hnd := h.ii.nodup
  unfold refs at hnd
  rw [hPQ, List.map_append, List.nodup_append, List.map_cons, List.nodup_cons] at hnd
  have hP : ∀ y ∈ P, decide (y.ref ≠ st.head b) = true := by
    intro y hy
    have := hnd.2.2 y.ref (List.mem_map.2 ⟨y, hy, rfl⟩) (.dummy (basePath st.mem b)) (by simp [dummyEntry])
    exact decide_eq_true this
  have hfrom : fromRef (st.head b) st.items = dummyEntry (basePath st.mem b) (bvRev (basePath st.mem b)) :: Q := by
    unfold fromRef
    rw [hPQ, List.dropWhile_append_of_pos hP, List.dropWhile_cons_of_neg (by simp [dummyEntry, St.head])]
  have hbef : beforeRef (st.head b) st.items = P := by
    unfold beforeRef
    rw [hPQ, List.takeWhile_append_of_pos hP, List.takeWhile_cons_of_neg (by simp [dummyEntry, St.head])]
    simp
  cases Q with
  | nil =>
    exfalso
    have hr := h.ii.has [] h.bi.nil_mem
    have hs := h.ii.sorted
    rw [hPQ] at hr hs
    have hmx : bvRev ([] : Path) = maxU64 := rfl
    have e0 : (dummyEntry (basePath st.mem b) (bvRev (basePath st.mem b))).rev = bvRev (basePath st.mem b) := rfl
    have e1 : (dummyEntry ([] : Path) (bvRev [])).rev = maxU64 := rfl
    rcases List.mem_append.1 hr with hr | hr
    · rw [Sorted, List.pairwise_append] at hs
      have := hs.2.2 _ hr _ (List.mem_singleton.2 rfl)
      rw [e0, e1] at this
      apply hne
      apply BitVec.eq_of_toNat_eq
      rw [BitVec.le_def] at this
      have h2 : maxU64.toNat = 2 ^ 64 - 1 := by decide
      have := (bvRev (basePath st.mem b)).isLt
      omega
    · have := List.mem_singleton.1 hr
      have h3 := congrArg Entry.rev this
      rw [e0, e1] at h3
      exact hne h3.symm
  | cons n R =>
    refine ⟨P, _, n, R, hPQ, f2, rfl, hbef, hfrom, ?_, ?_, ?_⟩
    · intro y hnm hd hr
      cases hrf : y.ref with
      | item m => have := (h.ii.itm y hnm m hrf).1; rw [hd] at this; cases this
      | dummy p =>
        obtain ⟨hp, he⟩ := h.ii.dum y hnm p hrf
        have hnr : y.rev = bvRev p := by rw [he]; rfl
        have := Conc.bvRev_inj h hp f1 (by rw [← hnr, hr, f2])
        subst this
        exact he
    · intro hc
      apply hnd.2.1.1
      rw [List.map_cons, hc]
      simp
    · intro hc
      exact hnd.2.2 _ (List.mem_map.2 ⟨_, hc, rfl⟩) _ (by simp) rfl

theorem find_not_max {st : St} (h : Inv st) (r : U64) : bvRev (basePath st.mem (findBucket st.mem r)) ≠ maxU64 := by
  obtain ⟨f1, f2, f3⟩ := findBucket_spec h.bi.ti r
  obtain ⟨g1, g2⟩ := basePath_spec h.bi _ f1
  intro hc
  have hne := (owner_val h.bi r).1
  have := h.bi.lt _ g1 hne
  have h2 := h.bi.rev_toNat g1 hne
  rw [h.bi.rev_eq g1, hc] at h2
  have h3 : maxU64.toNat = 2 ^ 64 - 1 := by decide
  omega

/-- NextEntry of the bucket FindBucket names for any hash: an entry of the map's list at or above the bucket's boundary, not a sentinel of that boundary, and no key lies strictly between. -/
theorem C117_next {E : Env} {st : St} (h : Reachable E st) (r : U64) :
    ∃ e, nextEntry st (findBucket st.mem r) = some e ∧ e ∈ st.items ∧ (st.mem (findBucket st.mem r)).rev ≤ e.rev ∧
      (e.dummy = true → e.rev ≠ (st.mem (findBucket st.mem r)).rev) ∧
      ∀ x ∈ st.rangeItem (fun _ _ => true), ¬ ((st.mem (findBucket st.mem r)).rev < x.rev ∧ x.rev < e.rev) := by
  obtain ⟨P, d, n, R, h1, h2, _, _, h5, h6, h7, _⟩ := head_around h.inv (findBucket_spec h.inv.bi.ti r).1 (find_not_max h.inv r)
  have hs := h.inv.ii.sorted
  rw [h1, Sorted, List.pairwise_append, List.pairwise_cons, List.pairwise_cons] at hs
  refine ⟨n, by unfold nextEntry; rw [h5], by rw [h1]; simp, by rw [← h2]; exact hs.2.1.1 n (by simp),
    fun hd hr => h7 (h6 n (by rw [h1]; simp) hd hr), ?_⟩
  rintro x hx ⟨l1, l2⟩
  rw [told_range, List.mem_filter, h1] at hx
  rw [← h2] at l1
  rcases List.mem_append.1 hx.1 with hx | hx
  · have := hs.2.2 x hx d (by simp); bv_omega
  · rcases List.mem_cons.1 hx with hx | hx
    · subst hx; bv_omega
    · rcases List.mem_cons.1 hx with hx | hx
      · subst hx; bv_omega
      · have := hs.2.1.2.1 x hx; bv_omega

/-- PrevEntry likewise: an entry at or below the boundary, no key lies strictly between, and it is the boundary's own sentinel only if nothing is below. -/
theorem C117_prev {E : Env} {st : St} (h : Reachable E st) (r : U64) :
    ∃ e, prevEntry st (findBucket st.mem r) = some e ∧ e ∈ st.items ∧ e.rev ≤ (st.mem (findBucket st.mem r)).rev ∧
      (e.dummy = true → e.rev = (st.mem (findBucket st.mem r)).rev → ∀ y ∈ st.items, ¬ y.rev < (st.mem (findBucket st.mem r)).rev) ∧
      ∀ x ∈ st.rangeItem (fun _ _ => true), ¬ (e.rev < x.rev ∧ x.rev < (st.mem (findBucket st.mem r)).rev) := by
  obtain ⟨P, d, n, R, h1, h2, _, h4, h5, h6, _, h8⟩ := head_around h.inv (findBucket_spec h.inv.bi.ti r).1 (find_not_max h.inv r)
  have hs := h.inv.ii.sorted
  rw [h1, Sorted, List.pairwise_append, List.pairwise_cons, List.pairwise_cons] at hs
  have hgt : ∀ x ∈ st.rangeItem (fun _ _ => true), x.rev < (st.mem (findBucket st.mem r)).rev → x ∈ P := by
    intro x hx hl
    rw [told_range, List.mem_filter, h1] at hx
    rw [← h2] at hl
    rcases List.mem_append.1 hx.1 with hx | hx
    · exact hx
    · rcases List.mem_cons.1 hx with hx | hx
      · subst hx; bv_omega
      · have := hs.2.1.1 x hx; bv_omega
  unfold prevEntry
  rw [h4, h5]
  cases hp : P.getLast? with
  | none =>
    rw [List.getLast?_eq_none_iff] at hp
    subst hp
    refine ⟨d, rfl, by rw [h1]; simp, by rw [h2]; bv_omega, ?_, ?_⟩
    · intro _ _ y hy hl
      rw [h1, List.nil_append] at hy
      rw [← h2] at hl
      rcases List.mem_cons.1 hy with hy | hy
      · subst hy; bv_omega
      · have := hs.2.1.1 y hy; bv_omega
    rintro x hx ⟨_, l2⟩
    cases hgt x hx l2
  | some e =>
    obtain ⟨P', hP'⟩ := List.getLast?_eq_some_iff.1 hp
    subst hP'
    refine ⟨e, rfl, by rw [h1]; simp, by rw [← h2]; exact hs.2.2 e (by simp) d (by simp),
      fun hd hr => absurd (h6 e (by rw [h1]; simp) hd hr) (fun hc => h8 (by rw [← hc]; simp)), ?_⟩
    rintro x hx ⟨l1, l2⟩
    have := hgt x hx l2
    have hs1 := hs.1
    rw [List.pairwise_append] at hs1
    rcases List.mem_append.1 this with hx | hx
    · have := hs1.2.2 x hx e (by simp); bv_omega
    · have : x = e := by simpa using hx
      subst this; bv_omega

/-- The full property: if the bucket holds a key strictly above its boundary, NextEntry answers a live item, one that Range shows. -/
def C117_statement (st : St) : Prop :=
  ∀ r : U64, (∃ x ∈ st.rangeItem (fun _ _ => true), (st.mem (findBucket st.mem r)).rev < x.rev ∧
      ∀ t ∈ boundaries st, (st.mem (findBucket st.mem r)).rev < t → x.rev < t) →
    ∃ e, nextEntry st (findBucket st.mem r) = some e ∧ e ∈ st.rangeItem (fun _ _ => true)

/-- It holds as long as nothing was deleted. -/
theorem C117_item_partial {E : Env} {cfg : Cfg} {ops : List Op} (hd : ∀ op ∈ ops, ∀ key, op ≠ .delete key) : C117_statement (run E (initSt cfg) ops).1 := by
  have hun : ∀ (ops : List Op) (st : St), Inv st → (∀ e ∈ st.items, e.deleted = false) → (∀ op ∈ ops, ∀ key, op ≠ .delete key) →
      ∀ e ∈ (run E st ops).1.items, e.deleted = false := by
    intro ops
    induction ops with
    | nil => intro st _ h _; exact h
    | cons op ops ih =>
      intro st hi h ho
      rw [run_cons]
      exact ih _ (step_inv E hi op) (step_undeleted hi h (ho op (by simp))) (fun o ho' => ho o (by simp [ho']))
  have hnodel := hun ops _ (inv_init cfg) (by
    intro e he
    have hi := inv_init cfg
    have hdm := initSt_dummy cfg e he
    cases hr : e.ref with
    | item n => rw [(hi.ii.itm e he n hr).1] at hdm; cases hdm
    | dummy p => rw [(hi.ii.dum e he p hr).2]; rfl) hd
  have hR : Reachable E (run E (initSt cfg) ops).1 := ⟨cfg, ops, rfl⟩
  generalize (run E (initSt cfg) ops).1 = st at *
  rintro r ⟨x, hx, hlt, hb⟩
  obtain ⟨e, h1, h2, h3, h3', h4⟩ := C117_next hR r
  refine ⟨e, h1, ?_⟩
  rw [told_range, List.mem_filter]
  refine ⟨h2, ?_⟩
  have hde := hnodel e h2
  cases hdu : e.dummy with
  | false => simp [Entry.ignored, hde, hdu]
  | true =>
    exfalso
    have hlt2 : (st.mem (findBucket st.mem r)).rev < e.rev := by have := h3' hdu; bv_omega
    have hmem : e.rev ∈ boundaries st := by
      cases hrf : e.ref with
      | item m => have := (hR.inv.ii.itm e h2 m hrf).1; rw [hdu] at this; cases this
      | dummy p =>
        obtain ⟨hp, he⟩ := hR.inv.ii.dum e h2 p hrf
        have hnr : e.rev = bvRev p := by rw [he]; rfl
        exact List.mem_map.2 ⟨p, hp, by rw [hR.inv.bi.rev_eq hp]; exact hnr.symm⟩
    exact h4 x hx ⟨hlt, hb _ hmem hlt2⟩

/-- Four keys; three of them have their place in one bucket. -/
def nearOps : List Op := [.set (sk 1) (exV 1), .set (sk 2) (exV 2), .set (sk 17) (exV 3), .set (sk 33) (exV 4)]

/-- The hypotheses of C117_item_partial are met: the bucket holds a key, and NextEntry answers it. -/
theorem C117_applies : (∀ op ∈ nearOps, ∀ key, op ≠ .delete key) ∧
    (nextEntry (run exE (initSt {}) nearOps).1 (findBucket (run exE (initSt {}) nearOps).1.mem 0xb915b759ede5c930#64)).map (·.key) = some (sk 17) ∧
    (∃ x ∈ (run exE (initSt {}) nearOps).1.rangeItem (fun _ _ => true), x.key = sk 17) ∧
    -- a bucket with no key: the next sentinel
    (nextEntry (run exE (initSt {}) nearOps).1 (findBucket (run exE (initSt {}) nearOps).1.mem 0x1234000000000000#64)).map (fun e => (e.rev, e.dummy)) = some (0x2000000000000000#64, true) ∧
    -- PrevEntry of the bucket behind it: the last key before its boundary
    (prevEntry (run exE (initSt {}) nearOps).1 (findBucket (run exE (initSt {}) nearOps).1.mem 0xc234000000000000#64)).map (·.key) = some (sk 33) := by
  refine ⟨?_, by decide +kernel, by decide +kernel, by decide +kernel, by decide +kernel⟩
  intro op ho key
  simp only [nearOps, List.mem_cons, List.not_mem_nil, or_false] at ho
  rcases ho with rfl | rfl | rfl | rfl <;> simp

/-- The full property fails once a key was deleted: NextEntry answers the deleted entry although a key follows in the same bucket. -/
theorem C117_refuted : ¬ C117_statement (run exE (initSt {}) (nearOps ++ [.delete (sk 17)])).1 := by
  intro h
  have a1 : ((run exE (initSt {}) (nearOps ++ [.delete (sk 17)])).1.mem (findBucket (run exE (initSt {}) (nearOps ++ [.delete (sk 17)])).1.mem 0xb915b759ede5c930#64)).rev =
      0xb000000000000000#64 := by decide +kernel
  have a2 : (boundaries (run exE (initSt {}) (nearOps ++ [.delete (sk 17)])).1).all (fun t => decide (t ≤ 0xb000000000000000#64) || decide (0xc000000000000000#64 ≤ t)) = true := by
    decide +kernel
  have a3 : 0xb915b759ede5c930#64 ∈ ((run exE (initSt {}) (nearOps ++ [.delete (sk 17)])).1.rangeItem (fun _ _ => true)).map (·.rev) := by decide +kernel
  obtain ⟨x, hx, hxr⟩ := List.mem_map.1 a3
  have h1 := h 0xb915b759ede5c930#64 ⟨x, hx, by rw [a1, hxr]; decide, by
    intro t ht hl
    rw [a1] at hl
    have := List.all_eq_true.1 a2 t ht
    rw [Bool.or_eq_true, decide_eq_true_eq, decide_eq_true_eq] at this
    rw [hxr]
    rcases this with h | h
    · bv_omega
    · bv_omega⟩
  obtain ⟨e, he, hm⟩ := h1
  have h2 : ((nextEntry (run exE (initSt {}) (nearOps ++ [.delete (sk 17)])).1 (findBucket (run exE (initSt {}) (nearOps ++ [.delete (sk 17)])).1.mem 0xb915b759ede5c930#64)).map (·.deleted)) = some true := by
    decide +kernel
  rw [he] at h2
  rw [told_range, List.mem_filter] at hm
  have h3 : e.deleted = true := by simpa using h2
  have h4 := hm.2
  simp [Entry.ignored, h3] at h4
end SLM
