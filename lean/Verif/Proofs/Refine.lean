import Verif.Proofs.Reach
import Verif.Spec
/-! Search correctness and refinement to the plain map. -/
set_option autoImplicit false
namespace SLM

/-- First live item with reversed hash `t`. -/
def liveAt (items : List Entry) (t : U64) : Option Entry := items.find? (fun e => !e.ignored && decide (e.rev = t))


/-- No two live items share a hash, and a live item whose hash is a boundary lies before that sentinel. -/
structure Good (st : St) : Prop where
  inv : Inv st
  uniq : ∀ a ∈ st.items, ∀ b ∈ st.items, a.ignored = false → b.ignored = false → a.rev = b.rev → a = b
  pos : ∀ e ∈ st.items, e.ignored = false → ∀ p ∈ st.blist, bvRev p = e.rev → [e, dummyEntry p (bvRev p)].Sublist st.items

theorem fwdSearch_find {t : U64} {l : List Entry} (hs : Sorted l) : fwdSearch t true l = liveAt l t := by
  induction l with
  | nil => rfl
  | cons x xs ih =>
    have hs' := List.pairwise_cons.1 hs
    simp only [fwdSearch, Bool.true_and, liveAt, List.find?_cons]
    by_cases hi : x.ignored = true
    · simp only [hi, if_true, Bool.not_true, Bool.false_and]
      exact ih hs'.2
    · have hi' : x.ignored = false := by simpa using hi
      simp only [hi', Bool.not_false, Bool.true_and, if_false]
      by_cases h1 : x.rev < t
      · have h2 : ¬ x.rev = t := by bv_omega
        simp only [h1, h2, if_true, decide_false]
        exact ih hs'.2
      · by_cases h2 : x.rev = t
        · simp [h2]
        · simp only [h1, h2, decide_false, if_false]
          rw [eq_comm]
          simp only [Bool.false_eq_true, if_false]
          apply List.find?_eq_none.2
          intro y hy
          have := hs'.1 y hy
          simp only [Bool.and_eq_true, Bool.not_eq_true', decide_eq_true_eq, not_and]
          intro _ hc
          bv_omega

theorem bwdSearch_find {t : U64} {l : List Entry} (hs : l.Pairwise (fun a b => b.rev ≤ a.rev)) :
    bwdSearch t true l = liveAt l t := by
  induction l with
  | nil => rfl
  | cons x xs ih =>
    have hs' := List.pairwise_cons.1 hs
    simp only [bwdSearch, Bool.true_and, liveAt, List.find?_cons]
    by_cases hi : x.ignored = true
    · simp only [hi, if_true, Bool.not_true, Bool.false_and]
      exact ih hs'.2
    · have hi' : x.ignored = false := by simpa using hi
      simp only [hi', Bool.not_false, Bool.true_and, if_false]
      by_cases h1 : x.rev > t
      · have h2 : ¬ x.rev = t := by bv_omega
        simp only [h1, h2, if_true, decide_false]
        exact ih hs'.2
      · by_cases h2 : x.rev = t
        · simp [h2]
        · simp only [h1, h2, decide_false, if_false]
          rw [eq_comm]
          simp only [Bool.false_eq_true, if_false]
          apply List.find?_eq_none.2
          intro y hy
          have := hs'.1 y hy
          simp only [Bool.and_eq_true, Bool.not_eq_true', decide_eq_true_eq, not_and]
          intro _ hc
          bv_omega

theorem liveAt_some_mem {l : List Entry} {t : U64} {e : Entry} (h : liveAt l t = some e) :
    e ∈ l ∧ e.ignored = false ∧ e.rev = t := by
  have h1 := List.mem_of_find?_eq_some h
  have h2 := List.find?_some h
  simp only [Bool.and_eq_true, Bool.not_eq_true', decide_eq_true_eq] at h2
  exact ⟨h1, h2⟩

theorem liveAt_none {l : List Entry} {t : U64} : liveAt l t = none ↔ ∀ e ∈ l, e.ignored = false → e.rev ≠ t := by
  unfold liveAt
  rw [List.find?_eq_none]
  simp only [Bool.and_eq_true, Bool.not_eq_true', decide_eq_true_eq, not_and]

theorem liveAt_iff {l : List Entry} {t : U64} {e : Entry}
    (hu : ∀ a ∈ l, ∀ b ∈ l, a.ignored = false → b.ignored = false → a.rev = b.rev → a = b) :
    liveAt l t = some e ↔ e ∈ l ∧ e.ignored = false ∧ e.rev = t := by
  constructor
  · exact liveAt_some_mem
  · rintro ⟨h1, h2, h3⟩
    cases h : liveAt l t with
    | none => exact absurd h3 (liveAt_none.1 h e h1 h2)
    | some x =>
      have := liveAt_some_mem h
      rw [hu x this.1 e h1 this.2.1 h2 (by rw [this.2.2, h3])]

theorem sublist_before {pre post : List Entry} {x d : Entry} (hn : (refs (pre ++ d :: post)).Nodup)
    (h : [x, d].Sublist (pre ++ d :: post)) : x ∈ pre := by
  have hnp := nodup_split hn
  have hd1 : d ∉ pre := fun hc => hnp.1 (List.mem_map.2 ⟨d, hc, rfl⟩)
  have hd2 : d ∉ post := fun hc => hnp.2 (List.mem_map.2 ⟨d, hc, rfl⟩)
  rw [List.sublist_append_iff] at h
  obtain ⟨l1, l2, h1, h2, h3⟩ := h
  match l1, h1 with
  | [], h1 =>
    simp at h1
    subst h1
    -- [x,d] inside d :: post
    cases h3 with
    | cons _ h => exact absurd (h.subset (by simp)) hd2
    | cons_cons _ h => exact absurd (h.subset (by simp)) hd2
  | [a], h1 =>
    simp at h1
    rw [h1.1]; exact h2.subset (by simp)
  | a :: b :: l, h1 =>
    simp at h1
    exact absurd (h2.subset (by rw [← h1.2.1]; simp)) hd1

/-- From every initialised bucket, and in every search mode, the search finds the live item with that hash. -/
theorem search_correct {E : Env} {st : St} (g : Good st) {b : Path} (hv : V st.mem b) (t : U64) :
    searchByBucket E st b t true = liveAt st.items t := by
  have key : ∀ n, V st.mem n →
      (if (st.mem n).rev < t then fwdSearch t true (fromRef (st.head n) st.items)
        else bwdSearch t true (backFrom (st.head n) st.items)) = liveAt st.items t := by
    intro n hn
    obtain ⟨p, hp, hh, hr, hm⟩ := head_spec g.inv hn
    rw [hh]
    obtain ⟨d, post, hd, hf, hl⟩ := split_at (.dummy p) st.items (List.mem_map.2 ⟨_, hm, rfl⟩)
    have hdm : d ∈ st.items := by rw [hl]; simp
    have hde : d = dummyEntry p (bvRev p) := (g.inv.ii.dum d hdm p hd).2
    have hdi : d.ignored = true := by rw [hde]; rfl
    have hdr : d.rev = (st.mem n).rev := by rw [hde]; exact hr
    have hs := g.inv.ii.sorted
    have hnd := g.inv.ii.nodup
    generalize hpre : beforeRef (.dummy p) st.items = pre at *
    have hs2 := hs
    rw [hl, Sorted, List.pairwise_append] at hs2
    obtain ⟨s1, s2, s3⟩ := hs2
    split
    · rename_i hlt
      rw [hf, fwdSearch_find s2]
      rw [hl]
      unfold liveAt
      rw [List.find?_append]
      have : List.find? (fun e => !e.ignored && decide (e.rev = t)) pre = none := by
        rw [List.find?_eq_none]
        intro x hx
        have := s3 x hx d (by simp)
        simp only [Bool.and_eq_true, Bool.not_eq_true', decide_eq_true_eq, not_and]
        intro _ hc
        bv_omega
      simp [this]
    · rename_i hge
      have hb : backFrom (.dummy p) st.items = d :: pre.reverse := by
        unfold backFrom; rw [hf, hpre]
      have hsd : (d :: pre.reverse).Pairwise (fun a b => b.rev ≤ a.rev) := by
        rw [List.pairwise_cons]
        refine ⟨fun x hx => s3 x (by simpa using hx) d (by simp), ?_⟩
        rw [List.pairwise_reverse]; exact s1
      rw [hb, bwdSearch_find hsd]
      cases hx : liveAt st.items t with
      | none =>
        rw [liveAt_none] at hx ⊢
        intro e he
        apply hx e
        rcases List.mem_cons.1 he with rfl | he
        · exact hdm
        · rw [hl]; exact List.mem_append_left _ (by simpa using he)
      | some x =>
        obtain ⟨hx1, hx2, hx3⟩ := liveAt_some_mem hx
        have hxpre : x ∈ pre := by
          by_cases heq : (st.mem n).rev = t
          · have h1 := g.pos x hx1 hx2 p hp (by rw [hr, heq, hx3])
            rw [← hde, hl] at h1
            exact sublist_before (hl ▸ hnd) h1
          · rw [hl] at hx1
            rcases List.mem_append.1 hx1 with h | h
            · exact h
            · rcases List.mem_cons.1 h with rfl | h
              · rw [hdi] at hx2; cases hx2
              · have := (List.pairwise_cons.1 s2).1 x h
                bv_omega
        have hu : ∀ a ∈ d :: pre.reverse, ∀ b ∈ d :: pre.reverse, a.ignored = false → b.ignored = false → a.rev = b.rev → a = b := by
          have hsub : ∀ a ∈ d :: pre.reverse, a ∈ st.items := by
            intro a ha
            rcases List.mem_cons.1 ha with rfl | ha
            · exact hdm
            · rw [hl]; exact List.mem_append_left _ (by simpa using ha)
          exact fun a ha b hb => g.uniq a (hsub a ha) b (hsub b hb)
        rw [liveAt_iff hu]
        exact ⟨by simp [hxpre], hx2, hx3⟩
  unfold searchByBucket
  simp only
  by_cases hm : st.mode = modeCombine2 ∧ (st.mem b).rev > t
  · simp only [if_pos hm]; exact key _ (g.inv.lv.next hv)
  · simp only [if_neg hm]; exact key _ hv

/-- The live item of a key. -/
def lookup (items : List Entry) (k c : U64) : Option Entry := (liveAt items (rev64 k)).filter (fun e => decide (e.conflict = c))

theorem getEntry_eq {E : Env} {st : St} (g : Good st) (k c : U64) : getEntry E st k c = lookup st.items k c := by
  unfold getEntry lookup
  rw [search_correct g (bucketForKey_valid g.inv.bi _)]
  cases h : liveAt st.items (rev64 k) with
  | none => rfl
  | some e =>
    have := (liveAt_some_mem h).2.2
    by_cases hc : e.conflict = c <;> simp [this, hc, Option.filter]

theorem getWithBucket_eq {E : Env} {st : St} (g : Good st) (k c : U64) :
    (getWithBucket E st k c).1 = lookup st.items k c := by
  unfold getWithBucket lookup
  simp only
  rw [search_correct g (findBucket_spec g.inv.bi.ti _).1]
  cases h : liveAt st.items (rev64 k) with
  | none => rfl
  | some e =>
    have := (liveAt_some_mem h).2.2
    by_cases hc : e.conflict = c <;> simp [this, hc, Option.filter]

theorem lookup_some {items : List Entry} {k c : U64} {e : Entry}
    (hu : ∀ a ∈ items, ∀ b ∈ items, a.ignored = false → b.ignored = false → a.rev = b.rev → a = b) :
    lookup items k c = some e ↔ e ∈ items ∧ e.ignored = false ∧ e.rev = rev64 k ∧ e.conflict = c := by
  unfold lookup
  rw [Option.filter_eq_some_iff, liveAt_iff hu]
  simp only [decide_eq_true_eq]
  tauto

/-- The plain map a state stands for. -/
def absM (st : St) : Spec.PMap := { m := fun kc => (lookup st.items kc.1 kc.2).map (·.val), fn := st.itemFn }

end SLM
