import Verif.Model.Cost
import Verif.Proofs.Pick
/-! What a lookup looks at: a run of neighbours of the item list, from a sentinel to the first live item on the other side of the key. -/
set_option autoImplicit false
namespace SLM
open History

theorem fwdLooked_prefix (t : U64) (ign : Bool) (l : List Entry) : fwdLooked t ign l <+: l := by
  induction l with
  | nil => exact List.prefix_rfl
  | cons e es ih =>
    unfold fwdLooked
    split
    · exact List.cons_prefix_cons.2 ⟨rfl, ih⟩
    · exact List.cons_prefix_cons.2 ⟨rfl, List.nil_prefix⟩

theorem bwdLooked_prefix (t : U64) (ign : Bool) (l : List Entry) : bwdLooked t ign l <+: l := by
  induction l with
  | nil => exact List.prefix_rfl
  | cons e es ih =>
    unfold bwdLooked
    split
    · exact List.cons_prefix_cons.2 ⟨rfl, ih⟩
    · exact List.cons_prefix_cons.2 ⟨rfl, List.nil_prefix⟩

theorem fwdLooked_pass {t : U64} {ign : Bool} {l : List Entry} {e : Entry} (h : e ∈ (fwdLooked t ign l).dropLast) :
    (ign && e.ignored) = true ∨ e.rev < t := by
  induction l with
  | nil => cases h
  | cons x xs ih =>
    unfold fwdLooked at h
    split at h
    · rename_i hx
      cases hl : fwdLooked t ign xs with
      | nil => rw [hl] at h; cases h
      | cons y ys =>
        rw [hl, List.dropLast_cons₂] at h
        rcases List.mem_cons.1 h with rfl | h
        · simpa using hx
        · exact ih (by rw [hl]; exact h)
    · cases h

theorem bwdLooked_pass {t : U64} {ign : Bool} {l : List Entry} {e : Entry} (h : e ∈ (bwdLooked t ign l).dropLast) :
    (ign && e.ignored) = true ∨ t < e.rev := by
  induction l with
  | nil => cases h
  | cons x xs ih =>
    unfold bwdLooked at h
    split at h
    · rename_i hx
      cases hl : bwdLooked t ign xs with
      | nil => rw [hl] at h; cases h
      | cons y ys =>
        rw [hl, List.dropLast_cons₂] at h
        rcases List.mem_cons.1 h with rfl | h
        · simpa using hx
        · exact ih (by rw [hl]; exact h)
    · cases h

/-- The answer is the last node looked at, if it is live and has the hash. -/
def lastHit (t : U64) (ign : Bool) (l : List Entry) : Option Entry :=
  l.getLast?.filter (fun e => !(ign && e.ignored) && decide (e.rev = t))

theorem getLast?_cons_ne {α : Type} (a : α) {l : List α} (h : l ≠ []) : (a :: l).getLast? = l.getLast? := by
  cases l with
  | nil => exact absurd rfl h
  | cons b l => simp [List.getLast?_cons_cons]

theorem fwdSearch_last (t : U64) (ign : Bool) (l : List Entry) : fwdSearch t ign l = lastHit t ign (fwdLooked t ign l) := by
  induction l with
  | nil => rfl
  | cons e es ih =>
    have key : fwdSearch t ign es = lastHit t ign (e :: fwdLooked t ign es) ∨ ((ign && e.ignored) = false ∧ ¬ e.rev < t) := by
      by_cases hc : (ign && e.ignored) = false ∧ ¬ e.rev < t
      · exact Or.inr hc
      · left
        rw [ih]
        cases es with
        | nil =>
          simp only [fwdLooked, lastHit, List.getLast?_nil, List.getLast?_singleton, Option.filter]
          split
          · rename_i h1
            exfalso
            simp only [Bool.and_eq_true, Bool.not_eq_true', decide_eq_true_eq] at h1
            exact hc ⟨h1.1, by rw [h1.2]; simp⟩
          · rfl
        | cons y ys =>
          unfold lastHit
          rw [getLast?_cons_ne]
          unfold fwdLooked
          exact List.cons_ne_nil _ _
    unfold fwdSearch fwdLooked
    by_cases h1 : (ign && e.ignored) = true
    · rcases key with key | key
      · simp [h1, key]
      · rw [key.1] at h1; cases h1
    · by_cases h2 : e.rev < t
      · rcases key with key | key
        · simp [h1, h2, key]
        · exact absurd h2 key.2
      · have h1 : (ign && e.ignored) = false := by simpa using h1
        simp only [h1, h2, Bool.false_eq_true, if_false, decide_false, Bool.or_false, lastHit, List.getLast?_singleton, Option.filter, Bool.not_false,
          Bool.true_and, decide_eq_true_eq]

theorem bwdSearch_last (t : U64) (ign : Bool) (l : List Entry) : bwdSearch t ign l = lastHit t ign (bwdLooked t ign l) := by
  induction l with
  | nil => rfl
  | cons e es ih =>
    have key : bwdSearch t ign es = lastHit t ign (e :: bwdLooked t ign es) ∨ ((ign && e.ignored) = false ∧ ¬ e.rev > t) := by
      by_cases hc : (ign && e.ignored) = false ∧ ¬ e.rev > t
      · exact Or.inr hc
      · left
        rw [ih]
        cases es with
        | nil =>
          simp only [bwdLooked, lastHit, List.getLast?_nil, List.getLast?_singleton, Option.filter]
          split
          · rename_i h1
            exfalso
            simp only [Bool.and_eq_true, Bool.not_eq_true', decide_eq_true_eq] at h1
            exact hc ⟨h1.1, by rw [h1.2]; simp⟩
          · rfl
        | cons y ys =>
          unfold lastHit
          rw [getLast?_cons_ne]
          unfold bwdLooked
          exact List.cons_ne_nil _ _
    unfold bwdSearch bwdLooked
    by_cases h1 : (ign && e.ignored) = true
    · rcases key with key | key
      · simp [h1, key]
      · rw [key.1] at h1; cases h1
    · by_cases h2 : e.rev > t
      · rcases key with key | key
        · simp [h1, h2, key]
        · exact absurd h2 key.2
      · have h1 : (ign && e.ignored) = false := by simpa using h1
        simp only [h1, h2, Bool.false_eq_true, if_false, decide_false, Bool.or_false, lastHit, List.getLast?_singleton, Option.filter, Bool.not_false,
          Bool.true_and, decide_eq_true_eq]

theorem search_last (E : Env) (st : St) (b : Path) (t : U64) (ign : Bool) :
    searchByBucket E st b t ign = lastHit t ign (lookedAt st b t ign) := by
  unfold searchByBucket lookedAt
  simp only
  generalize (if st.mode = modeCombine2 ∧ (st.mem b).rev > t then st.nextOnLevel b else b) = n
  by_cases h : (st.mem n).rev < t
  · simp only [if_pos h]; exact fwdSearch_last t ign _
  · simp only [if_neg h]; exact bwdSearch_last t ign _

/-- A lookup from the bucket `n`: `L` is a run of neighbours, up or down from the sentinel of `n`. -/
inductive Run (items : List Entry) (r t : U64) (L : List Entry) : Prop
  | up (A B : List Entry) (d : Entry) (he : items = A ++ d :: B) (hd : d.dummy = true) (hr : d.rev = r) (hlt : r < t) (hL : L <+: d :: B)
      (pass : ∀ e ∈ L.dropLast, e.ignored = true ∨ e.rev < t)
  | down (A B : List Entry) (d : Entry) (he : items = A ++ d :: B) (hd : d.dummy = true) (hr : d.rev = r) (hle : t ≤ r) (hL : L <+: d :: A.reverse)
      (pass : ∀ e ∈ L.dropLast, e.ignored = true ∨ t < e.rev)

theorem looked_run_from {st : St} (h : Inv st) {n : Path} (hv : V st.mem n) (t : U64) :
    Run st.items (st.mem n).rev t (if (st.mem n).rev < t then fwdLooked t true (fromRef (st.head n) st.items)
      else bwdLooked t true (backFrom (st.head n) st.items)) := by
  obtain ⟨p, hp, hh, hr, hm⟩ := head_spec h hv
  rw [hh]
  obtain ⟨d, post, hd, hf, hl⟩ := split_at (.dummy p) st.items (List.mem_map.2 ⟨_, hm, rfl⟩)
  have hdm : d ∈ st.items := by rw [hl]; simp
  have hde : d = dummyEntry p (bvRev p) := (h.ii.dum d hdm p hd).2
  have hdi : d.dummy = true := by rw [hde]; rfl
  have hdr : d.rev = (st.mem n).rev := by rw [hde]; exact hr
  split
  · rename_i hlt
    rw [hf]
    exact .up _ _ d hl hdi hdr hlt (fwdLooked_prefix _ _ _) (fun e he => by simpa using fwdLooked_pass he)
  · rename_i hge
    have hb : backFrom (.dummy p) st.items = d :: (beforeRef (.dummy p) st.items).reverse := by
      unfold backFrom; rw [hf]
    rw [hb]
    exact .down _ _ d hl hdi hdr (by bv_omega) (bwdLooked_prefix _ _ _) (fun e he => by simpa using bwdLooked_pass he)

theorem looked_run {st : St} (h : Inv st) {b : Path} (hv : V st.mem b) (t : U64) :
    ∃ n, V st.mem n ∧ Run st.items (st.mem n).rev t (lookedAt st b t true) ∧ (st.mode ≠ modeCombine2 ∨ (st.mem b).rev ≤ t → n = b) := by
  unfold lookedAt
  simp only
  by_cases hm : st.mode = modeCombine2 ∧ (st.mem b).rev > t
  · simp only [if_pos hm]
    refine ⟨_, h.lv.next hv, looked_run_from h (h.lv.next hv) t, ?_⟩
    rintro (h1 | h1)
    · exact absurd hm.1 h1
    · have := hm.2; bv_omega
  · simp only [if_neg hm]
    exact ⟨_, hv, looked_run_from h hv t, fun _ => rfl⟩

theorem Run.sub {items : List Entry} {r t : U64} {L : List Entry} (h : Run items r t L) : (∃ l, l.Sublist items ∧ L.Perm l) := by
  cases h with
  | up A B d he hd hr hlt hL pass =>
    refine ⟨L, ?_, List.Perm.refl _⟩
    rw [he]
    exact hL.sublist.trans (List.sublist_append_right _ _)
  | down A B d he hd hr hlt hL pass =>
    refine ⟨L.reverse, ?_, (List.reverse_perm L).symm⟩
    have h1 := hL.sublist.reverse
    rw [List.reverse_cons, List.reverse_reverse] at h1
    refine h1.trans ?_
    rw [he]
    exact (List.Sublist.refl A).append (List.Sublist.cons_cons d (List.nil_sublist B))

/-- No sentinel strictly between. -/
def OneGap (items : List Entry) (x y : U64) : Prop := ∀ d ∈ items, d.dummy = true → ¬ (x < d.rev ∧ d.rev < y) ∧ ¬ (y < d.rev ∧ d.rev < x)

instance (items : List Entry) (x y : U64) : Decidable (OneGap items x y) := by unfold OneGap; infer_instance

theorem Run.gap {items : List Entry} {r t : U64} {L : List Entry} (hs : Sorted items) (h : Run items r t L)
    (h1 : ∀ d ∈ items, d.dummy = true → d.rev < t → r < t → d.rev ≤ r) (h2 : ∀ d ∈ items, d.dummy = true → t < d.rev → t ≤ r → r ≤ d.rev) :
    ∀ e ∈ L.dropLast, e.ignored = false → OneGap items e.rev t := by
  intro e he hi d hd hdd
  cases h with
  | up A B x hx hxd hr hlt hL pass =>
    have hlt2 : e.rev < t := by
      rcases pass e he with h | h
      · rw [hi] at h; cases h
      · exact h
    have hem : e ∈ x :: B := hL.subset (List.dropLast_subset _ he)
    have hge : r ≤ e.rev := by
      rw [hx, Sorted, List.pairwise_append] at hs
      rcases List.mem_cons.1 hem with rfl | h
      · rw [hr]; simp
      · rw [← hr]; exact (List.pairwise_cons.1 hs.2.1).1 e h
    refine ⟨fun hc => ?_, fun hc => ?_⟩
    · have := h1 d hd hdd hc.2 hlt
      bv_omega
    · bv_omega
  | down A B x hx hxd hr hle hL pass =>
    have hlt2 : t < e.rev := by
      rcases pass e he with h | h
      · rw [hi] at h; cases h
      · exact h
    have hem : e ∈ x :: A.reverse := hL.subset (List.dropLast_subset _ he)
    have hge : e.rev ≤ r := by
      rw [hx, Sorted, List.pairwise_append] at hs
      rcases List.mem_cons.1 hem with rfl | h
      · rw [hr]; simp
      · rw [← hr]; exact hs.2.2 e (by simpa using h) x (by simp)
    refine ⟨fun hc => ?_, fun hc => ?_⟩
    · bv_omega
    · have := h2 d hd hdd hc.1 hle
      bv_omega

end SLM
