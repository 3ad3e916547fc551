import Verif.Proofs.StepEff
/-! The first and the last node of the item list are always the outermost sentinels. -/
set_option autoImplicit false
namespace SLM

theorem insertCheck_getD_cases (right : Ref) (c : Entry) (l : List Entry) :
    (insertCheck right c l).getD l = l ∨ ∃ pre d post, l = pre ++ d :: post ∧ (insertCheck right c l).getD l = pre ++ c :: d :: post ∧
      c.rev ≤ d.rev ∧ d.ref = right := by
  cases h : insertCheck right c l with
  | none => exact Or.inl rfl
  | some l' =>
    obtain ⟨pre, d, post, h1, h2, h3, _, h4, _⟩ := insertCheck_cases h
    exact Or.inr ⟨pre, d, post, h2, h3, h4, h1⟩

theorem ref_inj {l : List Entry} (hn : (refs l).Nodup) {a b : Entry} (ha : a ∈ l) (hb : b ∈ l) (h : a.ref = b.ref) : a = b :=
  List.inj_on_of_nodup_map hn ha hb h

theorem max_ne_zero : maxU64 ≠ 0 := by decide

theorem le_max_eq {x : U64} (h : maxU64 ≤ x) : x = maxU64 := by
  have hm : maxU64 = 18446744073709551615#64 := by decide
  rw [hm] at h ⊢; bv_omega

/-- `add2` never inserts in front of a node of hash 0. -/
theorem add2_pos {l : List Entry} {start : Ref} {e : Entry} {opt} (hn : (refs l).Nodup) (hstart : start ∈ refs l)
    (hlast : ∃ m, l.getLast? = some m ∧ m.rev = maxU64) :
    add2 l start e opt = l ∨ ∃ pre d post, l = pre ++ d :: post ∧ add2 l start e opt = pre ++ e :: d :: post ∧ d.rev ≠ 0 := by
  have fin : ∀ right, e.rev = maxU64 → ((insertCheck right e l).getD l = l ∨ ∃ pre d post, l = pre ++ d :: post ∧
      (insertCheck right e l).getD l = pre ++ e :: d :: post ∧ d.rev ≠ 0) := by
    intro right hm
    rcases insertCheck_getD_cases right e l with h | ⟨pre, d, post, h1, h2, h3, _⟩
    · exact Or.inl h
    · refine Or.inr ⟨pre, d, post, h1, h2, ?_⟩
      rw [hm] at h3
      rw [le_max_eq h3]; exact max_ne_zero
  unfold add2
  cases hf : (fromRef start l).find? (fun x => decide (e.rev < x.rev)) with
  | some pos =>
    simp only
    have hp : e.rev < pos.rev := by simpa using List.find?_some hf
    have hpm : pos ∈ l := (List.dropWhile_sublist _).subset (List.mem_of_find?_eq_some hf)
    rcases insertCheck_getD_cases pos.ref e l with h | ⟨pre, d, post, h1, h2, _, h4⟩
    · exact Or.inl h
    · refine Or.inr ⟨pre, d, post, h1, h2, ?_⟩
      have : d = pos := ref_inj hn (by rw [h1]; simp) hpm h4
      rw [this]; intro hc; rw [hc] at hp; bv_omega
  | none =>
    have hmax : e.rev = maxU64 := by
      obtain ⟨d, post, _, hfr, hl⟩ := split_at start l hstart
      obtain ⟨m, hm, hmr⟩ := hlast
      have hmem : m ∈ fromRef start l := by
        rw [hl, List.getLast?_append] at hm
        rw [hfr]
        have : (d :: post).getLast? = some m := by
          cases hx : (d :: post).getLast? with
          | none => simp at hx
          | some y => rw [hx] at hm; simpa using hm
        exact List.mem_of_getLast? this
      have := List.find?_eq_none.1 hf m hmem
      simp only [decide_eq_true_eq] at this
      rw [hmr] at this
      apply le_max_eq
      bv_omega
    simp only
    split
    · split
      · exact Or.inl rfl
      · exact fin _ hmax
    · split
      · exact fin _ hmax
      · exact Or.inl rfl

/-- The outermost sentinels are in place. -/
def Ends (items : List Entry) : Prop :=
  items.head? = some (dummyEntry [0] 0) ∧ items.getLast? = some (dummyEntry [] maxU64)

theorem ends_ins {l l' : List Entry} {e : Entry} (h : Ends l)
    (hi : l' = l ∨ ∃ pre d post, l = pre ++ d :: post ∧ l' = pre ++ e :: d :: post ∧ d.rev ≠ 0) : Ends l' := by
  rcases hi with rfl | ⟨pre, d, post, rfl, rfl, hd⟩
  · exact h
  · obtain ⟨h1, h2⟩ := h
    constructor
    · cases pre with
      | nil =>
        simp at h1
        rw [h1] at hd
        exact absurd rfl hd
      | cons x pre => simpa using h1
    · rw [List.getLast?_append] at h2 ⊢
      simpa using h2

theorem ends_insAt {l : List Entry} {p : Path} (h : Ends l) (hlt : bvRev p < maxU64) : Ends (insAt (dummyEntry p (bvRev p)) l) := by
  obtain ⟨h1, h2⟩ := h
  have hl := List.takeWhile_append_dropWhile (p := fun x : Entry => decide (x.rev ≤ bvRev p)) (l := l)
  unfold insAt
  show Ends (l.takeWhile (fun x => decide (x.rev ≤ bvRev p)) ++ _ :: l.dropWhile (fun x => decide (x.rev ≤ bvRev p)))
  constructor
  · cases l with
    | nil => simp at h1
    | cons x l =>
      simp at h1
      subst h1
      have : decide ((dummyEntry [0] 0#64).rev ≤ bvRev p) = true := by
        simp only [decide_eq_true_eq]; show (0 : U64) ≤ _; bv_omega
      rw [List.takeWhile_cons, if_pos this]; rfl
  · cases hdw : l.dropWhile (fun x => decide (x.rev ≤ bvRev p)) with
    | nil =>
      exfalso
      have := List.dropWhile_eq_nil_iff.1 hdw _ (List.mem_of_getLast? h2)
      simp only [decide_eq_true_eq] at this
      have h3 : maxU64 ≤ bvRev p := this
      bv_omega
    | cons y ys =>
      rw [← hl, hdw, List.getLast?_append] at h2
      rw [List.getLast?_append]
      simpa using h2

theorem setInsert_ends {st : St} (h : Inv st) (he : Ends st.items) {b : Path} (hv : V st.mem b) (rk : U64) (e : Entry) :
    Ends (setInsert st b rk e) := by
  apply ends_ins he (e := e)
  unfold setInsert
  apply add2_pos h.ii.nodup
  · obtain ⟨p, _, hh, _, hm⟩ := head_spec h hv
    have hhd : st.head b ∈ refs st.items := List.mem_map.2 ⟨_, hm, by rw [hh]; rfl⟩
    split
    · exact hhd
    · rename_i en hen
      have henm : en ∈ st.items := (List.dropWhile_sublist _).subset (List.mem_of_find?_eq_some hen)
      split
      · exact List.mem_map.2 ⟨_, henm, rfl⟩
      · split
        · rename_i pe hpe
          split
          · have : pe ∈ st.items := (List.takeWhile_sublist _).subset (List.mem_of_getLast? hpe)
            exact List.mem_map.2 ⟨_, this, rfl⟩
          · exact hhd
        · exact hhd
  · exact ⟨_, he.2, rfl⟩

theorem ends_map {l : List Entry} (h : Ends l) (r : Ref) (hr : ∀ p, r ≠ .dummy p) (g : Entry → Entry) :
    Ends (l.map (fun x => if x.ref = r then g x else x)) := by
  obtain ⟨h1, h2⟩ := h
  have hx : ∀ p v, (if (dummyEntry p v).ref = r then g (dummyEntry p v) else dummyEntry p v) = dummyEntry p v := by
    intro p v; rw [if_neg (fun hc => hr p hc.symm)]
  constructor
  · rw [List.head?_map, h1]; simp [hx]
  · rw [List.getLast?_map, h2]; simp [hx]

theorem step_ends (E : Env) {st : St} (h : Inv st) (he : Ends st.items) (op : Op) : Ends (step E st op).1.items := by
  rcases step_eff E h op with x | ⟨e, nv, b, x⟩ | ⟨key, e, x⟩ | ⟨st2, k, c, e, x⟩
  · obtain ⟨b, hb⟩ := x.same; rw [hb]; exact he
  · rw [x.res]; exact ends_map he _ (h.ii.live_ref x.mem x.live) _
  · rw [x.res]; exact ends_map he _ (h.ii.live_ref x.mem x.live) _
  · have hfb := (findBucket_spec h.bi.ti (rev64 k)).1
    have hmid : Ends (setMid st2 k (findBucket st.mem (rev64 k)) e).items := by
      have hinv2 : Inv { st2 with nextId := st.nextId } := ⟨by rw [x.mem, x.blist]; exact h.bi, by simp only [x.items, x.blist]; exact h.ii,
        by simp only [x.mem, x.lv]; exact h.lv⟩
      exact setInsert_ends (st := { st2 with nextId := st.nextId }) hinv2 (by simp only [x.items]; exact he)
        (by simp only [x.mem]; exact hfb) (rev64 k) e
    rcases x.grow with hg | ⟨A, B, n, b, c', hb⟩
    · rw [hg]; exact hmid
    · rw [hb.items]
      apply ends_insAt hmid
      have hbm : b ∈ (step E st op).1.blist := by rw [hb.new]; simp
      have hlt := x.inv.bi.lt b hbm hb.ne
      unfold bvRev
      rw [if_neg hb.ne]
      have h2 : bval b = pathVal b := by simp [bval, hb.ne]
      rw [BitVec.lt_def, BitVec.toNat_ofNat, ← h2, Nat.mod_eq_of_lt (by omega)]
      have : maxU64.toNat = 2 ^ 64 - 1 := by decide
      omega

set_option maxRecDepth 20000 in
theorem init_ends (c : Cfg) : Ends (initSt c).items := by
  rw [initSt_items]; unfold Ends; decide +kernel

theorem Reachable.ends {E : Env} {st : St} (h : Reachable E st) : Ends st.items := by
  obtain ⟨c, ops, rfl⟩ := h
  have : ∀ (ops : List Op) (s : St), Inv s → Ends s.items → Ends (run E s ops).1.items := by
    intro ops
    induction ops with
    | nil => exact fun s _ he => he
    | cons op ops ih => exact fun s hi he => ih _ (step_inv E hi op) (step_ends E hi he op)
  exact this ops _ (inv_init c) (init_ends c)

end SLM
