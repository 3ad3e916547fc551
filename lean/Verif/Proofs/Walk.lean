import Verif.Model.Walk
import Verif.Proofs.Held
import Verif.Proofs.PerKey
import Verif.Proofs.Conc
import Verif.Proofs.Count
/-! Walks through a list that changes. -/
set_option autoImplicit false
set_option linter.unusedSimpArgs false
namespace SLM.Walk

/-- `y` is `x` later: only the value and the deletion mark may differ (the mark is never taken off; with it the key may go). -/
def Same (x y : Entry) : Prop := y.ref = x.ref ∧ y.rev = x.rev ∧ y.conflict = x.conflict ∧ y.dummy = x.dummy ∧ 
  (x.deleted = true → y.deleted = true) ∧ y.kind = x.kind ∧ (y.deleted = false → y.key = x.key)

theorem Same.rfl {x : Entry} : Same x x := ⟨_root_.rfl, _root_.rfl, _root_.rfl, _root_.rfl, id, _root_.rfl, fun _ => _root_.rfl⟩

theorem Same.trans {x y z : Entry} (h : Same x y) (h' : Same y z) : Same x z := by
  obtain ⟨a1, a2, a3, a4, a5, a6, a7⟩ := h
  obtain ⟨b1, b2, b3, b4, b5, b6, b7⟩ := h'
  refine ⟨b1.trans a1, b2.trans a2, b3.trans a3, b4.trans a4, fun h => b5 (a5 h), b6.trans a6, fun h => (b7 h).trans (a7 ?_)⟩
  cases hy : y.deleted with
  | false => rfl
  | true => rw [b5 hy] at h; cases h

theorem setVal_same (r : Ref) (v : IVal) (l : List Entry) : ∃ f : Entry → Entry, (∀ x, Same x (f x)) ∧ setVal r v l = l.map f :=
  ⟨_, fun x => by by_cases h : x.ref = r <;> simp [h, Same], rfl⟩

theorem markDeleted_same (k : Kind) (r : Ref) (l : List Entry) : ∃ f : Entry → Entry, (∀ x, Same x (f x)) ∧ markDeleted k r l = l.map f :=
  ⟨_, fun x => by by_cases h : x.ref = r <;> simp [h, Same], rfl⟩

/-- What calls do to the item list: nodes are changed in place (never brought back to life), others are added, of these at most
`d` live ones. -/
structure Evo (l l' : List Entry) (d : Int) : Prop where
  ex : ∃ f : Entry → Entry, (∀ x, Same x (f x)) ∧ (l.map f).Sublist l' ∧ (liveN l' : Int) ≤ liveN (l.map f) + d

theorem liveN_map_le {f : Entry → Entry} (hf : ∀ x, Same x (f x)) (l : List Entry) : liveN (l.map f) ≤ liveN l := by
  unfold liveN
  rw [List.countP_map]
  apply List.countP_mono_left
  intro x _ h
  obtain ⟨_, _, _, h4, h5, _⟩ := hf x
  simp only [Function.comp, Entry.ignored, Bool.not_eq_true', Bool.or_eq_false_iff] at h ⊢
  refine ⟨by rw [← h4]; exact h.1, ?_⟩
  cases hd : x.deleted with
  | false => rfl
  | true => rw [h5 hd] at h; cases h.2

theorem liveN_sub {l l' : List Entry} (h : l.Sublist l') : liveN l ≤ liveN l' := h.countP_le

theorem Evo.refl (l : List Entry) : Evo l l 0 := ⟨⟨id, fun _ => Same.rfl, by simp, by simp⟩⟩

theorem Evo.trans {a b c : List Entry} {d d' : Int} (h : Evo a b d) (h' : Evo b c d') : Evo a c (d + d') := by
  obtain ⟨f, hf, h1, h2⟩ := h.ex
  obtain ⟨f', hf', h1', h2'⟩ := h'.ex
  refine ⟨f' ∘ f, fun x => (hf x).trans (hf' _), ?_, ?_⟩
  · rw [← List.map_map]; exact (h1.map f').trans h1'
  · rw [← List.map_map]
    -- liveN (map f' b) - liveN (map f' (map f a)) ≤ liveN b - liveN (map f a)
    have key : ∀ (x y : List Entry), x.Sublist y → (liveN (y.map f') : Int) - liveN (x.map f') ≤ liveN y - liveN x := by
      intro x y hxy
      induction hxy with
      | slnil => simp
      | cons z _ ih =>
        have hz := liveN_map_le hf' [z]
        unfold liveN at *
        simp only [List.map_cons, List.countP_cons, List.map_nil, List.countP_nil] at *
        omega
      | cons_cons z _ ih =>
        unfold liveN at *
        simp only [List.map_cons, List.countP_cons] at *
        omega
    have := key _ _ h1
    omega

theorem Ins.live {e : Entry} {l l' : List Entry} (h : Ins e l l') : (liveN l' : Int) ≤ liveN l + 1 := by
  rcases h with rfl | ⟨pre, d, post, rfl, rfl⟩
  · omega
  · unfold liveN
    simp only [List.countP_append, List.countP_cons]
    cases e.ignored <;> simp <;> omega

theorem step_evo (E : Env) {st : St} (h : Inv st) (op : Op) : Evo st.items (step E st op).1.items ((step E st op).1.len - st.len) := by
  rcases step_eff E h op with x | ⟨e1, nv, b, x⟩ | ⟨key, e1, x⟩ | ⟨st2, k, c, e1, x⟩
  · obtain ⟨b, hb⟩ := x.same
    rw [hb]
    simpa using Evo.refl st.items
  · rw [x.res]
    obtain ⟨f, hf, hm⟩ := setVal_same e1.ref nv st.items
    exact ⟨f, hf, by simp only; rw [hm], by simp only; rw [hm]; simp⟩
  · rw [x.res]
    obtain ⟨f, hf, hm⟩ := markDeleted_same st.itemFn e1.ref st.items
    exact ⟨f, hf, by simp only; rw [hm], by simp only; rw [hm]; simp⟩
  · have hl : (step E st op).1.len = st.len + 1 := by
      rw [(grow_len x.grow).1]
      change st2.len + 1 = _
      rw [x.len]
    have h2 : Ins e1 st2.items (setMid st2 k (findBucket st.mem (rev64 k)) e1).items := setInsert_ins
    rw [x.items] at h2
    rw [hl]
    refine ⟨id, fun _ => Same.rfl, ?_, ?_⟩
    · rw [List.map_id]
      refine h2.sublist.trans ?_
      rcases x.grow with hg | ⟨A, B, n, b, c, hb⟩
      · rw [hg]
      · rw [hb.items]; exact sublist_insAt _ _
    · rw [List.map_id]
      have h3 := Ins.live h2
      rcases x.grow with hg | ⟨A, B, n, b, c, hb⟩
      · rw [hg]; omega
      · rw [hb.items, liveN_insAt]
        simp only [dummyEntry, Entry.ignored, Bool.true_or, if_true, Nat.add_zero]
        omega

theorem run_evo (E : Env) {ops : List Op} {st : St} (h : Inv st) :
    Evo st.items (run E st ops).1.items ((run E st ops).1.len - st.len) := by
  induction ops generalizing st with
  | nil => simpa [run] using Evo.refl st.items
  | cons op ops ih =>
    have := (step_evo E h op).trans (ih (step_inv E h op))
    rw [show (run E st (op :: ops)).1 = (run E (step E st op).1 ops).1 from rfl]
    rw [show (run E (step E st op).1 ops).1.len - st.len = (step E st op).1.len - st.len + ((run E (step E st op).1 ops).1.len - (step E st op).1.len) from by omega]
    exact this

/-! ### Positions -/

/-- The nodes up to the cursor. -/
def upto : Option Ref → List Entry → List Entry
  | none, _ => []
  | some r, l => beforeRef r l ++ (fromRef r l).take 1

theorem upto_after (cur : Option Ref) (l : List Entry) : upto cur l ++ after cur l = l := by
  cases cur with
  | none => rfl
  | some r =>
    simp only [upto, after, List.append_assoc]
    rw [show (fromRef r l).tail = (fromRef r l).drop 1 from List.drop_one.symm, List.take_append_drop]
    exact before_append_from r l

/-- The cursor stands on a node. -/
def On (cur : Option Ref) (l : List Entry) : Prop := ∀ r, cur = some r → r ∈ refs l

theorem Evo.split {l l' : List Entry} {d : Int} (h : Evo l l' d) (hn : (refs l').Nodup) {cur : Option Ref} (ho : On cur l) :
    On cur l' ∧ (refs (upto cur l)).Sublist (refs (upto cur l')) ∧ Evo (after cur l) (after cur l') d := by
  obtain ⟨f, hf, h1, h2⟩ := h.ex
  have hrf : ∀ m : List Entry, refs (m.map f) = refs m := by
    intro m
    simp only [refs, List.map_map, Function.comp_def, fun x => (hf x).1]
  cases cur with
  | none => exact ⟨fun r hr => (by cases hr), List.Sublist.refl _, ⟨f, hf, h1, h2⟩⟩
  | some r =>
    have hr := ho r rfl
    obtain ⟨c, post, hc, hfr, hl⟩ := split_at r l hr
    have hu : upto (some r) l = beforeRef r l ++ [c] := by simp [upto, hfr]
    have ha : after (some r) l = post := by simp [after, hfr]
    have hls : l.map f = (beforeRef r l).map f ++ f c :: post.map f := by
      conv_lhs => rw [hl]
      simp
    rw [hls] at h1
    obtain ⟨r1, r2, hr12, s1, s2⟩ := List.append_sublist_iff.1 h1
    obtain ⟨t1, t2, ht12, m1, s3⟩ := List.cons_sublist_iff.1 s2
    obtain ⟨u, v, huv⟩ := List.append_of_mem m1
    have hl' : l' = (r1 ++ u) ++ f c :: (v ++ t2) := by rw [hr12, ht12, huv]; simp
    have hcr : (f c).ref = r := by rw [(hf c).1, hc]
    have hr' : r ∈ refs l' := by
      rw [hl', ← hcr]; exact List.mem_map.2 ⟨f c, by simp, rfl⟩
    have hsp : beforeRef r l' = r1 ++ u ∧ fromRef r l' = f c :: (v ++ t2) := by
      have hno : ∀ x ∈ r1 ++ u, x.ref ≠ r := by
        intro x hx he
        rw [hl'] at hn
        have := nodup_split hn
        apply this.1
        rw [hcr, ← he]
        exact List.mem_map.2 ⟨x, hx, rfl⟩
      rw [hl']
      unfold beforeRef fromRef
      constructor
      · rw [List.takeWhile_append_of_pos (fun x hx => by simpa using hno x hx), List.takeWhile_cons]
        simp [hcr]
      · rw [List.dropWhile_append_of_pos (fun x hx => by simpa using hno x hx), List.dropWhile_cons]
        simp [hcr]
    have hu' : upto (some r) l' = (r1 ++ u) ++ [f c] := by simp [upto, hsp]
    have ha' : after (some r) l' = v ++ t2 := by simp [after, hsp]
    refine ⟨fun q hq => by injection hq with hq; exact hq ▸ hr', ?_, ?_⟩
    · rw [hu, hu', ← hrf (beforeRef r l ++ [c])]
      rw [List.map_append]
      refine List.Sublist.map _ ?_
      refine List.Sublist.append (s1.trans (List.sublist_append_left _ _)) (List.Sublist.refl _)
    · rw [ha, ha']
      refine ⟨f, hf, s3.trans (List.sublist_append_right _ _), ?_⟩
      rw [hls, hl'] at h2
      have g1 := liveN_sub (s1.trans (List.sublist_append_left r1 u))
      unfold liveN at *
      simp only [List.countP_append, List.countP_cons] at *
      omega

theorem Evo.mem {l l' : List Entry} {d : Int} (h : Evo l l' d) {x : Entry} (hx : x ∈ l) : ∃ y ∈ l', Same x y := by
  obtain ⟨f, hf, h, _⟩ := h.ex
  exact ⟨f x, h.subset (List.mem_map.2 ⟨x, hx, rfl⟩), hf x⟩

theorem Evo.same {l l' : List Entry} {d : Int} (h : Evo l l' d) (hn : (refs l').Nodup) {x y : Entry} (hx : x ∈ l) (hy : y ∈ l')
    (hr : y.ref = x.ref) : Same x y := by
  obtain ⟨z, hz, hs⟩ := h.mem hx
  have := ref_inj hn hy hz (by rw [hr, hs.1])
  exact this ▸ hs

theorem Same.live {x y : Entry} (h : Same x y) (hy : y.ignored = false) : x.ignored = false := by
  obtain ⟨_, _, _, h4, h5, _⟩ := h
  unfold Entry.ignored at *
  simp only [Bool.or_eq_false_iff] at hy ⊢
  refine ⟨by rw [← h4]; exact hy.1, ?_⟩
  cases hd : x.deleted with
  | false => rfl
  | true => rw [h5 hd] at hy; cases hy.2

/-! ### The loop -/

/-- What holds of a Range that began in `st0`, while it is under way. -/
structure WInv (E : Env) (st0 st : St) (cur : Option Ref) (seen : List Entry) (tr : List Op) : Prop where
  inv0 : Inv st0
  inv : Inv st
  run : st = (run E st0 tr).1
  on : On cur st.items
  sub : (refs seen).Sublist (refs (upto cur st.items))
  was : ∀ e ∈ seen, e.ignored = false ∧ ∃ p s, tr = p ++ s ∧ e ∈ (SLM.run E st0 p).1.items
  all : ∀ x ∈ st0.items, ∀ y ∈ st.items, y.ref = x.ref → y.ignored = false → x.ref ∈ refs seen ∨ x.ref ∈ refs (after cur st.items)
  cnt : (seen.length : Int) + liveN (after cur st.items) ≤ liveN st0.items + (st.len - st0.len)

theorem run_app (E : Env) (st : St) (a b : List Op) : (SLM.run E st (a ++ b)).1 = (SLM.run E (SLM.run E st a).1 b).1 := by
  induction a generalizing st with
  | nil => rfl
  | cons op a ih => exact ih _

theorem find_split {l : List Entry} {e : Entry} (h : l.find? (fun x => !x.ignored) = some e) :
    ∃ A B, l = A ++ e :: B ∧ (∀ x ∈ A, x.ignored = true) ∧ e.ignored = false := by
  obtain ⟨h1, A, B, h2, h3⟩ := List.find?_eq_some_iff_append.1 h
  exact ⟨A, B, h2, fun x hx => by simpa using h3 x hx, by simpa using h1⟩

/-- The cursor moves on to the next live node. -/
theorem WInv.move {E : Env} {st0 st : St} {cur : Option Ref} {seen : List Entry} {tr : List Op} (h : WInv E st0 st cur seen tr)
    {e : Entry} (he : (after cur st.items).find? (fun x => !x.ignored) = some e) : WInv E st0 st (some e.ref) (seen ++ [e]) tr := by
  obtain ⟨A, B, hA, hAi, hei⟩ := find_split he
  have hua := upto_after cur st.items
  have hl : st.items = (upto cur st.items ++ A) ++ e :: B := by
    rw [List.append_assoc, ← hA]; exact hua.symm
  have hn := h.inv.ii.nodup
  have hno : ∀ x ∈ upto cur st.items ++ A, x.ref ≠ e.ref := by
    intro x hx hc
    have hn' := hn
    rw [hl] at hn'
    exact (nodup_split hn').1 (by rw [← hc]; exact List.mem_map.2 ⟨x, hx, rfl⟩)
  have hsp : beforeRef e.ref st.items = upto cur st.items ++ A ∧ fromRef e.ref st.items = e :: B := by
    have key : ∀ m : List Entry, m = (upto cur st.items ++ A) ++ e :: B →
        beforeRef e.ref m = upto cur st.items ++ A ∧ fromRef e.ref m = e :: B := by
      intro m hm
      rw [hm]
      unfold beforeRef fromRef
      constructor
      · rw [List.takeWhile_append_of_pos (fun x hx => by simpa using hno x hx), List.takeWhile_cons]
        simp
      · rw [List.dropWhile_append_of_pos (fun x hx => by simpa using hno x hx), List.dropWhile_cons]
        simp
    exact key _ hl
  have hu : upto (some e.ref) st.items = upto cur st.items ++ A ++ [e] := by
    show beforeRef e.ref st.items ++ (fromRef e.ref st.items).take 1 = _
    rw [hsp.1, hsp.2]; simp
  have ha : after (some e.ref) st.items = B := by
    show (fromRef e.ref st.items).tail = _
    rw [hsp.2]; rfl
  have hem : e ∈ st.items := by rw [hl]; simp
  refine ⟨h.inv0, h.inv, h.run, ?_, ?_, ?_, ?_, ?_⟩
  · intro r hr
    injection hr with hr
    rw [← hr]
    exact List.mem_map.2 ⟨e, hem, rfl⟩
  · rw [hu]
    unfold refs at *
    rw [List.map_append, List.map_append, List.map_append]
    exact List.Sublist.append (h.sub.trans (List.sublist_append_left _ _)) (List.Sublist.refl _)
  · intro x hx
    rcases List.mem_append.1 hx with hx | hx
    · exact h.was x hx
    · simp only [List.mem_singleton] at hx
      subst hx
      exact ⟨hei, tr, [], by simp, by rw [← h.run]; exact hem⟩
  · intro x hx y hy hr hyi
    rw [ha]
    rcases h.all x hx y hy hr hyi with h1 | h1
    · left; unfold refs at *; rw [List.map_append]; exact List.mem_append_left _ h1
    · rw [hA] at h1
      obtain ⟨z, hz, hzr⟩ := List.mem_map.1 h1
      have hzm : z ∈ st.items := by rw [hl]; simp only [List.mem_append, List.mem_cons] at hz ⊢; tauto
      have hzy : z = y := ref_inj hn hzm hy (hzr.trans hr.symm)
      rcases List.mem_append.1 hz with hz | hz
      · rw [← hzy, hAi z hz] at hyi; cases hyi
      · rcases List.mem_cons.1 hz with hz | hz
        · left; unfold refs; rw [List.map_append, ← hzr, hz]; simp
        · right; rw [← hzr]; exact List.mem_map.2 ⟨z, hz, rfl⟩
  · have hc := h.cnt
    rw [hA] at hc
    rw [ha]
    unfold liveN at *
    simp only [List.countP_append, List.countP_cons, hei, List.length_append, List.length_singleton] at hc ⊢
    simp at hc ⊢
    omega

/-- The callback makes calls. -/
theorem WInv.calls {E : Env} {st0 st : St} {cur : Option Ref} {seen : List Entry} {tr : List Op} (h : WInv E st0 st cur seen tr)
    (ops : List Op) : WInv E st0 (SLM.run E st ops).1 cur seen (tr ++ ops) := by
  have hi := run_inv E h.inv ops
  have hev := run_evo E (ops := ops) h.inv
  obtain ⟨o, su, ev⟩ := hev.split hi.ii.nodup h.on
  refine ⟨h.inv0, hi, by rw [run_app, ← h.run], o, h.sub.trans su, ?_, ?_, ?_⟩
  · intro e he
    obtain ⟨h1, p, s, h2, h3⟩ := h.was e he
    exact ⟨h1, p, s ++ ops, by rw [h2]; simp, h3⟩
  · intro x hx y hy hr hyi
    obtain ⟨z, hz, hzs⟩ : ∃ z ∈ st.items, Same x z := by
      have := run_evo E (ops := tr) (st := st0) h.inv0
      rw [← h.run] at this
      exact this.mem hx
    have hzy := hev.same hi.ii.nodup hz hy (by rw [hr, hzs.1])
    rcases h.all x hx z hz hzs.1 (hzy.live hyi) with h1 | h1
    · exact Or.inl h1
    · right
      obtain ⟨w, hw, hwr⟩ := List.mem_map.1 h1
      obtain ⟨w', hw', hs⟩ := ev.mem hw
      rw [← hwr, ← hs.1]
      exact List.mem_map.2 ⟨w', hw', rfl⟩
  · have hc := h.cnt
    obtain ⟨f, hf, _, h2⟩ := ev.ex
    have := liveN_map_le hf (after cur st.items)
    omega

end SLM.Walk
