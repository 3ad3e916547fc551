import Verif.Proofs.Conc3
/-! A Set whose insertion phase is not disturbed links its item. -/
set_option autoImplicit false
namespace SLM.Conc

variable {Pk : CSt → Call → Ref → Prop}

/-- Executions in which, apart from `g`, nobody links a node or touches the shared search option. -/
inductive QSteps (Pk : CSt → Call → Ref → Prop) (g : Tid) : CSt → CSt → Prop
  | refl (s : CSt) : QSteps Pk g s s
  | step {a b c : CSt} {u : Tid} : QSteps Pk g a b → Step Pk b u c → Alone b u →
      (u ≠ g → c.opt = b.opt ∧ refs c.items = refs b.items) → (u = g → isLost (c.pc u) = false) → QSteps Pk g a c

theorem QSteps.gsteps {g : Tid} {a b : CSt} (h : QSteps Pk g a b) : GSteps Pk a b := by
  induction h with
  | refl => exact .refl _
  | step _ h2 h3 _ _ ih => exact .step ih h2 h3

/-- Everything before `cur` has a hash not above `t`. -/
def UpTo (l : List Entry) (t : U64) (cur : Ref) : Prop := ∀ x ∈ l, SB l x.ref cur → x.rev ≤ t

/-- A node with this hash bound. -/
def At (l : List Entry) (r : Ref) (P : U64 → Prop) : Prop := ∃ x ∈ l, x.ref = r ∧ P x.rev

theorem UpTo.map {f : Entry → Entry} (hf : ∀ x, Same x (f x)) {l : List Entry} {t : U64} {cur : Ref} (h : UpTo l t cur) :
    UpTo (l.map f) t cur := by
  intro x hx hsb
  obtain ⟨y, hy, rfl⟩ := List.mem_map.1 hx
  have hr : refs (l.map f) = refs l := by simp [refs, List.map_map, Function.comp_def, fun x => (hf x).1]
  rw [(hf y).2.1]
  refine h y hy ?_
  unfold SB at hsb ⊢
  rw [hr, (hf y).1] at hsb; exact hsb

theorem At.map {f : Entry → Entry} (hf : ∀ x, Same x (f x)) {l : List Entry} {r : Ref} {P : U64 → Prop} (h : At l r P) : At (l.map f) r P := by
  obtain ⟨x, hx, h1, h2⟩ := h
  exact ⟨f x, List.mem_map.2 ⟨x, hx, rfl⟩, by rw [(hf x).1, h1], by rw [(hf x).2.1]; exact h2⟩

theorem At.ext {l l' : List Entry} (he : Ext l l') {r : Ref} {P : U64 → Prop} (h : At l r P) : At l' r P := by
  obtain ⟨x, hx, h1, h2⟩ := h
  obtain ⟨y, hy, hs⟩ := he.mem hx
  exact ⟨y, hy, by rw [hs.1, h1], by rw [hs.2.1]; exact h2⟩

/-- From a node not above `t`, everything before it is not above `t`. -/
theorem UpTo.of_at {l : List Entry} (hn : (refs l).Nodup) (hs : Sorted l) {t : U64} {r : Ref} (h : At l r (· ≤ t)) : UpTo l t r := by
  intro x hx hsb
  obtain ⟨y, hy, h1, h2⟩ := h
  have := SB.rev_le hn hs hsb hx rfl hy h1
  bv_omega

theorem UpTo.next {l : List Entry} (hn : (refs l).Nodup) {t : U64} {r r' : Ref} (h : UpTo l t r) (ha : At l r (· ≤ t))
    (hx : nx l r = some r') : UpTo l t r' := by
  intro x hxl hsb
  obtain ⟨a, b, post, h1, h2, h3⟩ := nx_some hx
  subst h1 h2
  generalize beforeRef a.ref l = pre at h3
  subst h3
  have hsb' := hsb
  rw [show pre ++ a :: b :: post = (pre ++ [a]) ++ b :: post by simp] at hsb' hn
  have := SB.split' hn hsb'
  simp only [refs, List.map_append, List.mem_append, List.map_cons, List.map_nil, List.mem_singleton] at this
  rcases this with hp | hp
  · refine h x hxl ?_
    obtain ⟨z, hz, hzr⟩ := List.mem_map.1 hp
    obtain ⟨q1, q2, hq⟩ := List.append_of_mem hz
    subst hq
    rw [show (q1 ++ z :: q2) ++ a :: b :: post = q1 ++ z :: (q2 ++ a :: b :: post) by simp, ← hzr]
    exact SB.of_split (by simp)
  · obtain ⟨y, hy, hyr, hyt⟩ := ha
    have : x = y := List.inj_on_of_nodup_map (by simpa using hn) hxl hy (hp.trans hyr.symm)
    rw [this]; exact hyt

theorem UpTo.end {l : List Entry} (hn : (refs l).Nodup) (hs : Sorted l) {t : U64} {r : Ref} (ha : At l r (· ≤ t)) {m : Entry} (hm : m ∈ l)
    (hmt : t < m.rev) : nx l r ≠ none := by
  intro hx
  obtain ⟨y, hy, hyr, hyt⟩ := ha
  obtain ⟨a, h1, h2⟩ := nx_none hx (List.mem_map.2 ⟨y, hy, hyr⟩)
  generalize beforeRef r l = pre at h2
  subst h2
  have hya : y = a := List.inj_on_of_nodup_map hn hy (by simp) (hyr.trans h1.symm)
  subst hya
  simp only [List.mem_append, List.mem_singleton] at hm
  rcases hm with hm | rfl
  · have := (List.pairwise_append.1 hs).2.2 m hm y (by simp)
    bv_omega
  · bv_omega

theorem checkOk_of {l : List Entry} (hn : (refs l).Nodup) {e : Entry} {r : Ref} (hu : UpTo l e.rev r) (ha : At l r (e.rev ≤ ·)) :
    checkOk l e r = true := by
  obtain ⟨y, hy, hyr, hyt⟩ := ha
  have hnode := node_of_mem hn hy
  rw [hyr] at hnode
  unfold checkOk
  rw [hnode]
  simp only [show ¬ y.rev < e.rev by bv_omega, if_false]
  cases hb : (beforeRef r l).getLast? with
  | none => rfl
  | some le =>
    simp only [Bool.not_eq_true', decide_eq_false_iff_not]
    obtain ⟨_, _, post, hf, hl⟩ := node_some hnode
    obtain ⟨ys, hys⟩ := List.getLast?_eq_some_iff.1 hb
    have hle : le ∈ l := by rw [hl, hys]; simp
    have hsb : SB l le.ref r := by
      rw [hl, hys, show (ys ++ [le]) ++ y :: post = ys ++ le :: (y :: post) by simp, ← hyr]
      exact SB.of_split (by simp)
    have := hu le hle hsb
    bv_omega

/-- Progress of the insertion of `e` from bucket `b`, undisturbed. -/
def Placing (Pk : CSt → Call → Ref → Prop) (s0 s : CSt) (e : Entry) (b : Ref) : PC → Prop
  | .fOpt false e' b' st => e' = e ∧ b' = some b ∧ st = b
  | .fLoop false e' b' _ cur adv => e' = e ∧ b' = some b ∧ s.opt = false ∧ UpTo s.items e.rev cur ∧ (adv = true → At s.items cur (· ≤ e.rev))
  | .fEnd false e' b' _ res => e' = e ∧ b' = some b ∧ ∃ cur, res = some cur
  | .start2 e' b' res => e' = e ∧ b' = b ∧ ∃ cur, res = some cur
  | .fOpt true e' b' st => e' = e ∧ b' = some b ∧ At s.items st (· ≤ e.rev)
  | .fLoop true e' b' _ cur adv => e' = e ∧ b' = some b ∧ s.opt = false ∧ UpTo s.items e.rev cur ∧ (adv = true → At s.items cur (· ≤ e.rev))
  | .fEnd true e' b' _ res => e' = e ∧ b' = some b ∧ ∃ cur, res = some cur ∧ UpTo s.items e.rev cur ∧ At s.items cur (e.rev ≤ ·)
  | .target e' b' res => e' = e ∧ b' = some b ∧ ∃ cur, res = some cur ∧ UpTo s.items e.rev cur ∧ At s.items cur (e.rev ≤ ·)
  | .check e' cur => e' = e ∧ UpTo s.items e.rev cur ∧ At s.items cur (e.rev ≤ ·)
  | .link e' _ => e' = e
  | .ret res => res = .bool true ∧ (∃ x ∈ s.items, Same e x) ∧ HadValue Pk s0 s e.rev e.conflict e.val
  | _ => False

theorem Placing.quiet {s0 s s' : CSt} {e : Entry} {b : Ref} {p : PC} {f : Entry → Entry} (hf : ∀ x, Same x (f x)) (hi : s'.items = s.items.map f)
    (ho : s'.opt = s.opt) (hg : GSteps Pk s s') (h : Placing Pk s0 s e b p) : Placing Pk s0 s' e b p := by
  cases p with
  | fOpt second e' b' st =>
    cases second
    · exact h
    · simp only [Placing, hi] at h ⊢; exact ⟨h.1, h.2.1, h.2.2.map hf⟩
  | fLoop second e' b' prev cur adv =>
    cases second <;> simp only [Placing, hi, ho] at h ⊢ <;>
      exact ⟨h.1, h.2.1, h.2.2.1, h.2.2.2.1.map hf, fun ha => (h.2.2.2.2 ha).map hf⟩
  | fEnd second e' b' prev res =>
    cases second
    · exact h
    · simp only [Placing, hi] at h ⊢
      obtain ⟨h1, h2, cur, h3, h4, h5⟩ := h
      exact ⟨h1, h2, cur, h3, h4.map hf, h5.map hf⟩
  | start2 => exact h
  | target e' b' res =>
    simp only [Placing, hi] at h ⊢
    obtain ⟨h1, h2, cur, h3, h4, h5⟩ := h
    exact ⟨h1, h2, cur, h3, h4.map hf, h5.map hf⟩
  | check e' cur =>
    simp only [Placing, hi] at h ⊢
    exact ⟨h.1, h.2.1.map hf, h.2.2.map hf⟩
  | link => exact h
  | ret res =>
    simp only [Placing, hi] at h ⊢
    obtain ⟨h1, ⟨x, hx, hs⟩, sm, h2, h3, h4⟩ := h
    exact ⟨h1, ⟨f x, List.mem_map.2 ⟨x, hx, rfl⟩, hs.trans (hf x)⟩, sm, h2, h3.trans hg.steps, h4⟩
  | _ => exact absurd h (by simp [Placing])

/-- Own steps. -/
theorem Placing.self {s0 s s' : CSt} {g : Tid} {e : Entry} {b : Ref} (j : J1 s) (h0 : GSteps Pk s0 s)
    (st : Step Pk s g s') (al : Alone s g) (hed : e.dummy = false) (hb : At s.items b (· ≤ e.rev)) {m : Entry} (hm : m ∈ s.items) (hmt : e.rev < m.rev)
    (h : Placing Pk s0 s e b (s.pc g)) : Placing Pk s0 s' e b (s'.pc g) := by
  have stg : GSteps Pk s s' := .step (.refl _) st al
  cases st with
  | findOpt second e' b' start h1 =>
    rw [h1] at h; rw [setPC_same]
    cases second
    · simp only [Placing] at h ⊢
      obtain ⟨rfl, rfl, rfl⟩ := h
      exact ⟨rfl, rfl, rfl, UpTo.of_at j.nd j.sorted hb, by simp⟩
    · simp only [Placing] at h ⊢
      obtain ⟨rfl, rfl, hst⟩ := h
      exact ⟨rfl, rfl, rfl, UpTo.of_at j.nd j.sorted hst, by simp⟩
  | findStop second e' b' prev cur x h1 h2 h3 =>
    rw [h1] at h; rw [setPC_same]
    obtain ⟨hx1, hx2, _⟩ := node_some h2
    cases second
    · simp only [Placing] at h ⊢
      exact ⟨h.1, h.2.1, cur, rfl⟩
    · simp only [Placing] at h ⊢
      obtain ⟨rfl, rfl, ho, hu, _⟩ := h
      refine ⟨rfl, rfl, cur, rfl, hu, x, hx1, hx2, ?_⟩
      simp only [stops, ho, Bool.false_and, Bool.not_false, Bool.true_and, if_true, decide_eq_true_eq] at h3
      bv_omega
  | findCont second e' b' prev cur x h1 h2 h3 =>
    rw [h1] at h; rw [setPC_same]
    obtain ⟨hx1, hx2, _⟩ := node_some h2
    cases second
    · simp only [Placing] at h ⊢
      obtain ⟨rfl, rfl, ho, hu, _⟩ := h
      refine ⟨rfl, rfl, ho, hu, fun _ => ⟨x, hx1, hx2, ?_⟩⟩
      simp only [stops, ho, Bool.false_and, Bool.not_false, Bool.true_and, Bool.false_eq_true, if_false, decide_eq_false_iff_not] at h3
      bv_omega
    · simp only [Placing] at h ⊢
      obtain ⟨rfl, rfl, ho, hu, _⟩ := h
      refine ⟨rfl, rfl, ho, hu, fun _ => ⟨x, hx1, hx2, ?_⟩⟩
      simp only [stops, ho, Bool.false_and, Bool.not_false, Bool.true_and, if_true, decide_eq_false_iff_not] at h3
      bv_omega
  | findAdv second e' b' prev cur h1 =>
    rw [h1] at h; rw [setPC_same]
    cases second <;>
    · simp only [Placing] at h
      obtain ⟨rfl, rfl, ho, hu, ha⟩ := h
      have ha := ha (by trivial)
      cases hp : nx s.items cur with
      | none => exact absurd hp (UpTo.end j.nd j.sorted ha hm hmt)
      | some r' =>
        simp only [Placing]
        exact ⟨trivial, trivial, ho, hu.next j.nd ha hp, by simp⟩
  | findEnd1 e' b' prev res h1 =>
    rw [h1] at h; rw [setPC_same]
    simp only [Placing] at h ⊢
    exact ⟨h.1, by simpa using h.2.1, h.2.2⟩
  | findEnd2 e' b' prev res h1 =>
    rw [h1] at h; rw [setPC_same]
    exact h
  | start2 e' b' res h1 =>
    rw [h1] at h; rw [setPC_same]
    simp only [Placing] at h ⊢
    obtain ⟨rfl, rfl, cur, rfl⟩ := h
    refine ⟨rfl, rfl, ?_⟩
    unfold tStart
    simp only
    cases hl : (beforeRef cur s.items).getLast? with
    | none => exact hb
    | some pe =>
      simp only
      split
      · rename_i hlt
        have h1 := List.mem_of_getLast? hl
        have hpe : pe ∈ s.items := by rw [← before_append_from cur s.items]; simp [h1]
        exact ⟨pe, hpe, rfl, by bv_omega⟩
      · exact hb
  | targetPos e' b' r h1 =>
    rw [h1] at h; rw [setPC_same]
    simp only [Placing] at h ⊢
    obtain ⟨rfl, rfl, cur, hc, h4, h5⟩ := h
    cases hc
    exact ⟨rfl, h4, h5⟩
  | targetFall e' b' phd r h1 h2 h3 =>
    rw [h1] at h
    simp only [Placing] at h
    obtain ⟨_, _, cur, hc, _⟩ := h
    cases hc
  | checkOk e' r h1 h2 =>
    rw [h1] at h; rw [setPC_same]
    simp only [Placing] at h ⊢
    exact h.1
  | checkFail e' r h1 h2 =>
    rw [h1] at h
    simp only [Placing] at h
    obtain ⟨rfl, h4, h5⟩ := h
    rw [checkOk_of j.nd h4 h5] at h2; cases h2
  | link e' r h1 =>
    rw [h1] at h; rw [setPC_same]
    simp only [Placing] at h ⊢
    subst h
    refine ⟨trivial, ⟨e', mem_insBefore.2 (Or.inl rfl), Same.rfl⟩, _, (h0.trans stg).steps, .refl _, e', mem_insBefore.2 (Or.inl rfl), rfl, rfl, hed, rfl⟩
  | begin cl' t' c' h1 h2 => rw [h1] at h; exact absurd h (by simp [Placing])
  | beginSplit t' p h1 h2 => rw [h1] at h; exact absurd h (by simp [Placing])
  | pickKey cl' t' c' b d h1 h2 h3 h4 => rw [h1] at h; exact absurd h (by simp [Placing])
  | pickSplit t' p b h1 h2 => rw [h1] at h; exact absurd h (by simp [Placing])
  | lookCont cl' t' c' fwd b cur x h1 h2 h3 h4 => rw [h1] at h; exact absurd h (by simp [Placing])
  | lookHit cl' t' c' fwd b cur x h1 h2 h3 h4 h5 => rw [h1] at h; exact absurd h (by simp [Placing])
  | lookMiss cl' t' c' fwd b cur x h1 h2 h3 h4 h5 => rw [h1] at h; exact absurd h (by simp [Placing])
  | lookAdv cl' fwd b cur h1 => rw [h1] at h; exact absurd h (by simp [Placing])
  | hitGet t' c' r' x h1 h2 => rw [h1] at h; exact absurd h (by simp [Placing])
  | hitSet t' c' key v r' x nv ok h1 h2 h3 => rw [h1] at h; exact absurd h (by simp [Placing])
  | hitSetPanic t' c' key v r' x p h1 h2 h3 => rw [h1] at h; exact absurd h (by simp [Placing])
  | hitDel t' c' r' h1 => rw [h1] at h; exact absurd h (by simp [Placing])
  | missGet t' c' b h1 => rw [h1] at h; exact absurd h (by simp [Placing])
  | missDel t' c' b h1 => rw [h1] at h; exact absurd h (by simp [Placing])
  | missSet t' c' key v b h1 => rw [h1] at h; exact absurd h (by simp [Placing])
  | pickLost cl t c p r h1 h2 h3 h4 h5 => rw [h1] at h; exact absurd h (by simp [Placing])
  | lostFound cl t c p r d h1 h2 h3 h4 => rw [h1] at h; exact absurd h (by simp [Placing])
  | lostPanic cl t c p r h1 h2 h3 => rw [h1] at h; exact absurd h (by simp [Placing])
  | lostGet t c p r h1 h2 => rw [h1] at h; exact absurd h (by simp [Placing])
  | lostDel t c p r h1 h2 => rw [h1] at h; exact absurd h (by simp [Placing])
  | lostSet t c key v p r h1 h2 => rw [h1] at h; exact absurd h (by simp [Placing])
  | lostSetLate t c key v p r d h1 h2 h3 h4 => rw [h1] at h; exact absurd h (by simp [Placing])
  | rangeStart x h1 h2 => rw [h1] at h; exact absurd h (by simp [Placing])
  | rangeSee cur seen x h1 h2 => rw [h1] at h; exact absurd h (by simp [Placing])
  | rangeAdv cur seen h1 => rw [h1] at h; exact absurd h (by simp [Placing])
  | foreignOpt h1 => rw [h1] at h; exact absurd h (by simp [Placing])
  | foreignEnd prev h1 => rw [h1] at h; exact absurd h (by simp [Placing])

/-- The whole insertion phase. -/
theorem placing_run (pk : PkOk Pk) {s0 s : CSt} {g : Tid} {e : Entry} {b : Ref} (j : J1 s0) (h0 : s0.pc g = .fOpt false e (some b) b)
    (hb : At s0.items b (· ≤ e.rev)) (hed : e.dummy = false) {m : Entry} (hm : m ∈ s0.items) (hmt : e.rev < m.rev) (h : QSteps Pk g s0 s) :
    Placing Pk s0 s e b (s.pc g) := by
  induction h with
  | refl => rw [h0]; exact ⟨rfl, rfl, rfl⟩
  | @step a c u h1 h2 al hq _ ih =>
    have ja := h1.gsteps.j1 pk j
    by_cases hu : u = g
    · subst hu
      obtain ⟨m', hm', hs⟩ := h1.gsteps.ext.mem hm
      exact ih.self ja h1.gsteps h2 al hed (hb.ext h1.gsteps.ext) hm' (by rw [hs.2.1]; exact hmt)
    · rw [h2.others (fun e => hu e.symm)]
      have hq := hq hu
      have stg : GSteps Pk a c := .step (.refl _) h2 al
      cases h2.eff with
      | none h3 => exact ih.quiet (f := id) (fun _ => Same.rfl) (by simp [h3]) hq.1 stg
      | inplace f hf h3 => exact ih.quiet hf h3 hq.1 stg
      | ins e' r h3 h4 =>
        exfalso
        have := hq.2
        rw [h4] at this
        have hl := (refs_insBefore r e' a.items).length_eq
        rw [this] at hl; simp at hl

end SLM.Conc
