import Verif.Model.LConc
import Verif.Proofs.ConcExec
import Verif.Proofs.Count
/-! Proofs for Props/LConc.lean. -/
set_option autoImplicit false
namespace SLM.Conc
open History

variable {Pk : CSt → Call → Ref → Prop}

/-- The item nodes of the list, live or deleted (no sentinels). -/
def nIt (l : List Entry) : Nat := l.countP (fun e => !e.dummy)

theorem nIt_ins (r : Ref) (e : Entry) (l : List Entry) : nIt (insBefore r e l) = nIt l + (if e.dummy then 0 else 1) := by
  unfold nIt insBefore
  conv => rhs; rw [← before_append_from r l]
  simp only [List.countP_append, List.countP_cons]
  cases e.dummy <;> simp <;> omega

theorem nIt_map {f : Entry → Entry} (hf : ∀ x, Same x (f x)) (l : List Entry) : nIt (l.map f) = nIt l := by
  unfold nIt
  rw [List.countP_map]
  apply List.countP_congr
  intro x _
  simp [Function.comp, (hf x).2.2.2.1]

/-- A step adds an item exactly when it links one. -/
theorem Step.nIt {s s' : CSt} {g : Tid} (h : Step Pk s g s') :
    (leaves (s.pc g) (s'.pc g) = false ∧ Conc.nIt s'.items = Conc.nIt s.items) ∨
    (leaves (s.pc g) (s'.pc g) = true ∧ s'.pc g = .ret (.bool true) ∧
      (Conc.nIt s'.items = Conc.nIt s.items + 1 ∨
        (Conc.nIt s'.items = Conc.nIt s.items ∧ ∃ e r, s.pc g = .check e r ∧ e.dummy = false ∧ Conc.checkOk s.items e r = false))) := by
  cases h
  case link e r h =>
    rw [setPC_same, h]
    cases hd : e.dummy
    · right; simp [leaves, PC.newE, hd, nIt_ins, setPC]
    · left; simp [leaves, PC.newE, hd, nIt_ins, setPC]
  case checkFail e r h1 h2 =>
    rw [setPC_same, h1]
    cases hd : e.dummy
    · right; simp only [leaves, PC.newE, hd, setPC]; simp only [hd, Bool.not_false, true_and]; exact Or.inr ⟨e, r, rfl, hd, h2⟩
    · left; simp [leaves, PC.newE, hd, setPC]
  case hitSet r x nv ok h1 h2 h3 =>
    left
    rw [setPC_same, h1]
    refine ⟨rfl, ?_⟩
    obtain ⟨f, hf, h⟩ := setVal_same r nv s.items
    show Conc.nIt (setVal r nv s.items) = _
    rw [h]; exact nIt_map hf _
  case hitDel r h1 =>
    left
    rw [setPC_same, h1]
    refine ⟨rfl, ?_⟩
    obtain ⟨f, hf, h⟩ := markDeleted_same .sample r s.items
    show Conc.nIt (markDeleted .sample r s.items) = _
    rw [h]; exact nIt_map hf _
  case findAdv h1 =>
    left
    refine ⟨?_, rfl⟩
    rw [setPC_same, h1]
    cases nx s.items _ <;> rfl
  all_goals (left; refine ⟨?_, rfl⟩; rw [setPC_same]; simp only [*])
  all_goals first | rfl | (unfold leaves; simp only [PC.newE]; done) | skip
  all_goals (unfold leaves; simp only [PC.newE]; try split) <;> simp_all [PC.newE]

def isSet : Call → Bool
  | .set _ _ _ _ => true
  | _ => false

/-- In a Set that has not found its key. -/
def setPCB : PC → Bool
  | .pick cl => isSet cl
  | .look cl _ _ _ _ => isSet cl
  | .lost cl _ _ => isSet cl
  | .miss cl _ => isSet cl
  | p => match p.newE with | some e => !e.dummy | none => false

theorem Step.setPC {s s' : CSt} {g : Tid} (h : Step Pk s g s') (h' : setPCB (s'.pc g) = true) :
    setPCB (s.pc g) = true ∨ ∃ t c key v, s'.pc g = .pick (.set t c key v) := by
  cases h
  case begin cl t c h1 h2 =>
    rw [setPC_same] at h' ⊢
    cases cl <;> simp [setPCB, isSet] at h'
    exact Or.inr ⟨_, _, _, _, rfl⟩
  case lookHit cl t c fwd b cur x h1 h2 h3 h4 h5 =>
    rw [setPC_same] at h'
    left; rw [h1]
    split at h' <;> simpa [setPCB, PC.newE] using h'
  case lookAdv cl fwd b cur h1 =>
    rw [setPC_same] at h'
    left; rw [h1]
    cases hx : (if fwd then nx s.items cur else pv s.items cur) <;> rw [hx] at h' <;> simpa [setPCB, PC.newE] using h'
  case findAdv cur h1 =>
    rw [setPC_same] at h'
    left; rw [h1]
    cases hx : nx s.items cur <;> rw [hx] at h' <;> simpa [setPCB, PC.newE] using h'
  case rangeAdv cur seen h1 =>
    rw [setPC_same] at h'
    cases hx : nx s.items cur <;> rw [hx] at h' <;> simp [setPCB, PC.newE] at h'
  case pickSplit => rw [setPC_same] at h'; simp [setPCB, PC.newE, dummyEntry] at h'
  all_goals (rw [setPC_same] at h'; simp_all [setPCB, PC.newE, isSet])

theorem leaves_setPC {p p' : PC} (h : leaves p p' = true) : setPCB p = true := by
  have h2 : ∃ e, p.newE = some e ∧ e.dummy = false := by
    unfold leaves at h
    cases h1 : p.newE with
    | none => rw [h1] at h; simp at h
    | some e =>
      rw [h1] at h
      cases h2 : p'.newE with
      | none => rw [h2] at h; exact ⟨e, rfl, by simpa using h⟩
      | some e' => rw [h2] at h; simp at h
  obtain ⟨e, h3, h4⟩ := h2
  cases p <;> simp_all [setPCB, PC.newE]

/-- `g` called Set in this execution. -/
def Called (Pk : CSt → Call → Ref → Prop) (a s : CSt) (g : Tid) : Prop :=
  ∃ s1, Steps Pk a s1 ∧ Steps Pk s1 s ∧ ∃ t c key v, s1.pc g = .pick (.set t c key v)

theorem Called.later {a s s' : CSt} {g : Tid} (h : Called Pk a s g) (h' : Steps Pk s s') : Called Pk a s' g := by
  obtain ⟨s1, h1, h2, h3⟩ := h
  exact ⟨s1, h1, h2.trans h', h3⟩

theorem called_inv {a s : CSt} (h : Steps Pk a s) (h0 : ∀ g, setPCB (a.pc g) = false) : ∀ g, setPCB (s.pc g) = true → Called Pk a s g := by
  induction h with
  | refl => intro g hg; rw [h0 g] at hg; cases hg
  | @step b c u hab st ih =>
    intro g hg
    by_cases hu : g = u
    · subst hu
      rcases st.setPC hg with h1 | ⟨t, cf, key, v, h1⟩
      · exact (ih g h1).later (.step (.refl _) st)
      · exact ⟨c, .step hab st, .refl _, t, cf, key, v, h1⟩
    · rw [st.others hu] at hg
      exact (ih g hg).later (.step (.refl _) st)

/-- Invariant of all executions: `D` are the goroutines that have added their 1, `O` those that still owe it. -/
structure LInv (Pk : CSt → Call → Ref → Prop) (a s : LSt) (D O : List Tid) : Prop where
  len : s.len = a.len + D.length
  nd : (D ++ O).Nodup
  owe : ∀ g, s.owe g = true ↔ g ∈ O
  ret : ∀ g ∈ D ++ O, s.c.pc g = .ret (.bool true)
  le : nIt s.c.items ≤ nIt a.c.items + D.length + O.length
  called : ∀ g ∈ D ++ O, Called Pk a.c s.c g

theorem ret_final {s s' : CSt} {g : Tid} {r : Res} (h : Step Pk s g s') (hr : s.pc g = .ret r) : False := by
  cases h <;> simp_all

theorem LStep.inv {a s s' : LSt} {g : Tid} (h : LStep Pk s g s') {D O : List Tid} (i : LInv Pk a s D O)
    (hc : ∀ u, setPCB (s.c.pc u) = true → Called Pk a.c s.c u) : ∃ D' O', LInv Pk a s' D' O' ∧ D.Sublist D' := by
  cases h with
  | move c' ho st =>
    have hg : g ∉ D ++ O := fun hm => ret_final st (i.ret g hm)
    rcases st.nIt with ⟨h1, h2⟩ | ⟨h1, h2, h3⟩
    · refine ⟨D, O, ⟨i.len, i.nd, ?_, ?_, ?_, fun u hu => (i.called u hu).later (.step (.refl _) st)⟩, .refl _⟩
      · rw [h1]; exact i.owe
      · intro u hu
        rw [show (c'.pc u) = s.c.pc u from st.others (fun e => hg (e ▸ hu))]
        exact i.ret u hu
      · show nIt c'.items ≤ _
        rw [h2]; exact i.le
    · refine ⟨D, O ++ [g], ⟨i.len, ?_, ?_, ?_, ?_, ?_⟩, .refl _⟩
      · rw [← List.append_assoc, List.nodup_append]
        exact ⟨i.nd, by simp, fun x hx y hy => by simp at hy; rintro rfl; exact hg (hy ▸ hx)⟩
      · intro u
        rw [h1]
        simp only [setB, if_true, List.mem_append, List.mem_singleton]
        by_cases hu : u = g
        · simp [hu]
        · simp only [if_neg hu, hu, or_false]; exact i.owe u
      · intro u hu
        by_cases hug : u = g
        · subst hug; exact h2
        · rw [show (c'.pc u) = s.c.pc u from st.others hug]
          exact i.ret u (by simp only [List.mem_append, List.mem_singleton, hug, or_false] at hu ⊢; exact hu)
      · show nIt c'.items ≤ _
        have := i.le
        simp only [List.length_append, List.length_singleton]
        rcases h3 with h3 | h3
        · omega
        · have := h3.1; omega
      · intro u hu
        rw [← List.append_assoc, List.mem_append, List.mem_singleton] at hu
        rcases hu with hu | rfl
        · exact (i.called u hu).later (.step (.refl _) st)
        · exact (hc u (leaves_setPC h1)).later (.step (.refl _) st)
  | count ho =>
    have hgO := (i.owe g).1 ho
    have hn := i.nd
    have hO : O.Nodup := (List.nodup_append.1 hn).2.1
    have hperm : (D ++ [g] ++ O.erase g).Perm (D ++ O) := by
      rw [List.append_assoc]
      exact List.Perm.append_left D (List.perm_cons_erase hgO).symm
    refine ⟨D ++ [g], O.erase g, ⟨?_, hperm.nodup_iff.2 hn, ?_, ?_, ?_, fun u hu => i.called u (hperm.subset hu)⟩, List.sublist_append_left _ _⟩
    · simp [i.len]; omega
    · intro u
      simp only [setB]
      by_cases hu : u = g
      · subst hu; simp [hO.mem_erase_iff]
      · simp only [if_neg hu, hO.mem_erase_iff]; simp [hu]; exact i.owe u
    · intro u hu; exact i.ret u (hperm.subset hu)
    · have := i.le
      have hl := List.length_erase_of_mem hgO
      have : 0 < O.length := List.length_pos_of_mem hgO
      simp only [List.length_append, List.length_singleton]
      show nIt s.c.items ≤ _
      omega

theorem LSteps.steps {P : LSt → Tid → LSt → Prop} {a s : LSt} (h : LSteps Pk P a s) : Steps Pk a.c s.c := by
  induction h with
  | refl => exact .refl _
  | step _ h2 _ ih =>
    cases h2 with
    | move c' _ st => exact .step ih st
    | count => exact ih

theorem LSteps.inv {P : LSt → Tid → LSt → Prop} {a s : LSt} (h : LSteps Pk P a s) (h0 : ∀ g, a.owe g = false)
    (hp : ∀ g, setPCB (a.c.pc g) = false) : ∃ D O, LInv Pk a s D O := by
  induction h with
  | refl => exact ⟨[], [], by simp, by simp, by simp [h0], by simp, by simp, by simp⟩
  | step h1 h2 _ ih =>
    obtain ⟨D, O, i⟩ := ih
    obtain ⟨D', O', i', _⟩ := h2.inv i (called_inv h1.steps hp)
    exact ⟨D', O', i'⟩

theorem LSteps.mono {P : LSt → Tid → LSt → Prop} {a s : LSt} (h : LSteps Pk P a s) : a.len ≤ s.len := by
  induction h with
  | refl => exact le_refl _
  | step _ h2 _ ih =>
    refine le_trans ih ?_
    cases h2
    · exact le_refl _
    · show _ ≤ _ + (1 : Int); omega

theorem LSteps.trans {P : LSt → Tid → LSt → Prop} {a b c : LSt} (h : LSteps Pk P a b) (h' : LSteps Pk P b c) : LSteps Pk P a c := by
  induction h' with
  | refl => exact h
  | step _ h2 h3 ih => exact .step ih h2 h3

theorem LSteps.any {P : LSt → Tid → LSt → Prop} {a b : LSt} (h : LSteps Pk P a b) : LSteps Pk (fun _ _ _ => True) a b := by
  induction h with
  | refl => exact .refl _
  | step _ h2 _ ih => exact .step ih h2 trivial

/-! ### Insertions that take turns -/

/-- At work on the list or on the search option. -/
def busy : PC → Bool
  | .foreign _ => true
  | p => p.newE.isSome

/-- `g` starts an insertion (or a split, or a search on another map) only while no other goroutine is in one; it locates no bucket
whose sentinel is not linked; the hash inserted is not 2^64-1. -/
structure Turns (s : CSt) (g : Tid) (s' : CSt) : Prop where
  alone : busy (s'.pc g) = true → ∀ w, w ≠ g → busy (s.pc w) = false
  found : isLost (s'.pc g) = false
  low : ∀ e, (s'.pc g).newE = some e → e.dummy = false → e.rev ≠ maxU64

structure TI (Pk : CSt → Call → Ref → Prop) (a s : CSt) : Prop where
  j : J1 s
  gs : GSteps Pk a s
  one : ∀ u w, busy (s.pc u) = true → busy (s.pc w) = true → u = w
  setB : ∀ g, SetB s.items (s.pc g)
  top : ∃ m ∈ s.items, m.rev = maxU64
  nl : ∀ g, isLost (s.pc g) = false
  pl : ∀ g e, (s.pc g).newE = some e → e.dummy = false →
    e.rev ≠ maxU64 ∧ ∃ b, At s.items b (· ≤ e.rev) ∧ Placing Pk a s e b (s.pc g)

theorem Placing.newE {s0 s : CSt} {e e' : Entry} {b : Ref} {p : PC} (h : Placing Pk s0 s e b p) (hn : p.newE = some e') : e' = e := by
  cases p <;> simp only [PC.newE, reduceCtorEq, Option.some.injEq] at hn
  case fOpt second _ _ _ => cases second <;> simp only [Placing] at h <;> exact hn ▸ h.1
  case fLoop second _ _ _ _ _ => cases second <;> simp only [Placing] at h <;> exact hn ▸ h.1
  case fEnd second _ _ _ _ => cases second <;> simp only [Placing] at h <;> exact hn ▸ h.1
  case start2 => simp only [Placing] at h; exact hn ▸ h.1
  case target => simp only [Placing] at h; exact hn ▸ h.1
  case check => simp only [Placing] at h; exact hn ▸ h.1
  case link => simp only [Placing] at h; exact hn ▸ h

/-- A goroutine that is not at work changes neither the option nor the nodes of the list. -/
theorem Step.idle_quiet {s s' : CSt} {g : Tid} (h : Step Pk s g s') (h1 : busy (s.pc g) = false) (h2 : busy (s'.pc g) = false) :
    s'.opt = s.opt ∧ ∃ f : Entry → Entry, (∀ x, Same x (f x)) ∧ s'.items = s.items.map f := by
  have hid : ∃ f : Entry → Entry, (∀ x, Same x (f x)) ∧ s.items = s.items.map f := ⟨id, fun _ => Same.rfl, by simp⟩
  cases h
  case hitSet r x nv ok _ _ _ => exact ⟨rfl, setVal_same r nv s.items⟩
  case hitDel r _ => exact ⟨rfl, markDeleted_same .sample r s.items⟩
  case link e r h => rw [h] at h1; simp [busy, PC.newE] at h1
  case findOpt h => rw [h] at h1; simp [busy, PC.newE] at h1
  case findEnd1 h => rw [h] at h1; simp [busy, PC.newE] at h1
  case findEnd2 h => rw [h] at h1; simp [busy, PC.newE] at h1
  case foreignOpt h => rw [setPC_same] at h2; simp [busy] at h2
  case foreignEnd h => rw [h] at h1; simp [busy] at h1
  all_goals exact ⟨rfl, hid⟩

/-- Who starts an insertion. -/
theorem Step.enter {s s' : CSt} {g : Tid} (h : Step Pk s g s') (h1 : (s.pc g).newE = none) {e : Entry} (h2 : (s'.pc g).newE = some e)
    (hd : e.dummy = false) (hnl : isLost (s.pc g) = false) :
    ∃ t c key v b, s.pc g = .miss (.set t c key v) b ∧ e.rev = t ∧ s'.pc g = .fOpt false e (some b) b ∧ s'.items = s.items := by
  cases h
  case lookHit h _ _ _ _ => rw [setPC_same] at h2; split at h2 <;> simp [PC.newE] at h2
  case lookAdv cl fwd b cur h => rw [setPC_same] at h2; cases hx : (if fwd then nx s.items cur else pv s.items cur) <;> rw [hx] at h2 <;> simp [PC.newE] at h2
  case rangeAdv cur seen h => rw [setPC_same] at h2; cases hx : nx s.items cur <;> rw [hx] at h2 <;> simp [PC.newE] at h2
  case findAdv h => rw [h] at h1; simp [PC.newE] at h1
  case missSet t c key v b h =>
    rw [setPC_same] at h2
    injection h2 with h2; subst h2
    exact ⟨t, c, key, v, b, h, rfl, setPC_same _ _ _, rfl⟩
  case pickSplit t p b h3 h4 => rw [setPC_same] at h2; injection h2 with h2; subst h2; simp [dummyEntry] at hd
  case lostSet h _ => rw [h] at hnl; simp [isLost] at hnl
  case lostSetLate h _ _ _ => rw [h] at hnl; simp [isLost] at hnl
  all_goals (rw [setPC_same] at h2; simp only [PC.newE, reduceCtorEq] at h2)
  all_goals first
    | (rename_i h; rw [h] at h1; simp [PC.newE] at h1; done)
    | (rename_i h _; rw [h] at h1; simp [PC.newE] at h1; done)
    | (rename_i h _ _; rw [h] at h1; simp [PC.newE] at h1; done)

theorem Step.sameE {s s' : CSt} {g : Tid} (h : Step Pk s g s') {e e' : Entry} (h1 : (s.pc g).newE = some e) (h2 : (s'.pc g).newE = some e') :
    e' = e := by
  cases h
  case findAdv cur h =>
    rw [setPC_same] at h2; rw [h] at h1
    cases hx : nx s.items cur <;> rw [hx] at h2 <;> simp [PC.newE] at h1 h2 <;> rw [← h1, ← h2]
  all_goals (rw [setPC_same] at h2; simp_all [PC.newE])

theorem busy_of_newE {p : PC} (h : p.newE ≠ none) : busy p = true := by
  cases p <;> simp_all [busy, PC.newE]

theorem newE_of_busy {p : PC} (h : busy p = false) : p.newE = none := by
  cases hn : p.newE with
  | none => rfl
  | some e => rw [busy_of_newE (by simp [hn])] at h; cases h

theorem Turns.step (pk : PkOk Pk) {a s s' : CSt} {g : Tid} (st : Step Pk s g s') (tu : Turns s g s') (i : TI Pk a s) : TI Pk a s' := by
  have al : Alone s g := by
    intro e r h u e' hu hc
    exact hu (i.one u g (by rw [hc]; rfl) (by rw [h]; rfl))
  have stg : GSteps Pk s s' := .step (.refl _) st al
  have hext := stg.ext
  refine ⟨st.j1 pk al i.j, i.gs.trans stg, ?_, ?_, ?_, ?_, ?_⟩
  · intro u w hu hw
    by_cases hug : u = g <;> by_cases hwg : w = g
    · rw [hug, hwg]
    · subst hug; rw [st.others hwg] at hw
      rw [tu.alone hu w hwg] at hw; cases hw
    · subst hwg; rw [st.others hug] at hu
      rw [tu.alone hw u hug] at hu; cases hu
    · rw [st.others hug] at hu; rw [st.others hwg] at hw
      exact i.one u w hu hw
  · exact Steps.setB pk (.step (.refl _) st) i.setB
  · obtain ⟨m, hm, hr⟩ := i.top
    obtain ⟨m', hm', hs⟩ := hext.mem hm
    exact ⟨m', hm', by rw [hs.2.1]; exact hr⟩
  · intro u
    by_cases hu : u = g
    · subst hu; exact tu.found
    · rw [st.others hu]; exact i.nl u
  · intro u e hn hd
    by_cases hu : u = g
    · subst hu
      refine ⟨tu.low e hn hd, ?_⟩
      cases hn0 : (s.pc u).newE with
      | none =>
        obtain ⟨t, c, key, v, b, h1, h2, h3, h4⟩ := st.enter hn0 hn hd (i.nl u)
        have hb := i.setB u
        rw [h1] at hb
        simp only [SetB] at hb
        refine ⟨b, ?_, ?_⟩
        · rw [h4, h2]; exact hb
        · rw [h3]; exact ⟨rfl, rfl, rfl⟩
      | some e0 =>
        have hd0 : e0.dummy = false := by
          rw [← st.sameE hn0 hn]; exact hd
        obtain ⟨hmx, b, hb, hp⟩ := i.pl u e0 hn0 hd0
        obtain ⟨m, hm, hr⟩ := i.top
        have := hp.self i.j i.gs st al hd0 hb hm (by rw [hr]; exact lt_max hmx)
        have he := this.newE hn
        subst he
        exact ⟨b, hb.ext hext, this⟩
    · rw [st.others hu] at hn ⊢
      obtain ⟨hmx, b, hb, hp⟩ := i.pl u e hn hd
      refine ⟨hmx, b, hb.ext hext, ?_⟩
      have hbu : busy (s.pc u) = true := busy_of_newE (by simp [hn])
      have h1 : busy (s.pc g) = false := by
        cases hg : busy (s.pc g) with
        | false => rfl
        | true => exact absurd (i.one u g hbu hg) hu
      have h2 : busy (s'.pc g) = false := by
        cases hg : busy (s'.pc g) with
        | false => rfl
        | true => rw [tu.alone hg u hu] at hbu; cases hbu
      obtain ⟨ho, f, hf, hi⟩ := st.idle_quiet h1 h2
      exact hp.quiet hf hi ho stg
where
  lt_max {t : U64} (h : t ≠ maxU64) : t < maxU64 := by
    have e : maxU64 = 18446744073709551615#64 := by decide
    rw [e] at h ⊢; bv_omega

/-- In turns no insertion is given up. -/
theorem TI.kept (pk : PkOk Pk) {a s : CSt} (i : TI Pk a s) {g : Tid} {e : Entry} {r : Ref} (h : s.pc g = .check e r) (hd : e.dummy = false) :
    checkOk s.items e r = true := by
  obtain ⟨_, b, _, hp⟩ := i.pl g e (by rw [h]; rfl) hd
  rw [h] at hp
  simp only [Placing] at hp
  exact checkOk_of i.j.nd hp.2.1 hp.2.2

/-- With it the count is exact. -/
theorem turns_exact (pk : PkOk Pk) {a s : LSt} (h : LSteps Pk (fun x g y => x.c = y.c ∨ Turns x.c g y.c) a s) (i : TI Pk a.c a.c) (h0 : ∀ g, a.owe g = false) :
    TI Pk a.c s.c ∧ ∃ O : List Tid, O.Nodup ∧ (∀ g, s.owe g = true ↔ g ∈ O) ∧ (nIt s.c.items : Int) - s.len = nIt a.c.items - a.len + O.length := by
  induction h with
  | refl => exact ⟨i, [], by simp, by simp [h0], by simp⟩
  | @step b c g hab st ht ih =>
    obtain ⟨ti, O, hn, ho, he⟩ := ih
    cases st with
    | move c' hog st =>
      have hgO : g ∉ O := fun hm => by rw [(ho g).2 hm] at hog; cases hog
      rcases st.nIt with ⟨h1, h2⟩ | ⟨h1, h2, h3⟩
      · refine ⟨?_, O, hn, by rw [h1]; exact ho, by show (nIt c'.items : Int) - b.len = _; rw [h2]; exact he⟩
        rcases ht with ht | ht
        · rw [← ht]; exact ti
        · exact ht.step pk st ti
      · refine ⟨?_, O ++ [g], ?_, ?_, ?_⟩
        · rcases ht with ht | ht
          · rw [← ht]; exact ti
          · exact ht.step pk st ti
        · rw [List.nodup_append]
          exact ⟨hn, by simp, fun x hx y hy => by simp at hy; rintro rfl; exact hgO (hy ▸ hx)⟩
        · intro u
          rw [h1]
          simp only [setB, if_true, List.mem_append, List.mem_singleton]
          by_cases hu : u = g
          · simp [hu]
          · simp only [if_neg hu, hu, or_false]; exact ho u
        · show (nIt c'.items : Int) - b.len = _
          rcases h3 with h3 | ⟨_, e, r, h4, h5, h6⟩
          · rw [h3]; simp only [List.length_append, List.length_singleton]; push_cast; omega
          · rw [ti.kept pk h4 h5] at h6; cases h6
    | count hog =>
      have hgO := (ho g).1 hog
      refine ⟨ti, O.erase g, hn.erase g, ?_, ?_⟩
      · intro u
        simp only [setB]
        by_cases hu : u = g
        · subst hu; simp [hn.mem_erase_iff]
        · simp only [if_neg hu, hn.mem_erase_iff]; simp [hu]; exact ho u
      · have hl := List.length_erase_of_mem hgO
        have : 0 < O.length := List.length_pos_of_mem hgO
        show (nIt b.c.items : Int) - (b.len + 1) = _
        omega

/-! ### What a sequential history leaves -/

theorem nIt_insAt (e : Entry) (l : List Entry) : nIt (insAt e l) = nIt l + (if e.dummy then 0 else 1) := by
  unfold nIt
  rw [(insAt_perm e l).countP_eq, List.countP_cons]
  cases e.dummy <;> simp

theorem nIt_mapAt (r : Ref) {f : Entry → Entry} (hf : ∀ x, (f x).dummy = x.dummy) (l : List Entry) : nIt (mapAt r f l) = nIt l := by
  unfold nIt mapAt
  rw [List.countP_map]
  apply List.countP_congr
  intro x _
  simp only [Function.comp]
  split <;> simp [hf]

theorem nIt_of_ins {e : Entry} {l l' : List Entry} (h : Ins e l l') : nIt l' ≤ nIt l + 1 := by
  rcases h with rfl | ⟨pre, d, post, rfl, rfl⟩
  · omega
  · unfold nIt
    simp only [List.countP_append, List.countP_cons]
    split <;> split <;> omega

theorem step_nIt_le {E : Env} {st : St} (h : Inv st) (op : Op) :
    (nIt (step E st op).1.items : Int) - (step E st op).1.len ≤ (nIt st.items : Int) - st.len := by
  rcases step_eff E h op with x | ⟨e, nv, b, x⟩ | ⟨key, e, x⟩ | ⟨st2, k, c, e, x⟩
  · obtain ⟨b, hb⟩ := x.same
    rw [hb]
  · rw [x.res]
    show (nIt (mapAt e.ref (fun x => { x with val := nv }) st.items) : Int) - st.len ≤ _
    rw [nIt_mapAt]; intro _; rfl
  · rw [x.res]
    show (nIt (mapAt e.ref (fun x => { x with deleted := true, key := match st.itemFn with | .entry => .nil | .sample => x.key }) st.items) : Int) - st.len ≤ _
    rw [nIt_mapAt]; intro _; rfl
  · have hlen : (step E st op).1.len = st.len + 1 := by rw [(grow_len x.grow).1]; simp [setMid, x.len]
    have hmid : nIt (setMid st2 k (findBucket st.mem (rev64 k)) e).items ≤ nIt st.items + 1 := by
      show nIt (setInsert st2 _ _ e) ≤ _
      rw [← x.items]; exact nIt_of_ins setInsert_ins
    have hl : nIt (step E st op).1.items ≤ nIt st.items + 1 := by
      rcases x.grow with hg | ⟨A, B, n, b, c', hb⟩
      · rw [hg]; exact hmid
      · rw [hb.items, nIt_insAt]; simpa [dummyEntry] using hmid
    rw [hlen]; push_cast; omega

theorem nIt_init (cfg : Cfg) : nIt (initSt cfg).items = 0 := by
  unfold nIt
  rw [List.countP_eq_zero]
  intro e he
  simp [initSt_dummy cfg e he]

theorem run_nIt_le (E : Env) (cfg : Cfg) (ops : List Op) : (nIt (SLM.run E (initSt cfg) ops).1.items : Int) ≤ (SLM.run E (initSt cfg) ops).1.len := by
  have key : ∀ (ops : List Op) (st : St), Inv st → (nIt (SLM.run E st ops).1.items : Int) - (SLM.run E st ops).1.len ≤ (nIt st.items : Int) - st.len := by
    intro ops
    induction ops with
    | nil => intro st _; simp [SLM.run]
    | cons op ops ih =>
      intro st h
      have h1 := step_nIt_le (E := E) h op
      have h2 := ih (step E st op).1 (step_inv E h op)
      rw [run_cons]
      exact le_trans h2 h1
  have := key ops _ (inv_init cfg)
  have h0 : (initSt cfg).len = 0 := initSt_len cfg
  rw [nIt_init, h0] at this
  simpa using this

theorem step_nIt {E : Env} {st : St} (g : Good st) {op : Op} (ha : AdmOp E st op) :
    (nIt (step E st op).1.items : Int) - (step E st op).1.len = (nIt st.items : Int) - st.len := by
  have h := g.inv
  rcases step_eff E h op with x | ⟨e, nv, b, x⟩ | ⟨key, e, x⟩ | ⟨st2, k, c, e, x⟩
  · obtain ⟨b, hb⟩ := x.same
    rw [hb]
  · rw [x.res]
    show (nIt (mapAt e.ref (fun x => { x with val := nv }) st.items) : Int) - st.len = _
    rw [nIt_mapAt]; intro _; rfl
  · rw [x.res]
    show (nIt (mapAt e.ref (fun x => { x with deleted := true, key := match st.itemFn with | .entry => .nil | .sample => x.key }) st.items) : Int) - st.len = _
    rw [nIt_mapAt]; intro _; rfl
  · have hlen : (step E st op).1.len = st.len + 1 := by rw [(grow_len x.grow).1]; simp [setMid, x.len]
    have hlook : lookup st.items k c = none := by rw [← getWithBucket_eq g]; exact x.none
    have hfa : FreeAt st k c := by
      have hh := x.hash
      cases op with
      | set key v => exact ha k c hh
      | storeItem it => exact ha.2.2 k c hh
      | _ => simp [storeHash] at hh
    obtain ⟨hfree, hoff⟩ := hfa.spec g hlook
    have hei : e.ignored = false := by unfold Entry.ignored; simp [x.nodummy, x.nodel]
    have hrev : e.rev = rev64 k := by
      rcases x.pre with ⟨s, v, _, _, he⟩ | ⟨it, hop, _, he⟩
      · rw [he]; rfl
      · have hz : it.rev0 = 0 := by rw [hop] at ha; exact ha.1
        rw [he]; simp [newItemEntry, hz]
    obtain ⟨_, hits⟩ := g.insert (st2 := st2) rfl x.mem x.blist x.items x.nextId x.lv x.ref hei hrev hfree hoff
    have hl : nIt (step E st op).1.items = nIt st.items + 1 := by
      have hmid : nIt (setMid st2 k (findBucket st.mem (rev64 k)) e).items = nIt st.items + 1 := by
        rw [hits, nIt_insAt]; simp [x.nodummy]
      rcases x.grow with hg | ⟨A, B, n, b, c', hb⟩
      · rw [hg]; exact hmid
      · rw [hb.items, nIt_insAt, hmid]; simp [dummyEntry]
    rw [hlen, hl]
    push_cast; omega

theorem run_nIt {E : Env} {ops : List Op} {st : St} (g : Good st) (h : AdmRun E st ops) :
    (nIt (SLM.run E st ops).1.items : Int) - (SLM.run E st ops).1.len = (nIt st.items : Int) - st.len := by
  induction ops generalizing st with
  | nil => simp [SLM.run]
  | cons op ops ih =>
    have h1 := step_nIt g h.1
    have h2 := ih (h.step_good g) h.2.2
    rw [run_cons]
    exact h2.trans h1

theorem clean_nIt {E : Env} {cfg : Cfg} {ops : List Op} (h : Clean E cfg ops) :
    (nIt (SLM.run E (initSt cfg) ops).1.items : Int) = (SLM.run E (initSt cfg) ops).1.len := by
  have := run_nIt (good_init cfg) h.adm
  have h0 : (initSt cfg).len = 0 := initSt_len cfg
  rw [nIt_init, h0] at this
  simp at this
  omega

end SLM.Conc
