import Verif.Proofs.EConc3
/-! A key whose slots are all marked deleted is not found, and stays so in every execution. -/
set_option autoImplicit false
namespace SLM.EConc
open Emb (Slot Pool skipBack)

/-- Every slot of the array `a` with primary hash `r` is marked deleted and is not the first slot. -/
def AllDel (s : St) (r : U64) (a : Nat) : Prop := ∀ j, (slotOf s a j).rev = r → 0 < j ∧ (slotOf s a j).deleted = true

/-- No Set of a key with primary hash `r` is running. -/
def NoSet (r : U64) (s : St) : Prop := ∀ t c v, (s.pc t).call ≠ some (.set r c v)

/-- No Set of a key with primary hash `r` begins. -/
def NoSetStarts (r : U64) (s : St) (t : Tid) (s' : St) : Prop := ∀ c v, s.pc t = .idle → s'.pc t ≠ .look (.set r c v)

structure Gone (r : U64) (s : St) : Prop where
  r0 : r ≠ 0
  cur : AllDel s r s.cur
  hid : ∀ a, Hidden s a → AllDel s r a
  calls : NoSet r s

theorem slot_insertAt_any (p : Pool) (i j : Nat) :
    (p.insertAt i).arr.getD j {} = {} ∨ (p.insertAt i).arr.getD j {} = p.arr.getD j {} ∨
      (0 < j ∧ (p.insertAt i).arr.getD j {} = p.arr.getD (j - 1) {}) := by
  simp only [Pool.insertAt, List.getD_eq_getElem?_getD, List.append_assoc, List.cons_append]
  by_cases h1 : j < (p.arr.take i).length
  · right; left
    rw [List.getElem?_append_left h1, List.getElem?_take, if_pos (by rw [List.length_take] at h1; omega)]
  · rw [List.getElem?_append_right (by omega)]
    rcases Nat.eq_zero_or_pos (j - (p.arr.take i).length) with h2 | h2
    · left; rw [h2]; rfl
    · obtain ⟨k, hk⟩ : ∃ k, j - (p.arr.take i).length = k + 1 := ⟨j - (p.arr.take i).length - 1, by omega⟩
      rw [hk, List.getElem?_cons_succ]
      by_cases h3 : k < ((p.arr.take p.len.toNat).drop i).length
      · right; right
        refine ⟨by omega, ?_⟩
        rw [List.getElem?_append_left h3, List.getElem?_drop, List.getElem?_take]
        rw [List.length_drop, List.length_take] at h3
        rw [List.length_take] at hk h1
        rw [if_pos (by omega), show i + k = j - 1 by omega]
      · left
        rw [List.getElem?_append_right (by omega), List.getElem?_replicate]
        split <;> rfl

theorem slot_expand_any {p q : Pool} (hq : p.expand = .ok q) (j : Nat) :
    q.arr.getD j {} = {} ∨ q.arr.getD j {} = p.arr.getD j {} := by
  unfold Pool.expand at hq
  simp only at hq
  split at hq
  · cases hq
  · injection hq with hq
    rw [← hq]
    simp only [List.getD_eq_getElem?_getD]
    by_cases h1 : j < (p.arr.take p.len.toNat).length
    · right
      rw [List.getElem?_append_left h1, List.getElem?_take, if_pos (by rw [List.length_take] at h1; omega)]
    · left
      rw [List.getElem?_append_right (by omega), List.getElem?_replicate]
      split <;> rfl

theorem AllDel.setSlot {s : St} {r : U64} {b a i : Nat} {x : Slot} (h : AllDel s r b)
    (hx : x.rev = r → b = a → 0 < i ∧ x.deleted = true) : AllDel (setSlot s a i x) r b := by
  intro j hj
  rw [slotOf_setSlot] at hj ⊢
  split
  · rename_i hh
    rw [if_pos hh] at hj
    obtain ⟨h1, h2, _⟩ := hh
    subst h2
    exact hx hj h1
  · rename_i hh
    rw [if_neg hh] at hj
    exact h j hj

theorem AllDel.keep {s : St} {r : U64} {b a i : Nat} {x : Slot} (h : AllDel s r b) (hr : x.rev = (slotOf s a i).rev)
    (hd : (slotOf s a i).deleted = true → x.deleted = true) : AllDel (EConc.setSlot s a i x) r b := by
  refine h.setSlot fun h1 h2 => ?_
  subst h2
  obtain ⟨h3, h4⟩ := h i (hr.symm.trans h1)
  exact ⟨h3, hd h4⟩

theorem AllDel.setArr {s : St} {r : U64} {b n : Nat} {l : List Slot} (h : AllDel s r b)
    (hl : ∀ j, (l.getD j {}).rev = r → 0 < j ∧ (l.getD j {}).deleted = true) : AllDel (EConc.setArr s n l) r b := by
  intro j
  by_cases e : b = n
  · subst e
    have : slotOf (EConc.setArr s b l) b j = l.getD j {} := by simp [slotOf, EConc.setArr]
    rw [this]; exact hl j
  · rw [slotOf_setArr_ne e]; exact h j

theorem AllDel.new_ins {s : St} {r : U64} {i : Nat} (h : AllDel s r s.cur) (h0 : r ≠ 0) (j : Nat)
    (hj : (((pool s).insertAt i).arr.getD j {}).rev = r) : 0 < j ∧ (((pool s).insertAt i).arr.getD j {}).deleted = true := by
  rcases slot_insertAt_any (pool s) i j with e | e | ⟨e0, e⟩ <;> rw [e] at hj ⊢
  · exact absurd hj.symm h0
  · exact h j hj
  · obtain ⟨h1, h2⟩ := h (j - 1) hj
    exact ⟨e0, h2⟩

theorem AllDel.new_exp {s : St} {r : U64} {q : Pool} (h : AllDel s r s.cur) (h0 : r ≠ 0) (hq : (pool s).expand = .ok q) (j : Nat)
    (hj : (q.arr.getD j {}).rev = r) : 0 < j ∧ (q.arr.getD j {}).deleted = true := by
  rcases slot_expand_any hq j with e | e <;> rw [e] at hj ⊢
  · exact absurd hj.symm h0
  · exact h j hj

theorem noSet_step {r : U64} {s s' : St} {t : Tid} (h : NoSet r s) (st : Step s t s') (hn : NoSetStarts r s t s') : NoSet r s' := by
  have := calls_step (Q := fun cl => ∀ c v, cl ≠ .set r c v) (fun t cl hc c v e => h t c v (by rw [hc, e])) st
    (fun cl h1 h2 c v e => hn c v h1 (by rw [h2, e]))
  exact fun u c v hu => this u _ hu c v rfl

theorem Gone.step {r : U64} {s s' : St} {t : Tid} (h : Gone r s) (st : Step s t s') (hn : NoSetStarts r s t s') : Gone r s' := by
  have hcalls := noSet_step h.calls st hn
  cases st with
  | start hs =>
    obtain ⟨hid, _, rfl⟩ := start_eq hs
    refine ⟨h.r0, h.cur, ?_, hcalls⟩
    intro a ha
    refine h.hid a ?_
    rw [hidden_iff] at ha ⊢
    obtain ⟨u, hu⟩ := ha
    by_cases e : u = t
    · subst e; simp [PC.fills] at hu
    · rw [setPC_other _ _ _ e] at hu; exact ⟨u, hu⟩
  | move hseen hs =>
    obtain ⟨_, s1, p, mv, rfl⟩ := step_mv hs
    have hpc := mv.pc_eq
    -- it is enough to look at the arrays in use before the step and at the one being filled by `t`
    have main : (∀ b, (b = s.cur ∨ Hidden s b) → AllDel s1 r b) → (s1.cur = s.cur ∨ Hidden s s1.cur) →
        (∀ a, p.fills = some a → AllDel s1 r a) → Gone r (setPC s1 t p) := by
      intro h1 h2 h3
      refine ⟨h.r0, h1 _ h2, ?_, hcalls⟩
      intro a ha
      show AllDel s1 r a
      rw [hidden_iff] at ha
      obtain ⟨u, hu⟩ := ha
      by_cases e : u = t
      · subst e; rw [setPC_same] at hu; exact h3 a hu
      · rw [setPC_other _ _ _ e, hpc] at hu; exact h1 a (.inr (hidden_iff.2 ⟨u, hu⟩))
    have both : ∀ b, (b = s.cur ∨ Hidden s b) → AllDel s r b := by
      rintro b (rfl | hb)
      · exact h.cur
      · exact h.hid b hb
    have nofill : ∀ {a : Nat}, (p.fills = none) → p.fills = some a → AllDel s1 r a := fun e1 e2 => by rw [e1] at e2; cases e2
    have hq := h.calls t
    cases mv <;> first
      | exact main both (.inl rfl) (fun a ha => nofill rfl ha)
      | (refine main ?_ ?_ (fun a ha => nofill rfl ha) <;> (unfold release; split <;> first | exact both | exact .inl rfl) ; done)
      | exact main (fun b hb => (both b hb).keep rfl id) (.inl rfl) (fun a ha => nofill rfl ha)
      | exact main (fun b hb => (both b hb).keep rfl (fun _ => rfl)) (.inl rfl) (fun a ha => nofill rfl ha)
      | skip
    case ins2 f i hp hg =>
      have hl := fun j => h.cur.new_ins (i := i) h.r0 j
      refine main (fun b hb => (both b hb).setArr hl) (.inl rfl) ?_
      intro a ha
      cases ha
      intro j hj
      have e : ∀ j, slotOf { setArr s s.next ((pool s).insertAt i).arr with next := s.next + 1 } s.next j =
          ((pool s).insertAt i).arr.getD j {} := by intro j; simp [slotOf, setArr]
      rw [e] at hj ⊢
      exact hl j hj
    case exp2 f q hp hq' =>
      have hl := fun j => h.cur.new_exp h.r0 hq' j
      refine main (fun b hb => (both b hb).setArr hl) (.inl rfl) ?_
      intro a ha
      cases ha
      intro j hj
      have e : ∀ j, slotOf { setArr s s.next q.arr with next := s.next + 1 } s.next j = q.arr.getD j {} := by
        intro j; simp [slotOf, setArr]
      rw [e] at hj ⊢
      exact hl j hj
    case ins3 f n i hp =>
      exact main both (.inr (hidden_iff.2 ⟨t, by rw [hp]; rfl⟩)) (fun a ha => nofill rfl ha)
    case exp3 f n hp =>
      exact main both (.inr (hidden_iff.2 ⟨t, by rw [hp]; rfl⟩)) (fun a ha => nofill rfl ha)
    case free2 f tail i hp hf =>
      exact main (fun b hb => (both b hb).setSlot (fun e _ => absurd e.symm h.r0)) (.inl rfl) (fun a ha => nofill rfl ha)
    case clR f fn a i hp =>
      refine main (fun b hb => ?_) (.inl rfl) (fun a ha => nofill rfl ha)
      refine (both b hb).setSlot ?_
      intro e1 e2
      subst e2
      dsimp only at e1
      split at e1
      · exact absurd (by rw [hp, ← e1]; rfl) (hq f.c f.v)
      · exact both b hb i e1

theorem Gone.via {r : U64} {s s' : St} (h : Gone r s) (w : Via (NoSetStarts r) s s') : Gone r s' := by
  induction w with
  | refl => exact h
  | tail _ st hp ih => exact ih.step st hp

theorem skipBack_live {arr : List Slot} {i : Nat} (h : 0 < skipBack arr i) : (arr.getD (skipBack arr i) {}).deleted = false := by
  induction i with
  | zero => simp [skipBack] at h
  | succ i ih =>
    simp only [skipBack] at h ⊢
    split
    · rename_i hd; rw [if_pos hd] at h; exact ih h
    · rename_i hd; simpa using hd

theorem Gone.notFound {r : U64} {s : St} (h : Gone r s) (c : U64) : exactItem s r c = none := by
  unfold exactItem
  cases hl : (pool s).lookup r c with
  | none => rfl
  | some i =>
    exfalso
    obtain ⟨h1, _⟩ := lookup_slot hl
    obtain ⟨h2, h3⟩ := h.cur i h1
    unfold Pool.lookup at hl
    split at hl
    · cases hl
    · rename_i k hk
      split at hl
      · cases hl
        unfold Pool.bsearch at hk
        simp only at hk
        split at hk
        · injection hk with hk
          subst hk
          have := skipBack_live h2
          rw [show ((pool s).arr.getD _ {}) = slotOf s s.cur _ from rfl, h3] at this
          cases this
        · cases hk
      · cases hl

/-- The mark of a Delete takes effect at once when no array replacement is under way. -/
theorem Gone.mark {r : U64} {s s' : St} {t : Tid} {cl : Call} {i : Nat} (h0 : r ≠ 0) (hp : s.pc t = .mark cl s.cur i)
    (hi : 0 < i) (hlt : i < cap s) (hr : (slotOf s s.cur i).rev = r)
    (hu : ∀ j, j ≠ i → (slotOf s s.cur j).rev = r → 0 < j ∧ (slotOf s s.cur j).deleted = true)
    (hh : ∀ a, ¬ Hidden s a) (hs : NoSet r s) (st : Step s t s') : Gone r s' ∧ s'.pc t = .done (.bool true) := by
  have hn : NoSetStarts r s t s' := fun c v e => by rw [hp] at e; cases e
  have hcalls := noSet_step hs st hn
  cases st with
  | start hst => obtain ⟨hid, _, _⟩ := start_eq hst; rw [hp] at hid; cases hid
  | move _ hst =>
    unfold EConc.step at hst
    split at hst
    · cases hst
    · rw [hp] at hst
      have e := (Option.some.inj hst).symm
      subst e
      refine ⟨⟨h0, ?_, ?_, hcalls⟩, setPC_same _ _ _⟩
      · intro j
        show (slotOf (setSlot s s.cur i _) s.cur j).rev = r → 0 < j ∧ (slotOf (setSlot s s.cur i _) s.cur j).deleted = true
        rw [slotOf_setSlot]
        by_cases e : j = i
        · subst e
          rw [if_pos ⟨rfl, rfl, hlt⟩]
          exact fun _ => ⟨hi, rfl⟩
        · rw [if_neg (fun hc => e hc.2.1)]
          exact hu j e
      · intro a ha
        refine absurd ?_ (hh a)
        rw [hidden_iff] at ha ⊢
        obtain ⟨u, hu⟩ := ha
        by_cases e : u = t
        · subst e; simp [PC.fills] at hu
        · rw [setPC_other _ _ _ e] at hu; exact ⟨u, hu⟩

end SLM.EConc
