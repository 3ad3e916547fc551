import Verif.Proofs.RConc2
/-! The concurrent `RMap` model: what one step changes; promoted keys; frozen values; the lock. -/
set_option autoImplicit false
namespace SLM.RConc

variable {H : HashFns}

theorem step_other {st st' : St} {t u : Tid} {ch : Choice} (hst : step H ch st t = some st') (hu : u ≠ t) : st'.pc u = st.pc u := by
  unfold step at hst
  cases hpc : st.pc t <;> rw [hpc] at hst <;> simp only [reduceCtorEq] at hst <;>
    (repeat' split at hst) <;> first | (cases hst; simp [hu, store]) | cases hst

/-- The read map changes at two places only. -/
theorem step_read {st st' : St} {t : Tid} {ch : Choice} (hst : step H ch st t = some st') :
    st'.read = st.read ∨ (∃ s v, st.pc t = .s1 s v) ∨
      (∃ am k o m, st.pc t = .p4 am k o m ∧ st.read.map (·.id) = some o.id ∧
        st'.read = some { id := st.nextRM, m := m, amended := am || decide (o.m.length = 0) }) := by
  unfold step at hst
  cases hpc : st.pc t <;> rw [hpc] at hst <;> simp only [reduceCtorEq] at hst
  case s1 s v => exact Or.inr (Or.inl ⟨s, v, rfl⟩)
  case p4 am k o m =>
    split at hst <;> cases hst
    · next h => exact Or.inr (Or.inr ⟨am, k, o, m, rfl, h, rfl⟩)
    · exact Or.inl rfl
  all_goals
    refine Or.inl ?_
    (repeat' split at hst) <;> first | (cases hst; rfl) | cases hst

theorem step_ext {st st' : St} {t : Tid} {ch : Choice} (hst : step H ch st t = some st') : Ext st st' := by
  unfold step at hst
  cases hpc : st.pc t <;> rw [hpc] at hst <;> simp only [reduceCtorEq] at hst
  case s6 s v i =>
    split at hst <;> cases hst
    · refine ⟨Nat.le_refl _, fun _ h => h, fun j _ => ?_⟩
      simp only [setPC, store]; split
      · next hj => rw [hj]
      · rfl
    · exact ⟨Nat.le_refl _, fun _ h => h, fun _ _ => rfl⟩
  case s8 s v rm d =>
    split at hst
    · split at hst <;> cases hst
      · refine ⟨Nat.le_refl _, fun _ h => h, fun j _ => ?_⟩
        simp only [setPC, store]; split
        · next hj => rw [hj]
        · rfl
      · exact ⟨Nat.le_refl _, fun _ h => h, fun _ _ => rfl⟩
    · cases hst
      refine ⟨Nat.le_succ _, fun _ h => h, fun j hj => ?_⟩
      simp only [setPC]
      rw [if_neg (by omega)]
  case d6 s i =>
    cases hst
    refine ⟨Nat.le_refl _, fun _ h => h, fun j _ => ?_⟩
    simp only [setPC]; split
    · next hj => rw [hj]
    · rfl
  all_goals
    (repeat' split at hst) <;> first | (cases hst; exact ⟨Nat.le_refl _, fun _ h => h, fun _ _ => rfl⟩) | cases hst

theorem start_ext {st st' : St} {t : Tid} {cl : Call} (hst : start st t cl = some st') : Ext st st' := by
  obtain ⟨_, hc⟩ := start_eq hst
  rcases hc with ⟨s, v, _, rfl⟩ | ⟨s, _, rfl⟩ | ⟨s, _, rfl⟩
  · exact ⟨Nat.le_refl _, fun _ h => List.mem_cons_of_mem _ h, fun _ _ => rfl⟩
  · exact ⟨Nat.le_refl _, fun _ h => h, fun _ _ => rfl⟩
  · exact ⟨Nat.le_refl _, fun _ h => h, fun _ _ => rfl⟩

theorem start_other {st st' : St} {t u : Tid} {cl : Call} (hst : start st t cl = some st') (hu : u ≠ t) : st'.pc u = st.pc u := by
  obtain ⟨_, hc⟩ := start_eq hst
  rcases hc with ⟨s, v, _, rfl⟩ | ⟨s, _, rfl⟩ | ⟨s, _, rfl⟩ <;> simp [hu]

theorem start_self {st st' : St} {t : Tid} {cl : Call} (hst : start st t cl = some st') :
    st'.pc t = (match cl with | .set s v => .s0 s v | .get s => .g0 s | .delete s => .d0 s) := by
  obtain ⟨_, hc⟩ := start_eq hst
  rcases hc with ⟨s, v, rfl, rfl⟩ | ⟨s, rfl, rfl⟩ | ⟨s, rfl, rfl⟩ <;> simp

theorem start_read {st st' : St} {t : Tid} {cl : Call} (hst : start st t cl = some st') :
    st'.read = st.read ∧ st'.item = st.item ∧ st'.lock = st.lock ∧ st'.nextI = st.nextI ∧ st'.dirty = st.dirty ∧ st'.cur = st.cur := by
  obtain ⟨_, hc⟩ := start_eq hst
  rcases hc with ⟨s, v, _, rfl⟩ | ⟨s, _, rfl⟩ | ⟨s, _, rfl⟩ <;> exact ⟨rfl, rfl, rfl, rfl, rfl, rfl⟩

theorem Step.ext {st st' : St} {t : Tid} (h : Step H st t st') : Ext st st' := by
  cases h with
  | start h => exact start_ext h
  | move _ h => exact step_ext h

theorem Step.other {st st' : St} {t u : Tid} (h : Step H st t st') (hu : u ≠ t) : st'.pc u = st.pc u := by
  cases h with
  | start h => exact start_other h hu
  | move _ h => exact step_other h hu

theorem Steps.ext {st st' : St} (h : Steps H st st') : Ext st st' := by
  induction h with
  | refl => exact Ext.refl _
  | tail _ hs ih => exact ih.trans hs.ext

theorem Steps.trans {a b c : St} (h : Steps H a b) (h' : Steps H b c) : Steps H a c := by
  induction h' with
  | refl => exact h
  | tail _ hs ih => exact ih.tail hs

/-! ### Nobody is about to install the first read map -/

/-- The read map exists and nobody is about to replace it by an empty one. -/
def Ready (st : St) : Prop := st.read.isSome = true ∧ ∀ u s v, st.pc u ≠ .s1 s v

theorem step_s1 {st st' : St} {t : Tid} {ch : Choice} {s : Str} {v : IVal} (hst : step H ch st t = some st') (h : st'.pc t = .s1 s v) :
    st.read = none := by
  unfold step at hst
  cases hpc : st.pc t <;> rw [hpc] at hst <;> simp only [reduceCtorEq] at hst
  case s0 =>
    split at hst <;> cases hst
    · next hr => exact hr
    · exfalso
      simp only [setPC_pc, if_true, afterLoad] at h
      split at h <;> cases h
  case p8 k =>
    cases hst
    exfalso
    simp only [setPC_pc, if_true] at h
    cases k <;> cases h
  case s2 =>
    split at hst <;> cases hst
    exfalso
    simp only [setPC_pc, if_true, afterLoad] at h
    split at h <;> cases h
  all_goals
    exfalso
    (repeat' split at hst) <;>
      first | (cases hst; simp only [setPC_pc, if_true] at h; first | cases h | (split at h <;> cases h)) | cases hst

theorem Ready.step {st st' : St} {t : Tid} (hr : Ready st) (h : Step H st t st') : Ready st' := by
  cases h with
  | start h =>
    refine ⟨by rw [(start_read h).1]; exact hr.1, fun u s v he => ?_⟩
    by_cases hu : u = t
    · subst hu
      rw [start_self h] at he
      split at he <;> cases he
    · rw [start_other h hu] at he; exact hr.2 u s v he
  | move _ h =>
    constructor
    · rcases step_read h with h1 | ⟨s, v, h1⟩ | ⟨am, k, o, m, _, _, h1⟩
      · rw [h1]; exact hr.1
      · exact absurd h1 (hr.2 t s v)
      · rw [h1]; rfl
    · intro u s v he
      by_cases hu : u = t
      · subst hu
        have := step_s1 h he
        have h0 := hr.1
        rw [this] at h0
        cases h0
      · rw [step_other h hu] at he; exact hr.2 u s v he

theorem Ready.steps {st st' : St} (hr : Ready st) (h : Steps H st st') : Ready st' := by
  induction h with
  | refl => exact hr
  | tail _ hs ih => exact ih.step hs

/-! ### Promoted keys -/

/-- The read map has an item for the primary hash `x`. -/
def Has (st : St) (x : U64) : Prop := ∃ rm, st.read = some rm ∧ (mget rm.m x).isSome = true

theorem Has.step {st st' : St} {t : Tid} {x : U64} (hg : Good H st) (hr : Ready st) (hx : Has st x) (h : Step H st t st') : Has st' x := by
  obtain ⟨rm, h1, h2⟩ := hx
  cases h with
  | start h => exact ⟨rm, by rw [(start_read h).1]; exact h1, h2⟩
  | move _ h =>
    rcases step_read h with h3 | ⟨s, v, h3⟩ | ⟨am, k, o, m, h3, h4, h5⟩
    · exact ⟨rm, by rw [h3]; exact h1, h2⟩
    · exact absurd h3 (hr.2 t s v)
    · refine ⟨_, h5, ?_⟩
      have hs := hg.inv2.shp t
      have hb := (hg.inv2.bid t o (by rw [h3]; rfl)).2 rm h1 (by rw [h1] at h4; exact Option.some.inj h4)
      rw [h3] at hs
      exact hs.2 x (by rw [← hb]; exact h2)

theorem Has.steps {st st' : St} {x : U64} (hg : Good H st) (hr : Ready st) (hx : Has st x) (h : Steps H st st') : Has st' x := by
  induction h with
  | refl => exact hx
  | tail hh hs ih => exact Has.step (hh.good hg) (hr.steps hh) ih hs

/-- No key set so far has the primary hash of `q` and another secondary hash. -/
def Alone (H : HashFns) (st : St) (q : Str) : Prop := ∀ k v, (k, v) ∈ st.sets → H.mem k = H.mem q → H.xx k = H.xx q

/-- A Get of `q` that is not on the way to a fast answer. -/
def slowK (q : Str) : Cont → Bool
  | .ret (.get s) _ => decide (s = q)
  | .miss (.get s) _ => decide (s = q)
  | _ => false

def isFast : Res → Bool
  | .got _ true true => true
  | _ => false

def slowCl (q : Str) : Call → Bool
  | .get s => decide (s = q)
  | _ => false

def slow (q : Str) : PC → Bool
  | .g2 s => decide (s = q)
  | .g3 s => decide (s = q)
  | .g4 s _ => decide (s = q)
  | .g5 s _ => decide (s = q)
  | .g6 cl _ => slowCl q cl
  | .g7 cl _ => slowCl q cl
  | .p0 _ k => slowK q k
  | .p1 _ k => slowK q k
  | .p2 _ k _ => slowK q k
  | .p3 _ k _ _ => slowK q k
  | .p4 _ k _ _ => slowK q k
  | .p5 k => slowK q k
  | .p6 k => slowK q k
  | .p7 k => slowK q k
  | .p8 k => slowK q k
  | .ret (.get s) r => decide (s = q) && !isFast r
  | _ => false

theorem slow_resume {q : Str} {k : Cont} (h : slowK q k = false) : slow q (resume k) = false := by
  cases k with
  | store => rfl
  | ret cl r => cases cl <;> simp_all [slowK, resume, slow]
  | miss cl r => cases cl <;> simp_all [slowK, resume, slow, slowCl]

theorem slow_miss {q : Str} {cl : Call} {r : Res} (h : slowCl q cl = false) : slowK q (.miss cl r) = false := by
  cases cl <;> simp_all [slowK, slowCl]

theorem slow_ret {q : Str} {cl : Call} {r : Res} (h : slowCl q cl = false) : slow q (.ret cl r) = false := by
  cases cl <;> simp_all [slow, slowCl]

/-- A Get of a promoted key stays on the fast path. -/
theorem fast_step {st st' : St} {t : Tid} {ch : Choice} {q : Str}
    (ha : ∀ rm i, st.read = some rm → mget rm.m (H.mem q) = some i → H.xx (st.item i).key = H.xx q) (hx : Has st (H.mem q))
    (hf : slow q (st.pc t) = false) (hst : step H ch st t = some st') : slow q (st'.pc t) = false := by
  unfold step at hst
  cases hpc : st.pc t <;> rw [hpc] at hst hf <;> simp only [reduceCtorEq] at hst
  case g0 s =>
    obtain ⟨rm, h1, h2⟩ := hx
    rw [h1] at hst
    simp only at hst
    by_cases hs : s = q
    · subst hs
      cases hm : mget rm.m (H.mem s) with
      | none => rw [hm] at h2; cases h2
      | some i =>
        rw [hm] at hst
        simp only at hst
        rw [if_pos (ha rm i h1 hm)] at hst
        cases hst
        simp [slow]
    · (repeat' split at hst) <;> cases hst <;> simp only [setPC_pc, if_true] <;> first | rfl | simp [slow, hs] | (split <;> simp [slow, hs])
  case g1 s i => cases hst; simp [slow, isFast]
  case g2 s =>
    simp only [slow, decide_eq_false_iff_not] at hf
    split at hst
    · cases hst
    · split at hst <;> cases hst
      · simp [slow, hf]
      · simp only [setPC_pc, if_true]
        split <;> simp [slow, hf]
  case g4 s d =>
    simp only [slow, decide_eq_false_iff_not] at hf
    split at hst <;> cases hst <;> simp [slow, hf]
  case g3 s => cases hst; simpa [slow] using hf
  case g5 s i => cases hst; simpa [slow, slowCl] using hf
  case g6 cl r =>
    have hf : slowCl q cl = false := hf
    split at hst <;> cases hst <;> simp only [setPC_pc, if_true]
    · exact slow_miss hf
    · exact slow_ret hf
  case g7 cl r =>
    have hf : slowCl q cl = false := hf
    cases hst
    simp only [setPC_pc, if_true]
    exact slow_ret hf
  case p8 k =>
    cases hst
    simp only [setPC_pc, if_true]
    exact slow_resume hf
  case s0 s v =>
    split at hst <;> cases hst <;> simp only [setPC_pc, if_true]
    · rfl
    · unfold afterLoad; split <;> rfl
  case s2 s v =>
    split at hst <;> cases hst
    simp only [setPC_pc, if_true]
    unfold afterLoad; split <;> rfl
  all_goals
    (repeat' split at hst) <;>
      first | (cases hst; simp only [setPC_pc, if_true]; first | exact hf | rfl | (split <;> first | exact hf | rfl)) | cases hst

theorem Alone.read {st : St} {q : Str} (hg : Good H st) (ha : Alone H st q) :
    ∀ rm i, st.read = some rm → mget rm.m (H.mem q) = some i → H.xx (st.item i).key = H.xx q := by
  intro rm i h1 hm
  obtain ⟨a, b⟩ := hg.inv.glob.read rm h1 _ (mget_mem hm)
  obtain ⟨v, hv⟩ := hg.inv2.ikey i a
  exact ha _ v hv b

theorem Alone.back {a b : St} {q : Str} (h : Steps H a b) (hb : Alone H b q) : Alone H a q :=
  fun k v hk => hb k v (h.ext.sets _ hk)

theorem fast_steps {st st' : St} {t : Tid} {q : Str} (hg : Good H st) (hr : Ready st) (hx : Has st (H.mem q))
    (hf : slow q (st.pc t) = false) (hst : Steps H st st') (ha : Alone H st' q) : slow q (st'.pc t) = false := by
  induction hst with
  | refl => exact hf
  | @tail s1 s2 u hh hs ih =>
    have ha1 : Alone H s1 q := fun k v hk => ha k v (hs.ext.sets _ hk)
    have ih := ih ha1
    by_cases hu : t = u
    · subst hu
      cases hs with
      | start h =>
        rw [start_self h]
        split <;> rfl
      | move _ h => exact fast_step (ha1.read (hh.good hg)) (hx.steps hg hr hh) ih h
    · rw [hs.other hu]; exact ih

/-! ### Self-deadlock of Delete -/

theorem stuck_step {st st' : St} {t u : Tid} {am : Bool} {k : Cont} (hg : Good H st) (hp : st.pc t = .p0 am k) (hl : st.lock = some t)
    (h : Step H st u st') : st'.pc t = .p0 am k ∧ st'.lock = some t := by
  have hne : u ≠ t := by
    intro he; subst he
    cases h with
    | start h =>
      obtain ⟨h1, _⟩ := start_eq h
      rw [hp] at h1
      rcases h1 with h1 | ⟨_, _, h1⟩ <;> cases h1
    | move _ h =>
      unfold step at h
      rw [hp] at h
      simp only [hl, reduceCtorEq, if_false] at h
  refine ⟨by rw [h.other hne.symm]; exact hp, ?_⟩
  cases h with
  | start h => rw [(start_read h).2.2.1]; exact hl
  | move _ h =>
    have hnh : holds (st.pc u) = false := by
      cases hh : holds (st.pc u) with
      | false => rfl
      | true => have := (hg.inv2.lock u).1 hh; rw [hl] at this; exact absurd (Option.some.inj this).symm hne
    unfold step at h
    cases hpc : st.pc u <;> rw [hpc] at h hnh <;> simp only [reduceCtorEq] at h
    case p5 => cases hnh
    case p8 => cases hnh
    case d8 => cases hnh
    all_goals
      (repeat' split at h) <;> first | (cases h; done) | (next he => exact absurd (hl.symm.trans he) (by simp)) | (cases h; exact hl)

theorem stuck_steps {st st' : St} {t : Tid} {am : Bool} {k : Cont} (hg : Good H st) (hp : st.pc t = .p0 am k) (hl : st.lock = some t)
    (h : Steps H st st') : st'.pc t = .p0 am k ∧ st'.lock = some t := by
  induction h with
  | refl => exact ⟨hp, hl⟩
  | tail hh hs ih => exact stuck_step (hh.good hg) ih.1 ih.2 hs

end SLM.RConc
