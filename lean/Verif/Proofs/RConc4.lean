import Verif.Proofs.RConc3
/-! The concurrent `RMap` model: frozen values, progress. -/
set_option autoImplicit false
namespace SLM.RConc

variable {H : HashFns}

/-! ### What a step does to items and dirty maps -/

theorem step_val {st st' : St} {t : Tid} {ch : Choice} (hst : step H ch st t = some st') (i : Nat) :
    (st'.item i).val = (st.item i).val ∨ st.nextI ≤ i ∨ (∃ s v, st.pc t = .s6 s v i) ∨ (∃ s v rm d, st.pc t = .s8 s v rm d ∧ ch.found = some i) := by
  unfold step at hst
  cases hpc : st.pc t <;> rw [hpc] at hst <;> simp only [reduceCtorEq] at hst
  case s6 s v j =>
    by_cases hj : i = j
    · subst hj; exact Or.inr (Or.inr (Or.inl ⟨s, v, rfl⟩))
    · left
      split at hst <;> cases hst
      · simp [setPC, store, hj]
      · rfl
  case s8 s v rm d =>
    split at hst
    · next j hf =>
      by_cases hj : i = j
      · subst hj; exact Or.inr (Or.inr (Or.inr ⟨s, v, rm, d, rfl, hf⟩))
      · left
        split at hst <;> cases hst
        · simp [setPC, store, hj]
        · rfl
    · cases hst
      by_cases hj : i = st.nextI
      · exact Or.inr (Or.inl (by omega))
      · left; simp [setPC, hj]
  case d6 s j =>
    cases hst
    left
    simp only [setPC]; split
    · next hj => rw [hj]
    · rfl
  all_goals
    left
    (repeat' split at hst) <;> first | (cases hst; rfl) | cases hst

theorem step_dirty {st st' : St} {t : Tid} {ch : Choice} (hst : step H ch st t = some st') (d j : Nat) (hj : j ∈ st'.dirty d) :
    j ∈ st.dirty d ∨ (∃ s v rm, st.pc t = .s8 s v rm d ∧ j = st.nextI ∧ (st'.item j).key = s) := by
  unfold step at hst
  cases hpc : st.pc t <;> rw [hpc] at hst <;> simp only [reduceCtorEq] at hst
  case s8 s v rm e =>
    split at hst
    · split at hst <;> cases hst <;> exact Or.inl hj
    · cases hst
      simp only [setPC] at hj
      split at hj
      · next he =>
        rcases List.mem_append.1 hj with hj | hj
        · left; rw [he.1]; exact hj
        · simp only [List.mem_singleton] at hj
          right
          refine ⟨s, v, rm, by rw [he.1], hj, by simp [setPC, hj]⟩
      · exact Or.inl hj
  case p6 k =>
    cases hst
    simp only [setPC] at hj
    split at hj
    · simp at hj
    · exact Or.inl hj
  all_goals
    left
    (repeat' split at hst) <;> first | (cases hst; exact hj) | cases hst

theorem step_cur {st st' : St} {t : Tid} {ch : Choice} (hst : step H ch st t = some st') :
    st'.cur = st.cur ∨ (∃ k, st.pc t = .p6 k ∧ st'.dirty st'.cur = []) := by
  unfold step at hst
  cases hpc : st.pc t <;> rw [hpc] at hst <;> simp only [reduceCtorEq] at hst
  case p6 k =>
    cases hst
    exact Or.inr ⟨k, rfl, by simp [setPC]⟩
  all_goals
    left
    (repeat' split at hst) <;> first | (cases hst; rfl) | cases hst

theorem mget_mput_ne {m : List (U64 × Nat)} {k x : U64} {i : Nat} (h : k ≠ x) : mget (mput m k i) x = mget m x := by
  unfold mget mput
  simp only [List.find?_cons, h, decide_false]
  congr 1
  induction m with
  | nil => rfl
  | cons p m ih =>
    by_cases hp : p.1 = k
    · have : p.1 ≠ x := fun he => h (hp.symm.trans he)
      simp [List.filter_cons, hp, List.find?_cons, h, this] at ih ⊢
      exact ih
    · by_cases hx : p.1 = x
      · simp [hx, show ¬ x = k from fun he => h he.symm]
      · simp [List.filter_cons, hp, List.find?_cons, hx] at ih ⊢
        exact ih

theorem merge_other {item : Nat → Itm} {x : U64} : ∀ (l : List Nat) (m : List (U64 × Nat)), (∀ j ∈ l, H.mem (item j).key ≠ x) →
    mget (merge H item m l) x = mget m x
  | [], _, _ => rfl
  | j :: l, m, h => by
    show mget (merge H item (mput m (H.mem (item j).key) j) l) x = _
    rw [merge_other l _ (fun i hi => h i (by simp [hi])), mget_mput_ne (h j (by simp))]

/-! ### Frozen values -/

/-- The continuation stores a key with primary hash `x`. -/
def KeyK (H : HashFns) (x : U64) : Cont → Prop
  | .store s _ _ => H.mem s ≠ x
  | _ => True

def Fz (H : HashFns) (st : St) (x : U64) (i : Nat) : PC → Prop
  | .s4 s _ _ => H.mem s ≠ x
  | .s5 s _ _ _ => H.mem s ≠ x
  | .s6 s _ _ => H.mem s ≠ x
  | .s7 s _ _ => H.mem s ≠ x
  | .s8 s _ _ _ => H.mem s ≠ x
  | .p0 _ k => KeyK H x k
  | .p1 _ k => KeyK H x k
  | .p2 _ k o => KeyK H x k ∧ mget o.m x = some i
  | .p3 _ k o d => KeyK H x k ∧ mget o.m x = some i ∧ ∀ j ∈ st.dirty d, H.mem (st.item j).key ≠ x
  | .p4 _ k o m => KeyK H x k ∧ mget o.m x = some i ∧ mget m x = some i
  | .p5 k => KeyK H x k
  | .p6 k => KeyK H x k
  | .p7 k => KeyK H x k
  | .p8 k => KeyK H x k
  | _ => True

structure Frozen (H : HashFns) (x : U64) (i : Nat) (w : IVal) (st : St) : Prop where
  read : ∃ rm, st.read = some rm ∧ mget rm.m x = some i
  val : (st.item i).val = w
  cur : ∀ j ∈ st.dirty st.cur, H.mem (st.item j).key ≠ x
  loc : ∀ u, Fz H st x i (st.pc u)

/-- Dirty maps get no new item of primary hash `x`. -/
def NoNew (H : HashFns) (x : U64) (a b : St) : Prop :=
  ∀ d, (∀ j ∈ a.dirty d, H.mem (a.item j).key ≠ x) → ∀ j ∈ b.dirty d, H.mem (b.item j).key ≠ x

theorem Fz.mono {a b : St} {x : U64} {i : Nat} {p : PC} (hn : NoNew H x a b) (h : Fz H a x i p) : Fz H b x i p := by
  cases p <;> first | exact h | exact ⟨h.1, h.2.1, hn _ h.2.2⟩

theorem Fz.of {a b : St} {x : U64} {i : Nat} {p : PC} (h : Fz H a x i p) (hd : b.dirty = a.dirty) (hi : b.item = a.item) : Fz H b x i p :=
  h.mono (by intro d hd' j hj; rw [hd] at hj; rw [hi]; exact hd' j hj)

theorem fz_afterLoad {st : St} {x : U64} {i : Nat} {s : Str} {v : IVal} {rm : RM} (h : mget rm.m x = some i) :
    Fz H st x i (afterLoad H s v rm) := by
  unfold afterLoad
  split
  · trivial
  · next hn =>
    intro he
    rw [he, h] at hn
    exact hn rfl

theorem fz_step {st st' : St} {t : Tid} {ch : Choice} {x : U64} {i : Nat} {w : IVal} (hs : Seen H st t ch) (hf : Frozen H x i w st)
    (hnew : NoNew H x st st') (hst : step H ch st t = some st') : Fz H st' x i (st'.pc t) := by
  obtain ⟨rm0, hr0, hm0⟩ := hf.read
  have hl := hf.loc t
  unfold step at hst
  cases hpc : st.pc t <;> rw [hpc] at hst hl <;> simp only [reduceCtorEq] at hst
  case s0 s v =>
    rw [hr0] at hst; cases hst
    simp only [setPC_pc, if_true]
    exact fz_afterLoad hm0
  case s2 s v =>
    rw [hr0] at hst; cases hst
    simp only [setPC_pc, if_true]
    exact fz_afterLoad hm0
  case p1 am k =>
    rw [hr0] at hst; cases hst
    simp only [setPC_pc, if_true]
    exact ⟨hl, hm0⟩
  case p2 am k o =>
    cases hst
    simp only [setPC_pc, if_true]
    exact ⟨hl.1, hl.2, hf.cur⟩
  case p3 am k o d =>
    split at hst <;> cases hst <;> simp only [setPC_pc, if_true]
    · exact hl.1
    · refine ⟨hl.1, hl.2.1, ?_⟩
      rw [merge_other]
      · exact hl.2.1
      · intro j hj
        exact hl.2.2 j (hs.visit d (by rw [hpc]; rfl) j hj)
  case p4 am k o m =>
    split at hst <;> cases hst <;> simp only [setPC_pc, if_true]
    · exact hl.1
    · exact hl.1
  case p8 k =>
    cases hst
    simp only [setPC_pc, if_true]
    cases k
    · exact hl
    · trivial
    · trivial
  case s5 s v rm d =>
    split at hst <;> cases hst <;> simp only [setPC_pc, if_true]
    · exact hl
    · split
      · exact hl
      · exact hl
  case g6 cl r =>
    split at hst <;> cases hst <;> simp only [setPC_pc, if_true] <;> trivial
  case d7 s =>
    split at hst <;> cases hst <;> simp only [setPC_pc, if_true] <;> trivial
  all_goals
    (repeat' split at hst) <;>
      first | (cases hst; done) | (cases hst; simp only [setPC_pc, if_true]; first | trivial | exact hl | (split <;> first | trivial | exact hl))

theorem Frozen.step {st st' : St} {t : Tid} {x : U64} {i : Nat} {w : IVal} (hg : Good H st) (hr : Ready st) (hf : Frozen H x i w st)
    (h : Step H st t st') : Frozen H x i w st' := by
  obtain ⟨rm0, hr0, hm0⟩ := hf.read
  have hi0 := hg.inv.glob.read rm0 hr0 _ (mget_mem hm0)
  cases h with
  | start h =>
    obtain ⟨a, b, c, d, e, f⟩ := start_read h
    refine ⟨⟨rm0, by rw [a]; exact hr0, hm0⟩, by rw [b]; exact hf.val, by rw [e, f, b]; exact hf.cur, fun u => ?_⟩
    by_cases hu : u = t
    · subst hu
      rw [start_self h]
      split <;> trivial
    · rw [start_other h hu]; exact (hf.loc u).of e b
  | move hs h =>
    have hl := hf.loc t
    have hnew : NoNew H x st st' := by
      intro d hd j hj
      rcases step_dirty h d j hj with h1 | ⟨s, v, rm, h1, h2, h3⟩
      · rw [(step_ext h).key j (hg.inv.glob.dirty d j h1)]; exact hd j h1
      · rw [h3]
        rw [h1] at hl; exact hl
    refine ⟨?_, ?_, ?_, ?_⟩
    · rcases step_read h with h3 | ⟨s, v, h3⟩ | ⟨am, k, o, m, h3, h4, h5⟩
      · exact ⟨rm0, by rw [h3]; exact hr0, hm0⟩
      · exact absurd h3 (hr.2 t s v)
      · rw [h3] at hl
        exact ⟨_, h5, hl.2.2⟩
    · rcases step_val h i with h3 | h3 | ⟨s, v, h3⟩ | ⟨s, v, rm, d, h3, h4⟩
      · rw [h3]; exact hf.val
      · have := hi0.1; omega
      · exfalso
        have hloc := hg.inv.loc t
        rw [h3] at hloc hl
        exact hl (hloc.2.2.1.symm.trans hi0.2)
      · exfalso
        rw [h3] at hl
        have := (hs.found s d (by rw [h3]; rfl) i h4).2.1
        exact hl (this.symm.trans hi0.2)
    · rcases step_cur h with h3 | ⟨k, h3, h4⟩
      · rw [h3]; exact hnew _ hf.cur
      · rw [h4]; intro j hj; simp at hj
    · intro u
      by_cases hu : u = t
      · subst hu; exact fz_step hs hf hnew h
      · rw [step_other h hu]; exact (hf.loc u).mono hnew

theorem Frozen.steps {st st' : St} {x : U64} {i : Nat} {w : IVal} (hg : Good H st) (hr : Ready st) (hf : Frozen H x i w st)
    (h : Steps H st st') : Frozen H x i w st' := by
  induction h with
  | refl => exact hf
  | tail hh hs ih => exact ih.step (hh.good hg) (hr.steps hh) hs

/-- No call is in progress. -/
def Quiet (st : St) : Prop := ∀ u, st.pc u = .idle ∨ ∃ cl r, st.pc u = .ret cl r

theorem Quiet.frozen {st : St} {x : U64} {i : Nat} {rm : RM} (hq : Quiet st) (hr : st.read = some rm) (hm : mget rm.m x = some i)
    (hc : ∀ j ∈ st.dirty st.cur, H.mem (st.item j).key ≠ x) : Frozen H x i (st.item i).val st :=
  ⟨⟨rm, hr, hm⟩, rfl, hc, fun u => by rcases hq u with h | ⟨_, _, h⟩ <;> rw [h] <;> trivial⟩

theorem Quiet.ready {st : St} (hq : Quiet st) (hr : st.read.isSome = true) : Ready st :=
  ⟨hr, fun u s v he => by rcases hq u with h | ⟨_, _, h⟩ <;> rw [h] at he <;> cases he⟩

/-- A Get of `q` under way reads item `i`; its answer is `w`. -/
def Tg (q : Str) (i : Nat) (w : IVal) : PC → Prop
  | .g1 s j => s = q → j = i
  | .ret (.get s) r => s = q → r = .got w true true
  | _ => True

theorem Tg.step {st st' : St} {t : Tid} {q : Str} {i : Nat} {w : IVal} (hf : Frozen H (H.mem q) i w st) (hx : H.xx (st.item i).key = H.xx q)
    (hsl : slow q (st.pc t) = false) (hT : Tg q i w (st.pc t)) {ch : Choice} (h : step H ch st t = some st') :
    Tg q i w (st'.pc t) := by
  obtain ⟨rm0, hr0, hm0⟩ := hf.read
  unfold RConc.step at h
  cases hpc : st.pc t <;> rw [hpc] at h hT hsl <;> simp only [reduceCtorEq] at h
  case g0 s =>
    rw [hr0] at h
    simp only at h
    by_cases hs : s = q
    · subst hs
      rw [hm0] at h
      simp only [hx, if_true] at h
      cases h
      simp [Tg]
    · (repeat' split at h) <;> cases h <;> simp only [setPC_pc, if_true] <;> first | (simp [Tg, hs]; done) | (split <;> simp [Tg, hs])
  case g1 s j =>
    cases h
    simp only [setPC_pc, if_true, Tg]
    intro he
    rw [hT he, hf.val]
  case g6 cl r =>
    split at h <;> cases h <;> simp only [setPC_pc, if_true]
    · trivial
    · cases cl <;> simp only [Tg]
      intro he
      simp [slow, slowCl, he] at hsl
  case g7 cl r =>
    cases h
    simp only [setPC_pc, if_true]
    cases cl <;> simp only [Tg]
    intro he
    simp [slow, slowCl, he] at hsl
  case p8 k =>
    cases h
    simp only [setPC_pc, if_true]
    cases k with
    | store => trivial
    | miss => trivial
    | ret cl r =>
      cases cl <;> simp only [Tg, resume]
      intro he
      simp [slow, slowK, he] at hsl
  case s0 s v =>
    rw [hr0] at h; cases h
    simp only [setPC_pc, if_true, afterLoad]
    split <;> trivial
  case s2 s v =>
    rw [hr0] at h; cases h
    simp only [setPC_pc, if_true, afterLoad]
    split <;> trivial
  case g2 s =>
    have hs : s ≠ q := by simpa [slow] using hsl
    (repeat' split at h) <;> first | (cases h; done) | (cases h; simp only [setPC_pc, if_true]; first | (simp [Tg, hs]; done) | (split <;> simp [Tg, hs]))
  case g4 s d =>
    have hs : s ≠ q := by simpa [slow] using hsl
    (repeat' split at h) <;> first | (cases h; done) | (cases h; simp only [setPC_pc, if_true]; first | (simp [Tg, hs]; done) | (split <;> simp [Tg, hs]))
  all_goals
    (repeat' split at h) <;>
      first | (cases h; done) | (cases h; simp only [setPC_pc, if_true]; first | trivial | (split <;> trivial))

theorem frozen_get {st st' : St} {t : Tid} {q : Str} {i : Nat} {w : IVal} (hg : Good H st) (hr : Ready st)
    (hf : Frozen H (H.mem q) i w st) (hx : H.xx (st.item i).key = H.xx q) (hs : slow q (st.pc t) = false) (hT : Tg q i w (st.pc t))
    (h : Steps H st st') : slow q (st'.pc t) = false ∧ Tg q i w (st'.pc t) := by
  induction h with
  | refl => exact ⟨hs, hT⟩
  | @tail s1 s2 u hh hst ih =>
    have hf1 := hf.steps hg hr hh
    have hx1 : H.xx (s1.item i).key = H.xx q := by
      obtain ⟨rm0, hr0, hm0⟩ := hf.read
      rw [hh.ext.key i (hg.inv.glob.read rm0 hr0 _ (mget_mem hm0)).1]; exact hx
    by_cases hu : t = u
    · subst hu
      cases hst with
      | start h =>
        rw [start_self h]
        constructor <;> split <;> trivial
      | move _ h =>
        obtain ⟨rm0, hr0, hm0⟩ := hf1.read
        refine ⟨fast_step ?_ ⟨rm0, hr0, by rw [hm0]; rfl⟩ ih.1 h, Tg.step hf1 hx1 ih.1 ih.2 h⟩
        intro rm j h1 h2
        rw [hr0] at h1; cases h1
        rw [hm0] at h2; cases h2
        exact hx1
    · rw [hst.other hu]; exact ih

/-! ### Progress -/

/-- A call is in progress. -/
def inCall : PC → Bool
  | .idle => false
  | .ret _ _ => false
  | _ => true

/-- Waits for the lock. -/
def waits : PC → Bool
  | .p0 _ _ => true
  | .p7 _ => true
  | .d1 _ => true
  | _ => false

theorem can_move {st : St} {t : Tid} (hg : Good H st) (hc : inCall (st.pc t) = true) (hw : waits (st.pc t) = false ∨ st.lock = none) (ch : Choice) :
    ∃ st', step H ch st t = some st' := by
  have hld := hg.inv2.ld t
  cases hr : st.read with
  | none =>
    rw [hr] at hld
    cases hpc : st.pc t <;> rw [hpc] at hld hc hw <;> first | (cases hc; done) | (simp [loaded] at hld; done) | (unfold step; rw [hpc]; simp [hr])
  | some rm =>
    unfold step
    cases hpc : st.pc t <;> rw [hpc] at hc hw <;> simp only [waits, inCall, reduceCtorEq, Bool.true_eq_false, false_or] at hc hw <;>
      simp only [hr] <;> (try simp only [hw, if_true]) <;> (repeat' split) <;> exact ⟨_, rfl⟩

/-- Own steps left, if no CompareAndSwap fails. -/
def muK : Cont → Nat
  | .store _ _ _ => 11
  | .ret _ _ => 0
  | .miss _ _ => 1

def mu : PC → Nat
  | .idle => 0
  | .ret _ _ => 0
  | .s0 _ _ => 25
  | .s1 _ _ => 24
  | .s2 _ _ => 23
  | .s4 _ _ _ => 22
  | .s5 _ _ _ _ => 21
  | .s6 _ _ _ => 1
  | .s7 _ _ _ => 11
  | .s8 _ _ _ _ => 10
  | .p0 _ k => muK k + 9
  | .p1 _ k => muK k + 8
  | .p2 _ k _ => muK k + 7
  | .p3 _ k _ _ => muK k + 6
  | .p4 _ k _ _ => muK k + 5
  | .p5 k => muK k + 4
  | .p6 k => muK k + 3
  | .p7 k => muK k + 2
  | .p8 k => muK k + 1
  | .g0 _ => 16
  | .g1 _ _ => 1
  | .g2 _ => 15
  | .g3 _ => 14
  | .g4 _ _ => 13
  | .g5 _ _ => 12
  | .g6 _ _ => 11
  | .g7 _ _ => 1
  | .d0 _ => 18
  | .d1 _ => 17
  | .d2 _ => 16
  | .d3 _ => 15
  | .d4 _ _ => 14
  | .d5 _ _ _ => 13
  | .d6 _ _ => 12
  | .d7 _ => 11
  | .d8 _ => 1

/-- The read map exists, nobody is about to install an empty one, and promotions under way start from the current one. -/
def Calm (st : St) : Prop := Ready st ∧ ∀ u o, base (st.pc u) = some o → st.read = some o

theorem step_base {st st' : St} {t : Tid} {ch : Choice} {o : RM} (hst : step H ch st t = some st') (h : base (st'.pc t) = some o) :
    st'.read = st.read ∧ (st.read = some o ∨ base (st.pc t) = some o) := by
  unfold step at hst
  cases hpc : st.pc t <;> rw [hpc] at hst <;> simp only [reduceCtorEq] at hst
  case p1 am k =>
    split at hst <;> cases hst
    next ho =>
      simp only [setPC_pc, if_true, base] at h
      cases h
      exact ⟨rfl, Or.inl ho⟩
  case p2 am k o' =>
    cases hst
    simp only [setPC_pc, if_true, base] at h
    cases h
    exact ⟨rfl, Or.inr rfl⟩
  case p3 am k o' d =>
    split at hst <;> cases hst <;> simp only [setPC_pc, if_true, base] at h
    · cases h
    · cases h; exact ⟨rfl, Or.inr rfl⟩
  case p8 k =>
    cases hst
    simp only [setPC_pc, if_true] at h
    cases k <;> cases h
  case s0 s v =>
    split at hst <;> cases hst <;> simp only [setPC_pc, if_true, afterLoad] at h
    · cases h
    · split at h <;> cases h
  case s2 s v =>
    split at hst <;> cases hst
    simp only [setPC_pc, if_true, afterLoad] at h
    split at h <;> cases h
  all_goals
    exfalso
    (repeat' split at hst) <;>
      first | (cases hst; done) | (cases hst; simp only [setPC_pc, if_true] at h; first | (cases h; done) | (split at h <;> cases h))

theorem Calm.step {st st' : St} {t : Tid} (hg : Good H st) (hc : Calm st) (h : Step H st t st') : Calm st' := by
  refine ⟨hc.1.step h, fun u o ho => ?_⟩
  cases h with
  | start h =>
    rw [(start_read h).1]
    by_cases hu : u = t
    · subst hu
      rw [start_self h] at ho
      split at ho <;> cases ho
    · rw [start_other h hu] at ho; exact hc.2 u o ho
  | move _ h =>
    by_cases hu : u = t
    · subst hu
      obtain ⟨h1, h2⟩ := step_base h ho
      rw [h1]
      rcases h2 with h2 | h2
      · exact h2
      · exact hc.2 u o h2
    · rw [step_other h hu] at ho
      rcases step_read h with h3 | ⟨s, v, h3⟩ | ⟨am, k, o', m, h3, h4, h5⟩
      · rw [h3]; exact hc.2 u o ho
      · exact absurd h3 (hc.1.2 t s v)
      · exfalso
        have a := (hg.inv2.lock t).1 (by rw [h3]; rfl)
        have b := (hg.inv2.lock u).1 (by cases hp : st.pc u <;> rw [hp] at ho <;> first | rfl | cases ho)
        rw [a] at b
        exact hu (Option.some.inj b).symm

theorem step_mu {st st' : St} {t : Tid} {ch : Choice} (hc : Calm st) (hst : step H ch st t = some st') : mu (st'.pc t) < mu (st.pc t) := by
  unfold step at hst
  cases hpc : st.pc t <;> rw [hpc] at hst <;> simp only [reduceCtorEq] at hst
  case p4 am k o m =>
    have := hc.2 t o (by rw [hpc]; rfl)
    rw [if_pos (by rw [this]; rfl)] at hst
    cases hst
    simp [mu]
  case p8 k => cases hst; cases k <;> simp [mu, muK, resume]
  case s0 s v =>
    split at hst <;> cases hst <;> simp only [setPC_pc, if_true, afterLoad]
    · simp [mu]
    · split <;> simp [mu]
  case s2 s v =>
    split at hst <;> cases hst <;> simp only [setPC_pc, if_true, afterLoad]
    split <;> simp [mu]
  all_goals
    (repeat' split at hst) <;>
      first | (cases hst; done) | (cases hst; simp only [setPC_pc, if_true]; first | (simp [mu, muK]; done) | (split <;> simp [mu, muK]))

theorem start_mu {st st' : St} {t : Tid} {cl : Call} (h : start st t cl = some st') : mu (st'.pc t) ≤ 25 := by
  rw [start_self h]
  split <;> simp [mu]

/-- `n` own steps of `t` within one call, the other goroutines doing whatever they do. -/
inductive Own (H : HashFns) (t : Tid) : Nat → St → St → Prop
  | refl {s} : Own H t 0 s s
  | own {n s s1 ch s2} (h : Own H t n s s1) (hs : Seen H s1 t ch) (st : RConc.step H ch s1 t = some s2) : Own H t (n + 1) s s2
  | other {n s s1 u s2} (h : Own H t n s s1) (hu : u ≠ t) (st : Step H s1 u s2) : Own H t n s s2

theorem Own.steps {t : Tid} {n : Nat} {s s' : St} (h : Own H t n s s') : Steps H s s' := by
  induction h with
  | refl => exact .refl
  | own _ hs hst ih => exact ih.tail (.move hs hst)
  | other _ _ hst ih => exact ih.tail hst

theorem own_bound {t : Tid} {n : Nat} {s s' : St} (hg : Good H s) (hc : Calm s) (h : Own H t n s s') :
    Calm s' ∧ n + mu (s'.pc t) ≤ mu (s.pc t) := by
  induction h with
  | refl => exact ⟨hc, by simp⟩
  | own hh hs hst ih =>
    have ih := ih hg hc
    have := step_mu ih.1 hst
    exact ⟨ih.1.step (hh.steps.good hg) (.move hs hst), by omega⟩
  | other hh hu hst ih =>
    have ih := ih hg hc
    rw [hst.other hu.symm]
    exact ⟨ih.1.step (hh.steps.good hg) hst, ih.2⟩

end SLM.RConc
