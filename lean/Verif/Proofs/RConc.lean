import Verif.Model.RConc
/-! Invariants of the concurrent `RMap` model: where items and values come from, for all schedules. -/
set_option autoImplicit false
namespace SLM.RConc

variable {H : HashFns}

/-- `s` grows into `s'`: items keep their keys. -/
structure Ext (a b : St) : Prop where
  next : a.nextI ≤ b.nextI
  sets : ∀ x ∈ a.sets, x ∈ b.sets
  key : ∀ i, i < a.nextI → (b.item i).key = (a.item i).key

theorem Ext.refl (a : St) : Ext a a := ⟨Nat.le_refl _, fun _ h => h, fun _ _ => rfl⟩
theorem Ext.trans {a b c : St} (h : Ext a b) (h' : Ext b c) : Ext a c :=
  ⟨Nat.le_trans h.next h'.next, fun x hx => h'.sets x (h.sets x hx),
    fun i hi => (h'.key i (Nat.lt_of_lt_of_le hi h.next)).trans (h.key i hi)⟩

/-- A Set of a key with the hashes of `s` was called with the value `v` (nil is not accounted for). -/
def Given (H : HashFns) (st : St) (s : Str) (v : IVal) : Prop :=
  v = none ∨ ∃ q, (q, v) ∈ st.sets ∧ H.mem q = H.mem s ∧ H.xx q = H.xx s

def IdOk (H : HashFns) (st : St) (s : Str) (i : Nat) : Prop :=
  i < st.nextI ∧ H.mem (st.item i).key = H.mem s ∧ H.xx (st.item i).key = H.xx s

def MOk (H : HashFns) (st : St) (m : List (U64 × Nat)) : Prop :=
  ∀ p ∈ m, p.2 < st.nextI ∧ H.mem (st.item p.2).key = p.1

def ResOk (H : HashFns) (st : St) (cl : Call) (r : Res) : Prop :=
  ∀ v c, r = .got v c true → ∃ s, cl = .get s ∧ Given H st s v

def ContOk (H : HashFns) (st : St) : Cont → Prop
  | .store s v rm => (s, v) ∈ st.sets ∧ MOk H st rm.m
  | .ret cl r => ResOk H st cl r
  | .miss cl r => ResOk H st cl r

/-- What a goroutine knows at each point. -/
def Loc (H : HashFns) (st : St) : PC → Prop
  | .idle => True
  | .ret cl r => ResOk H st cl r
  | .s0 s v => (s, v) ∈ st.sets
  | .s1 s v => (s, v) ∈ st.sets
  | .s2 s v => (s, v) ∈ st.sets
  | .s4 s v rm => (s, v) ∈ st.sets ∧ MOk H st rm.m
  | .s5 s v rm _ => (s, v) ∈ st.sets ∧ MOk H st rm.m
  | .s6 s v i => (s, v) ∈ st.sets ∧ IdOk H st s i
  | .s7 s v rm => (s, v) ∈ st.sets ∧ MOk H st rm.m
  | .s8 s v rm _ => (s, v) ∈ st.sets ∧ MOk H st rm.m
  | .p0 _ k => ContOk H st k
  | .p1 _ k => ContOk H st k
  | .p2 _ k o => ContOk H st k ∧ MOk H st o.m
  | .p3 _ k o _ => ContOk H st k ∧ MOk H st o.m
  | .p4 _ k o m => ContOk H st k ∧ MOk H st o.m ∧ MOk H st m
  | .p5 k => ContOk H st k
  | .p6 k => ContOk H st k
  | .p7 k => ContOk H st k
  | .p8 k => ContOk H st k
  | .g0 _ => True
  | .g1 s i => IdOk H st s i
  | .g2 _ => True
  | .g3 _ => True
  | .g4 _ _ => True
  | .g5 s i => IdOk H st s i
  | .g6 cl r => ResOk H st cl r
  | .g7 cl r => ResOk H st cl r
  | .d0 _ => True
  | .d1 _ => True
  | .d2 _ => True
  | .d3 _ => True
  | .d4 _ _ => True
  | .d5 s _ i => IdOk H st s i
  | .d6 s i => IdOk H st s i
  | .d7 _ => True
  | .d8 _ => True

structure Glob (H : HashFns) (st : St) : Prop where
  item : ∀ i, i < st.nextI → Given H st (st.item i).key (st.item i).val
  dirty : ∀ d, ∀ i ∈ st.dirty d, i < st.nextI
  read : ∀ rm, st.read = some rm → MOk H st rm.m

theorem Given.mono {a b : St} (e : Ext a b) {s : Str} {v : IVal} (h : Given H a s v) : Given H b s v := by
  rcases h with h | ⟨q, h1, h2⟩
  · exact Or.inl h
  · exact Or.inr ⟨q, e.sets _ h1, h2⟩

theorem IdOk.mono {a b : St} (e : Ext a b) {s : Str} {i : Nat} (h : IdOk H a s i) : IdOk H b s i := by
  obtain ⟨h1, h2⟩ := h
  exact ⟨Nat.lt_of_lt_of_le h1 e.next, by rw [e.key i h1]; exact h2⟩

theorem MOk.mono {a b : St} (e : Ext a b) {m : List (U64 × Nat)} (h : MOk H a m) : MOk H b m := by
  intro p hp
  obtain ⟨h1, h2⟩ := h p hp
  exact ⟨Nat.lt_of_lt_of_le h1 e.next, by rw [e.key _ h1]; exact h2⟩

theorem ResOk.mono {a b : St} (e : Ext a b) {cl : Call} {r : Res} (h : ResOk H a cl r) : ResOk H b cl r := by
  intro v c hr
  obtain ⟨s, h1, h2⟩ := h v c hr
  exact ⟨s, h1, h2.mono e⟩

theorem ContOk.mono {a b : St} (e : Ext a b) {k : Cont} (h : ContOk H a k) : ContOk H b k := by
  cases k with
  | store s v rm => exact ⟨e.sets _ h.1, h.2.mono e⟩
  | ret cl r => exact ResOk.mono e h
  | miss cl r => exact ResOk.mono e h

theorem Loc.mono {a b : St} (e : Ext a b) {p : PC} (h : Loc H a p) : Loc H b p := by
  cases p <;> simp only [Loc] at h ⊢
  case ret => exact h.mono e
  case s0 => exact e.sets _ h
  case s1 => exact e.sets _ h
  case s2 => exact e.sets _ h
  case s4 => exact ⟨e.sets _ h.1, h.2.mono e⟩
  case s5 => exact ⟨e.sets _ h.1, h.2.mono e⟩
  case s6 => exact ⟨e.sets _ h.1, h.2.mono e⟩
  case s7 => exact ⟨e.sets _ h.1, h.2.mono e⟩
  case s8 => exact ⟨e.sets _ h.1, h.2.mono e⟩
  case p0 => exact h.mono e
  case p1 => exact h.mono e
  case p2 => exact ⟨h.1.mono e, h.2.mono e⟩
  case p3 => exact ⟨h.1.mono e, h.2.mono e⟩
  case p4 => exact ⟨h.1.mono e, h.2.1.mono e, h.2.2.mono e⟩
  case p5 => exact h.mono e
  case p6 => exact h.mono e
  case p7 => exact h.mono e
  case p8 => exact h.mono e
  case g1 => exact h.mono e
  case g5 => exact h.mono e
  case g6 => exact h.mono e
  case g7 => exact h.mono e
  case d5 => exact h.mono e
  case d6 => exact h.mono e

theorem mget_mem {m : List (U64 × Nat)} {k : U64} {i : Nat} (h : mget m k = some i) : (k, i) ∈ m := by
  unfold mget at h
  cases hf : m.find? (fun p => decide (p.1 = k)) with
  | none => rw [hf] at h; cases h
  | some p =>
    rw [hf] at h
    simp only [Option.map_some, Option.some.injEq] at h
    have h1 := List.find?_some hf
    have h2 := List.mem_of_find?_eq_some hf
    simp only [decide_eq_true_eq] at h1
    rw [← h1, ← h]; exact h2

theorem merge_ok {st : St} : ∀ (l : List Nat) (m : List (U64 × Nat)), MOk H st m → (∀ i ∈ l, i < st.nextI) →
    MOk H st (merge H st.item m l)
  | [], m, h, _ => h
  | i :: l, m, h, hl => by
    have : MOk H st (mput m (H.mem (st.item i).key) i) := by
      intro p hp
      rcases List.mem_cons.1 hp with rfl | hp
      · exact ⟨hl i (by simp), rfl⟩
      · exact h p (List.mem_filter.1 hp).1
    exact merge_ok l _ this (fun j hj => hl j (by simp [hj]))

theorem setValue_given {st : St} {s : Str} {old v w : IVal} {b : Bool} (h : setValue .sample old v = .ok (w, b))
    (ho : Given H st s old) (hv : Given H st s v) : Given H st s w := by
  unfold setValue at h
  cases v with
  | none => simp only [Except.ok.injEq, Prod.mk.injEq] at h; rw [← h.1]; exact ho
  | some x =>
    cases old with
    | none => simp only [Except.ok.injEq, Prod.mk.injEq] at h; rw [← h.1]; exact hv
    | some o =>
      simp only at h
      split at h
      · simp only [Except.ok.injEq, Prod.mk.injEq] at h; rw [← h.1]; exact hv
      · cases h

theorem given_of_mem {st : St} {s : Str} {v : IVal} (h : (s, v) ∈ st.sets) : Given H st s v := Or.inr ⟨s, h, rfl, rfl⟩

theorem Given.congr {st : St} {s s' : Str} {v : IVal} (h1 : H.mem s = H.mem s') (h2 : H.xx s = H.xx s') (h : Given H st s v) :
    Given H st s' v := by
  rcases h with h | ⟨q, a, b, c⟩
  · exact Or.inl h
  · exact Or.inr ⟨q, a, b.trans h1, c.trans h2⟩

/-- The invariant. -/
structure Inv (H : HashFns) (st : St) : Prop where
  glob : Glob H st
  loc : ∀ u, Loc H st (st.pc u)

theorem resOk_of {st : St} {cl : Call} {r : Res} (h : ∀ v c, r ≠ .got v c true) : ResOk H st cl r :=
  fun v c hr => absurd hr (h v c)

/-- One goroutine moves, the others keep their place. -/
theorem Inv.move {st x : St} (h : Inv H st) (e : Ext st x) (g : Glob H x) (hp : x.pc = st.pc) {t : Tid} {p : PC} (hl : Loc H x p) :
    Inv H (setPC x t p) := by
  have e2 : Ext x (setPC x t p) := ⟨Nat.le_refl _, fun _ h => h, fun _ _ => rfl⟩
  constructor
  · exact ⟨g.item, g.dirty, g.read⟩
  · intro u
    by_cases hu : u = t
    · subst hu
      have : (setPC x u p).pc u = p := by simp [setPC]
      rw [this]; exact hl.mono e2
    · have : (setPC x t p).pc u = st.pc u := by simp [setPC, hu, hp]
      rw [this]; exact ((h.loc u).mono e).mono e2

theorem Glob.ext {st x : St} (g : Glob H st) (e : Ext st x) (h1 : x.nextI = st.nextI) (h2 : x.item = st.item) (h3 : ∀ d, ∀ i ∈ x.dirty d, i < st.nextI)
    (h4 : ∀ rm, x.read = some rm → MOk H st rm.m) : Glob H x := by
  refine ⟨?_, ?_, ?_⟩
  · intro i hi
    rw [h2]; exact (g.item i (h1 ▸ hi)).mono e
  · intro d i hi; rw [h1]; exact h3 d i hi
  · intro rm hr; exact (h4 rm hr).mono e

theorem store_inv {st : St} {i : Nat} {w : IVal} (g : Glob H st) (hw : Given H st (st.item i).key w) :
    Ext st (store st i w) ∧ Glob H (store st i w) := by
  have e : Ext st (store st i w) := ⟨Nat.le_refl _, fun _ h => h, fun j _ => by
    simp only [store]; split
    · next hj => rw [hj]
    · rfl⟩
  refine ⟨e, ?_, g.dirty, fun rm hr => (g.read rm hr).mono e⟩
  intro j hj
  simp only [store]
  split
  · exact hw.mono e
  · exact (g.item j hj).mono e

theorem afterLoad_loc {st : St} {s : Str} {v : IVal} {rm : RM} (h : (s, v) ∈ st.sets) (hm : MOk H st rm.m) :
    Loc H st (afterLoad H s v rm) := by
  unfold afterLoad
  split
  · exact resOk_of (fun _ _ => by simp)
  · exact ⟨h, hm⟩

theorem resume_loc {st : St} {k : Cont} (h : ContOk H st k) : Loc H st (resume k) := by
  cases k <;> exact h

theorem step_inv {st st' : St} {t : Tid} {ch : Choice} (h : Inv H st) (hs : Seen H st t ch) (hst : step H ch st t = some st') :
    Inv H st' := by
  have hl := h.loc t
  have g := h.glob
  have same : ∀ {p : PC}, Loc H st p → Inv H (setPC st t p) := fun hp => h.move (Ext.refl _) g rfl hp
  unfold step at hst
  cases hpc : st.pc t <;> rw [hpc] at hl hst <;> simp only [Loc] at hl <;> simp only [reduceCtorEq] at hst
  case s0 s v =>
    split at hst <;> cases hst
    · exact same hl
    · next rm hr => exact same (afterLoad_loc hl (g.read rm hr))
  case s1 s v =>
    cases hst
    have e : Ext st { st with read := some { id := st.nextRM, m := [], amended := false }, nextRM := st.nextRM + 1 } :=
      ⟨Nat.le_refl _, fun _ h => h, fun _ _ => rfl⟩
    refine h.move e ?_ rfl hl
    exact ⟨g.item, g.dirty, fun rm hr => by cases hr; exact fun p hp => absurd hp (by simp)⟩
  case s2 s v =>
    split at hst <;> cases hst
    next rm hr => exact same (afterLoad_loc hl (g.read rm hr))
  case s4 s v rm => cases hst; exact same hl
  case s5 s v rm d =>
    split at hst
    · next i hi =>
      cases hst
      obtain ⟨h1, h2, h3⟩ := hs.found s d (by rw [hpc]; rfl) i hi
      exact same ⟨hl.1, g.dirty d i h1, h2, h3⟩
    · cases hst
      refine same ?_
      split
      · exact hl
      · exact hl
  case s6 s v i =>
    split at hst
    · next w b hw =>
      cases hst
      obtain ⟨h0, h1, h2, h3⟩ := hl
      have hw' : Given H st (st.item i).key w :=
        setValue_given hw (g.item i h1) ((given_of_mem h0).congr h2.symm h3.symm)
      obtain ⟨e, g'⟩ := store_inv g hw'
      exact h.move e g' rfl (resOk_of (fun _ _ => by simp))
    · cases hst; exact same (resOk_of (fun _ _ => by simp))
  case s7 s v rm => cases hst; exact same hl
  case s8 s v rm d =>
    have hnext : ∀ {x : St}, Loc H x (if rm.m.length = 0 then PC.p0 true (.ret (.set s v) (.bool true)) else .ret (.set s v) (.bool true)) := by
      intro x
      split
      · exact resOk_of (fun _ _ => by simp)
      · exact resOk_of (fun _ _ => by simp)
    split at hst
    · next i hi =>
      obtain ⟨h1, h2, h3⟩ := hs.found s d (by rw [hpc]; rfl) i hi
      have hi' := g.dirty d i h1
      split at hst
      · next w b hw =>
        cases hst
        have hw' : Given H st (st.item i).key w :=
          setValue_given hw (g.item i hi') ((given_of_mem hl.1).congr h2.symm h3.symm)
        obtain ⟨e, g'⟩ := store_inv g hw'
        exact h.move e g' rfl hnext
      · cases hst; exact same (resOk_of (fun _ _ => by simp))
    · cases hst
      have e : Ext st { st with
          item := fun j => if j = st.nextI then { key := s, val := v } else st.item j, nextI := st.nextI + 1,
          dirty := fun e => if e = d ∧ ch.link = true then st.dirty d ++ [st.nextI] else st.dirty e,
          dlen := fun e => if e = d then st.dlen d + 1 else st.dlen e } := by
        refine ⟨Nat.le_succ _, fun _ h => h, fun i hi => ?_⟩
        simp only
        rw [if_neg (by omega)]
      refine h.move e ⟨?_, ?_, ?_⟩ rfl hnext
      · intro i hi
        simp only
        split
        · exact (given_of_mem hl.1).mono e
        · exact (g.item i (by simp only at hi; omega)).mono e
      · intro d' i hi
        simp only at hi ⊢
        split at hi
        · rcases List.mem_append.1 hi with hi | hi
          · have := g.dirty d i hi; omega
          · simp only [List.mem_singleton] at hi; omega
        · have := g.dirty d' i hi; omega
      · intro rm hr; exact (g.read rm hr).mono e
  case p0 am k =>
    split at hst <;> cases hst
    refine h.move (x := { st with lock := some t }) ⟨Nat.le_refl _, fun _ h => h, fun _ _ => rfl⟩ ⟨g.item, g.dirty, g.read⟩ rfl ?_
    exact hl
  case p1 am k =>
    split at hst <;> cases hst
    next rm hr => exact same ⟨hl, g.read rm hr⟩
  case p2 am k o => cases hst; exact same hl
  case p3 am k o d =>
    split at hst <;> cases hst
    · exact same hl.1
    · refine same ⟨hl.1, hl.2, merge_ok _ _ hl.2 ?_⟩
      intro i hi
      exact g.dirty d i (hs.visit d (by rw [hpc]; rfl) i hi)
  case p4 am k o m =>
    split at hst <;> cases hst
    · refine h.move (x := { st with
        read := some { id := st.nextRM, m := m, amended := am || decide (o.m.length = 0) }, nextRM := st.nextRM + 1 })
        ⟨Nat.le_refl _, fun _ h => h, fun _ _ => rfl⟩ ⟨g.item, g.dirty, ?_⟩ rfl hl.1
      intro rm hr; cases hr; exact hl.2.2
    · exact same hl.1
  case p5 k =>
    cases hst
    exact h.move (x := { st with lock := none }) ⟨Nat.le_refl _, fun _ h => h, fun _ _ => rfl⟩ ⟨g.item, g.dirty, g.read⟩ rfl hl
  case p6 k =>
    cases hst
    refine h.move (x := { st with
      cur := st.nextD, nextD := st.nextD + 1, dirty := fun e => if e = st.nextD then [] else st.dirty e,
      dlen := fun e => if e = st.nextD then 0 else st.dlen e }) ⟨Nat.le_refl _, fun _ h => h, fun _ _ => rfl⟩ ⟨g.item, ?_, g.read⟩ rfl hl
    intro d i hi
    simp only at hi
    split at hi
    · simp at hi
    · exact g.dirty d i hi
  case p7 k =>
    split at hst <;> cases hst
    exact h.move (x := { st with lock := some t }) ⟨Nat.le_refl _, fun _ h => h, fun _ _ => rfl⟩ ⟨g.item, g.dirty, g.read⟩ rfl hl
  case p8 k =>
    cases hst
    exact h.move (x := { st with lock := none }) ⟨Nat.le_refl _, fun _ h => h, fun _ _ => rfl⟩ ⟨g.item, g.dirty, g.read⟩ rfl (resume_loc hl)
  case g0 s =>
    split at hst
    · cases hst; exact same (resOk_of (fun _ _ => by simp))
    · next rm hr =>
      split at hst
      · next i hi =>
        have hm := g.read rm hr _ (mget_mem hi)
        split at hst <;> cases hst
        · next hx => exact same ⟨hm.1, hm.2, hx⟩
        · refine same ?_
          split
          · trivial
          · exact resOk_of (fun _ _ => by simp)
      · cases hst
        refine same ?_
        split
        · trivial
        · exact resOk_of (fun _ _ => by simp)
  case g1 s i =>
    cases hst
    refine same ?_
    intro v c hr
    cases hr
    exact ⟨s, rfl, (g.item i hl.1).congr hl.2.1 hl.2.2⟩
  case g2 s =>
    split at hst
    · cases hst
    · split at hst <;> cases hst
      · refine same ?_
        intro v c hr
        cases hr
        exact ⟨s, rfl, Or.inl rfl⟩
      · refine same ?_
        split
        · trivial
        · exact resOk_of (fun _ _ => by simp)
  case g3 s => cases hst; exact same trivial
  case g4 s d =>
    split at hst
    · next i hi =>
      cases hst
      obtain ⟨h1, h2, h3⟩ := hs.found s d (by rw [hpc]; rfl) i hi
      exact same ⟨g.dirty d i h1, h2, h3⟩
    · cases hst; exact same (resOk_of (fun _ _ => by simp))
  case g5 s i =>
    cases hst
    refine same ?_
    intro v c hr
    cases hr
    exact ⟨s, rfl, (g.item i hl.1).congr hl.2.1 hl.2.2⟩
  case g6 cl r =>
    split at hst <;> cases hst
    · exact h.move (x := { st with misses := st.misses + 1 }) ⟨Nat.le_refl _, fun _ h => h, fun _ _ => rfl⟩ ⟨g.item, g.dirty, g.read⟩ rfl hl
    · exact h.move (x := { st with misses := st.misses + 1 }) ⟨Nat.le_refl _, fun _ h => h, fun _ _ => rfl⟩ ⟨g.item, g.dirty, g.read⟩ rfl hl
  case g7 cl r =>
    cases hst
    exact h.move (x := { st with misses := 0 }) ⟨Nat.le_refl _, fun _ h => h, fun _ _ => rfl⟩ ⟨g.item, g.dirty, g.read⟩ rfl hl
  case d0 s =>
    split at hst
    · cases hst; exact same (resOk_of (fun _ _ => by simp))
    · split at hst
      · cases hst; exact same (resOk_of (fun _ _ => by simp))
      · split at hst <;> cases hst
        · exact same trivial
        · exact same (resOk_of (fun _ _ => by simp))
  case d1 s =>
    split at hst <;> cases hst
    exact h.move (x := { st with lock := some t }) ⟨Nat.le_refl _, fun _ h => h, fun _ _ => rfl⟩ ⟨g.item, g.dirty, g.read⟩ rfl trivial
  case d2 s =>
    split at hst <;> cases hst
    refine same ?_
    split <;> trivial
  case d3 s => cases hst; exact same trivial
  case d4 s d =>
    split at hst
    · next i hi =>
      cases hst
      obtain ⟨h1, h2, h3⟩ := hs.found s d (by rw [hpc]; rfl) i hi
      exact same ⟨g.dirty d i h1, h2, h3⟩
    · cases hst; exact same trivial
  case d5 s d i =>
    cases hst
    exact h.move (x := { st with dlen := fun e => if e = d then st.dlen d - 1 else st.dlen e })
      ⟨Nat.le_refl _, fun _ h => h, fun _ _ => rfl⟩ ⟨g.item, g.dirty, g.read⟩ rfl hl
  case d6 s i =>
    cases hst
    have e : Ext st { st with item := fun j => if j = i then { st.item i with deleted := true } else st.item j } := by
      refine ⟨Nat.le_refl _, fun _ h => h, fun j _ => ?_⟩
      simp only; split
      · next hj => rw [hj]
      · rfl
    refine h.move e ⟨?_, g.dirty, fun rm hr => (g.read rm hr).mono e⟩ rfl trivial
    intro j hj
    simp only
    split
    · next hji => rw [← hji]; exact (g.item j hj).mono e
    · exact (g.item j hj).mono e
  case d7 s =>
    split at hst <;> cases hst
    · exact h.move (x := { st with misses := st.misses + 1 }) ⟨Nat.le_refl _, fun _ h => h, fun _ _ => rfl⟩ ⟨g.item, g.dirty, g.read⟩ rfl
        (resOk_of (fun _ _ => by simp))
    · exact h.move (x := { st with misses := st.misses + 1 }) ⟨Nat.le_refl _, fun _ h => h, fun _ _ => rfl⟩ ⟨g.item, g.dirty, g.read⟩ rfl trivial
  case d8 s =>
    cases hst
    exact h.move (x := { st with lock := none }) ⟨Nat.le_refl _, fun _ h => h, fun _ _ => rfl⟩ ⟨g.item, g.dirty, g.read⟩ rfl
      (resOk_of (fun _ _ => by simp))

theorem start_inv {st st' : St} {t : Tid} {cl : Call} (h : Inv H st) (hst : start st t cl = some st') : Inv H st' := by
  have g := h.glob
  have key : ∀ cl, (match cl with
      | Call.set s v => some (setPC { st with sets := (s, v) :: st.sets } t (.s0 s v))
      | .get s => some (setPC st t (.g0 s))
      | .delete s => some (setPC { st with dels := s :: st.dels } t (.d0 s))) = some st' → Inv H st' := by
    intro cl hst
    cases cl with
    | set s v =>
      cases hst
      have e : Ext st { st with sets := (s, v) :: st.sets } := ⟨Nat.le_refl _, fun _ h => List.mem_cons_of_mem _ h, fun _ _ => rfl⟩
      refine h.move e ⟨fun i hi => (g.item i hi).mono e, g.dirty, fun rm hr => (g.read rm hr).mono e⟩ rfl ?_
      show (s, v) ∈ (s, v) :: st.sets
      simp
    | get s => cases hst; exact h.move (Ext.refl _) g rfl trivial
    | delete s =>
      cases hst
      exact h.move (x := { st with dels := s :: st.dels }) ⟨Nat.le_refl _, fun _ h => h, fun _ _ => rfl⟩ ⟨g.item, g.dirty, g.read⟩ rfl trivial
  unfold start at hst
  cases hpc : st.pc t <;> rw [hpc] at hst <;> first | exact key cl hst | cases hst

theorem Step.inv {st st' : St} {t : Tid} (h : Inv H st) (hst : Step H st t st') : Inv H st' := by
  cases hst with
  | start hs => exact start_inv h hs
  | move hs hm => exact step_inv h hs hm

theorem init_inv : Inv H init :=
  ⟨⟨fun i hi => absurd hi (Nat.not_lt_zero _), fun d i hi => absurd hi (by simp [init]), fun rm hr => by cases hr⟩, fun _ => trivial⟩

theorem Steps.inv {st st' : St} (h : Inv H st) (hst : Steps H st st') : Inv H st' := by
  induction hst with
  | refl => exact h
  | tail _ hs ih => exact hs.inv ih

end SLM.RConc
