import Verif.Proofs.RConc
/-! The concurrent `RMap` model: the lock, the published read map, items and their keys, for all schedules. -/
set_option autoImplicit false
namespace SLM.RConc

variable {H : HashFns}

/-- The call is a Delete. -/
def isDel : Call → Bool
  | .delete _ => true
  | _ => false

/-- The promotion was begun by Delete, which holds the lock already. -/
def ofDel : Cont → Bool
  | .miss (.delete _) _ => true
  | _ => false

/-- Points where a goroutine holds the lock. -/
def holds : PC → Bool
  | .p0 _ k => ofDel k
  | .p1 _ _ => true
  | .p2 _ _ _ => true
  | .p3 _ _ _ _ => true
  | .p4 _ _ _ _ => true
  | .p5 _ => true
  | .p8 _ => true
  | .d2 _ => true
  | .d3 _ => true
  | .d4 _ _ => true
  | .d5 _ _ _ => true
  | .d6 _ _ => true
  | .d7 _ => true
  | .d8 _ => true
  | _ => false

/-- Points past the load of `read`. -/
def loaded : PC → Bool
  | .idle => false
  | .ret _ _ => false
  | .s0 _ _ => false
  | .s1 _ _ => false
  | .g0 _ => false
  | .d0 _ => false
  | _ => true

/-- Local shape. -/
def Shp : PC → Prop
  | .p1 _ k => ofDel k = false
  | .p2 _ k _ => ofDel k = false
  | .p3 _ k _ _ => ofDel k = false
  | .p4 _ k o m => ofDel k = false ∧ ∀ x, (mget o.m x).isSome = true → (mget m x).isSome = true
  | .p5 k => ofDel k = false
  | .p6 k => ofDel k = false
  | .p7 k => ofDel k = false
  | .p8 k => ofDel k = false
  | .g6 cl _ => isDel cl = false
  | .g7 cl _ => isDel cl = false
  | _ => True

/-- The read map a promotion started from. -/
def base : PC → Option RM
  | .p2 _ _ o => some o
  | .p3 _ _ o _ => some o
  | .p4 _ _ o _ => some o
  | _ => none

structure Inv2 (H : HashFns) (st : St) : Prop where
  lock : ∀ u, holds (st.pc u) = true ↔ st.lock = some u
  shp : ∀ u, Shp (st.pc u)
  rid : ∀ rm, st.read = some rm → rm.id < st.nextRM
  bid : ∀ u o, base (st.pc u) = some o → o.id < st.nextRM ∧ ∀ rm, st.read = some rm → rm.id = o.id → rm = o
  ld : ∀ u, loaded (st.pc u) = true → st.read.isSome = true
  ikey : ∀ i, i < st.nextI → ∃ v, ((st.item i).key, v) ∈ st.sets

theorem mget_mput {m : List (U64 × Nat)} {k x : U64} {i : Nat} (h : (mget m x).isSome = true ∨ x = k) :
    (mget (mput m k i) x).isSome = true := by
  unfold mget mput
  by_cases hx : k = x
  · simp [hx]
  · rcases h with h | h
    · simp only [List.find?_cons, hx, decide_false]
      unfold mget at h
      simp only [Option.isSome_map, List.find?_isSome] at h ⊢
      obtain ⟨p, hp, h1⟩ := h
      refine ⟨p, List.mem_filter.2 ⟨hp, ?_⟩, h1⟩
      simp only [decide_eq_true_eq] at h1 ⊢
      rw [h1]; exact fun h => hx h.symm
    · exact absurd h.symm hx

theorem merge_keys {item : Nat → Itm} : ∀ (l : List Nat) (m : List (U64 × Nat)) (x : U64),
    ((mget m x).isSome = true ∨ ∃ i ∈ l, H.mem (item i).key = x) → (mget (merge H item m l) x).isSome = true
  | [], m, x, h => by
    rcases h with h | ⟨i, hi, _⟩
    · exact h
    · simp at hi
  | j :: l, m, x, h => by
    show (mget (merge H item (mput m (H.mem (item j).key) j) l) x).isSome = true
    apply merge_keys l
    rcases h with h | ⟨i, hi, hx⟩
    · exact Or.inl (mget_mput (Or.inl h))
    · rcases List.mem_cons.1 hi with rfl | hi
      · exact Or.inl (mget_mput (Or.inr hx.symm))
      · exact Or.inr ⟨i, hi, hx⟩

@[simp] theorem setPC_pc (s : St) (t u : Tid) (p : PC) : (setPC s t p).pc u = if u = t then p else s.pc u := rfl

/-- One goroutine moves; lock and read map as they were. -/
theorem Inv2.quiet {st x : St} (h : Inv2 H st) {t : Tid} {p : PC} (hp : x.pc = st.pc) (hl : x.lock = st.lock) (hr : x.read = st.read)
    (hn : x.nextRM = st.nextRM) (hk : ∀ i, i < x.nextI → ∃ v, ((x.item i).key, v) ∈ x.sets)
    (h1 : holds p = holds (st.pc t)) (h2 : Shp p)
    (h3 : ∀ o, base p = some o → st.read = some o ∨ base (st.pc t) = some o) (h4 : loaded p = true → st.read.isSome = true) :
    Inv2 H (setPC x t p) := by
  refine ⟨?_, ?_, ?_, ?_, ?_, hk⟩
  · intro u
    show holds (if u = t then p else x.pc u) = true ↔ x.lock = some u
    rw [hl, hp, ← h.lock u]
    split
    · next hu => rw [hu, h1]
    · rfl
  · intro u
    show Shp (if u = t then p else x.pc u)
    split
    · exact h2
    · rw [hp]; exact h.shp u
  · intro rm hrm
    have : st.read = some rm := by rw [← hr]; exact hrm
    have := h.rid rm this
    show rm.id < x.nextRM
    omega
  · intro u o ho
    show o.id < x.nextRM ∧ ∀ rm, x.read = some rm → rm.id = o.id → rm = o
    rw [hn, hr]
    have ho : base (if u = t then p else x.pc u) = some o := ho
    split at ho
    · rcases h3 o ho with h3 | h3
      · exact ⟨h.rid o h3, fun rm hrm _ => by rw [hrm] at h3; exact Option.some.inj h3⟩
      · exact h.bid t o h3
    · rw [hp] at ho; exact h.bid u o ho
  · intro u hu
    show x.read.isSome = true
    rw [hr]
    have hu : loaded (if u = t then p else x.pc u) = true := hu
    split at hu
    · exact h4 hu
    · rw [hp] at hu; exact h.ld u hu

/-- One goroutine moves and takes or gives back the lock. -/
theorem Inv2.locks {st : St} (h : Inv2 H st) {t : Tid} {p : PC} {l : Option Tid}
    (h1 : (st.lock = none ∧ l = some t ∧ holds p = true) ∨ (st.lock = some t ∧ l = none ∧ holds p = false)) (h2 : Shp p)
    (h3 : ∀ o, base p = some o → st.read = some o) (h4 : loaded p = true → st.read.isSome = true) :
    Inv2 H (setPC { st with lock := l } t p) := by
  refine ⟨?_, ?_, h.rid, ?_, ?_, h.ikey⟩
  · intro u
    show holds (if u = t then p else st.pc u) = true ↔ l = some u
    have hu := h.lock u
    rcases h1 with ⟨a, b, c⟩ | ⟨a, b, c⟩
    · rw [b]
      split
      · next hu => simp [c, hu]
      · next hne => rw [hu, a]; simp; exact fun h => hne h.symm
    · rw [b]
      split
      · simp [c]
      · next hne => rw [hu, a]; simp; exact fun h => hne h.symm
  · intro u
    show Shp (if u = t then p else st.pc u)
    split
    · exact h2
    · exact h.shp u
  · intro u o ho
    show o.id < st.nextRM ∧ ∀ rm, st.read = some rm → rm.id = o.id → rm = o
    have ho : base (if u = t then p else st.pc u) = some o := ho
    split at ho
    · have h3 := h3 o ho
      exact ⟨h.rid o h3, fun rm hrm _ => by rw [hrm] at h3; exact Option.some.inj h3⟩
    · exact h.bid u o ho
  · intro u hu
    show st.read.isSome = true
    have hu : loaded (if u = t then p else st.pc u) = true := hu
    split at hu
    · exact h4 hu
    · exact h.ld u hu

/-- One goroutine replaces the read map. -/
theorem Inv2.pub {st : St} (h : Inv2 H st) {t : Tid} {p : PC} {m : List (U64 × Nat)} {am : Bool}
    (h1 : holds p = holds (st.pc t)) (h2 : Shp p) (h3 : base p = none) :
    Inv2 H (setPC { st with read := some { id := st.nextRM, m := m, amended := am }, nextRM := st.nextRM + 1 } t p) := by
  refine ⟨?_, ?_, ?_, ?_, fun _ _ => rfl, h.ikey⟩
  · intro u
    show holds (if u = t then p else st.pc u) = true ↔ st.lock = some u
    rw [← h.lock u]
    split
    · next hu => rw [hu, h1]
    · rfl
  · intro u
    show Shp (if u = t then p else st.pc u)
    split
    · exact h2
    · exact h.shp u
  · intro rm hrm
    cases hrm
    exact Nat.lt_succ_self _
  · intro u o ho
    show o.id < st.nextRM + 1 ∧ _
    have ho : base (if u = t then p else st.pc u) = some o := ho
    split at ho
    · rw [h3] at ho; cases ho
    · have := (h.bid u o ho).1
      refine ⟨by omega, fun rm hrm he => ?_⟩
      have hrm : some { id := st.nextRM, m := m, amended := am : RM } = some rm := hrm
      cases hrm
      simp only at he
      omega

theorem afterLoad_facts (s : Str) (v : IVal) (rm : RM) :
    holds (afterLoad H s v rm) = false ∧ Shp (afterLoad H s v rm) ∧ base (afterLoad H s v rm) = none := by
  unfold afterLoad
  split
  · exact ⟨rfl, trivial, rfl⟩
  · exact ⟨rfl, trivial, rfl⟩

theorem resume_facts {k : Cont} (h : ofDel k = false) : holds (resume k) = false ∧ Shp (resume k) ∧ base (resume k) = none := by
  cases k with
  | store => exact ⟨rfl, trivial, rfl⟩
  | ret => exact ⟨rfl, trivial, rfl⟩
  | miss cl r =>
    refine ⟨rfl, ?_, rfl⟩
    cases cl
    · rfl
    · rfl
    · cases h

theorem ofDel_miss {cl : Call} {r : Res} (h : isDel cl = false) : ofDel (.miss cl r) = false := by
  cases cl
  · rfl
  · rfl
  · cases h

theorem Inv2.stay {st : St} (h : Inv2 H st) {t : Tid} {p : PC} (h1 : holds p = holds (st.pc t)) (h2 : Shp p)
    (h3 : ∀ o, base p = some o → st.read = some o ∨ base (st.pc t) = some o) (h4 : loaded p = true → st.read.isSome = true) :
    Inv2 H (setPC st t p) := h.quiet rfl rfl rfl rfl h.ikey h1 h2 h3 h4

theorem noBase {p : PC} {P : RM → Prop} (h : base p = none) : ∀ o, base p = some o → P o := fun o ho => by rw [h] at ho; cases ho

theorem step_inv2 {st st' : St} {t : Tid} {ch : Choice} (h : Inv2 H st) (h0 : Inv H st) (hst : step H ch st t = some st') :
    Inv2 H st' := by
  have hs := h.shp t
  have hlk := h.lock t
  have hld := h.ld t
  have hl0 := h0.loc t
  unfold step at hst
  cases hpc : st.pc t <;> rw [hpc] at hs hlk hld hst hl0 <;> simp only [Shp, holds, loaded, forall_const] at hs hlk hld <;>
    simp only [reduceCtorEq] at hst
  case s0 s v =>
    split at hst <;> cases hst
    · exact h.stay (by rw [hpc]; rfl) trivial (noBase rfl) (fun h => by cases h)
    · next rm hr =>
      obtain ⟨a, b, c⟩ := afterLoad_facts (H := H) s v rm
      exact h.stay (by rw [hpc, a]; rfl) b (noBase c) (fun _ => by rw [hr]; rfl)
  case s1 s v =>
    cases hst
    exact h.pub (by rw [hpc]; rfl) trivial rfl
  case s2 s v =>
    split at hst <;> cases hst
    next rm hr =>
      obtain ⟨a, b, c⟩ := afterLoad_facts (H := H) s v rm
      exact h.stay (by rw [hpc, a]; rfl) b (noBase c) (fun _ => by rw [hr]; rfl)
  case s4 s v rm => cases hst; exact h.stay (by rw [hpc]; rfl) trivial (noBase rfl) (fun _ => hld)
  case s5 s v rm d =>
    split at hst <;> cases hst
    · exact h.stay (by rw [hpc]; rfl) trivial (noBase rfl) (fun _ => hld)
    · split
      · exact h.stay (by rw [hpc]; rfl) trivial (noBase rfl) (fun _ => hld)
      · exact h.stay (by rw [hpc]; rfl) trivial (noBase rfl) (fun _ => hld)
  case s6 s v i =>
    split at hst <;> cases hst
    · refine h.quiet (x := store st i _) rfl rfl rfl rfl ?_ (by rw [hpc]; rfl) trivial (noBase rfl) (fun h => by cases h)
      intro j hj
      simp only [store]
      split
      · next e => rw [← e]; exact h.ikey j hj
      · exact h.ikey j hj
    · exact h.stay (by rw [hpc]; rfl) trivial (noBase rfl) (fun h => by cases h)
  case s7 s v rm => cases hst; exact h.stay (by rw [hpc]; rfl) trivial (noBase rfl) (fun _ => hld)
  case s8 s v rm d =>
    have hset : (s, v) ∈ st.sets := hl0.1
    have hn : ∀ p : PC, p = (if rm.m.length = 0 then PC.p0 true (.ret (.set s v) (.bool true)) else .ret (.set s v) (.bool true)) →
        holds p = false ∧ Shp p ∧ base p = none := by
      intro p hp; rw [hp]
      split
      · exact ⟨rfl, trivial, rfl⟩
      · exact ⟨rfl, trivial, rfl⟩
    obtain ⟨a, b, c⟩ := hn _ rfl
    split at hst
    · next i hi =>
      split at hst <;> cases hst
      · refine h.quiet (x := store st i _) rfl rfl rfl rfl ?_ (by rw [hpc, a]; rfl) b (noBase c) (fun _ => hld)
        intro j hj
        simp only [store]
        split
        · next e => rw [← e]; exact h.ikey j hj
        · exact h.ikey j hj
      · exact h.stay (by rw [hpc]; rfl) trivial (noBase rfl) (fun h => by cases h)
    · cases hst
      refine h.quiet (x := { st with
          item := fun j => if j = st.nextI then { key := s, val := v } else st.item j, nextI := st.nextI + 1,
          dirty := fun e => if e = d ∧ ch.link = true then st.dirty d ++ [st.nextI] else st.dirty e,
          dlen := fun e => if e = d then st.dlen d + 1 else st.dlen e }) rfl rfl rfl rfl ?_ (by rw [hpc, a]; rfl) b (noBase c) (fun _ => hld)
      intro i hi
      simp only at hi ⊢
      split
      · exact ⟨v, hset⟩
      · exact h.ikey i (by omega)
  case p0 am k =>
    split at hst <;> cases hst
    next hn =>
      refine h.locks (Or.inl ⟨hn, rfl, rfl⟩) ?_ (noBase rfl) (fun _ => hld)
      show ofDel k = false
      cases hk : ofDel k with
      | false => rfl
      | true => rw [hk, hn] at hlk; simp at hlk
  case p1 am k =>
    split at hst <;> cases hst
    next o ho => exact h.stay (by rw [hpc]; rfl) hs (fun o' ho' => by cases ho'; exact Or.inl ho) (fun _ => hld)
  case p2 am k o => cases hst; exact h.stay (by rw [hpc]; rfl) hs (fun o' ho' => Or.inr (by rw [hpc]; exact ho')) (fun _ => hld)
  case p3 am k o d =>
    split at hst <;> cases hst
    · exact h.stay (by rw [hpc]; rfl) hs (noBase rfl) (fun _ => hld)
    · exact h.stay (by rw [hpc]; rfl) ⟨hs, fun x hx => merge_keys _ _ _ (Or.inl hx)⟩ (fun o' ho' => Or.inr (by rw [hpc]; exact ho')) (fun _ => hld)
  case p4 am k o m =>
    split at hst <;> cases hst
    · exact h.pub (by rw [hpc]; rfl) hs.1 rfl
    · exact h.stay (by rw [hpc]; rfl) hs.1 (noBase rfl) (fun _ => hld)
  case p5 k =>
    cases hst
    exact h.locks (Or.inr ⟨by simpa using hlk, rfl, rfl⟩) hs (noBase rfl) (fun _ => hld)
  case p6 k =>
    cases hst
    exact h.quiet (x := { st with
      cur := st.nextD, nextD := st.nextD + 1, dirty := fun e => if e = st.nextD then [] else st.dirty e,
      dlen := fun e => if e = st.nextD then 0 else st.dlen e }) rfl rfl rfl rfl h.ikey (by rw [hpc]; rfl) hs (noBase rfl) (fun _ => hld)
  case p7 k =>
    split at hst <;> cases hst
    next hn => exact h.locks (Or.inl ⟨hn, rfl, rfl⟩) hs (noBase rfl) (fun _ => hld)
  case p8 k =>
    cases hst
    obtain ⟨a, b, c⟩ := resume_facts hs
    exact h.locks (Or.inr ⟨by simpa using hlk, rfl, a⟩) b (noBase c) (fun _ => hld)
  case g0 s =>
    split at hst
    · cases hst; exact h.stay (by rw [hpc]; rfl) trivial (noBase rfl) (fun h => by cases h)
    · next rm hr =>
      have hsm : st.read.isSome = true := by rw [hr]; rfl
      split at hst
      · split at hst <;> cases hst
        · exact h.stay (by rw [hpc]; rfl) trivial (noBase rfl) (fun _ => hsm)
        · split <;> exact h.stay (by rw [hpc]; rfl) trivial (noBase rfl) (fun _ => hsm)
      · cases hst
        split <;> exact h.stay (by rw [hpc]; rfl) trivial (noBase rfl) (fun _ => hsm)
  case g1 s i => cases hst; exact h.stay (by rw [hpc]; rfl) trivial (noBase rfl) (fun h => by cases h)
  case g2 s =>
    split at hst
    · cases hst
    · split at hst <;> cases hst
      · exact h.stay (by rw [hpc]; rfl) trivial (noBase rfl) (fun h => by cases h)
      · split <;> exact h.stay (by rw [hpc]; rfl) trivial (noBase rfl) (fun _ => hld)
  case g3 s => cases hst; exact h.stay (by rw [hpc]; rfl) trivial (noBase rfl) (fun _ => hld)
  case g4 s d =>
    split at hst <;> cases hst
    · exact h.stay (by rw [hpc]; rfl) trivial (noBase rfl) (fun _ => hld)
    · exact h.stay (by rw [hpc]; rfl) trivial (noBase rfl) (fun h => by cases h)
  case g5 s i => cases hst; exact h.stay (by rw [hpc]; rfl) rfl (noBase rfl) (fun _ => hld)
  case g6 cl r =>
    split at hst <;> cases hst
    · refine h.quiet (x := { st with misses := st.misses + 1 }) rfl rfl rfl rfl h.ikey ?_ trivial (noBase rfl) (fun _ => hld)
      rw [hpc]; exact ofDel_miss hs
    · exact h.quiet (x := { st with misses := st.misses + 1 }) rfl rfl rfl rfl h.ikey (by rw [hpc]; rfl) trivial (noBase rfl) (fun _ => hld)
  case g7 cl r =>
    cases hst
    exact h.quiet (x := { st with misses := 0 }) rfl rfl rfl rfl h.ikey (by rw [hpc]; rfl) trivial (noBase rfl) (fun _ => hld)
  case d0 s =>
    split at hst
    · cases hst; exact h.stay (by rw [hpc]; rfl) trivial (noBase rfl) (fun h => by cases h)
    · next rm hr =>
      have hsm : st.read.isSome = true := by rw [hr]; rfl
      split at hst
      · cases hst; exact h.stay (by rw [hpc]; rfl) trivial (noBase rfl) (fun _ => hsm)
      · split at hst <;> cases hst
        · exact h.stay (by rw [hpc]; rfl) trivial (noBase rfl) (fun _ => hsm)
        · exact h.stay (by rw [hpc]; rfl) trivial (noBase rfl) (fun _ => hsm)
  case d1 s =>
    split at hst <;> cases hst
    next hn => exact h.locks (Or.inl ⟨hn, rfl, rfl⟩) trivial (noBase rfl) (fun _ => hld)
  case d2 s =>
    split at hst <;> cases hst
    split <;> exact h.stay (by rw [hpc]; rfl) trivial (noBase rfl) (fun _ => hld)
  case d3 s => cases hst; exact h.stay (by rw [hpc]; rfl) trivial (noBase rfl) (fun _ => hld)
  case d4 s d =>
    split at hst <;> cases hst
    · exact h.stay (by rw [hpc]; rfl) trivial (noBase rfl) (fun _ => hld)
    · exact h.stay (by rw [hpc]; rfl) trivial (noBase rfl) (fun _ => hld)
  case d5 s d i =>
    cases hst
    exact h.quiet (x := { st with dlen := fun e => if e = d then st.dlen d - 1 else st.dlen e }) rfl rfl rfl rfl h.ikey
      (by rw [hpc]; rfl) trivial (noBase rfl) (fun _ => hld)
  case d6 s i =>
    cases hst
    refine h.quiet (x := { st with item := fun j => if j = i then { st.item i with deleted := true } else st.item j }) rfl rfl rfl rfl ?_
      (by rw [hpc]; rfl) trivial (noBase rfl) (fun _ => hld)
    intro j hj
    simp only
    split
    · next e => rw [← e]; exact h.ikey j hj
    · exact h.ikey j hj
  case d7 s =>
    split at hst <;> cases hst
    · exact h.quiet (x := { st with misses := st.misses + 1 }) rfl rfl rfl rfl h.ikey (by rw [hpc]; rfl) trivial (noBase rfl) (fun _ => hld)
    · exact h.quiet (x := { st with misses := st.misses + 1 }) rfl rfl rfl rfl h.ikey (by rw [hpc]; rfl) trivial (noBase rfl) (fun _ => hld)
  case d8 s =>
    cases hst
    exact h.locks (Or.inr ⟨by simpa using hlk, rfl, rfl⟩) trivial (noBase rfl) (fun h => by cases h)

/-- What `start` does. -/
theorem start_eq {st st' : St} {t : Tid} {cl : Call} (hst : start st t cl = some st') :
    (st.pc t = .idle ∨ ∃ cl r, st.pc t = .ret cl r) ∧ ((∃ s v, cl = .set s v ∧ st' = setPC { st with sets := (s, v) :: st.sets } t (.s0 s v)) ∨
      (∃ s, cl = .get s ∧ st' = setPC st t (.g0 s)) ∨ (∃ s, cl = .delete s ∧ st' = setPC { st with dels := s :: st.dels } t (.d0 s))) := by
  unfold start at hst
  split at hst
  · next hpc =>
    refine ⟨Or.inl hpc, ?_⟩
    cases cl <;> cases hst
    · exact Or.inl ⟨_, _, rfl, rfl⟩
    · exact Or.inr (Or.inl ⟨_, rfl, rfl⟩)
    · exact Or.inr (Or.inr ⟨_, rfl, rfl⟩)
  · next c r hpc =>
    refine ⟨Or.inr ⟨c, r, hpc⟩, ?_⟩
    cases cl <;> cases hst
    · exact Or.inl ⟨_, _, rfl, rfl⟩
    · exact Or.inr (Or.inl ⟨_, rfl, rfl⟩)
    · exact Or.inr (Or.inr ⟨_, rfl, rfl⟩)
  · cases hst

theorem start_inv2 {st st' : St} {t : Tid} {cl : Call} (h : Inv2 H st) (hst : start st t cl = some st') : Inv2 H st' := by
  obtain ⟨hp, hc⟩ := start_eq hst
  have hh : holds (st.pc t) = false := by
    rcases hp with hp | ⟨_, _, hp⟩ <;> rw [hp] <;> rfl
  rcases hc with ⟨s, v, _, rfl⟩ | ⟨s, _, rfl⟩ | ⟨s, _, rfl⟩
  · refine h.quiet (x := { st with sets := (s, v) :: st.sets }) rfl rfl rfl rfl ?_ hh.symm trivial (noBase rfl) (fun h => by cases h)
    intro i hi
    obtain ⟨w, hw⟩ := h.ikey i hi
    exact ⟨w, List.mem_cons_of_mem _ hw⟩
  · exact h.stay hh.symm trivial (noBase rfl) (fun h => by cases h)
  · exact h.quiet (x := { st with dels := s :: st.dels }) rfl rfl rfl rfl h.ikey hh.symm trivial (noBase rfl) (fun h => by cases h)

/-- Both invariants. -/
structure Good (H : HashFns) (st : St) : Prop where
  inv : Inv H st
  inv2 : Inv2 H st

theorem Step.good {st st' : St} {t : Tid} (h : Good H st) (hst : Step H st t st') : Good H st' := by
  refine ⟨hst.inv h.inv, ?_⟩
  cases hst with
  | start hs => exact start_inv2 h.inv2 hs
  | move hs hm => exact step_inv2 h.inv2 h.inv hm

theorem init_good : Good H init :=
  ⟨init_inv, ⟨fun u => by simp [init, holds], fun _ => trivial, fun rm hr => (by cases hr), fun u o ho => (by cases ho),
    fun u hu => (by cases hu), fun i hi => absurd hi (Nat.not_lt_zero _)⟩⟩

theorem Steps.good {st st' : St} (h : Good H st) (hst : Steps H st st') : Good H st' := by
  induction hst with
  | refl => exact h
  | tail _ hs ih => exact hs.good ih

end SLM.RConc
