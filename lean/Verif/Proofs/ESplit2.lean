import Verif.Proofs.ESplit
set_option autoImplicit false
namespace SLM.ESplit

/-- What a step does to the reachable buckets, the arrays and the keys on their way. -/
inductive Eff (s s' : St) (t : Tid) : Prop
  | quiet (hr : s'.reach = s.reach) (hp : s'.pool = s.pool) (a : (s.pc t).src = none) (b : (s.pc t).fly = none)
      (a' : (s'.pc t).src = none) (b' : (s'.pc t).fly = none)
  | insert (r c : U64) (l : List U64) (e : s.pc t = .sLock r c) (hl : s.lock c = false) (hc : s.pool c = some l) (hr : s'.reach = s.reach)
      (hp : s'.pool = fun d => if d = c then some (ins r l) else s.pool d) (a' : (s'.pc t).src = none) (b' : (s'.pc t).fly = none)
  | publish (x m : U64) (hh : (s.pc t).held = some x) (hw : (s.pc t).work = none) (g : Gap s x m) (hr : s'.reach = m :: s.reach) (hp : s'.pool = s.pool)
      (a' : (s'.pc t).src = some (x, m)) (b' : (s'.pc t).fly = none)
  | index (hr : s'.reach = s.reach) (hp : s'.pool = s.pool) (a' : (s'.pc t).src = (s.pc t).src) (b : (s.pc t).fly = none) (b' : (s'.pc t).fly = none)
  | cut (x m : U64) (l : List U64) (a : (s.pc t).src = some (x, m)) (b : (s.pc t).fly = none) (hx : s.pool x = some l) (hr : s'.reach = s.reach)
      (hp : s'.pool = fun d => if d = x then some (l.take (findIdx m l)) else s.pool d) (a' : (s'.pc t).src = none)
      (b' : (s'.pc t).fly = some (m, l.drop (findIdx m l))) (hk : (s'.pc t).held = (s.pc t).held)
  | set (m : U64) (l : List U64) (a : (s.pc t).src = none) (b : (s.pc t).fly = some (m, l)) (hm : s.pool m = none) (hr : s'.reach = s.reach)
      (hp : s'.pool = fun d => if d = m then some l else s.pool d) (a' : (s'.pc t).src = none) (b' : (s'.pc t).fly = none)

/-- The goroutine that moves. -/
def Move.who : Move → Tid
  | .call t _ => t
  | .step t => t

theorem eff {max : Nat} {s s' : St} {mv : Move} (i : Inv s) (tm : Tame s mv) (h : exec max s mv = some s') :
    Eff s s' mv.who ∧ ∀ u, u ≠ mv.who → s'.pc u = s.pc u := by
  cases mv with
  | call t c =>
    obtain ⟨hpc, rfl⟩ := exec_call h
    refine ⟨.quiet rfl rfl ?_ ?_ ?_ ?_, fun u hu => if_neg hu⟩
    · show (s.pc t).src = none
      rcases hpc with e | ⟨b, e⟩ <;> rw [e] <;> rfl
    · show (s.pc t).fly = none
      rcases hpc with e | ⟨b, e⟩ <;> rw [e] <;> rfl
    · show ((setPC s t c.start).pc t).src = none
      rw [setPC_pc, if_pos rfl]; cases c <;> rfl
    · show ((setPC s t c.start).pc t).fly = none
      rw [setPC_pc, if_pos rfl]; cases c <;> rfl
  | step t =>
    unfold exec at h; simp only at h
    unfold go at h
    unfold Tame at tm; simp only at tm
    show Eff s s' t ∧ ∀ u, u ≠ t → s'.pc u = s.pc u
    cases hp : s.pc t <;> simp only [hp] at h tm
    case idle => cases h
    case done => cases h
    case gFind r =>
      cases h
      exact ⟨.quiet rfl rfl (by rw [hp]; rfl) (by rw [hp]; rfl) (by rw [setPC_pc, if_pos rfl]; rfl) (by rw [setPC_pc, if_pos rfl]; rfl), fun u hu => if_neg hu⟩
    case gRead r b =>
      obtain ⟨l, -, rfl⟩ := Option.map_eq_some_iff.mp h
      exact ⟨.quiet rfl rfl (by rw [hp]; rfl) (by rw [hp]; rfl) (by rw [setPC_pc, if_pos rfl]; rfl) (by rw [setPC_pc, if_pos rfl]; rfl), fun u hu => if_neg hu⟩
    case sFind r =>
      cases h
      exact ⟨.quiet rfl rfl (by rw [hp]; rfl) (by rw [hp]; rfl) (by rw [setPC_pc, if_pos rfl]; rfl) (by rw [setPC_pc, if_pos rfl]; rfl), fun u hu => if_neg hu⟩
    case sLook r b =>
      obtain ⟨l, -, rfl⟩ := Option.map_eq_some_iff.mp h
      exact ⟨.quiet rfl rfl (by rw [hp]; rfl) (by rw [hp]; rfl) (by rw [setPC_pc, if_pos rfl]; split <;> rfl) (by rw [setPC_pc, if_pos rfl]; split <;> rfl), fun u hu => if_neg hu⟩
    case uLock r b =>
      cases h
      split
      · exact ⟨.quiet rfl rfl (by rw [hp]; rfl) (by rw [hp]; rfl) (by rw [setPC_pc, if_pos rfl]; rfl) (by rw [setPC_pc, if_pos rfl]; rfl), fun u hu => if_neg hu⟩
      · exact ⟨.quiet rfl rfl (by rw [hp]; rfl) (by rw [hp]; rfl) (by rw [setPC_pc, if_pos rfl]; rfl) (by rw [setPC_pc, if_pos rfl]; rfl), fun u hu => if_neg hu⟩
    case sLock r b =>
      split at h
      · cases h
      rename_i hl
      obtain ⟨l, hx, rfl⟩ := Option.map_eq_some_iff.mp h
      exact ⟨.insert r b l hp (by simpa using hl) hx rfl rfl (by rw [setPC_pc, if_pos rfl]; rfl) (by rw [setPC_pc, if_pos rfl]; rfl), fun u hu => if_neg hu⟩
    case added r h' =>
      obtain ⟨l, -, rfl⟩ := Option.map_eq_some_iff.mp h
      exact ⟨.quiet rfl rfl (by rw [hp]; rfl) (by rw [hp]; rfl) (by rw [setPC_pc, if_pos rfl]; split <;> rfl) (by rw [setPC_pc, if_pos rfl]; split <;> rfl), fun u hu => if_neg hu⟩
    case pub r h' x =>
      obtain ⟨rfl, hx, h4⟩ := tm
      cases h
      exact ⟨.publish x (mid s x) (by rw [hp]; rfl) (by rw [hp]; rfl) (gap_mid hx h4) rfl rfl
        (by show ((setPC s t _).pc t).src = _; rw [setPC_pc, if_pos rfl]; rfl) (by show ((setPC s t _).pc t).fly = _; rw [setPC_pc, if_pos rfl]; rfl), fun u hu => if_neg hu⟩
    case idx r h' x m =>
      obtain ⟨l, hx, rfl⟩ := Option.map_eq_some_iff.mp h
      obtain ⟨h0, h1⟩ := tm l hx
      rw [if_neg (by omega)]
      exact ⟨.index rfl rfl (by rw [setPC_pc, if_pos rfl, hp]; rfl) (by rw [hp]; rfl) (by rw [setPC_pc, if_pos rfl]; rfl), fun u hu => if_neg hu⟩
    case cut r h' x m j =>
      obtain ⟨l, hx, rfl⟩ := Option.map_eq_some_iff.mp h
      obtain ⟨l0, a, rfl, c, d⟩ := i.cut t _ _ _ _ _ hp
      rw [hx] at a; cases a
      rw [if_neg (by omega)]
      exact ⟨.cut x m l (by rw [hp]; rfl) (by rw [hp]; rfl) hx rfl rfl (by rw [setPC_pc, if_pos rfl]; rfl) (by rw [setPC_pc, if_pos rfl]; rfl)
        (by rw [setPC_pc, if_pos rfl, hp]; rfl), fun u hu => if_neg hu⟩
    case setP r h' x m l =>
      cases l with
      | none => exact absurd hp (i.nil t _ _ _ _)
      | some l =>
        have hn := i.bare t m (by rw [hp]; rfl)
        simp only [hn] at h
        cases h
        exact ⟨.set m l (by rw [hp]; rfl) (by rw [hp]; rfl) hn rfl rfl (by rw [setPC_pc, if_pos rfl]; rfl) (by rw [setPC_pc, if_pos rfl]; rfl), fun u hu => if_neg hu⟩
    case lst r h' x m =>
      cases h
      exact ⟨.quiet rfl rfl (by rw [hp]; rfl) (by rw [hp]; rfl) (by show ((setPC s t _).pc t).src = _; rw [setPC_pc, if_pos rfl]; rfl)
        (by show ((setPC s t _).pc t).fly = _; rw [setPC_pc, if_pos rfl]; rfl), fun u hu => if_neg hu⟩
    case again r h' x m =>
      cases h
      exact ⟨.quiet rfl rfl (by rw [hp]; rfl) (by rw [hp]; rfl) (by rw [setPC_pc, if_pos rfl]; split; rfl; split <;> rfl)
        (by rw [setPC_pc, if_pos rfl]; split; rfl; split <;> rfl), fun u hu => if_neg hu⟩
    case unl r h' =>
      cases h
      exact ⟨.quiet rfl rfl (by rw [hp]; rfl) (by rw [hp]; rfl) (by show ((setPC (setLock s h' false) t _).pc t).src = _; rw [setPC_pc, if_pos rfl]; rfl)
        (by show ((setPC (setLock s h' false) t _).pc t).fly = _; rw [setPC_pc, if_pos rfl]; rfl), fun u hu => if_neg hu⟩

theorem src_work {p : PC} {x m : U64} (h : p.src = some (x, m)) : p.work = some (x, m) := by
  cases p <;> simp_all [PC.src, PC.work]
theorem fly_work {p : PC} {m : U64} {l : List U64} (h : p.fly = some (m, l)) : ∃ x, p.work = some (x, m) := by
  revert h; unfold PC.fly; split
  · intro h; cases h; exact ⟨_, rfl⟩
  · intro h; cases h
theorem src_bare {p : PC} {x m : U64} (h : p.src = some (x, m)) : p.bare = some m := by
  cases p <;> simp_all [PC.src, PC.bare]
theorem fly_bare {p : PC} {m : U64} {l : List U64} (h : p.fly = some (m, l)) : p.bare = some m := by
  revert h; unfold PC.fly; split
  · intro h; cases h; rfl
  · intro h; cases h

/-! ### Nothing is thrown away -/

/-- The key is in some array, or on its way to one. -/
def Present (s : St) (r : U64) : Prop := (∃ b l, s.pool b = some l ∧ r ∈ l) ∨ ∃ t m l, (s.pc t).fly = some (m, l) ∧ r ∈ l

theorem present_step {max : Nat} {s s' : St} {mv : Move} (i : Inv s) (tm : Tame s mv) (h : exec max s mv = some s') {r : U64} (hr : Present s r) :
    Present s' r := by
  obtain ⟨e, ho⟩ := eff i tm h
  generalize mv.who = t at e ho
  have other : ∀ u m l, (s.pc u).fly = some (m, l) → u ≠ t → (s'.pc u).fly = some (m, l) := by
    intro u m l a b; rw [ho u b]; exact a
  rcases hr with ⟨b, l, hb, hrl⟩ | ⟨u, m, l, hu, hrl⟩
  · cases e with
    | quiet _ hp => exact .inl ⟨b, l, by rw [hp]; exact hb, hrl⟩
    | insert k c l' _ _ hc _ hp =>
      by_cases e : b = c
      · subst e; rw [hc] at hb; cases hb
        exact .inl ⟨b, _, by rw [hp]; exact if_pos rfl, mem_ins.mpr (.inr hrl)⟩
      · exact .inl ⟨b, l, by rw [hp]; simp only [if_neg e]; exact hb, hrl⟩
    | publish _ _ _ _ _ _ hp => exact .inl ⟨b, l, by rw [hp]; exact hb, hrl⟩
    | index _ hp => exact .inl ⟨b, l, by rw [hp]; exact hb, hrl⟩
    | cut x m l' _ _ hx _ hp _ b' _ =>
      by_cases e : b = x
      · subst e; rw [hx] at hb; cases hb
        rcases mem_take_drop (i := findIdx m l) hrl with h | h
        · exact .inl ⟨b, _, by rw [hp]; exact if_pos rfl, h⟩
        · exact .inr ⟨t, m, _, b', h⟩
      · exact .inl ⟨b, l, by rw [hp]; simp only [if_neg e]; exact hb, hrl⟩
    | set m l' _ _ hm _ hp =>
      refine .inl ⟨b, l, ?_, hrl⟩
      rw [hp]; simp only
      rw [if_neg]; exact hb
      intro e; subst e; rw [hm] at hb; cases hb
  · by_cases hut : u = t
    · subst hut
      cases e with
      | quiet _ _ _ b => rw [b] at hu; cases hu
      | insert k c l' e => rw [e] at hu; cases hu
      | publish x m' hh hw =>
        obtain ⟨y, hy⟩ := fly_work hu
        rw [hw] at hy; cases hy
      | index _ _ _ b => rw [b] at hu; cases hu
      | cut x m' l' _ b => rw [b] at hu; cases hu
      | set m' l' _ b _ _ hp =>
        rw [b] at hu; cases hu
        exact .inl ⟨m, l, by rw [hp]; exact if_pos rfl, hrl⟩
    · exact .inr ⟨u, m, l, other u m l hu hut, hrl⟩

/-- Everything a Set has answered for, or is about to answer for, is present. -/
structure Kept (s : St) : Prop where
  has : ∀ t r, (s.pc t).has = some r → Present s r
  acked : ∀ r ∈ s.acked, Present s r

theorem kept_step {max : Nat} {s s' : St} {mv : Move} (i : Inv s) (tm : Tame s mv) (h : exec max s mv = some s') (k : Kept s) : Kept s' := by
  have mono : ∀ r, Present s r → Present s' r := fun r => present_step i tm h
  obtain ⟨-, ho⟩ := eff i tm h
  suffices hs : (∀ r, (s'.pc mv.who).has = some r → Present s' r) ∧ ∀ r ∈ s'.acked, r ∈ s.acked ∨ (s.pc mv.who).has = some r by
    refine ⟨?_, ?_⟩
    · intro u r e
      by_cases hu : u = mv.who
      · subst hu; exact hs.1 r e
      · rw [ho u hu] at e; exact mono r (k.has u r e)
    · intro r hr
      rcases hs.2 r hr with a | a
      · exact mono r (k.acked r a)
      · exact mono r (k.has _ r a)
  clear tm
  cases mv with
  | call t c =>
    obtain ⟨hpc, rfl⟩ := exec_call h
    refine ⟨?_, fun r hr => .inl hr⟩
    intro r e
    replace e : ((setPC s t c.start).pc t).has = some r := e
    rw [setPC_pc, if_pos rfl] at e; cases c <;> cases e
  | step t =>
    unfold exec at h; simp only at h
    unfold go at h
    show (∀ r, (s'.pc t).has = some r → Present s' r) ∧ ∀ r ∈ s'.acked, r ∈ s.acked ∨ (s.pc t).has = some r
    have same : ∀ p, (s'.pc t) = p → p.has = none ∨ p.has = (s.pc t).has → ∀ r, (s'.pc t).has = some r → Present s' r := by
      intro p e hp r hr
      rw [e] at hr
      rcases hp with hp | hp
      · rw [hp] at hr; cases hr
      · exact mono r (k.has t r (by rw [← hp]; exact hr))
    cases hp : s.pc t <;> simp only [hp] at h
    case idle => cases h
    case done => cases h
    case gFind r =>
      cases h
      exact ⟨same _ (if_pos rfl) (.inl rfl), fun r hr => .inl hr⟩
    case gRead r b =>
      obtain ⟨l, -, rfl⟩ := Option.map_eq_some_iff.mp h
      exact ⟨same _ (if_pos rfl) (.inl rfl), fun r hr => .inl hr⟩
    case sFind r =>
      cases h
      exact ⟨same _ (if_pos rfl) (.inl rfl), fun r hr => .inl hr⟩
    case sLook r b =>
      obtain ⟨l, hl, rfl⟩ := Option.map_eq_some_iff.mp h
      refine ⟨?_, fun r hr => .inl hr⟩
      intro r' e
      rw [setPC_pc, if_pos rfl] at e
      split at e
      · cases e; exact .inl ⟨b, l, hl, ‹_›⟩
      · cases e
    case uLock r b =>
      cases h
      split
      · exact ⟨by rename_i hl; rw [if_pos hl] at same; exact same _ (if_pos rfl) (.inl rfl), fun r hr => .inl hr⟩
      · exact ⟨by rename_i hl; rw [if_neg hl] at same; exact same _ (if_pos rfl) (.inr (by rw [hp]; rfl)), fun r hr => .inl hr⟩
    case sLock r b =>
      split at h
      · cases h
      rename_i hl
      obtain ⟨l, hx, rfl⟩ := Option.map_eq_some_iff.mp h
      refine ⟨?_, fun r hr => .inl hr⟩
      intro r' e
      rw [setPC_pc, if_pos rfl] at e
      cases e
      exact .inl ⟨b, ins r l, if_pos rfl, mem_ins.mpr (.inl rfl)⟩
    case added r h' =>
      obtain ⟨l, -, rfl⟩ := Option.map_eq_some_iff.mp h
      exact ⟨same _ (if_pos rfl) (.inr (by rw [hp]; split <;> rfl)), fun r hr => .inl hr⟩
    case pub r h' x =>
      cases h
      exact ⟨same _ (if_pos rfl) (.inr (by rw [hp]; rfl)), fun r hr => .inl hr⟩
    case idx r h' x m =>
      obtain ⟨l, -, rfl⟩ := Option.map_eq_some_iff.mp h
      exact ⟨same _ (if_pos rfl) (.inr (by rw [hp]; split <;> rfl)), fun r hr => .inl hr⟩
    case cut r h' x m j =>
      obtain ⟨l, -, rfl⟩ := Option.map_eq_some_iff.mp h
      split
      · exact ⟨by rename_i hl; rw [if_pos hl] at same; exact same _ (if_pos rfl) (.inr (by rw [hp]; rfl)), fun r hr => .inl hr⟩
      · exact ⟨by rename_i hl; rw [if_neg hl] at same; exact same _ (if_pos rfl) (.inr (by rw [hp]; rfl)), fun r hr => .inl hr⟩
    case setP r h' x m l =>
      cases l with
      | none => exact absurd hp (i.nil t _ _ _ _)
      | some l =>
        have hn := i.bare t m (by rw [hp]; rfl)
        simp only [hn] at h
        cases h
        exact ⟨same _ (if_pos rfl) (.inr (by rw [hp]; rfl)), fun r hr => .inl hr⟩
    case lst r h' x m =>
      cases h
      exact ⟨same _ (if_pos rfl) (.inr (by rw [hp]; rfl)), fun r hr => .inl hr⟩
    case again r h' x m =>
      cases h
      exact ⟨same _ (if_pos rfl) (.inr (by rw [hp]; split; rfl; split <;> rfl)), fun r hr => .inl hr⟩
    case unl r h' =>
      cases h
      refine ⟨same _ (if_pos rfl) (.inl rfl), ?_⟩
      intro r' hr
      rcases List.mem_cons.mp hr with rfl | hr
      · exact .inr rfl
      · exact .inl hr

/-! ### Where the keys are -/

/-- Every key is where `findBucket` looks, or a split is about to bring it there. -/
structure Placed (s : St) : Prop where
  pool : ∀ b l r, s.pool b = some l → r ∈ l →
    IsFind s.reach r b ∨ ∃ t m, (s.pc t).src = some (b, m) ∧ m ≤ r ∧ IsFind s.reach r m
  fly : ∀ t m l r, (s.pc t).fly = some (m, l) → r ∈ l → IsFind s.reach r m

/-- A bucket that becomes reachable takes over keys of the bucket being split only. -/
theorem isFind_publish {s : St} (i : Inv s) {t : Tid} {x m : U64} (hh : (s.pc t).held = some x) (hw : (s.pc t).work = none) (g : Gap s x m)
    {r f : U64} (h : IsFind s.reach r f) : (f = x ∧ m ≤ r ∧ IsFind (m :: s.reach) r m) ∨ ((f ≠ x ∨ r < m) ∧ IsFind (m :: s.reach) r f) := by
  by_cases hm : m ≤ r
  · have hxf : x ≤ f := h.max x (i.sub x g.mem) (by have := g.lt; bv_omega)
    by_cases hfm : f ≤ m
    · by_cases hfx : f = x
      · refine .inl ⟨hfx, hm, List.mem_cons_self, hm, ?_⟩
        intro y hy hyr
        rcases List.mem_cons.mp hy with rfl | hy
        · bv_omega
        · have := h.max y hy hyr; bv_omega
      · exact absurd hfm (fun e => no_between i hh hw g f h.mem (by bv_omega) e)
    · refine .inr ⟨.inl (by have := g.lt; bv_omega), List.mem_cons_of_mem _ h.mem, h.le, ?_⟩
      intro y hy hyr
      rcases List.mem_cons.mp hy with rfl | hy
      · bv_omega
      · exact h.max y hy hyr
  · refine .inr ⟨.inr (by bv_omega), List.mem_cons_of_mem _ h.mem, h.le, ?_⟩
    intro y hy hyr
    rcases List.mem_cons.mp hy with rfl | hy
    · exact absurd hyr hm
    · exact h.max y hy hyr

theorem listed_not_new {s : St} (i : Inv s) {t : Tid} {x m : U64} (h : (s.pc t).work = some (x, m)) : m ∉ s.listed := by
  intro e
  have g := (i.work t x m h).2.1
  have := g.gap m e g.lt
  bv_omega

theorem placed_step {max : Nat} {s s' : St} {mv : Move} (i : Inv s) (tm : Tame s mv) (fr : Fresh s mv) (h : exec max s mv = some s') (p : Placed s) :
    Placed s' := by
  have fr' : ∀ r b, s.pc mv.who = .sLock r b → s.lock b = false → find s r = b := by
    intro r b e hl
    cases mv with
    | step t =>
      unfold Fresh at fr
      simp only [show s.pc t = _ from e] at fr
      exact fr hl
    | call t c =>
      obtain ⟨hpc, -⟩ := exec_call h
      rcases hpc with e2 | ⟨_, e2⟩ <;> rw [show s.pc t = _ from e] at e2 <;> cases e2
  obtain ⟨e, ho⟩ := eff i tm h
  generalize mv.who = t at e ho fr'
  cases e with
  | quiet hr hp a b a' b' =>
    refine ⟨?_, ?_⟩
    · intro c l r hc hrl
      rw [hp] at hc; rw [hr]
      rcases p.pool c l r hc hrl with e | ⟨u, m, e, e2, e3⟩
      · exact .inl e
      · refine .inr ⟨u, m, ?_, e2, e3⟩
        rw [ho u]; exact e
        intro e4; subst e4; rw [a] at e; cases e
    · intro u m l r hu hrl
      rw [hr]
      by_cases e : u = t
      · subst e; rw [b'] at hu; cases hu
      · rw [ho u e] at hu; exact p.fly u m l r hu hrl
  | insert k c l0 e hl hc hr hp a' b' =>
    have hf := fr' k c e hl
    refine ⟨?_, ?_⟩
    · intro d l r hd hrl
      rw [hr]
      rw [hp] at hd
      have old : (∃ l, s.pool d = some l ∧ r ∈ l) → IsFind s.reach r d ∨ ∃ t m, (s'.pc t).src = some (d, m) ∧ m ≤ r ∧ IsFind s.reach r m := by
        rintro ⟨l, hd, hrl⟩
        rcases p.pool d l r hd hrl with e' | ⟨u, m, e1, e2, e3⟩
        · exact .inl e'
        · refine .inr ⟨u, m, ?_, e2, e3⟩
          rw [ho u]; exact e1
          intro e4; subst e4; rw [e] at e1; cases e1
      by_cases e5 : d = c
      · subst e5
        simp only [if_true] at hd
        cases hd
        rcases mem_ins.mp hrl with rfl | hrl
        · left; rw [← hf]; exact find_is i.reach0 r
        · exact old ⟨l0, hc, hrl⟩
      · simp only [if_neg e5] at hd
        exact old ⟨l, hd, hrl⟩
    · intro u m l r hu hrl
      rw [hr]
      by_cases e : u = t
      · subst e; rw [b'] at hu; cases hu
      · rw [ho u e] at hu; exact p.fly u m l r hu hrl
  | publish x m hh hw g hr hp a' b' =>
    have keep : ∀ u, (s.pc u).work ≠ none → u ≠ t := by
      intro u e1 e2; subst e2; exact e1 hw
    refine ⟨?_, ?_⟩
    · intro d l r hd hrl
      rw [hr]; rw [hp] at hd
      rcases p.pool d l r hd hrl with e | ⟨u, n, e1, e2, e3⟩
      · rcases isFind_publish i hh hw g e with ⟨e1, e2, e3⟩ | ⟨-, e1⟩
        · subst e1; exact .inr ⟨t, m, a', e2, e3⟩
        · exact .inl e1
      · have hut := keep u (by rw [src_work e1]; simp)
        rcases isFind_publish i hh hw g e3 with ⟨e4, -, -⟩ | ⟨-, e4⟩
        · exact absurd g.mem (by rw [← e4]; exact listed_not_new i (src_work e1))
        · exact .inr ⟨u, n, by rw [ho u hut]; exact e1, e2, e4⟩
    · intro u n l r hu hrl
      rw [hr]
      by_cases e : u = t
      · subst e; rw [b'] at hu; cases hu
      · rw [ho u e] at hu
        obtain ⟨y, hy⟩ := fly_work hu
        rcases isFind_publish i hh hw g (p.fly u n l r hu hrl) with ⟨e4, -, -⟩ | ⟨-, e4⟩
        · exact absurd g.mem (by rw [← e4]; exact listed_not_new i hy)
        · exact e4
  | index hr hp a' b b' =>
    refine ⟨?_, ?_⟩
    · intro c l r hc hrl
      rw [hp] at hc; rw [hr]
      rcases p.pool c l r hc hrl with e | ⟨u, m, e, e2, e3⟩
      · exact .inl e
      · refine .inr ⟨u, m, ?_, e2, e3⟩
        by_cases e4 : u = t
        · subst e4; rw [a']; exact e
        · rw [ho u e4]; exact e
    · intro u m l r hu hrl
      rw [hr]
      by_cases e : u = t
      · subst e; rw [b'] at hu; cases hu
      · rw [ho u e] at hu; exact p.fly u m l r hu hrl
  | cut x m l0 a b hx hr hp a' b' _ =>
    obtain ⟨-, hs, -⟩ := i.pool x l0 hx
    obtain ⟨-, g, hm⟩ := i.work t x m (src_work a)
    refine ⟨?_, ?_⟩
    · intro d l r hd hrl
      rw [hr]; rw [hp] at hd
      by_cases e5 : d = x
      · subst e5
        simp only [if_true] at hd
        cases hd
        have hlt := take_lt r hrl
        rcases p.pool d l0 r hx (List.mem_of_mem_take hrl) with e | ⟨u, n, e1, e2, e3⟩
        · exact .inl e
        · have := work_held i (src_work e1) (src_work a)
          subst this
          rw [a] at e1; cases e1
          bv_omega
      · simp only [if_neg e5] at hd
        rcases p.pool d l r hd hrl with e | ⟨u, n, e1, e2, e3⟩
        · exact .inl e
        · refine .inr ⟨u, n, ?_, e2, e3⟩
          rw [ho u]; exact e1
          intro e4; subst e4; rw [a] at e1; cases e1; exact e5 rfl
    · intro u n l r hu hrl
      rw [hr]
      by_cases e : u = t
      · subst e; rw [b'] at hu; cases hu
        have hge := drop_ge hs r hrl
        rcases p.pool x l0 r hx (List.mem_of_mem_drop hrl) with e | ⟨v, n, e1, e2, e3⟩
        · have := e.max _ hm hge
          have := g.lt
          bv_omega
        · have := work_held i (src_work e1) (src_work a)
          subst this
          rw [a] at e1; cases e1
          exact e3
      · rw [ho u e] at hu; exact p.fly u n l r hu hrl
  | set m l0 a b hm hr hp a' b' =>
    refine ⟨?_, ?_⟩
    · intro d l r hd hrl
      rw [hr]; rw [hp] at hd
      by_cases e5 : d = m
      · subst e5
        simp only [if_true] at hd
        cases hd
        exact .inl (p.fly t d _ r b hrl)
      · simp only [if_neg e5] at hd
        rcases p.pool d l r hd hrl with e | ⟨u, n, e1, e2, e3⟩
        · exact .inl e
        · refine .inr ⟨u, n, ?_, e2, e3⟩
          rw [ho u]; exact e1
          intro e4; subst e4; rw [a] at e1; cases e1
    · intro u n l r hu hrl
      rw [hr]
      by_cases e : u = t
      · subst e; rw [b'] at hu; cases hu
      · rw [ho u e] at hu; exact p.fly u n l r hu hrl

/-! ### Keys that are not where they are looked for -/

/-- `r` is not in the bucket `findBucket` gives for it, and no split is bringing it there. -/
structure Lost (s : St) (r : U64) : Prop where
  pool : ∀ l, s.pool (find s r) = some l → r ∉ l
  src : ∀ t x l, (s.pc t).src = some (x, find s r) → s.pool x = some l → r ∉ l
  fly : ∀ t l, (s.pc t).fly = some (find s r, l) → r ∉ l

theorem lost_step {max : Nat} {s s' : St} {mv : Move} {r : U64} (i : Inv s) (tm : Tame s mv) (ni : NoInsert r s mv) (h : exec max s mv = some s') (p : Lost s r) :
    Lost s' r := by
  have i' := i.exec tm h
  have hF := find_is i.reach0 r
  have em : ∀ b, s.pc mv.who = .sLock r b → s.lock b = true := by
    intro b e
    cases mv with
    | step t => exact ni b e
    | call t c =>
      obtain ⟨hpc, -⟩ := exec_call h
      rcases hpc with e2 | ⟨_, e2⟩ <;> rw [show s.pc t = _ from e] at e2 <;> cases e2
  obtain ⟨e, ho⟩ := eff i tm h
  generalize mv.who = t at e ho em
  have hfind : s'.reach = s.reach → find s' r = find s r := by
    intro hr; exact find_eq i'.reach0 (by rw [hr]; exact hF)
  cases e with
  | quiet hr hp a b a' b' =>
    have hf := hfind hr
    refine ⟨?_, ?_, ?_⟩
    · rw [hf, hp]; exact p.pool
    · intro u x l e
      by_cases e2 : u = t
      · subst e2; rw [a'] at e; cases e
      · rw [ho u e2, hf] at e; rw [hp]; exact p.src u x l e
    · intro u l e
      by_cases e2 : u = t
      · subst e2; rw [b'] at e; cases e
      · rw [ho u e2, hf] at e; exact p.fly u l e
  | insert k c l0 ek hl hc hr hp a' b' =>
    have hf := hfind hr
    have hk : k ≠ r := by
      intro e2; subst e2; have := em c ek; rw [hl] at this; cases this
    have pl : ∀ d l, s'.pool d = some l → ∃ l1, s.pool d = some l1 ∧ (r ∈ l → r ∈ l1) := by
      intro d l hd
      rw [hp] at hd
      by_cases e5 : d = c
      · subst e5
        simp only [if_true] at hd; cases hd
        exact ⟨l0, hc, fun h => (mem_ins.mp h).resolve_left (Ne.symm hk)⟩
      · simp only [if_neg e5] at hd
        exact ⟨l, hd, id⟩
    refine ⟨?_, ?_, ?_⟩
    · intro l hd hrl
      rw [hf] at hd
      obtain ⟨l1, h1, h2⟩ := pl _ l hd
      exact p.pool l1 h1 (h2 hrl)
    · intro u x l e hd hrl
      obtain ⟨l1, h1, h2⟩ := pl _ l hd
      by_cases e2 : u = t
      · subst e2; rw [a'] at e; cases e
      · rw [ho u e2, hf] at e; exact p.src u x l1 e h1 (h2 hrl)
    · intro u l e
      by_cases e2 : u = t
      · subst e2; rw [b'] at e; cases e
      · rw [ho u e2, hf] at e; exact p.fly u l e
  | publish x m hh hw g hr hp a' b' =>
    have keep : ∀ u, (s.pc u).work ≠ none → u ≠ t := by
      intro u e1 e2; subst e2; exact e1 hw
    have hnew : m ∉ s.reach := fun e => no_between i hh hw g m e g.lt (by bv_omega)
    rcases isFind_publish i hh hw g hF with ⟨e1, e2, e3⟩ | ⟨e0, e1⟩
    · have hf : find s' r = m := find_eq i'.reach0 (by rw [hr]; exact e3)
      refine ⟨?_, ?_, ?_⟩
      · intro l hl
        rw [hf, hp] at hl
        exact absurd (i.pool m l hl).1 hnew
      · intro u y l e hl
        rw [hp] at hl; rw [hf] at e
        by_cases e2 : u = t
        · subst e2; rw [a'] at e; cases e
          rw [← e1] at hl
          exact p.pool l hl
        · rw [ho u e2] at e
          exact absurd (i.work u y m (src_work e)).2.2 hnew
      · intro u l e
        rw [hf] at e
        by_cases e2 : u = t
        · subst e2; rw [b'] at e; cases e
        · rw [ho u e2] at e
          obtain ⟨y, hy⟩ := fly_work e
          exact absurd (i.work u y m hy).2.2 hnew
    · have hf : find s' r = find s r := find_eq i'.reach0 (by rw [hr]; exact e1)
      refine ⟨?_, ?_, ?_⟩
      · rw [hf, hp]; exact p.pool
      · intro u y l e
        by_cases e2 : u = t
        · subst e2; rw [a', hf] at e
          have : m = find s r := by cases e; rfl
          rw [this] at hnew
          exact absurd hF.mem hnew
        · rw [ho u e2, hf] at e; rw [hp]; exact p.src u y l e
      · intro u l e
        by_cases e2 : u = t
        · subst e2; rw [b'] at e; cases e
        · rw [ho u e2, hf] at e; exact p.fly u l e
  | index hr hp a' b b' =>
    have hf := hfind hr
    refine ⟨?_, ?_, ?_⟩
    · rw [hf, hp]; exact p.pool
    · intro u x l e
      by_cases e2 : u = t
      · subst e2; rw [a', hf] at e; rw [hp]; exact p.src u x l e
      · rw [ho u e2, hf] at e; rw [hp]; exact p.src u x l e
    · intro u l e
      by_cases e2 : u = t
      · subst e2; rw [b'] at e; cases e
      · rw [ho u e2, hf] at e; exact p.fly u l e
  | cut x m l0 a b hx hr hp a' b' _ =>
    have hf := hfind hr
    have pl : ∀ d l, s'.pool d = some l → ∃ l1, s.pool d = some l1 ∧ (r ∈ l → r ∈ l1) := by
      intro d l hd
      rw [hp] at hd
      by_cases e5 : d = x
      · subst e5
        simp only [if_true] at hd; cases hd
        exact ⟨l0, hx, fun h => List.mem_of_mem_take h⟩
      · simp only [if_neg e5] at hd
        exact ⟨l, hd, id⟩
    refine ⟨?_, ?_, ?_⟩
    · intro l hd hrl
      rw [hf] at hd
      obtain ⟨l1, h1, h2⟩ := pl _ l hd
      exact p.pool l1 h1 (h2 hrl)
    · intro u y l e hd hrl
      obtain ⟨l1, h1, h2⟩ := pl _ l hd
      by_cases e2 : u = t
      · subst e2; rw [a'] at e; cases e
      · rw [ho u e2, hf] at e; exact p.src u y l1 e h1 (h2 hrl)
    · intro u l e hrl
      by_cases e2 : u = t
      · subst e2; rw [b', hf] at e
        have e6 : m = find s r ∧ l0.drop (findIdx m l0) = l := by
          have := Option.some.inj e; exact ⟨congrArg Prod.fst this, congrArg Prod.snd this⟩
        refine p.src u x l0 (by rw [← e6.1]; exact a) hx ?_
        rw [← e6.2] at hrl; exact List.mem_of_mem_drop hrl
      · rw [ho u e2, hf] at e; exact p.fly u l e hrl
  | set m l0 a b hm hr hp a' b' =>
    have hf := hfind hr
    have pl : ∀ d l, s'.pool d = some l → (d = m ∧ l = l0) ∨ s.pool d = some l := by
      intro d l hd
      rw [hp] at hd
      by_cases e5 : d = m
      · subst e5
        simp only [if_true] at hd; cases hd
        exact .inl ⟨rfl, rfl⟩
      · simp only [if_neg e5] at hd
        exact .inr hd
    refine ⟨?_, ?_, ?_⟩
    · intro l hd hrl
      rw [hf] at hd
      rcases pl _ l hd with ⟨e1, rfl⟩ | h1
      · exact p.fly t l (by rw [b, e1]) hrl
      · exact p.pool l h1 hrl
    · intro u y l e hd hrl
      by_cases e2 : u = t
      · subst e2; rw [a'] at e; cases e
      · rw [ho u e2, hf] at e
        rcases pl _ l hd with ⟨e1, rfl⟩ | h1
        · exact absurd (i.work u y _ (src_work e)).2.1.mem (by rw [e1]; obtain ⟨z, hz⟩ := fly_work b; exact listed_not_new i hz)
        · exact p.src u y l e h1 hrl
    · intro u l e
      by_cases e2 : u = t
      · subst e2; rw [b'] at e; cases e
      · rw [ho u e2, hf] at e; exact p.fly u l e

theorem init_placed : Placed init := by
  refine ⟨?_, ?_⟩
  · intro b l r e hr
    replace e : (if b ∈ tops then some [] else none) = some l := e
    split at e
    · cases e; cases hr
    · cases e
  · intro t m l r e; cases e

theorem init_kept : Kept init := ⟨fun t r e => by (cases e), fun r h => by (cases h)⟩

end SLM.ESplit
