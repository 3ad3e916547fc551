import Verif.Proofs.RConc4
/-! The concurrent `RMap` model with faultless dirty maps: stored keys are kept. -/
set_option autoImplicit false
namespace SLM.RConc

variable {H : HashFns}

theorem exact_seen (st : St) (t : Tid) : Seen H st t (exact H st t) := by
  constructor
  · intro s d hs i hi
    simp only [exact, hs, Option.bind_some, lookup] at hi
    have h1 := List.find?_some hi
    have h2 := List.mem_of_find?_eq_some hi
    simp only [decide_eq_true_eq] at h1
    exact ⟨h2, h1.1, h1.2.1⟩
  · intro d hd i hi
    simp only [exact, hd] at hi
    exact (List.mem_filter.1 hi).1

theorem XStep.step {st st' : St} {t : Tid} (h : XStep H st t st') : Step H st t st' := by
  cases h with
  | start h => exact .start h
  | move h => exact .move (exact_seen _ _) h

theorem XSteps.steps {st st' : St} (h : XSteps H st st') : Steps H st st' := by
  induction h with
  | refl => exact .refl
  | tail _ hs ih => exact ih.tail hs.step

/-- The key a Delete under way works on. -/
def delKey : PC → Option Str
  | .p0 _ (.miss (.delete s) _) => some s
  | .d0 s => some s
  | .d1 s => some s
  | .d2 s => some s
  | .d3 s => some s
  | .d4 s _ => some s
  | .d5 s _ _ => some s
  | .d6 s _ => some s
  | .d7 s => some s
  | .d8 s => some s
  | _ => none

theorem step_dels {st st' : St} {t : Tid} {ch : Choice} (hst : step H ch st t = some st') : st'.dels = st.dels := by
  unfold step at hst
  cases hpc : st.pc t <;> rw [hpc] at hst <;> simp only [reduceCtorEq] at hst <;>
    (repeat' split at hst) <;> first | (cases hst; done) | (cases hst; rfl)

theorem step_delKey {st st' : St} {t : Tid} {ch : Choice} {s : Str} (hsh : Shp (st.pc t)) (hst : step H ch st t = some st')
    (h : delKey (st'.pc t) = some s) : delKey (st.pc t) = some s := by
  unfold step at hst
  cases hpc : st.pc t <;> rw [hpc] at hst hsh <;> simp only [reduceCtorEq] at hst
  case g6 cl r =>
    exfalso
    split at hst <;> cases hst <;> simp only [setPC_pc, if_true] at h
    · cases cl <;> first | (cases h; done) | (cases hsh; done)
    · cases h
  case p8 k =>
    exfalso
    cases hst
    simp only [setPC_pc, if_true] at h
    cases k <;> cases h
  case s0 s v =>
    exfalso
    split at hst <;> cases hst <;> simp only [setPC_pc, if_true, afterLoad] at h
    · cases h
    · split at h <;> cases h
  case s2 s v =>
    exfalso
    split at hst <;> cases hst <;> simp only [setPC_pc, if_true, afterLoad] at h
    split at h <;> cases h
  all_goals
    (repeat' split at hst) <;>
      first
        | (cases hst; done)
        | (cases hst; simp only [setPC_pc, if_true] at h; first | (cases h; done) | exact h | (split at h <;> first | (cases h; done) | exact h))

/-- Deletes under way have been called. -/
def DelOk (st : St) : Prop := ∀ u s, delKey (st.pc u) = some s → s ∈ st.dels

theorem DelOk.step {st st' : St} {t : Tid} (hg : Good H st) (hd : DelOk st) (h : Step H st t st') : DelOk st' ∧ ∀ s ∈ st.dels, s ∈ st'.dels := by
  cases h with
  | start h =>
    obtain ⟨_, hc⟩ := start_eq h
    rcases hc with ⟨s, v, _, rfl⟩ | ⟨s, _, rfl⟩ | ⟨s, _, rfl⟩
    · refine ⟨fun u s' h => ?_, fun _ h => h⟩
      simp only [setPC_pc] at h
      split at h
      · cases h
      · exact hd u s' h
    · refine ⟨fun u s' h => ?_, fun _ h => h⟩
      simp only [setPC_pc] at h
      split at h
      · cases h
      · exact hd u s' h
    · refine ⟨fun u s' h => ?_, fun _ h => List.mem_cons_of_mem _ h⟩
      simp only [setPC_pc] at h
      show s' ∈ s :: st.dels
      split at h
      · cases h; simp
      · exact List.mem_cons_of_mem _ (hd u s' h)
  | move _ h =>
    refine ⟨fun u s hs => ?_, fun s hs => by rw [step_dels h]; exact hs⟩
    rw [step_dels h]
    by_cases hu : u = t
    · subst hu; exact hd u s (step_delKey (hg.inv2.shp u) h hs)
    · rw [step_other h hu] at hs; exact hd u s hs

theorem Steps.delOk {st st' : St} (hg : Good H st) (hd : DelOk st) (h : Steps H st st') : DelOk st' ∧ ∀ s ∈ st.dels, s ∈ st'.dels := by
  induction h with
  | refl => exact ⟨hd, fun _ h => h⟩
  | tail hh hs ih =>
    obtain ⟨a, b⟩ := ih.1.step (hh.good hg) hs
    exact ⟨a, fun s h => b s (ih.2 s h)⟩

theorem init_delOk : DelOk init := fun _ _ h => by cases h

/-- Item `i` is live and has the hashes of `q`. -/
def LiveOf (H : HashFns) (st : St) (q : Str) (i : Nat) : Prop :=
  H.mem (st.item i).key = H.mem q ∧ H.xx (st.item i).key = H.xx q ∧ (st.item i).deleted = false

/-- No Delete of a key with the hashes of `q` has been called. -/
def Undel (H : HashFns) (st : St) (q : Str) : Prop := ∀ s ∈ st.dels, ¬ (H.mem s = H.mem q ∧ H.xx s = H.xx q)

/-- A promotion under way will not lose a key of primary hash `x` stored in the dirty map. -/
def Takes (st : St) (x : U64) : PC → Prop
  | .p3 _ _ _ d => d = st.cur
  | .p4 _ _ _ m => (mget m x).isSome = true
  | .p5 _ => False
  | .p6 _ => False
  | _ => True

/-- `q` is in the read map, or in the dirty map from where the next promotion takes it. -/
def Kept (H : HashFns) (st : St) (q : Str) : Prop :=
  Has st (H.mem q) ∨ ((∃ i ∈ st.dirty st.cur, LiveOf H st q i) ∧ ∀ u, Takes st (H.mem q) (st.pc u))

theorem step_live {st st' : St} {t : Tid} {ch : Choice} {q : Str} {i : Nat} (hg : Good H st) (hd : DelOk st) (hu : Undel H st q)
    (hi : i < st.nextI) (h : LiveOf H st q i) (hst : step H ch st t = some st') : LiveOf H st' q i := by
  obtain ⟨h1, h2, h3⟩ := h
  have hk := (step_ext hst).key i hi
  refine ⟨by rw [hk]; exact h1, by rw [hk]; exact h2, ?_⟩
  unfold step at hst
  cases hpc : st.pc t <;> rw [hpc] at hst <;> simp only [reduceCtorEq] at hst
  case s6 s v j =>
    split at hst <;> cases hst
    · simp only [setPC, store]; split
      · next hj => rw [← hj]; exact h3
      · exact h3
    · exact h3
  case s8 s v rm d =>
    split at hst
    · split at hst <;> cases hst
      · simp only [setPC, store]; split
        · next hj => rw [← hj]; exact h3
        · exact h3
      · exact h3
    · cases hst
      simp only [setPC]
      rw [if_neg (by omega)]; exact h3
  case d6 s j =>
    cases hst
    simp only [setPC]; split
    · next hj =>
      exfalso
      have hl := hg.inv.loc t
      rw [hpc] at hl
      rw [hj] at h1 h2
      exact hu s (hd t s (by rw [hpc]; rfl)) ⟨hl.2.1.symm.trans h1, hl.2.2.symm.trans h2⟩
    · exact h3
  all_goals
    (repeat' split at hst) <;> first | (cases hst; done) | (cases hst; exact h3)

theorem step_dirty_grows {st st' : St} {t : Tid} {ch : Choice} (hst : step H ch st t = some st') (hp : ∀ k, st.pc t ≠ .p6 k) {d j : Nat}
    (hj : j ∈ st.dirty d) : j ∈ st'.dirty d := by
  unfold step at hst
  cases hpc : st.pc t <;> rw [hpc] at hst <;> simp only [reduceCtorEq] at hst
  case s8 s v rm e =>
    split at hst
    · split at hst <;> cases hst <;> exact hj
    · cases hst
      simp only [setPC]
      split
      · next he => rw [he.1] at hj; exact List.mem_append_left _ hj
      · exact hj
  case p6 k => exact absurd hpc (hp k)
  all_goals
    (repeat' split at hst) <;> first | (cases hst; done) | (cases hst; exact hj)

theorem Takes.same {a b : St} {x : U64} {p : PC} (hc : b.cur = a.cur) (h : Takes a x p) : Takes b x p := by
  cases p <;> first | exact h | (show _ = b.cur; rw [hc]; exact h)

theorem Kept.step {st st' : St} {t : Tid} {q : Str} (hg : Good H st) (hr : Ready st) (hd : DelOk st) (hu : Undel H st q) (hk : Kept H st q)
    (h : XStep H st t st') : Kept H st' q := by
  rcases hk with hk | ⟨⟨i, hi, hl⟩, hT⟩
  · exact Or.inl (hk.step hg hr h.step)
  · cases h with
    | start h =>
      obtain ⟨a, b, c, d, e, f⟩ := start_read h
      refine Or.inr ⟨⟨i, by rw [e, f]; exact hi, ?_⟩, fun u => ?_⟩
      · unfold LiveOf at hl ⊢; rw [b]; exact hl
      · by_cases hu : u = t
        · subst hu
          rw [start_self h]
          split <;> trivial
        · rw [start_other h hu]; exact (hT u).same f
    | move h =>
      have hTt := hT t
      have hn6 : ∀ k, st.pc t ≠ .p6 k := fun k he => by rw [he] at hTt; exact hTt
      have hcur : st'.cur = st.cur := by
        rcases step_cur h with h1 | ⟨k, h1, _⟩
        · exact h1
        · exact absurd h1 (hn6 k)
      by_cases hsw : ∃ am k o m, st.pc t = .p4 am k o m ∧ st.read.map (·.id) = some o.id
      · obtain ⟨am, k, o, m, h1, h2⟩ := hsw
        left
        unfold RConc.step at h
        rw [h1] at h hTt
        simp only [h2, if_true] at h
        cases h
        exact ⟨_, rfl, hTt⟩
      · right
        refine ⟨⟨i, ?_, ?_⟩, fun u => ?_⟩
        · rw [hcur]; exact step_dirty_grows h hn6 hi
        · exact step_live hg hd hu (hg.inv.glob.dirty _ _ hi) hl h
        · by_cases hut : u = t
          · subst hut
            unfold RConc.step at h
            cases hpc : st.pc u <;> rw [hpc] at h hTt <;> simp only [reduceCtorEq] at h
            case p2 am k o => cases h; simp [Takes, setPC]
            case p3 am k o d =>
              split at h <;> cases h <;> simp only [setPC_pc, if_true]
              · trivial
              · refine merge_keys _ _ _ (Or.inr ⟨i, ?_, hl.1⟩)
                have hd' : d = st.cur := hTt
                simp only [exact, hpc, ranges, List.mem_filter, Bool.not_eq_true', hd']
                exact ⟨hi, hl.2.2⟩
            case p4 am k o m =>
              split at h
              · next he => exact absurd ⟨am, k, o, m, hpc, he⟩ hsw
              · cases h; simp [Takes]
            case p5 => exact absurd hTt (by simp [Takes])
            case p6 => exact absurd hTt (by simp [Takes])
            case p8 k =>
              cases h
              simp only [setPC_pc, if_true]
              cases k <;> trivial
            case s0 =>
              split at h <;> cases h <;> simp only [setPC_pc, if_true, afterLoad]
              · trivial
              · split <;> trivial
            case s2 =>
              split at h <;> cases h <;> simp only [setPC_pc, if_true, afterLoad]
              split <;> trivial
            all_goals
              (repeat' split at h) <;>
                first | (cases h; done) | (cases h; simp only [setPC_pc, if_true]; first | trivial | (split <;> trivial))
          · rw [step_other h hut]; exact (hT u).same hcur

theorem Kept.steps {st st' : St} {q : Str} (hg : Good H st) (hr : Ready st) (hd : DelOk st) (hk : Kept H st q)
    (h : XSteps H st st') (hu : Undel H st' q) : Kept H st' q := by
  induction h with
  | refl => exact hk
  | @tail s1 s2 t hh hs ih =>
    have hd1 := hh.steps.delOk hg hd
    have hg1 := hh.steps.good hg
    have hu1 : Undel H s1 q := fun s h => hu s ((hd1.1.step hg1 hs.step).2 s h)
    exact (ih hu1).step hg1 (hr.steps hh.steps) hd1.1 hu1 hs

/-- StoreItem of Set while no promotion is past its look at the dirty map. -/
theorem kept_of_store {st st' : St} {t : Tid} {q : Str} {v : IVal} {rm : RM} (hp : st.pc t = .s8 q v rm st.cur)
    (hT : ∀ u, match st.pc u with | .p3 _ _ _ d => d = st.cur | .p4 _ _ _ _ | .p5 _ | .p6 _ => False | _ => True)
    (h : step H (exact H st t) st t = some st') (hn : ∀ p, st'.pc t ≠ .ret (.set q v) (.panic p)) : Kept H st' q := by
  right
  have htk : ∀ b : St, b.cur = st.cur → ∀ u, Takes b (H.mem q) (st.pc u) := by
    intro b hb u
    have := hT u
    cases hpc : st.pc u <;> rw [hpc] at this <;> first | trivial | exact this.elim | (show _ = b.cur; rw [hb]; exact this)
  unfold step at h
  rw [hp] at h
  simp only at h
  have hnx : ∀ b : St, Takes b (H.mem q) (if rm.m.length = 0 then PC.p0 true (.ret (.set q v) (.bool true)) else .ret (.set q v) (.bool true)) := by
    intro b; split <;> trivial
  split at h
  · next i hi =>
    have hi' : lookup H st st.cur q = some i := by simpa [exact, hp, seeks] using hi
    have h1 := List.find?_some hi'
    have h2 := List.mem_of_find?_eq_some hi'
    simp only [decide_eq_true_eq] at h1
    split at h <;> cases h
    · refine ⟨⟨i, h2, ?_⟩, fun u => ?_⟩
      · simp only [LiveOf, setPC, store, if_true]; exact h1
      · rw [setPC_pc]
        by_cases hut : u = t
        · rw [if_pos hut]; exact hnx _
        · rw [if_neg hut]; exact htk _ (by rfl) u
    · next p _ => exact absurd (by simp) (hn (.map p))
  · cases h
    refine ⟨⟨st.nextI, ?_, ?_⟩, fun u => ?_⟩
    · simp [setPC, exact]
    · simp [LiveOf, setPC]
    · rw [setPC_pc]
      by_cases hut : u = t
      · rw [if_pos hut]; exact hnx _
      · rw [if_neg hut]; exact htk _ (by rfl) u

/-! ### A Get that runs alone -/

/-- Only `t` moves. -/
inductive Alo (H : HashFns) (t : Tid) : St → St → Prop
  | refl {s} : Alo H t s s
  | tail {s s1 s2} (h : Alo H t s s1) (st : RConc.step H (exact H s1 t) s1 t = some s2) : Alo H t s s2

/-- The answer of a Get of `q` is found. -/
def fin (q : Str) : Call → Res → Bool
  | .get s, .got _ _ true => decide (s = q)
  | _, _ => false

def finK (q : Str) : Cont → Bool
  | .miss cl r => fin q cl r
  | _ => false

/-- A Get of `q` that found the key. -/
def past (q : Str) : PC → Bool
  | .g1 s _ => decide (s = q)
  | .g5 s _ => decide (s = q)
  | .g6 cl r => fin q cl r
  | .g7 cl r => fin q cl r
  | .p0 _ k => finK q k
  | .p1 _ k => finK q k
  | .p2 _ k _ => finK q k
  | .p3 _ k _ _ => finK q k
  | .p4 _ k _ _ => finK q k
  | .p5 k => finK q k
  | .p6 k => finK q k
  | .p7 k => finK q k
  | .p8 k => finK q k
  | .ret cl r => fin q cl r
  | _ => false

theorem past_step {st st' : St} {t : Tid} {ch : Choice} {q : Str} (hp : past q (st.pc t) = true) (hst : step H ch st t = some st') :
    past q (st'.pc t) = true := by
  unfold step at hst
  cases hpc : st.pc t <;> rw [hpc] at hst hp <;> simp only [reduceCtorEq] at hst
  case p8 k =>
    cases hst
    simp only [setPC_pc, if_true]
    cases k <;> first | (cases hp; done) | exact hp
  all_goals
    first
      | (cases hp; done)
      | ((repeat' split at hst) <;> first | (cases hst; done) | (cases hst; simp only [setPC_pc, if_true]; exact hp))

/-- Where a lone Get of `q` can be. -/
def Lone (q : Str) (s : St) (t : Tid) (st : St) : Prop :=
  past q (st.pc t) = true ∨ (st.read = s.read ∧ st.cur = s.cur ∧ st.dirty = s.dirty ∧ st.item = s.item ∧
    ((st.pc t = .g0 q) ∨ (st.pc t = .g2 q ∧ ¬ Has s (H.mem q)) ∨ (st.pc t = .g3 q ∧ ¬ Has s (H.mem q)) ∨
      (st.pc t = .g4 q s.cur ∧ ¬ Has s (H.mem q))))

theorem lone_get {s s1 st : St} {t : Tid} {q : Str} (hg : Good H s) (ha : Alone H s q) (hk : Kept H s q) {rm : RM} (hr : s.read = some rm)
    (ham : rm.amended = true) (hst : start s t (.get q) = some s1) (h : Alo H t s1 st) : Lone (H := H) q s t st := by
  induction h with
  | refl =>
    obtain ⟨a, b, c, d, e, f⟩ := start_read hst
    exact Or.inr ⟨a, f, e, b, Or.inl (start_self hst)⟩
  | @tail s2 s3 _ h ih =>
    rcases ih with hp | ⟨a, b, c, d, hp⟩
    · exact Or.inl (past_step hp h)
    · have hnh : ¬ Has s (H.mem q) → mget rm.m (H.mem q) = none := by
        intro hn
        cases hm : mget rm.m (H.mem q) with
        | none => rfl
        | some i => exact absurd ⟨rm, hr, by rw [hm]; rfl⟩ hn
      unfold RConc.step at h
      rcases hp with hp | ⟨hp, hn⟩ | ⟨hp, hn⟩ | ⟨hp, hn⟩ <;> rw [hp] at h <;> simp only [a, hr] at h
      · cases hm : mget rm.m (H.mem q) with
        | some i =>
          rw [hm] at h
          simp only [d, ha.read hg rm i hr hm, if_true] at h
          cases h
          exact Or.inl (by simp [past])
        | none =>
          rw [hm] at h
          simp only [ham, if_true] at h
          cases h
          refine Or.inr ⟨a, b, c, d, Or.inr (Or.inl ⟨by simp, ?_⟩)⟩
          rintro ⟨rm', h1, h2⟩
          rw [hr] at h1; cases h1
          rw [hm] at h2; cases h2
      · rw [hnh hn] at h
        simp only [ham, if_true] at h
        cases h
        exact Or.inr ⟨a, b, c, d, Or.inr (Or.inr (Or.inl ⟨by simp, hn⟩))⟩
      · cases h
        exact Or.inr ⟨a, b, c, d, Or.inr (Or.inr (Or.inr ⟨by simp [b], hn⟩))⟩
      · rcases hk with hk | ⟨⟨i, hi, h1, h2, h3⟩, _⟩
        · exact absurd hk hn
        · have : ∃ j, (exact H s2 t).found = some j := by
            have hs : (lookup H s2 s.cur q).isSome = true := by
              unfold lookup
              rw [List.find?_isSome]
              refine ⟨i, by rw [c]; exact hi, ?_⟩
              rw [d]
              simp [h1, h2, h3]
            obtain ⟨j, hj⟩ := Option.isSome_iff_exists.1 hs
            exact ⟨j, by simp [exact, hp, seeks, hj]⟩
          obtain ⟨j, hj⟩ := this
          rw [hj] at h
          cases h
          exact Or.inl (by simp [past])

theorem lone_ret {s st : St} {t : Tid} {q : Str} {cl : Call} {r : Res} (h : Lone (H := H) q s t st) (hp : st.pc t = .ret cl r) :
    ∃ v c, r = .got v c true := by
  rcases h with h | ⟨_, _, _, _, h⟩
  · rw [hp] at h
    cases cl <;> cases r <;> first | (cases h; done) | skip
    next v c ok =>
      cases ok
      · cases h
      · exact ⟨v, c, rfl⟩
  · rw [hp] at h
    rcases h with h | ⟨h, _⟩ | ⟨h, _⟩ | ⟨h, _⟩ <;> cases h

end SLM.RConc
