import Verif.Proofs.Conc11
import Verif.Props.Conc8
/-!
C103: with one writer at a time and no bucket being divided, nothing else is needed (C94 without its condition on lookups).

C102: once the keys are in the map, it is linearizable without any lock as long as no key is added: Gets of any keys, Sets of keys that are present and stay, Deletes of other
keys (each by one goroutine at a time) and Ranges overlap as they like.
-/
set_option autoImplicit false
set_option maxRecDepth 100000
namespace SLM.Conc
open History

variable {Pk : CSt → Call → Ref → Prop}

/-- The condition on the calls that are started; `S` are the keys that are in the map and stay there.  Only keys of `S` are Set, no key of `S` is Deleted, and of the Deletes
of a hash one is in progress at a time.  No split starts: only a Set that adds a key starts one (map.go:430-432). -/
def FixedKeys (S : U64 × U64 → Prop) (s : CSt) (g : Tid) (s' : CSt) : Prop :=
  s.pc g = .idle →
    (∀ t c key v, s'.pc g = .pick (.set t c key v) → S (t, c)) ∧
    (∀ t c, s'.pc g = .pick (.del t c) → ¬ S (t, c) ∧ ∀ u c', u ≠ g → callOf (s.pc u) ≠ some (.del t c')) ∧
    ∀ t p, s'.pc g ≠ .pick (.split t p)

/-- What a call in such an execution may be. -/
structure Sure (S : U64 × U64 → Prop) (cl : Call) : Prop where
  set : ∀ t c key v, cl = .set t c key v → S (t, c)
  del : ∀ t c, cl = .del t c → ¬ S (t, c)
  split : ∀ t p, cl ≠ .split t p

structure CalmPC (S : U64 × U64 → Prop) (p : PC) : Prop where
  new : p.newE = none
  lost : isLost p = false
  miss : ∀ t c key v b, p ≠ .miss (.set t c key v) b
  sure : ∀ cl, callOf p = some cl → Sure S cl

theorem CalmPC.of_none {S : U64 × U64 → Prop} {p : PC} (h1 : p.newE = none) (h2 : isLost p = false) (h3 : callOf p = none) : CalmPC S p :=
  ⟨h1, h2, (fun _ _ _ _ _ h => by rw [h] at h3; exact absurd h3 (by simp [callOf])), (fun cl h => by rw [h3] at h; exact absurd h (by simp))⟩

structure CalmInv (S : U64 × U64 → Prop) (s : CSt) : Prop where
  j : J1 s
  calm : ∀ u, CalmPC S (s.pc u)
  ha : HitAt s
  dels : ∀ t a b, InDel t (s.pc a) → InDel t (s.pc b) → a = b
  live : ∀ a t c r, s.pc a = .hit (.del t c) r → ∃ x ∈ s.items, x.ref = r ∧ x.ignored = false
  clear : ∀ k, S k → Clear s k.1 k.2
  here : ∀ k, S k → ∃ x ∈ s.items, x.rev = k.1 ∧ x.ignored = false
  lin : ∀ k, S k → LinInv s k.1 k.2

theorem isLost_iff {p : PC} : isLost p = false ↔ ∀ cl q r, p ≠ .lost cl q r := by
  cases p <;> simp [isLost]

/-- Nobody is about to link a node, so no new bucket is found without its sentinel. -/
theorem CalmInv.no_lost {S : U64 × U64 → Prop} {s s' : CSt} {g : Tid} (I : CalmInv S s) (st : Step Pk s g s') (cl : Call) (q : Path) (r : U64) : s'.pc g ≠ .lost cl q r := by
  intro h
  cases st <;> simp only [setPC_same, reduceCtorEq] at h
  case pickLost h1 h2 h3 h4 h5 =>
    obtain ⟨⟨u, hu⟩, _⟩ := h3
    rw [(I.calm u).new] at hu; cases hu
  case lookHit => split at h <;> cases h
  case lookAdv => split at h <;> cases h
  case findAdv => split at h <;> cases h
  case rangeAdv => split at h <;> cases h

/-- A live entry stays live unless a Delete of its hash marks it. -/
theorem live_stays {s s' : CSt} {g : Tid} (nd : (refs s.items).Nodup) (ha : HitAt s) (st : Step Pk s g s') {x : Entry} (hx : x ∈ s.items) (h2 : x.ignored = false)
    (hn : ∀ c r, s.pc g ≠ .hit (.del x.rev c) r) : ∃ y ∈ s'.items, y.ref = x.ref ∧ y.rev = x.rev ∧ y.ignored = false := by
  cases st <;> try exact ⟨x, hx, rfl, rfl, h2⟩
  case hitSet t' c key v r x' nv ok h3 h4 h5 =>
    by_cases hr : x.ref = r
    · exact ⟨_, List.mem_map.2 ⟨x, hx, if_pos hr⟩, rfl, rfl, h2⟩
    · exact ⟨x, List.mem_map.2 ⟨x, hx, if_neg hr⟩, rfl, rfl, h2⟩
  case hitDel t' c2 r2 h3 =>
    by_cases hr : x.ref = r2
    · exfalso
      obtain ⟨y, hy, hy1, hy2⟩ := ha g _ r2 h3
      have : x = y := List.inj_on_of_nodup_map nd hx hy (hr.trans hy1.symm)
      subst this
      simp only [Call.target, Option.some.injEq, Prod.mk.injEq] at hy2
      exact hn c2 r2 (by rw [h3, hy2.1])
    · exact ⟨x, List.mem_map.2 ⟨x, hx, if_neg hr⟩, rfl, rfl, h2⟩
  case link e r2 h3 => exact ⟨x, mem_insBefore.2 (Or.inr hx), rfl, rfl, h2⟩

theorem CalmPC.sure_step {S : U64 × U64 → Prop} {s s' : CSt} {g : Tid} (hc : CalmPC S (s.pc g)) (st : Step Pk s g s') (o : FixedKeys S s g s') (cl : Call)
    (h : callOf (s'.pc g) = some cl) : Sure S cl := by
  by_cases hi : s.pc g = .idle
  · have hp : s'.pc g = .pick cl := by
      cases st <;> rw [setPC_same] at h ⊢ <;> (first | (simp only [callOf, reduceCtorEq] at h; done) | skip)
      all_goals (first
        | (rename_i h1; rw [h1] at hi; cases hi) | (rename_i h1 _; rw [h1] at hi; cases hi) | (rename_i h1 _ _; rw [h1] at hi; cases hi)
        | (rename_i h1 _ _ _; rw [h1] at hi; cases hi) | (rename_i h1 _ _ _ _; rw [h1] at hi; cases hi) | skip)
      all_goals (simp only [callOf, Option.some.injEq] at h; rw [h])
    obtain ⟨h1, h2, h3⟩ := o hi
    exact ⟨fun t c key v e => h1 t c key v (by rw [hp, e]), fun t c e => (h2 t c (by rw [hp, e])).1, fun t p e => h3 t p (by rw [hp, e])⟩
  · cases hp : callOf (s.pc g) with
    | some cl' =>
      rcases step_callOf st hp with h1 | ⟨t, p, h1⟩ | ⟨res, h1⟩
      · rw [h] at h1; cases h1; exact hc.sure cl hp
      · exact absurd h1 ((hc.sure cl' hp).split t p)
      · rw [h1] at h; cases h
    | none =>
      exfalso
      have hn := hc.new
      cases st <;> rw [setPC_same] at h <;> (first | (simp only [callOf, reduceCtorEq] at h; done) | skip)
      all_goals (first
        | (rename_i h1; exact hi h1) | (rename_i h1 _; exact hi h1) | (rename_i h1; rw [h1] at hp hn) | (rename_i h1 _; rw [h1] at hp hn) | (rename_i h1 _ _; rw [h1] at hp hn)
        | (rename_i h1 _ _ _; rw [h1] at hp hn) | (rename_i h1 _ _ _ _; rw [h1] at hp hn))
      all_goals (first | (cases hn; done) | (cases hp; done) | skip)
      all_goals (split at h <;> cases h)

/-- No Set of a key that is present comes to the end of its search. -/
theorem CalmInv.found {S : U64 × U64 → Prop} {s s' : CSt} {g : Tid} (pk : PkOk Pk) (I : CalmInv S s) (st : Step Pk s g s') (t c : U64) (key : Key) (v : IVal) (b : Ref) :
    s'.pc g ≠ .miss (.set t c key v) b := by
  intro h
  have hs : callOf (s.pc g) = some (.set t c key v) := by
    rcases step_callOf_back st (cl := .set t c key v) rfl (by rw [h]; rfl) with h1 | ⟨h1, h2⟩
    · exact h1
    · rw [h] at h2; cases h2
  have hS := ((I.calm g).sure _ hs).set t c key v rfl
  obtain ⟨x, hx, hx1, hx2⟩ := I.here _ hS
  have L := I.lin _ hS
  have hw := Way.self pk L.j st (I.clear _ hS) (L.conf g) (fun c' key' v' q r h' => I.no_lost st _ q r h') (L.way g)
  rw [h] at hw
  have hi : s'.items = s.items := by
    cases st <;> simp only [setPC_same, reduceCtorEq] at h <;> rfl
  have := hw rfl x (by rw [hi]; exact hx) hx1
  rw [this] at hx2; cases hx2

theorem CalmInv.new {S : U64 × U64 → Prop} {s s' : CSt} {g : Tid} (I : CalmInv S s) (st : Step Pk s g s') : (s'.pc g).newE = none := by
  have hn := (I.calm g).new
  have hl := isLost_iff.1 (I.calm g).lost
  have hm := (I.calm g).miss
  have hsp := fun cl h t p => ((I.calm g).sure cl h).split t p
  cases st <;> rw [setPC_same] <;> try rfl
  all_goals (first
    | (rename_i h1; rw [h1] at hn; cases hn; done) | (rename_i h1 _; rw [h1] at hn; cases hn; done) | (rename_i h1 _ _; rw [h1] at hn; cases hn; done) | skip)
  case lostSet h1 _ => exact absurd h1 (hl _ _ _)
  case lostSetLate h1 _ _ _ => exact absurd h1 (hl _ _ _)
  case pickSplit t p b h1 h2 => exact absurd rfl (hsp _ (by rw [h1]; rfl) t p)
  case lookHit => split <;> rfl
  case lookAdv => split <;> rfl
  case missSet h1 => exact absurd h1 (hm _ _ _ _ _)
  case rangeAdv => split <;> rfl

theorem CalmInv.alone {S : U64 × U64 → Prop} {s : CSt} (I : CalmInv S s) (g : Tid) : Alone s g := by
  intro e r h
  have := (I.calm g).new
  rw [h] at this; cases this

/-- The conditions of C92 hold for every key that is no boundary and shares its hash with no other. -/
theorem CalmInv.orderly {S : U64 × U64 → Prop} {s s' : CSt} {g : Tid} (I : CalmInv S s) (st : Step Pk s g s') (o : FixedKeys S s g s') {k : U64 × U64}
    (hc : Clear s k.1 k.2) : Orderly k.1 k.2 s g s' := by
  have hn := (I.calm g).new
  refine ⟨I.alone g, fun cl p r h => absurd h (I.no_lost st cl p r), ?_, fun c' r h => I.live g _ _ r h, ?_, ?_⟩
  · intro e r h; rw [h] at hn; cases hn
  · intro hi c' key v h
    have hS := (o hi).1 _ _ _ _ h
    obtain ⟨x, hx, hx1, _⟩ := I.here _ hS
    rw [← (hc x hx hx1).2, (I.clear _ hS x hx hx1).2]
  · intro e r h; rw [h] at hn; cases hn

theorem CalmInv.ext {S : U64 × U64 → Prop} {s s' : CSt} {g : Tid} (I : CalmInv S s) (st : Step Pk s g s') {k : U64 × U64} (hc : Clear s k.1 k.2) : Clear s' k.1 k.2 := by
  cases st.eff with
  | none h1 => intro x hx; rw [h1] at hx; exact hc x hx
  | inplace f hf h1 =>
    intro x hx hxt
    rw [h1] at hx
    obtain ⟨y, hy, rfl⟩ := List.mem_map.1 hx
    have := hc y hy ((hf y).2.1.symm.trans hxt)
    rw [(hf y).2.2.2.1, (hf y).2.2.1]; exact this
  | ins e r h1 _ => have := (I.calm g).new; rw [h1] at this; cases this

theorem CalmInv.step {S : U64 × U64 → Prop} (pk : PkOk Pk) {s s' : CSt} {g : Tid} (I : CalmInv S s) (st : Step Pk s g s') (o : FixedKeys S s g s') : CalmInv S s' := by
  have j' := st.j1 pk (I.alone g) I.j
  have hcl : ∀ k, S k → Clear s' k.1 k.2 := fun k hk => I.ext st (I.clear k hk)
  refine ⟨j', ?_, I.ha.step st, ?_, ?_, hcl, ?_, fun k hk => (I.lin k hk).step pk st (I.orderly st o (I.clear k hk)) (hcl k hk)⟩
  · intro u
    by_cases hu : u = g
    · subst hu
      exact ⟨I.new st, isLost_iff.2 (I.no_lost st), I.found pk st, (I.calm u).sure_step st o⟩
    · rw [st.others hu]; exact I.calm u
  · intro t
    refine solo_step st (fun h => st.inDel h) ?_ (I.dels t)
    rintro hi ⟨c, h⟩ u hu ⟨c', h'⟩
    rcases step_callOf_back st (cl := .del t c) rfl h with h1 | ⟨_, h1⟩
    · rw [hi] at h1; cases h1
    · exact ((o hi).2.1 t c h1).2 u c' hu h'
  · intro a t c' r hp
    by_cases hag : a = g
    · subst hag
      cases st <;> simp only [setPC_same] at hp <;> try cases hp
      case lookHit cl' t' c1 fwd b cur x h1 h2 h3 h4 h5 =>
        split at hp
        · cases hp
          obtain ⟨hx1, hx2, _⟩ := node_some h3
          exact ⟨x, hx1, hx2, h4⟩
        · cases hp
      case lookAdv => split at hp <;> cases hp
      case findAdv => split at hp <;> cases hp
      case rangeAdv => split at hp <;> cases hp
    · rw [st.others hag] at hp
      obtain ⟨x, hx, h1, h2⟩ := I.live a t c' r hp
      have hn : ¬ InDel t (s.pc g) := fun h => hag (I.dels t a g ⟨c', by rw [hp]; rfl⟩ h)
      obtain ⟨z, hz, hz1, hz2⟩ := I.ha a _ r hp
      have : x = z := List.inj_on_of_nodup_map I.j.nd hx hz (h1.trans hz1.symm)
      subst this
      simp only [Call.target, Option.some.injEq, Prod.mk.injEq] at hz2
      obtain ⟨y, hy, hy1, _, hy3⟩ := live_stays I.j.nd I.ha st hx h2 (fun c2 r2 h3 => hn ⟨c2, by rw [h3, hz2.1]; rfl⟩)
      exact ⟨y, hy, hy1.trans h1, hy3⟩
  · intro k hk
    obtain ⟨x, hx, h1, h2⟩ := I.here k hk
    obtain ⟨y, hy, hy1, hy2, hy3⟩ := live_stays I.j.nd I.ha st hx h2 (fun c2 r2 h3 => by
      have := ((I.calm g).sure _ (show callOf (s.pc g) = some (.del x.rev c2) by rw [h3]; rfl)).del _ _ rfl
      obtain ⟨z, hz, hz1, hz2⟩ := I.ha g _ r2 h3
      simp only [Call.target, Option.some.injEq, Prod.mk.injEq] at hz2
      have e1 : z.conflict = k.2 := (I.clear k hk z hz (hz2.1.symm.trans h1)).2
      exact this (by rw [hz2.2, e1, h1]; exact hk))
    exact ⟨y, hy, hy2.trans h1, hy3⟩

theorem begun_calm {E : Env} {cfg : Cfg} {ops : List Op} (hcl : Clean E cfg ops) {S : U64 × U64 → Prop} (hS : ∀ k, S k → (plainAfter E cfg ops k).isSome)
    (hc : ∀ k, S k → Clear (begun E cfg ops) k.1 k.2) : CalmInv S (begun E cfg ops) := by
  refine ⟨begun_j1 E cfg ops, fun _ => .of_none rfl rfl rfl, begun_hitAt E cfg ops, ?_, ?_, hc, ?_, fun k _ => begun_linInv hcl _ _⟩
  · rintro t a b ⟨_, h⟩; cases h
  · intro a t c r h; cases h
  · intro k hk
    obtain ⟨v, hv⟩ := Option.isSome_iff_exists.1 (hS k hk)
    have := begun_holds hcl (k := rev64 k.1) (c := k.2) (by rw [rev64_rev64]; exact hc k hk)
    rw [rev64_rev64] at this
    obtain ⟨x, h1, h2, h3, _⟩ := holds_live (this.trans hv)
    exact ⟨x, h1, h2, h3⟩

/-- C102: after a clean history, `S` keys the map holds; all calls started satisfy `FixedKeys S`, and every schedule is allowed.  The calls on all keys that lie on no boundary
and share their hash with no other key in the map are linearizable. -/
theorem C102 (pk : PkOk Pk) {E : Env} {cfg : Cfg} {ops : List Op} (hcl : Clean E cfg ops) {S K : U64 × U64 → Prop} (hS : ∀ k, S k → (plainAfter E cfg ops k).isSome)
    (hcS : ∀ k, S k → Clear (begun E cfg ops) k.1 k.2) (hcK : ∀ k, K k → Clear (begun E cfg ops) k.1 k.2) {σ : Nat → CSt} {γ : Nat → Tid} {n : Nat}
    (h0 : σ 0 = begun E cfg ops) (ex : Exec Pk (FixedKeys S) σ γ n) : MapLinearizable σ n K (plainAfter E cfg ops) := by
  have hI : ∀ i, i ≤ n → CalmInv S (σ i) ∧ ∀ k, K k → Clear (σ i) k.1 k.2 := by
    intro i
    induction i with
    | zero => intro _; rw [h0]; exact ⟨begun_calm hcl hS hcS, hcK⟩
    | succ i ih =>
      intro hi
      obtain ⟨st, o⟩ := ex i (by omega)
      obtain ⟨I, h⟩ := ih (by omega)
      exact ⟨I.step pk st o, fun k hk => I.ext st (h k hk)⟩
  refine C93_partial pk hcl h0 (fun i hi => ⟨(ex i hi).1, fun k hk => ?_⟩) (hI n (le_refl _)).2
  obtain ⟨I, h⟩ := hI i (by omega)
  exact I.orderly (ex i hi).1 (ex i hi).2 (h k hk)

/-- The items a Range would show, in order. -/
def shown (l : List Entry) : List Ref := (l.filter (fun e => !e.ignored)).map (·.ref)

theorem CalmInv.refs {S : U64 × U64 → Prop} {s s' : CSt} {g : Tid} (I : CalmInv S s) (st : Step Pk s g s') : refs s'.items = refs s.items := by
  cases st.eff with
  | none h1 => rw [h1]
  | inplace f hf h1 => rw [h1]; simp only [SLM.refs, List.map_map]; exact List.map_congr_left (fun x _ => (hf x).1)
  | ins e r h1 _ => have := (I.calm g).new; rw [h1] at this; cases this

theorem Exec.steps {P : CSt → Tid → CSt → Prop} {σ : Nat → CSt} {γ : Nat → Tid} {n : Nat} (ex : Exec Pk P σ γ n) {i : Nat} : ∀ {j : Nat}, i ≤ j → j ≤ n → Steps Pk (σ i) (σ j) := by
  intro j
  induction j with
  | zero => intro h _; have : i = 0 := by omega
            rw [this]; exact .refl _
  | succ j ih =>
    intro h hj
    by_cases e : i = j + 1
    · rw [e]; exact .refl _
    · exact .step (ih (by omega) (by omega)) (ex j (by omega)).1

theorem shown_live {s : CSt} {r : Ref} (h : r ∈ shown s.items) : ∃ t c, Live s r t c := by
  obtain ⟨x, hx, rfl⟩ := List.mem_map.1 h
  rw [List.mem_filter] at hx
  have h2 : x.ignored = false := by simpa using hx.2
  simp only [Entry.ignored, Bool.or_eq_false_iff] at h2
  exact ⟨x.rev, x.conflict, x, hx.1, rfl, rfl, rfl, h2.1, h2.2⟩

theorem live_shown {s : CSt} {r : Ref} {t c : U64} (h : Live s r t c) : r ∈ shown s.items := by
  obtain ⟨x, hx, h1, _, _, h4, h5⟩ := h
  exact List.mem_map.2 ⟨x, List.mem_filter.2 ⟨hx, by simp [Entry.ignored, h4, h5]⟩, h1⟩

/-- C102 for Range: a Range that begins in state `i` and ends in state `j` shows, in order and each once, keys that were in the map when it began, and among them all that are
still there when it ends; if nothing was deleted meanwhile, exactly the keys of the map. -/
theorem C102_range (pk : PkOk Pk) {E : Env} {cfg : Cfg} {ops : List Op} (hcl : Clean E cfg ops) {S : U64 × U64 → Prop} (hS : ∀ k, S k → (plainAfter E cfg ops k).isSome)
    (hcS : ∀ k, S k → Clear (begun E cfg ops) k.1 k.2) {σ : Nat → CSt} {γ : Nat → Tid} {n : Nat} (h0 : σ 0 = begun E cfg ops) (ex : Exec Pk (FixedKeys S) σ γ n)
    {i j : Nat} (hij : i ≤ j) (hj : j ≤ n) {g : Tid} {L : List Ref} (hi : (σ i).pc g = .idle) (hr : (σ j).pc g = .ret (.seen L)) :
    L.Sublist (shown (σ i).items) ∧ (∀ r ∈ shown (σ j).items, r ∈ L) ∧ (shown (σ j).items = shown (σ i).items → L = shown (σ i).items) := by
  have hI : ∀ i, i ≤ n → CalmInv S (σ i) ∧ refs (σ i).items = refs (σ 0).items := by
    intro i
    induction i with
    | zero => intro _; exact ⟨by rw [h0]; exact begun_calm hcl hS hcS, rfl⟩
    | succ i ih =>
      intro hi
      obtain ⟨st, o⟩ := ex i (by omega)
      obtain ⟨I, h⟩ := ih (by omega)
      exact ⟨I.step pk st o, (I.refs st).trans h⟩
  have hrf : refs (σ j).items = refs (σ i).items := (hI j hj).2.trans (hI i (by omega)).2.symm
  have s0i : Steps Pk (begun E cfg ops) (σ i) := by rw [← h0]; exact ex.steps (Nat.zero_le _) (by omega)
  have sij := ex.steps hij hj
  obtain ⟨c1, c2, c3, c4⟩ := C53_range pk E cfg ops s0i hi sij hr
  have nd := (hI i (by omega)).1.j.nd
  have hsub : L.Sublist (shown (σ i).items) := by
    have hm : ∀ r ∈ L, r ∈ shown (σ i).items := by
      intro r hrL
      obtain ⟨sm, m1, _, x, hx, h1, h2, h3⟩ := c3 r hrL
      have hrr : r ∈ refs (σ i).items := by rw [← hrf]; exact c2.subset hrL
      exact live_shown (Live.back (m1.ext) (m1.j0 pk (hI i (by omega)).1.j.toJ0).nd hrr ⟨x, hx, h1, rfl, rfl, h2, h3⟩)
    have h1 := c2.filter (fun r => decide (r ∈ shown (σ i).items))
    rw [List.filter_eq_self.2 (fun r hr => by simpa using hm r hr), hrf] at h1
    suffices e : (refs (σ i).items).filter (fun r => decide (r ∈ shown (σ i).items)) = shown (σ i).items by rw [e] at h1; exact h1
    unfold shown SLM.refs
    rw [List.filter_map]
    congr 1
    refine List.filter_congr (fun x hx => ?_)
    rw [Function.comp, Bool.eq_iff_iff, decide_eq_true_eq, List.mem_map]
    constructor
    · rintro ⟨y, hy, hyx⟩
      rw [List.mem_filter] at hy
      rw [← List.inj_on_of_nodup_map nd hy.1 hx hyx]; exact hy.2
    · intro h; exact ⟨x, List.mem_filter.2 ⟨hx, h⟩, rfl⟩
  have hall : ∀ r ∈ shown (σ j).items, r ∈ L := by
    intro r hs
    obtain ⟨t, c, hl⟩ := shown_live hs
    have hrr : r ∈ refs (σ i).items := by
      rw [← hrf]
      obtain ⟨x, hx, h1, _⟩ := hl
      exact List.mem_map.2 ⟨x, hx, h1⟩
    exact c4 (Live.back sij.ext (hI j hj).1.j.nd hrr hl) hl
  refine ⟨hsub, hall, fun he => ?_⟩
  rw [he] at hall
  have hnd : (shown (σ i).items).Nodup := by
    have : (shown (σ i).items).Sublist (refs (σ i).items) := (List.filter_sublist).map _
    exact this.nodup nd
  refine hsub.eq_of_length_le ?_
  exact (List.subperm_of_subset hnd hall).length_le

/-! ### One writer, no split -/

/-- No split starts in this step. -/
def NoSplit (s : CSt) (g : Tid) (s' : CSt) : Prop := s.pc g = .idle → ∀ t p, s'.pc g ≠ .pick (.split t p)

structure Whole (p : PC) : Prop where
  split : ∀ t q, callOf p ≠ some (.split t q)
  new : ∀ e, p.newE = some e → e.dummy = false
  lost : isLost p = false

theorem Whole.step {s s' : CSt} {g : Tid} (I : ∀ u, Whole (s.pc u)) (st : Step Pk s g s') (o : NoSplit s g s') : ∀ u, Whole (s'.pc u) := by
  intro u
  by_cases hu : u = g
  swap
  · rw [st.others hu]; exact I u
  subst hu
  have hl : isLost (s'.pc u) = false := by
    rw [isLost_iff]
    intro cl q r h
    cases st <;> simp only [setPC_same, reduceCtorEq] at h
    case pickLost h1 h2 h3 h4 h5 =>
      obtain ⟨⟨w, hw⟩, _⟩ := h3
      have := (I w).new _ hw
      cases this
    case lookHit => split at h <;> cases h
    case lookAdv => split at h <;> cases h
    case findAdv => split at h <;> cases h
    case rangeAdv => split at h <;> cases h
  have hsp : ∀ t q, s.pc u ≠ .pick (.split t q) := fun t q h => (I u).split t q (by rw [h]; rfl)
  refine ⟨?_, ?_, hl⟩
  · intro t q h
    cases hp : callOf (s.pc u) with
    | some cl =>
      rcases step_callOf st hp with h1 | ⟨t', q', h1⟩ | ⟨res, h1⟩
      · rw [h] at h1; cases h1; exact (I u).split t q hp
      · rw [h1] at hp; exact (I u).split _ _ hp
      · rw [h1] at h; cases h
    | none =>
      have ent : ∀ e : Entry, entryCall e ≠ some (.split t q) := by
        intro e he; unfold entryCall at he; split at he <;> cases he
      by_cases hi : s.pc u = .idle
      · have ho := o hi
        cases st <;> rw [setPC_same] at h <;> (first | (simp only [callOf, reduceCtorEq] at h; done) | exact ent _ h | skip)
        all_goals (first
          | (rename_i h1; rw [h1] at hi; cases hi) | (rename_i h1 _; rw [h1] at hi; cases hi) | (rename_i h1 _ _; rw [h1] at hi; cases hi)
          | (rename_i h1 _ _ _; rw [h1] at hi; cases hi) | (rename_i h1 _ _ _ _; rw [h1] at hi; cases hi) | skip)
        all_goals (simp only [callOf, Option.some.injEq] at h; rw [h] at ho; exact ho t q (setPC_same _ _ _))
      · cases st <;> rw [setPC_same] at h <;> (first | (simp only [callOf, reduceCtorEq] at h; done) | exact ent _ h | skip)
        all_goals (first
          | (rename_i h1; exact hi h1) | (rename_i h1 _; exact hi h1) | (rename_i h1; rw [h1] at hp) | (rename_i h1 _; rw [h1] at hp) | (rename_i h1 _ _; rw [h1] at hp)
          | (rename_i h1 _ _ _; rw [h1] at hp) | (rename_i h1 _ _ _ _; rw [h1] at hp))
        all_goals (first | (cases hp; done) | skip)
        all_goals (split at h <;> first | (cases h; done) | exact ent _ h)
  · intro e he
    have hn := (I u).new
    cases st <;> rw [setPC_same] at he
    all_goals (first
      | (simp only [PC.newE, reduceCtorEq] at he; done)
      | (simp only [PC.newE, Option.some.injEq] at he; subst he; rfl)
      | (rename_i h1; rw [h1] at hn; exact hn _ he) | (rename_i h1 _; rw [h1] at hn; exact hn _ he) | (rename_i h1 _ _; rw [h1] at hn; exact hn _ he) | skip)
    case pickSplit h1 h2 => exact absurd h1 (hsp _ _)
    case lookHit => split at he <;> cases he
    case lookAdv => split at he <;> cases he
    case findAdv h1 => rw [h1] at hn; split at he <;> exact hn _ he
    case rangeAdv => split at he <;> cases he

theorem Exec.whole {P : CSt → Tid → CSt → Prop} {σ : Nat → CSt} {γ : Nat → Tid} {n : Nat} (ex : Exec Pk P σ γ n) (hP : ∀ s g s', P s g s' → NoSplit s g s')
    (h0 : ∀ u, (σ 0).pc u = .idle) : ∀ i, i ≤ n → ∀ u, Whole ((σ i).pc u) := by
  intro i
  induction i with
  | zero => intro _ u; rw [h0]; exact ⟨(fun _ _ h => by cases h), (fun _ h => by cases h), rfl⟩
  | succ i ih => intro hi; exact Whole.step (ih (by omega)) (ex i (by omega)).1 (hP _ _ _ (ex i (by omega)).2)

/-- C103: after a clean history, Sets and Deletes (and searches on other maps of the process) are made one at a time, and no bucket is divided meanwhile; Gets and Ranges overlap
them as they like.  The calls on all keys of `K` are linearizable. -/
theorem C103 (pk : PkOk Pk) {E : Env} {cfg : Cfg} {ops : List Op} (hcl : Clean E cfg ops) {σ : Nat → CSt} {γ : Nat → Tid} {n : Nat} {K : U64 × U64 → Prop}
    (h0 : σ 0 = begun E cfg ops) (ex : Exec Pk (fun s g s' => Serial s g s' ∧ NoTwin K s g s' ∧ NoSplit s g s') σ γ n)
    (hc : ∀ k, K k → Clear (σ n) k.1 k.2) : MapLinearizable σ n K (plainAfter E cfg ops) := by
  have hw := ex.whole (fun _ _ _ h => h.2.2) (by rw [h0]; exact fun _ => rfl)
  refine C94_partial pk hcl h0 (fun i hi => ⟨(ex i hi).1, (ex i hi).2.1, (ex i hi).2.2.1, fun k _ c' p r h => ?_⟩) hc
  exact isLost_iff.1 (hw (i + 1) (by omega) (γ i)).lost _ _ _ h

/-- C103 for many writers: Sets of a key do not overlap Sets of it, Deletes of a key not Deletes of it, links do not interrupt each other, no Set gives up, and no
bucket is divided meanwhile. -/
theorem C103_many (pk : PkOk Pk) {E : Env} {cfg : Cfg} {ops : List Op} (hcl : Clean E cfg ops) {σ : Nat → CSt} {γ : Nat → Tid} {n : Nat} {K : U64 × U64 → Prop}
    (h0 : σ 0 = begun E cfg ops)
    (ex : Exec Pk (fun s g s' => NoSplit s g s' ∧ Alone s g ∧ NoTwin K s g s' ∧ ∀ k, K k →
      (s.pc g = .idle → InSet k.1 (s'.pc g) → ∀ u, u ≠ g → ¬ InSet k.1 (s.pc u)) ∧ (s.pc g = .idle → InDel k.1 (s'.pc g) → ∀ u, u ≠ g → ¬ InDel k.1 (s.pc u)) ∧
      ∀ e r, s.pc g = .check e r → e.rev = k.1 → e.dummy = false → checkOk s.items e r = true) σ γ n)
    (hc : ∀ k, K k → Clear (σ n) k.1 k.2) : MapLinearizable σ n K (plainAfter E cfg ops) := by
  have hw := ex.whole (fun _ _ _ h => h.1) (by rw [h0]; exact fun _ => rfl)
  refine C93_apart_partial pk hcl h0 (fun i hi => ⟨(ex i hi).1, fun k hk => ?_⟩) hc
  obtain ⟨st, _, h1, h2, h3⟩ := ex i hi
  exact ⟨h1, fun cl p r h => absurd h (isLost_iff.1 (hw (i + 1) (by omega) (γ i)).lost _ _ _), (h3 k hk).1, (h3 k hk).2.1, fun hi => h2 hi k hk, (h3 k hk).2.2⟩

/-! ### Schedules that meet the conditions -/

/-- The pair of hashes of the one-byte key `b`. -/
def hashOf (b : BitVec 8) : U64 × U64 := ((getCall b).target).getD (0, 0)

def fixedB (S : List (U64 × U64)) (k : Nat) (s : CSt) (g : Tid) (s' : CSt) : Bool :=
  !(decide (s.pc g = .idle)) ||
    match s'.pc g with
    | .pick (.set t c _ _) => decide ((t, c) ∈ S)
    | .pick (.del t c) => !(decide ((t, c) ∈ S)) && (List.range k).all (fun u => decide (u = g) || !(inDelB t (s.pc u)))
    | .pick (.split _ _) => false
    | _ => true

theorem fixedB_sound {S : List (U64 × U64)} {k : Nat} {s s' : CSt} {g : Tid} (hi : ∀ u, k ≤ u → s.pc u = .idle) (h : fixedB S k s g s' = true) : FixedKeys (· ∈ S) s g s' := by
  intro hid
  simp only [fixedB, hid, decide_true, Bool.not_true, Bool.false_or] at h
  refine ⟨?_, ?_, ?_⟩
  · intro t c key v hp
    rw [hp] at h
    simpa using h
  · intro t c hp
    rw [hp] at h
    simp only [Bool.and_eq_true, Bool.not_eq_true', decide_eq_false_iff_not, List.all_eq_true, List.mem_range, Bool.or_eq_true, decide_eq_true_eq] at h
    refine ⟨h.1, fun u c' hu hc => ?_⟩
    by_cases hk : u < k
    · rcases h.2 u hk with h1 | h1
      · exact hu h1
      · rw [inDelB_iff.2 ⟨c', hc⟩] at h1; cases h1
    · rw [hi u (Nat.le_of_not_lt hk)] at hc; cases hc
  · intro t p hp
    rw [hp] at h; cases h

/-- Two goroutines overwrite key 4, one key 5 with nil, one deletes key 2; Gets of these keys and of one that is not there. -/
def overwrite : Tid → Call
  | 0 => setCall 4 (exV 1)
  | 1 => setCall 4 (exV 2)
  | 2 => getCall 4
  | 3 => delCall 2
  | 4 => getCall 2
  | 5 => getCall 20
  | 6 => setCall 5 none
  | 8 => .range
  | _ => getCall 4

/-- The conditions of C102 are met: both Sets of key 4 have found it before either writes, the Get of key 4 falls between the writes, the Get of key 2 has found it when it is deleted. -/
example : (∀ k, k ∈ [hashOf 4, hashOf 5] → (plainAfter exE exCfg exOps k).isSome) ∧ (∀ k, k ∈ [hashOf 4, hashOf 5] → Clear (begun exE exCfg exOps) k.1 k.2) ∧
    (∀ k, k ∈ [hashOf 4, hashOf 5, hashOf 2, hashOf 20] → Clear (begun exE exCfg exOps) k.1 k.2) ∧
    ∃ s, CSteps (pkExact modeNested) (FixedKeys (· ∈ [hashOf 4, hashOf 5])) (begun exE exCfg exOps) s ∧
      s.pc 0 = .ret (.bool true) ∧ s.pc 1 = .ret (.bool true) ∧ s.pc 2 = .ret (.val (exV 2) true) ∧ s.pc 3 = .ret (.bool true) ∧ s.pc 4 = .ret (.val (exV 21) true) ∧
      s.pc 5 = .ret (.val none false) ∧ s.pc 6 = .ret (.bool false) ∧ s.pc 7 = .ret (.val (exV 1) true) ∧
      ∃ L, s.pc 8 = .ret (.seen L) ∧ 4 ≤ L.length := by
  refine ⟨by decide +kernel, by decide +kernel, by decide +kernel, ?_⟩
  have hi : ∀ u, 9 ≤ u → (begun exE exCfg exOps).pc u = .idle := fun _ _ => rfl
  have key : ((schedC (fun s u s' => fixedB [hashOf 4, hashOf 5] 9 s u s') modeNested overwrite 9 (begun exE exCfg exOps)
      [(8, 30), (0, 5), (1, 5), (4, 7), (3, 200), (4, 200), (1, 200), (2, 200), (0, 200), (7, 200), (5, 200), (6, 200), (8, 300)]).map (fun s =>
        decide (s.pc 0 = .ret (.bool true)) && decide (s.pc 1 = .ret (.bool true)) && decide (s.pc 2 = .ret (.val (exV 2) true)) && decide (s.pc 3 = .ret (.bool true)) &&
        decide (s.pc 4 = .ret (.val (exV 21) true)) && decide (s.pc 5 = .ret (.val none false)) && decide (s.pc 6 = .ret (.bool false)) &&
        decide (s.pc 7 = .ret (.val (exV 1) true)) && (match s.pc 8 with | .ret (.seen L) => decide (4 ≤ L.length) | _ => false))) = some true := by decide +kernel
  obtain ⟨s, h1, h2⟩ := Option.map_eq_some_iff.1 key
  simp only [Bool.and_eq_true, decide_eq_true_eq] at h2
  obtain ⟨⟨⟨⟨⟨⟨⟨⟨k0, k1⟩, k2⟩, k3⟩, k4⟩, k5⟩, k6⟩, k7⟩, k8⟩ := h2
  refine ⟨s, (schedC_sound (fun s g s' hid h => fixedB_sound hid h) h1 hi).1, k0, k1, k2, k3, k4, k5, k6, k7, ?_⟩
  split at k8
  · rename_i L hL; exact ⟨L, hL, of_decide_eq_true k8⟩
  · cases k8

/-- One writer after the other sets key 4, deletes key 5 and adds key 20; Gets overlap them. -/
def readSome : Tid → Call
  | 0 => setCall 4 (exV 1)
  | 1 => delCall 5
  | 2 => setCall 20 (exV 2)
  | 3 => getCall 5
  | 4 => getCall 20
  | _ => getCall 20

def noSplitB (s : CSt) (g : Tid) (s' : CSt) : Bool :=
  !(decide (s.pc g = .idle)) || match s'.pc g with | .pick (.split _ _) => false | _ => true

theorem noSplitB_sound {s s' : CSt} {g : Tid} (h : noSplitB s g s' = true) : NoSplit s g s' := by
  intro hid t p hp
  simp [noSplitB, hid, hp] at h

/-- The conditions of C103 are met. -/
example : ∃ s, CSteps (pkExact modeNested) (fun s g s' => Serial s g s' ∧ NoTwin (· ∈ [hashOf 4, hashOf 5, hashOf 20]) s g s' ∧ NoSplit s g s') (begun exE exCfg exOps) s ∧
    (∀ k, k ∈ [hashOf 4, hashOf 5, hashOf 20] → Clear s k.1 k.2) ∧ s.pc 0 = .ret (.bool true) ∧ s.pc 1 = .ret (.bool true) ∧ s.pc 2 = .ret (.bool true) ∧
    s.pc 3 = .ret (.val (exV 60) true) ∧ s.pc 4 = .ret (.val none false) ∧ s.pc 5 = .ret (.val (exV 2) true) := by
  have hi : ∀ u, 6 ≤ u → (begun exE exCfg exOps).pc u = .idle := fun _ _ => rfl
  have key : ((schedC (fun s u s' => serialB 6 s u s' && noTwinB [hashOf 4, hashOf 5, hashOf 20] s' u && noSplitB s u s') modeNested readSome 6 (begun exE exCfg exOps)
      [(3, 2), (0, 200), (1, 3), (3, 200), (1, 200), (2, 10), (4, 200), (2, 200), (5, 200)]).map (fun s =>
        [hashOf 4, hashOf 5, hashOf 20].all (fun k => decide (Clear s k.1 k.2)) &&
        decide (s.pc 0 = .ret (.bool true)) && decide (s.pc 1 = .ret (.bool true)) && decide (s.pc 2 = .ret (.bool true)) && decide (s.pc 3 = .ret (.val (exV 60) true)) &&
        decide (s.pc 4 = .ret (.val none false)) && decide (s.pc 5 = .ret (.val (exV 2) true)))) = some true := by decide +kernel
  obtain ⟨s, h1, h2⟩ := Option.map_eq_some_iff.1 key
  simp only [Bool.and_eq_true, decide_eq_true_eq, List.all_eq_true] at h2
  obtain ⟨⟨⟨⟨⟨⟨k0, k1⟩, k2⟩, k3⟩, k4⟩, k5⟩, k6⟩ := h2
  refine ⟨s, (schedC_sound (P := fun s g s' => Serial s g s' ∧ NoTwin (· ∈ [hashOf 4, hashOf 5, hashOf 20]) s g s' ∧ NoSplit s g s') ?_ h1 hi).1, k0, k1, k2, k3, k4, k5, k6⟩
  intro s g s' hid h
  simp only [Bool.and_eq_true] at h
  exact ⟨serialB_sound s g s' hid h.1.1, noTwinB_sound h.1.2, noSplitB_sound h.2⟩



end SLM.Conc
