import Verif.Props.Conc10
import Verif.Props.Conc9
import Verif.Props.Provenance
/-!
C104: which calls can panic when goroutines overlap.
-/
set_option autoImplicit false
set_option maxRecDepth 100000
namespace SLM.Conc
open History

variable {Pk : CSt → Call → Ref → Prop}

/-- The value is nil or has dynamic type `τ`. -/
def HasTy (τ : Nat) (v : IVal) : Prop := ∀ x, v = some x → x.ty = τ

/-- The condition on the calls that are started: a Set of a key with reversed hash `t` stores values of type `T t`; the boundaries of the buckets made are in `B`, and no
call is made for a key whose reversed hash is in `B`. -/
def Typed (T : U64 → Nat) (B : U64 → Prop) (s : CSt) (g : Tid) (s' : CSt) : Prop :=
  s.pc g = .idle →
    (∀ t c key v, s'.pc g = .pick (.set t c key v) → HasTy (T t) v) ∧
    (∀ cl t c, s'.pc g = .pick cl → cl.target = some (t, c) → ¬ B t) ∧
    ∀ t p, s'.pc g = .pick (.split t p) → B t

structure TyPC (T : U64 → Nat) (B : U64 → Prop) (p : PC) : Prop where
  set : ∀ t c key v, callOf p = some (.set t c key v) → HasTy (T t) v
  tgt : ∀ cl t c, callOf p = some cl → cl.target = some (t, c) → ¬ B t
  split : ∀ t q, p = .pick (.split t q) → B t
  new : ∀ e, p.newE = some e → e.dummy = true → B e.rev
  lost : ∀ cl q r, p = .lost cl q r → B r
  hitr : ∀ cl r, p = .hit cl r → ∀ q, r ≠ .dummy q
  ok : p ≠ .ret .panic

structure TyInv (T : U64 → Nat) (B : U64 → Prop) (s : CSt) : Prop where
  pc : ∀ u, TyPC T B (s.pc u)
  val : ∀ e ∈ s.items, e.dummy = false → HasTy (T e.rev) e.val

theorem setValue_ty {τ : Nat} {o v : IVal} (ho : HasTy τ o) (hv : HasTy τ v) {p : Panic} : setValue .sample o v ≠ .error p := by
  intro h
  unfold setValue at h
  cases v with
  | none => cases h
  | some v =>
    cases o with
    | none => cases h
    | some o =>
      simp only at h
      rw [if_pos (by rw [ho o rfl, hv v rfl])] at h
      cases h

theorem setValue_keep {τ : Nat} {o v nv : IVal} {ok : Bool} (ho : HasTy τ o) (hv : HasTy τ v) (h : setValue .sample o v = .ok (nv, ok)) : HasTy τ nv := by
  unfold setValue at h
  cases v with
  | none => simp only [Except.ok.injEq, Prod.mk.injEq] at h; rw [← h.1]; exact ho
  | some v =>
    cases o with
    | none => simp only [Except.ok.injEq, Prod.mk.injEq] at h; rw [← h.1]; exact hv
    | some o =>
      simp only at h
      split at h
      · simp only [Except.ok.injEq, Prod.mk.injEq] at h; rw [← h.1]; exact hv
      · cases h

/-- The item a Set is about to write is one of its own hash. -/
theorem hitAt_set {s : CSt} (ha : HitAt s) (j : J0 s) {g : Tid} {t c : U64} {key : Key} {v : IVal} {r : Ref} {x : Entry} (h : s.pc g = .hit (.set t c key v) r)
    (hx : node s.items r = some x) : x ∈ s.items ∧ x.rev = t ∧ x.ref = r := by
  obtain ⟨h1, h2, _⟩ := node_some hx
  obtain ⟨z, hz, hz1, hz2⟩ := ha g _ r h
  have : x = z := List.inj_on_of_nodup_map j.nd h1 hz (h2.trans hz1.symm)
  subst this
  obtain ⟨h3, _⟩ := target_set hz2
  exact ⟨h1, h3.symm, h2⟩

theorem TyInv.step {T : U64 → Nat} {B : U64 → Prop} {s s' : CSt} {g : Tid} (st : Step Pk s g s') (ty : Typed T B s g s') (j : J0 s) (ha : HitAt s) (h : TyInv T B s) :
    TyInv T B s' := by
  have hset : ∀ t c key v r x, s.pc g = .hit (.set t c key v) r → node s.items r = some x → HasTy (T t) x.val ∧ HasTy (T t) v ∧ x.rev = t := by
    intro t c key v r x h1 h2
    obtain ⟨m1, m2, m3⟩ := hitAt_set ha j h1 h2
    have hd : x.dummy = false := by
      cases hr : x.ref with
      | item n => exact j.itm x m1 n hr
      | dummy q => exact absurd (m3.symm.trans hr) ((h.pc g).hitr _ _ h1 q)
    refine ⟨m2 ▸ h.val x m1 hd, (h.pc g).set t c key v (by rw [h1]; rfl), m2⟩
  refine ⟨fun u => ?_, ?_⟩
  · by_cases hu : u = g
    · subst hu
      refine ⟨?_, ?_, ?_, ?_, ?_, ?_, ?_⟩
      · intro t c key v hc
        rcases step_callOf_back st (tc := (t, c)) rfl hc with h1 | ⟨h1, h2⟩
        · exact (h.pc u).set t c key v h1
        · exact (ty h1).1 t c key v h2
      · intro cl t c hc ht
        rcases step_callOf_back st ht hc with h1 | ⟨h1, h2⟩
        · exact (h.pc u).tgt cl t c h1 ht
        · exact (ty h1).2.1 cl t c h2 ht
      · intro t q hp
        have : s.pc u = .idle := by
          revert hp
          cases st <;> (rw [setPC_same]; intro hp) <;> first
            | assumption
            | (simp only [reduceCtorEq] at hp; done)
            | (split at hp <;> (simp only [reduceCtorEq] at hp; done))
        exact (ty this).2.2 t q hp
      · intro e he hd
        have : (s.pc u).newE = some e ∨ ∃ t q, s.pc u = .pick (.split t q) ∧ e = dummyEntry q t := by
          have hd' := hd
          revert he hd'
          cases st <;> (rw [setPC_same, ‹s.pc u = _›]; intro he hd')
          all_goals (try (simp only [PC.newE, reduceCtorEq] at he; done))
          all_goals (try (simp only [PC.newE, Option.some.injEq] at he; subst he; simp only [newItem, Bool.false_eq_true] at hd'; done))
          all_goals (try (exact Or.inl he))
          all_goals (try (split at he <;> (first | (simp only [PC.newE, reduceCtorEq] at he; done) | exact Or.inl he)))
          case pickSplit t p b _ _ => simp only [PC.newE, Option.some.injEq] at he; exact Or.inr ⟨t, p, rfl, he.symm⟩
        rcases this with h1 | ⟨t, q, h1, h2⟩
        · exact (h.pc u).new e h1 hd
        · rw [h2]; exact (h.pc u).split t q h1
      · intro cl q r hp
        have : ∃ v, (s.pc v).newE = some (dummyEntry q r) := by
          revert hp
          cases st <;> (rw [setPC_same]; intro hp)
          all_goals (try (simp only [reduceCtorEq] at hp; done))
          all_goals (try (split at hp <;> (simp only [reduceCtorEq] at hp; done)))
          case pickLost cl' t c p r' _ _ hw _ _ =>
            simp only [PC.lost.injEq] at hp
            obtain ⟨_, rfl, rfl⟩ := hp
            exact hw.1
        obtain ⟨v, hv⟩ := this
        exact (h.pc v).new _ hv rfl
      · intro cl r hp q hr
        revert hp
        cases st <;> (rw [setPC_same]; intro hp)
        all_goals (try (simp only [reduceCtorEq] at hp; done))
        all_goals (try (split at hp <;> (simp only [reduceCtorEq] at hp; done)))
        case lookHit cl' t c fwd b cur x _ _ hx hi _ =>
          split at hp
          · simp only [PC.hit.injEq] at hp
            obtain ⟨m1, m2, _⟩ := node_some hx
            have := j.dum x m1 q (m2.trans (hp.2.trans hr))
            unfold Entry.ignored at hi
            rw [this] at hi
            simp at hi
          · simp only [reduceCtorEq] at hp
      · intro hp
        revert hp
        cases st <;> (rw [setPC_same]; intro hp)
        all_goals (try (simp only [reduceCtorEq] at hp; done))
        all_goals (try (simp only [PC.ret.injEq, reduceCtorEq] at hp; done))
        all_goals (try (split at hp <;> (first | (simp only [reduceCtorEq] at hp; done) | (simp only [PC.ret.injEq, reduceCtorEq] at hp; done))))
        case lostPanic cl t c p r h1 h2 h3 =>
          subst h3
          exact (h.pc u).tgt cl r c (by rw [h1]; rfl) h2 ((h.pc u).lost cl p r h1)
        case hitSetPanic t c key v r x p h1 h2 h3 =>
          obtain ⟨a, b, _⟩ := hset t c key v r x h1 h2
          exact setValue_ty a b h3
    · rw [st.others hu]; exact h.pc u
  · intro e he hd
    cases st <;> try exact h.val e he hd
    case hitSet t c key v r x nv ok h1 h2 h3 =>
      obtain ⟨y, hy, rfl⟩ := List.mem_map.1 he
      by_cases hr : y.ref = r
      · obtain ⟨a, b, hb⟩ := hset t c key v r x h1 h2
        obtain ⟨m1, m2, _⟩ := node_some h2
        have : y = x := List.inj_on_of_nodup_map j.nd hy m1 (hr.trans m2.symm)
        subst this
        rw [if_pos hr]
        show HasTy (T y.rev) nv
        rw [hb]
        exact setValue_keep a b h3
      · rw [if_neg hr] at hd ⊢
        exact h.val y hy hd
    case hitDel t c r h1 =>
      obtain ⟨y, hy, rfl⟩ := List.mem_map.1 he
      by_cases hr : y.ref = r
      · rw [if_pos hr] at hd ⊢; exact h.val y hy hd
      · rw [if_neg hr] at hd ⊢; exact h.val y hy hd
    case link x r h1 =>
      rcases mem_insBefore.1 he with rfl | he
      · refine (h.pc g).set e.rev e.conflict e.key e.val ?_
        rw [h1]
        simp [callOf, entryCall, hd]
      · exact h.val e he hd

theorem TyInv.csteps {T : U64 → Nat} {B : U64 → Prop} (pk : PkOk Pk) {s s' : CSt} (h : CSteps Pk (Typed T B) s s') (j : J0 s) (ha : HitAt s) (i : TyInv T B s) :
    TyInv T B s' ∧ J0 s' ∧ HitAt s' := by
  induction h with
  | refl => exact ⟨i, j, ha⟩
  | step _ h2 h3 ih =>
    obtain ⟨i1, j1, a1⟩ := ih
    exact ⟨i1.step h2 h3 j1 a1, h2.j0 pk j1, a1.step h2⟩

/-- The values the history `ops` supplies for the hash `k` have type `T`: one type per hash. -/
def TypedOps (E : Env) (T : U64 → Nat) (ops : List Op) : Prop := ∀ op ∈ ops, ∀ k c v, Supplies E.H op k c v → HasTy (T (rev64 k)) v

/-- C104: take a map after any sequential history and let any number of goroutines work on it in any schedule.  If the values stored under one hash have one dynamic
type (in the history and in the concurrent Sets), and no call is made for a key whose reversed hash is the boundary of a bucket that is made meanwhile, then no call
panics. -/
theorem C104 (pk : PkOk Pk) (E : Env) (cfg : Cfg) (ops : List Op) (T : U64 → Nat) (B : U64 → Prop) (h0 : TypedOps E T ops) {s : CSt}
    (h : CSteps Pk (Typed T B) (begun E cfg ops) s) (g : Tid) : s.pc g ≠ .ret .panic := by
  have i0 : TyInv T B (begun E cfg ops) := by
    refine ⟨fun u => ?_, ?_⟩
    · have : (begun E cfg ops).pc u = .idle := rfl
      rw [this]
      refine ⟨?_, ?_, ?_, ?_, ?_, ?_, ?_⟩
      · intro t c key v hh; cases hh
      · intro cl t c hh; cases hh
      · intro t q hh; cases hh
      · intro e hh; cases hh
      · intro cl q r hh; cases hh
      · intro cl r hh; cases hh
      · intro hh; cases hh
    · intro e he hd
      obtain ⟨a, op, b, h1, h2, _⟩ := (run_prov E cfg ops e he hd).1
      have := h0 op (by rw [h1]; simp) _ _ _ h2
      rwa [rev64_rev64] at this
  exact ((TyInv.csteps pk h (begun_j1 E cfg ops).toJ0 (by intro u cl r hu; simp [begun, ofSt] at hu) i0).1.pc g).ok

/-- Test of `Typed` with one type for all keys and one boundary. -/
def typedB (τ : Nat) (b : U64) (s : CSt) (g : Tid) (s' : CSt) : Bool :=
  match s.pc g with
  | .idle =>
    match s'.pc g with
    | .pick (.set t _ _ v) => (match v with | some x => x.ty == τ | none => true) && !decide (t = b)
    | .pick (.get t _) => !decide (t = b)
    | .pick (.del t _) => !decide (t = b)
    | .pick (.split t _) => decide (t = b)
    | _ => true
  | _ => true

theorem typedB_sound {τ : Nat} {b : U64} {s s' : CSt} {g : Tid} (h : typedB τ b s g s' = true) : Typed (fun _ => τ) (· = b) s g s' := by
  intro h1
  unfold typedB at h
  rw [h1] at h
  refine ⟨?_, ?_, ?_⟩
  · intro t c key v h2
    rw [h2] at h
    simp only [Bool.and_eq_true] at h
    intro x hx
    subst hx
    exact beq_iff_eq.1 h.1
  · intro cl t c h2 h3 h4
    rw [h2] at h
    cases cl with
    | get t' c' => cases h3; simp [h4] at h
    | set t' c' key v => cases h3; simp [h4] at h
    | del t' c' => cases h3; simp [h4] at h
    | split t' p => cases h3
    | range => cases h3
    | foreign => cases h3
  · intro t p h2
    rw [h2] at h
    exact of_decide_eq_true h

/-- A Set of a new key, a Set of an old one, a Delete and a Get overlap with a split. -/
def tyCalls : Tid → Call
  | 1 => .split 0x8400000000000000#64 [4, 8]
  | 2 => setCall 69 (exV 1)
  | 3 => setCall 1 (exV 8)
  | 4 => delCall 5
  | _ => getCall 69

/-- The hypotheses of C104 are met by a run in which everything overlaps and every call does something. -/
theorem C104_witness : TypedOps exE (fun _ => 0) exOps ∧ ∃ s, CSteps (pkExact modeNested) (Typed (fun _ => 0) (· = 0x8400000000000000#64)) (begun exE exCfg exOps) s ∧
    s.pc 1 = .ret (.bool true) ∧ s.pc 2 = .ret (.bool true) ∧ s.pc 3 = .ret (.bool true) ∧ s.pc 4 = .ret (.bool true) ∧ s.pc 5 = .ret (.val (exV 1) true) := by
  refine ⟨?_, ?_⟩
  · intro op hop k c v hs x hx
    subst hx
    have : ∀ op ∈ exOps, (match opVal op with | some (some x) => x.ty == 0 | _ => true) = true := by decide +kernel
    have := this op hop
    rw [hs.1] at this
    exact beq_iff_eq.1 this
  · have h : ((schedC (fun s g s' => typedB 0 0x8400000000000000#64 s g s') modeNested tyCalls 6 (begun exE exCfg exOps)
        [(1, 3), (2, 4), (3, 2), (4, 2), (1, 1), (2, 3), (3, 1), (4, 2), (2, 100), (1, 100), (3, 100), (4, 100), (5, 100)]).map
          (fun s => [s.pc 1, s.pc 2, s.pc 3, s.pc 4, s.pc 5])) =
        some [.ret (.bool true), .ret (.bool true), .ret (.bool true), .ret (.bool true), .ret (.val (exV 1) true)] := by decide +kernel
    obtain ⟨s, hs, h2⟩ := Option.map_eq_some_iff.1 h
    simp only [List.cons.injEq, and_true] at h2
    exact ⟨s, (schedC_sound (P := Typed (fun _ => 0) (· = 0x8400000000000000#64)) (fun _ _ _ _ h => typedB_sound h) hs (fun _ _ => rfl)).1, h2⟩

/-- Both conditions are needed: a Get of a key whose hash is the boundary panics (C66), and so does a Set of a value of another type. -/
theorem C104_needed : (∃ s, Steps (pkExact modeNested) (begun exE exCfg exOps) s ∧ s.pc 3 = .ret .panic) ∧
    ∃ s, Steps (pkExact modeNested) (begun exE exCfg exOps) s ∧ s.pc 0 = .ret .panic :=
  ⟨C66_refuted_panic, sched modeNested (fun _ => setCall 1 (some ⟨1, 0⟩)) (begun exE exCfg exOps) [(0, 100)], sched_steps _ _ _ _, by decide +kernel⟩

end SLM.Conc
