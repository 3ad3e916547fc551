import Verif.Proofs.EConc5
import Verif.SpecBucket
import Mathlib.Data.List.Dedup
import Mathlib.Order.Basic
/-! The calls on one embedded bucket in one order. -/
set_option autoImplicit false
namespace SLM.EConc
open Emb (Slot Pool)

/-- An execution in steps: in step `i` the goroutine `γ i` moves. -/
def Exec (P : St → Tid → St → Prop) (σ : Nat → St) (γ : Nat → Tid) (n : Nat) : Prop :=
  ∀ i, i < n → XStep (σ i) (γ i) (σ (i + 1)) ∧ P (σ i) (γ i) (σ (i + 1))

/-- A call `cl` of goroutine `g`, begun in step `b`, that returned `res` in step `r`. -/
structure Done where
  g : Tid
  cl : Call
  res : Res
  b : Nat
  r : Nat

/-- The call begins in step `b`. -/
def Begins (σ : Nat → St) (g : Tid) (b : Nat) (cl : Call) : Prop := (σ b).pc g = .idle ∧ (σ (b + 1)).pc g = .look cl

/-- The call has returned within the first `n` steps. -/
def Finished (σ : Nat → St) (n : Nat) (d : Done) : Prop :=
  d.b < d.r ∧ d.r < n ∧ Begins σ d.g d.b d.cl ∧ (∀ res, (σ d.r).pc d.g ≠ .done res) ∧ (σ (d.r + 1)).pc d.g = .done d.res

/-- The call has begun and not yet returned after `n` steps. -/
def Pending (σ : Nat → St) (n : Nat) (d : Done) : Prop :=
  d.b < n ∧ d.r = n ∧ Begins σ d.g d.b d.cl ∧ ∀ res, (σ n).pc d.g ≠ .done res

/-- Sets and Gets.  A Set goes to insert its key only while no other one is inserting; a new array is published only while no Set has an item in hand; a Get searches
only while no slot is taken and not yet filled. -/
structure Apart (g : U64 → U64) (s : St) (t : Tid) (s' : St) : Prop where
  calls : Calls (Call.good g) s t s'
  alone : InsAlone s t s'
  publish : PubAlone s s'
  whole : ∀ r c, s.pc t = .look (.get r c) → ∀ u, (s.pc u).claims = false

theorem Apart.neat {g : U64 → U64} {s s' : St} {t : Tid} (h : Apart g s t s') : Neat g s t s' := ⟨h.calls, h.alone⟩

open Classical in
/-- What the bucket holds. -/
noncomputable def held (s : St) (k : U64 × U64) : Option IVal := if h : ∃ v, Kept s k.1 k.2 v then some h.choose else none

theorem held_of {g : U64 → U64} {s : St} (h : SI g s) {r c : U64} {v : IVal} (hk : Kept s r c v) : held s (r, c) = some v := by
  have hex : ∃ v, Kept s (r, c).1 (r, c).2 v := ⟨v, hk⟩
  unfold held
  rw [dif_pos hex]
  exact congrArg _ (h.kept_uniq hex.choose_spec hk)

theorem held_none {s : St} {r c : U64} (hk : ∀ v, ¬ Kept s r c v) : held s (r, c) = none := by
  unfold held
  rw [dif_neg]
  rintro ⟨v, hv⟩; exact hk v hv

open Classical in
theorem held_congr {s s' : St} {r c : U64} (h : ∀ v, Kept s' r c v ↔ Kept s r c v) : held s' (r, c) = held s (r, c) := by
  have key : ∀ p q : IVal → Prop, p = q → (if h : ∃ v, p v then some h.choose else none : Option IVal) = if h : ∃ v, q v then some h.choose else none := by
    rintro p q rfl; rfl
  exact key _ _ (funext fun v => propext (h v))

theorem XStep.not_idle {s s' : St} {t : Tid} (st : XStep s t s') : s'.pc t ≠ .idle := by
  rcases st.mv with ⟨cl', h1, rfl⟩ | ⟨ch, s1, p, hx, mv, rfl⟩
  · simp
  · rw [setPC_same]; cases mv <;> simp

theorem XStep.others {s s' : St} {t u : Tid} (st : XStep s t s') (e : u ≠ t) : s'.pc u = s.pc u := by
  rcases st.mv with ⟨cl', h1, rfl⟩ | ⟨ch, s1, p, hx, mv, rfl⟩
  · exact setPC_other _ _ _ e
  · rw [setPC_other _ _ _ e, mv.pc_eq]

/-- Has the goroutine written, or returned? -/
def PC.over : PC → Bool
  | .ret .. | .done _ => true
  | _ => false

theorem XStep.over {s s' : St} {t u : Tid} (st : XStep s t s') (h : (s.pc u).over = true) : (s'.pc u).over = true := by
  by_cases e : u = t
  · subst e
    rcases st.mv with ⟨cl', h1, rfl⟩ | ⟨ch, s1, p, hx, mv, rfl⟩
    · rw [h1] at h; cases h
    · rw [setPC_same]; cases mv <;> rw [‹s.pc u = _›] at h <;> first | rfl | (cases h; done)
  · rw [st.others e]; exact h

theorem XStep.done {s s' : St} {t u : Tid} {res : Res} (st : XStep s t s') (h : s.pc u = .done res) : s'.pc u = .done res := by
  by_cases e : u = t
  · subst e
    rcases st.mv with ⟨cl', h1, rfl⟩ | ⟨ch, s1, p, hx, mv, rfl⟩
    · rw [h1] at h; cases h
    · cases mv <;> · rw [‹s.pc u = _›] at h; cases h
  · rw [st.others e]; exact h

theorem effect_over {s s' : St} {t : Tid} {r c : U64} {v : IVal} (st : XStep s t s') (h : Effect s t r c v) :
    ∃ fn, s'.pc t = .ret fn (.bool true) := by
  rcases st.mv with ⟨cl', h1, rfl⟩ | ⟨ch, s1, p, hx, mv, rfl⟩
  · rcases h with ⟨_, _, h⟩ | ⟨_, _, _, _, h, _⟩ <;> · rw [h1] at h; cases h
  · rw [setPC_same]
    rcases h with ⟨_, _, h⟩ | ⟨_, _, _, _, h, _⟩ <;> cases mv <;> rename_i hh <;> first
      | exact ⟨_, rfl⟩
      | (exfalso; simp_all; done)

theorem effect_call {s : St} {t : Tid} {r c : U64} {v : IVal} (h : Effect s t r c v) : (s.pc t).call = some (.set r c v) ∧ (s.pc t).over = false := by
  rcases h with ⟨_, _, h⟩ | ⟨f, _, _, _, h, rfl, rfl, rfl⟩ <;> rw [h] <;> exact ⟨rfl, rfl⟩

theorem effect_unique {s : St} {t : Tid} {r c r' c' : U64} {v v' : IVal} (h : Effect s t r c v) (h' : Effect s t r' c' v') : r = r' ∧ c = c' ∧ v = v' := by
  have h1 := (effect_call h).1
  rw [(effect_call h').1] at h1
  simp only [Option.some.injEq, Call.set.injEq] at h1
  exact ⟨h1.1.symm, h1.2.1.symm, h1.2.2.symm⟩

/-- How far the call is, and the place at which it took effect or read. -/
inductive Track (σ : Nat → St) (γ : Nat → Tid) (u : Tid) (b : Nat) (cl : Call) (m : Nat) : Prop
  | run (h : ((σ m).pc u).call = some cl) (hg : ∀ cl' a i, (σ m).pc u ≠ .getV cl' a i)
  | got (r c : U64) (a i j : Nat) (hcl : cl = .get r c) (h : (σ m).pc u = .getV cl a i) (h1 : b < j) (h2 : j ≤ m)
      (hk : Kept (σ j) r c (slotOf (σ m) a i).val)
  | wrote (r c : U64) (v : IVal) (j : Nat) (hcl : cl = .set r c v) (h : (∃ fn, (σ m).pc u = .ret fn (.bool true)) ∨ (σ m).pc u = .done (.bool true))
      (h1 : b < j) (h2 : j < m) (hγ : γ j = u) (he : Effect (σ j) u r c v)
  | read (r c : U64) (res : Res) (j : Nat) (hcl : cl = .get r c) (h : (σ m).pc u = .done res) (h1 : b < j) (h2 : j < m)
      (hk : (∃ v, res = .val v true ∧ Kept (σ j) r c v) ∨ (res = .val none false ∧ ∀ v, ¬ Kept (σ j) r c v))

section
variable {g : U64 → U64} {σ : Nat → St} {γ : Nat → Tid} {n : Nat}

theorem Exec.si (ex : Exec (Apart g) σ γ n) (h0 : SI g (σ 0)) (c0 : CurI (σ 0)) : ∀ i, i ≤ n → SI g (σ i) ∧ CurI (σ i) := by
  intro i
  induction i with
  | zero => exact fun _ => ⟨h0, c0⟩
  | succ i ih =>
    intro hi
    obtain ⟨a, b⟩ := ih (by omega)
    obtain ⟨st, hp⟩ := ex i (by omega)
    exact ⟨a.step st hp.neat, b.step st hp.publish⟩

theorem Exec.track (ex : Exec (Apart g) σ γ n) (inv : ∀ i, i ≤ n → SI g (σ i) ∧ CurI (σ i)) {u : Tid} {b : Nat} {cl : Call} (hb : b < n)
    (hbe : Begins σ u b cl) : ∀ m, b < m → m ≤ n → Track σ γ u b cl m := by
  intro m hm
  induction m, hm using Nat.le_induction with
  | base => intro _; exact .run (by rw [hbe.2]; rfl) (by rw [hbe.2]; simp)
  | succ m hm ih =>
    intro hmn
    have hT := ih (by omega)
    obtain ⟨st, hp⟩ := ex m (by omega)
    obtain ⟨si, ci⟩ := inv m (by omega)
    obtain ⟨si', ci'⟩ := inv (m + 1) hmn
    have hbm : b < m := hm
    by_cases e : u = γ m
    · -- its own step
      cases hT with
      | run h hg =>
        rcases st.mv with ⟨cl', h1, _⟩ | ⟨ch, s1, p, hx, mv, hs⟩
        · rw [← e] at h1; rw [h1] at h; cases h
        · have hpm : (σ (m + 1)).pc u = p := by rw [hs, ← e, setPC_same]
          have hgood := si.good u cl h
          have hshape := si.pi.shape u
          have hfree := si.pi.li.noFree u
          subst e
          have stay : p.call = some cl → (∀ cl' a i, p ≠ .getV cl' a i) → Track σ γ (γ m) b cl (m + 1) := fun h1 h2 =>
            .run (by rw [hpm]; exact h1) (by rw [hpm]; exact h2)
          cases mv <;> rw [‹(σ m).pc (γ m) = _›] at h hshape hfree hg <;> first
            | (cases hfree; done)
            | (refine stay h ?_; simp; done)
            | (cases h; done)
            | skip
          case found_get r c a i hpc hi =>
            cases h
            have hno := hp.whole r c hpc
            have hsrt : Srt (σ m) := si.srt fun u f fn a i hu => by have := hno u; rw [hu] at this; cases this
            unfold exact at hx
            rw [hpc] at hx
            cases hx
            rcases si.search hsrt r c with ⟨k, h1, h2, h3, h4⟩ | ⟨h1, _⟩
            · have h2' : exactItem (σ m) r c = some (a, i) := hi
              rw [h2] at h2'
              cases h2'
              refine .got r c _ i m rfl hpm hbm (by omega) ?_
              have hsl : slotOf (σ (m + 1)) (σ m).cur i = slotOf (σ m) (σ m).cur i := by rw [hs]; rfl
              rw [hsl]
              exact ⟨i, h1, h3, h4, rfl, si.nd.slot _ _, fun w hw => by
                have := hno w
                cases hq : (σ m).pc w <;> rw [hq] at hw this <;> simp [PC.claimAt, PC.claims] at hw this⟩
            · have hi : exactItem (σ m) r c = some (a, i) := hi
              rw [h1] at hi; cases hi
          case miss cl' res hpc hi hc =>
            cases h
            rcases hc with ⟨r, c, rfl, rfl⟩ | ⟨r, c, hh, _⟩
            · have hno := hp.whole r c hpc
              have hsrt : Srt (σ m) := si.srt fun u f fn a i hu => by have := hno u; rw [hu] at this; cases this
              unfold exact at hx
              rw [hpc] at hx
              cases hx
              have hi : exactItem (σ m) r c = none := hi
              rcases si.search hsrt r c with ⟨k, h1, h2, h3, h4⟩ | ⟨_, h1⟩
              · rw [h2] at hi; cases hi
              · refine .read r c _ m rfl hpm hbm (by omega) (.inr ⟨rfl, ?_⟩)
                rintro v ⟨k, k1, k2, k3, _⟩
                exact h1 k k1 ⟨k2, k3⟩
            · rcases hh with rfl | rfl <;> cases hgood.2.2.2
          case upd r c v a i hpc =>
            cases h
            exact .wrote r c v m rfl (.inl ⟨_, hpm⟩) hbm (by omega) rfl (.inl ⟨_, _, hpc⟩)
          case purgeLast cl' a j hpc hc ha hi =>
            exfalso
            cases h
            obtain ⟨_, _, _, e⟩ := upd_set hshape hgood.2.2.2
            exact hc _ _ _ e
          case purge cl' a j hpc hc ha =>
            exfalso
            cases h
            obtain ⟨_, _, _, e⟩ := upd_set hshape hgood.2.2.2
            exact hc _ _ _ e
          case getV cl' a i hpc => exact absurd rfl (hg _ _ _)
          case mark cl' a i hpc => cases h; exact absurd (mark_keeps hshape hgood.2.2.2) id
          case wr f fn a i hpc =>
            cases h
            exact .wrote f.r f.c f.v m rfl (.inl ⟨_, hpm⟩) hbm (by omega) rfl (.inr ⟨_, _, _, _, hpc, rfl, rfl, rfl⟩)
      | got r c a i j hcl h h1 h2 hk =>
        rcases st.mv with ⟨cl', h3, _⟩ | ⟨ch, s1, p, hx, mv, hs⟩
        · rw [← e] at h3; rw [h3] at h; cases h
        · have hpm : (σ (m + 1)).pc u = p := by rw [hs, ← e, setPC_same]
          subst e
          have h' := h
          revert h
          cases mv <;> (rw [‹(σ m).pc (γ m) = _›]; intro h; cases h)
          case getV.refl hpc =>
            exact .read r c _ j hcl hpm h1 (by omega) (.inl ⟨_, rfl, hk⟩)
      | wrote r c v j hcl h h1 h2 hγ he =>
        refine .wrote r c v j hcl ?_ h1 (by omega) hγ he
        rcases h with ⟨fn, h⟩ | h
        · right
          rcases st.mv with ⟨cl', h3, _⟩ | ⟨ch, s1, p, hx, mv, hs⟩
          · rw [← e] at h3; rw [h3] at h; cases h
          · rw [hs, ← e, setPC_same]
            subst e
            revert h
            cases mv <;> (rw [‹(σ m).pc (γ m) = _›]; intro h; cases h) <;> rfl
        · exact .inr (st.done h)
      | read r c res j hcl h h1 h2 hk => exact .read r c res j hcl (st.done h) h1 (by omega) hk
    · -- a step of another goroutine
      have hpc := st.others e
      cases hT with
      | run h hg => exact .run (by rw [hpc]; exact h) (by rw [hpc]; exact hg)
      | got r c a i j hcl h h1 h2 hk =>
        have it : ((σ m).pc u).item = some (cl, a, i) := by rw [h]; rfl
        rcases si.item_val ci st it with h3 | h3
        · exact .got r c a i j hcl (by rw [hpc]; exact h) h1 (by omega) (by rw [h3]; exact hk)
        · refine .got r c a i (m + 1) hcl (by rw [hpc]; exact h) (by omega) (le_refl _) ?_
          subst hcl; exact h3
      | wrote r c v j hcl h h1 h2 hγ he => exact .wrote r c v j hcl (by rw [hpc]; exact h) h1 (by omega) hγ he
      | read r c res j hcl h h1 h2 hk => exact .read r c res j hcl (by rw [hpc]; exact h) h1 (by omega) hk

theorem Exec.over {P : St → Tid → St → Prop} (ex : Exec P σ γ n) {u : Tid} {i : Nat} (h : ((σ i).pc u).over = true) :
    ∀ m, i ≤ m → m ≤ n → ((σ m).pc u).over = true := by
  intro m hm
  induction m, hm using Nat.le_induction with
  | base => exact fun _ => h
  | succ m hm ih => exact fun hmn => (ex m (by omega)).1.over (ih (by omega))

theorem Exec.done {P : St → Tid → St → Prop} (ex : Exec P σ γ n) {u : Tid} {i : Nat} {res : Res} (h : (σ i).pc u = .done res) :
    ∀ m, i ≤ m → m ≤ n → (σ m).pc u = .done res := by
  intro m hm
  induction m, hm using Nat.le_induction with
  | base => exact fun _ => h
  | succ m hm ih => exact fun hmn => (ex m (by omega)).1.done (ih (by omega))

theorem Exec.not_idle {P : St → Tid → St → Prop} (ex : Exec P σ γ n) {u : Tid} {i : Nat} (h : (σ i).pc u ≠ .idle) :
    ∀ m, i ≤ m → m ≤ n → (σ m).pc u ≠ .idle := by
  intro m hm
  induction m, hm using Nat.le_induction with
  | base => exact fun _ => h
  | succ m hm ih =>
    intro hmn
    have st := (ex m (by omega)).1
    by_cases e : u = γ m
    · rw [e]; exact st.not_idle
    · rw [st.others e]; exact ih (by omega)

/-- The step in which a call began. -/
theorem Exec.begun {P : St → Tid → St → Prop} (ex : Exec P σ γ n) {u : Tid} (h0 : (σ 0).pc u = .idle) :
    ∀ m, m ≤ n → (σ m).pc u ≠ .idle → ∃ b cl, b < m ∧ Begins σ u b cl ∧ γ b = u := by
  intro m
  induction m with
  | zero => exact fun _ h => absurd h0 h
  | succ m ih =>
    intro hmn h
    by_cases hi : (σ m).pc u = .idle
    · have st := (ex m (by omega)).1
      have e : u = γ m := by
        by_contra e
        rw [st.others e] at h; exact h hi
      rcases st.mv with ⟨cl', h3, h4⟩ | ⟨ch, s1, p, hx, mv, hs⟩
      · exact ⟨m, cl', by omega, ⟨hi, by rw [h4, e, setPC_same]⟩, e.symm⟩
      · exfalso
        rw [e] at hi
        cases mv <;> · rw [‹(σ m).pc (γ m) = _›] at hi; cases hi
    · obtain ⟨b, cl, h1, h2⟩ := ih (by omega) hi
      exact ⟨b, cl, by omega, h2⟩

theorem Exec.begins_unique {P : St → Tid → St → Prop} (ex : Exec P σ γ n) {u : Tid} {b b' : Nat} {cl cl' : Call} (hb : b < n) (hb' : b' < n)
    (h : Begins σ u b cl) (h' : Begins σ u b' cl') : b = b' ∧ cl = cl' := by
  have key : ∀ {b b' : Nat} {cl cl' : Call}, b < n → b' < n → Begins σ u b cl → Begins σ u b' cl' → ¬ b < b' := by
    intro b b' cl cl' _ hb' h h' hlt
    exact ex.not_idle (i := b + 1) (by rw [h.2]; simp) b' (by omega) (by omega) h'.1
  have e : b = b' := by
    have := key hb hb' h h'
    have := key hb' hb h' h
    omega
  subst e
  refine ⟨rfl, ?_⟩
  have := h.2
  rw [h'.2] at this
  cases this; rfl

/-- The step in which a call returned. -/
theorem Exec.returned {P : St → Tid → St → Prop} (ex : Exec P σ γ n) {u : Tid} {b : Nat} {cl : Call} (hbe : Begins σ u b cl) {res : Res} :
    ∀ m, b < m → m ≤ n → (σ m).pc u = .done res →
      ∃ r, b < r ∧ r < m ∧ (∀ res', (σ r).pc u ≠ .done res') ∧ (σ (r + 1)).pc u = .done res := by
  intro m hm
  induction m, hm using Nat.le_induction with
  | base => intro _ h; rw [hbe.2] at h; cases h
  | succ m hm ih =>
    intro hmn h
    have hbm : b < m := hm
    by_cases hd : ∃ res', (σ m).pc u = .done res'
    · obtain ⟨res', hd⟩ := hd
      have : res' = res := by
        have := (ex m (by omega)).1.done hd
        rw [h] at this; cases this; rfl
      subst this
      obtain ⟨r, h1, h2, h3⟩ := ih (by omega) hd
      exact ⟨r, h1, by omega, h3⟩
    · exact ⟨m, hbm, by omega, fun res' e => hd ⟨res', e⟩, h⟩

theorem Finished.unique {P : St → Tid → St → Prop} (ex : Exec P σ γ n) {d d' : Done} (h : Finished σ n d) (h' : Finished σ n d') (e : d.g = d'.g) : d = d' := by
  obtain ⟨g, cl, res, b, r⟩ := d
  obtain ⟨g', cl', res', b', r'⟩ := d'
  obtain ⟨h1, h2, h3, h4, h5⟩ := h
  obtain ⟨k1, k2, k3, k4, k5⟩ := h'
  simp only at *
  subst e
  obtain ⟨rfl, rfl⟩ := ex.begins_unique (by omega) (by omega) h3 k3
  have e : r = r' := by
    rcases Nat.lt_trichotomy r r' with hl | hl | hl
    · exact absurd (ex.done h5 r' (by omega) (by omega)) (k4 _)
    · exact hl
    · exact absurd (ex.done k5 r (by omega) (by omega)) (h4 _)
  subst e
  rw [h5] at k5
  cases k5; rfl

/-! ### Putting the calls in order -/

/-- Calls with positions: an even position `2 i` is a moment at which the call reads, an odd position `2 j + 1` the step `j` in which it writes. -/
def Placed (val : Nat → U64 × U64 → Option IVal) (pos : Done → Nat) (d : Done) : Prop :=
  (∃ i, pos d = 2 * i ∧ plain (val i) d.cl = (val i, d.res)) ∨ ∃ j, pos d = 2 * j + 1 ∧ plain (val j) d.cl = (val (j + 1), d.res)

theorem chain {val : Nat → U64 × U64 → Option IVal} {pos : Done → Nat} {n : Nat} (L : List Done) (k : Nat) (hk : k ≤ n) (hs : L.Pairwise (fun a b => pos a ≤ pos b)) (nd : L.Nodup)
    (hpos : ∀ d ∈ L, 2 * k ≤ pos d ∧ pos d ≤ 2 * n) (hpl : ∀ d ∈ L, Placed val pos d)
    (inj : ∀ d ∈ L, ∀ d' ∈ L, ∀ j, pos d = 2 * j + 1 → pos d' = 2 * j + 1 → d = d')
    (cover : ∀ j, k ≤ j → j < n → val (j + 1) ≠ val j → ∃ d ∈ L, pos d = 2 * j + 1) :
    plainRun (val k) (L.map (·.cl)) = L.map (·.res) := by
  induction L generalizing k with
  | nil => rfl
  | cons d L ih =>
    have hsd := List.pairwise_cons.1 hs
    have hnd := List.nodup_cons.1 nd
    obtain ⟨hd1, hd2⟩ := hpos d (by simp)
    have same : ∀ i, k ≤ i → 2 * i ≤ pos d → val i = val k := by
      intro i hi
      induction i, hi using Nat.le_induction with
      | base => exact fun _ => rfl
      | succ i hi ihi =>
        intro hle
        rw [← ihi (by omega)]
        by_contra hne
        obtain ⟨d', hd', hp⟩ := cover i hi (by omega) hne
        rcases List.mem_cons.1 hd' with rfl | hd'
        · omega
        · have := hsd.1 d' hd'; omega
    rcases hpl d (by simp) with ⟨i, hp, hcell⟩ | ⟨j, hp, hcell⟩
    · have hv := same i (by omega) (by omega)
      simp only [List.map_cons, plainRun]
      rw [← hv, hcell]
      refine congrArg _ (ih i (by omega) hsd.2 hnd.2 (fun d' hd' => ⟨?_, (hpos d' (by simp [hd'])).2⟩) (fun d' hd' => hpl d' (by simp [hd']))
        (fun a ha b hb => inj a (by simp [ha]) b (by simp [hb])) (fun j hj hjn hne => ?_))
      · have := hsd.1 d' hd'; omega
      · obtain ⟨d', hd', hp'⟩ := cover j (by omega) hjn hne
        rcases List.mem_cons.1 hd' with rfl | hd'
        · omega
        · exact ⟨d', hd', hp'⟩
    · have hv := same j (by omega) (by omega)
      simp only [List.map_cons, plainRun]
      rw [← hv, hcell]
      refine congrArg _ (ih (j + 1) (by omega) hsd.2 hnd.2 (fun d' hd' => ⟨?_, (hpos d' (by simp [hd'])).2⟩) (fun d' hd' => hpl d' (by simp [hd']))
        (fun a ha b hb => inj a (by simp [ha]) b (by simp [hb])) (fun i hi hin hne => ?_))
      · have h1 := hsd.1 d' hd'
        by_contra h2
        have h3 : pos d' = 2 * j + 1 := by omega
        have := inj d (by simp) d' (by simp [hd']) j hp h3
        subst this; exact hnd.1 hd'
      · obtain ⟨d', hd', hp'⟩ := cover i (by omega) hin hne
        rcases List.mem_cons.1 hd' with rfl | hd'
        · omega
        · exact ⟨d', hd', hp'⟩

/-- A call that has written, or has returned. -/
def Counts (σ : Nat → St) (n : Nat) (d : Done) : Prop := Finished σ n d ∨ (Pending σ n d ∧ d.res = .bool true ∧ ((σ n).pc d.g).over = true)

theorem Counts.lt {d : Done} (h : Counts σ n d) : d.b < n := by
  rcases h with h | h
  · have := h.1; have := h.2.1; omega
  · exact h.1.1

theorem Counts.begins {d : Done} (h : Counts σ n d) : Begins σ d.g d.b d.cl := by
  rcases h with h | h
  · exact h.2.2.1
  · exact h.1.2.2.1

theorem Counts.unique {P : St → Tid → St → Prop} (ex : Exec P σ γ n) {d d' : Done} (h : Counts σ n d) (h' : Counts σ n d') (e : d.g = d'.g) : d = d' := by
  have fin : ∀ {d d' : Done}, Finished σ n d → Pending σ n d' → d.g ≠ d'.g := by
    intro d d' h h' e
    exact h'.2.2.2 d.res (by rw [← e]; exact ex.done h.2.2.2.2 n (by have := h.2.1; omega) (le_refl _))
  rcases h with h | h <;> rcases h' with h' | h'
  · exact h.unique ex h' e
  · exact absurd e (fin h h'.1)
  · exact absurd e.symm (fin h' h.1)
  · obtain ⟨g, cl, res, b, r⟩ := d
    obtain ⟨g', cl', res', b', r'⟩ := d'
    obtain ⟨⟨h1, h2, h3, h4⟩, h5, _⟩ := h
    obtain ⟨⟨k1, k2, k3, k4⟩, k5, _⟩ := h'
    simp only at *
    subst e h2 k2 h5 k5
    obtain ⟨rfl, rfl⟩ := ex.begins_unique (by omega) (by omega) h3 k3
    rfl

/-- Whoever has written or returned counts. -/
theorem Exec.counts {P : St → Tid → St → Prop} (ex : Exec P σ γ n) (h0 : ∀ u, (σ 0).pc u = .idle) {u : Tid} (h : ((σ n).pc u).over = true)
    (hret : ∀ fn res, (σ n).pc u = .ret fn res → res = .bool true) : ∃ d, Counts σ n d ∧ d.g = u ∧ γ d.b = u := by
  have hne : (σ n).pc u ≠ .idle := by intro e; rw [e] at h; cases h
  obtain ⟨b, cl, h1, h2, h3⟩ := ex.begun (h0 u) n (le_refl _) hne
  cases hp : (σ n).pc u with
  | done res =>
    obtain ⟨r, k1, k2, k3, k4⟩ := ex.returned h2 n h1 (le_refl _) hp
    exact ⟨⟨u, cl, res, b, r⟩, .inl ⟨k1, k2, h2, k3, k4⟩, rfl, h3⟩
  | ret fn res =>
    have := hret fn res hp
    exact ⟨⟨u, cl, .bool true, b, n⟩, .inr ⟨⟨h1, rfl, h2, fun res' e => by rw [hp] at e; cases e⟩, rfl, h⟩, rfl, h3⟩
  | _ => rw [hp] at h; cases h

theorem Exec.linear (ex : Exec (Apart g) σ γ n) (hi : ∀ u, (σ 0).pc u = .idle) (h0 : SI g (σ 0)) :
    ∃ L : List Done, (L.map (·.g)).Nodup ∧ (∀ d, Finished σ n d → d ∈ L) ∧ (∀ d ∈ L, Finished σ n d ∨ Pending σ n d) ∧ L.Pairwise (fun a b => ¬ b.r < a.b) ∧
      plainRun (held (σ 0)) (L.map (·.cl)) = L.map (·.res) := by
  classical
  have inv := ex.si h0 (by rintro t cl a i (h | h) <;> · rw [hi t] at h; cases h)
  -- answers in hand
  have hret : ∀ u fn res, (σ n).pc u = .ret fn res → res = .bool true := by
    intro u fn res hp
    obtain ⟨b, cl, h1, h2, _⟩ := ex.begun (hi u) n (le_refl _) (by rw [hp]; simp)
    cases ex.track inv (by omega) h2 n h1 (le_refl _) with
    | run h hg => rw [hp] at h; cases h
    | got r c a i j hcl h => rw [hp] at h; cases h
    | wrote r c v j hcl h =>
      rcases h with ⟨fn', h⟩ | h
      · rw [hp] at h; cases h; rfl
      · rw [hp] at h; cases h
    | read r c res' j hcl h => rw [hp] at h; cases h
  -- the places
  have place : ∀ d, ∃ p, Counts σ n d → 2 * (d.b + 1) ≤ p ∧ p < 2 * (d.r + 1) ∧ p ≤ 2 * n ∧ Placed (fun i => held (σ i)) (fun _ => p) d ∧
      (∀ j, p = 2 * j + 1 → γ j = d.g ∧ ∃ r c v, Effect (σ j) d.g r c v) ∧ ((∃ r c v, d.cl = .set r c v) → ∃ j, p = 2 * j + 1) := by
    intro d
    by_cases hc : Counts σ n d
    · have main : ∀ m, d.b < m → m ≤ n → m ≤ d.r + 1 → ((σ m).pc d.g = .done d.res ∨ (d.res = .bool true ∧ ((σ m).pc d.g).over = true ∧ ∀ res, (σ m).pc d.g ≠ .done res)) →
          ∃ p, 2 * (d.b + 1) ≤ p ∧ p < 2 * (d.r + 1) ∧ p ≤ 2 * n ∧ Placed (fun i => held (σ i)) (fun _ => p) d ∧
          (∀ j, p = 2 * j + 1 → γ j = d.g ∧ ∃ r c v, Effect (σ j) d.g r c v) ∧ ((∃ r c v, d.cl = .set r c v) → ∃ j, p = 2 * j + 1) := by
        intro m h1 h2 h3 h4
        cases ex.track inv hc.lt hc.begins m h1 h2 with
        | run h hg =>
          rcases h4 with h4 | ⟨_, h4, _⟩
          · rw [h4] at h; cases h
          · cases hq : (σ m).pc d.g <;> rw [hq] at h h4 <;> simp [PC.over, PC.call] at h h4
        | got r c a i j hcl h =>
          rcases h4 with h4 | ⟨_, h4, _⟩
          · rw [h4] at h; cases h
          · rw [h] at h4; cases h4
        | wrote r c v j hcl h k1 k2 hγ he =>
          have hres : d.res = .bool true := by
            rcases h4 with h4 | ⟨h4, _⟩
            · rcases h with ⟨_, h⟩ | h
              · rw [h4] at h; cases h
              · rw [h4] at h; injection h
            · exact h4
          refine ⟨2 * j + 1, by omega, by omega, by omega, .inr ⟨j, rfl, ?_⟩, ?_, fun _ => ⟨j, rfl⟩⟩
          · obtain ⟨st, hp⟩ := ex j (by omega)
            rw [hγ] at st hp
            obtain ⟨si, ci⟩ := inv j (by omega)
            obtain ⟨si', _⟩ := inv (j + 1) (by omega)
            rw [hcl, hres]
            simp only [plain, Prod.mk.injEq, and_true]
            funext k
            obtain ⟨k1, k2⟩ := k
            by_cases hk : (k1, k2) = (r, c)
            · rw [if_pos hk, hk]
              exact (held_of si' (si.kept_effect ci st he)).symm
            · rw [if_neg hk]
              refine (held_congr (si.kept_same si' st hp.neat ?_)).symm
              intro v' he'
              obtain ⟨e1, e2, _⟩ := effect_unique he he'
              exact hk (by rw [e1, e2])
          · intro j' hj'
            have : j' = j := by omega
            subst this
            exact ⟨hγ, r, c, v, he⟩
        | read r c res j hcl h k1 k2 hk =>
          refine ⟨2 * j, by omega, by omega, by omega, .inl ⟨j, rfl, ?_⟩, fun j' hj' => by omega, ?_⟩
          · have hres : d.res = res := by
              rcases h4 with h4 | ⟨_, _, h4⟩
              · rw [h] at h4; injection h4 with h4; exact h4.symm
              · exact absurd h (h4 _)
            rw [hcl, hres]
            simp only [plain, Prod.mk.injEq, true_and]
            rcases hk with ⟨v, rfl, hk⟩ | ⟨rfl, hk⟩
            · rw [held_of (inv j (by omega)).1 hk]
            · rw [held_none hk]
          · rintro ⟨_, _, _, e⟩
            rw [hcl] at e; cases e
      have hm : ∃ p, 2 * (d.b + 1) ≤ p ∧ p < 2 * (d.r + 1) ∧ p ≤ 2 * n ∧ Placed (fun i => held (σ i)) (fun _ => p) d ∧
          (∀ j, p = 2 * j + 1 → γ j = d.g ∧ ∃ r c v, Effect (σ j) d.g r c v) ∧ ((∃ r c v, d.cl = .set r c v) → ∃ j, p = 2 * j + 1) := by
        rcases hc with h | h
        · exact main (d.r + 1) (by have := h.1; omega) (by have := h.2.1; omega) (le_refl _) (.inl h.2.2.2.2)
        · exact main n h.1.1 (le_refl _) (by have := h.1.2.1; omega) (.inr ⟨h.2.1, h.2.2, h.1.2.2.2⟩)
      obtain ⟨p, hp⟩ := hm
      exact ⟨p, fun _ => hp⟩
    · exact ⟨0, fun h => absurd h hc⟩
  choose pos hpos using place
  -- the list
  let G : List Tid := ((List.range n).map γ).dedup.filter (fun u => ((σ n).pc u).over)
  have hG : ∀ u ∈ G, ∃ d, Counts σ n d ∧ d.g = u := by
    intro u hu
    simp only [G, List.mem_filter] at hu
    obtain ⟨d, h1, h2, _⟩ := ex.counts hi hu.2 (hret u)
    exact ⟨d, h1, h2⟩
  have hD : ∀ u, ∃ d : Done, u ∈ G → Counts σ n d ∧ d.g = u := by
    intro u
    by_cases hu : u ∈ G
    · obtain ⟨d, h⟩ := hG u hu; exact ⟨d, fun _ => h⟩
    · exact ⟨⟨0, .get 0 0, .bool true, 0, 0⟩, fun h => absurd h hu⟩
  choose δ hδ using hD
  let D := G.map δ
  have hGn : G.Nodup := (List.nodup_dedup _).filter _
  have hDg : D.map (·.g) = G := by
    simp only [D, List.map_map]
    have : ∀ u ∈ G, ((fun d : Done => d.g) ∘ δ) u = u := fun u hu => (hδ u hu).2
    calc _ = G.map id := List.map_congr_left this
      _ = G := List.map_id _
  have hDm : ∀ d, d ∈ D ↔ Counts σ n d := by
    intro d
    constructor
    · intro h
      obtain ⟨u, hu, rfl⟩ := List.mem_map.1 h
      exact (hδ u hu).1
    · intro h
      have hov : ((σ n).pc d.g).over = true := by
        rcases h with h | h
        · rw [ex.done h.2.2.2.2 n (by have := h.2.1; omega) (le_refl _)]; rfl
        · exact h.2.2
      have hu : d.g ∈ G := by
        simp only [G, List.mem_filter, List.mem_dedup, List.mem_map, List.mem_range]
        obtain ⟨d', _, _, h3⟩ := ex.counts hi hov (hret _)
        refine ⟨⟨d.b, h.lt, ?_⟩, hov⟩
        by_contra e
        have st := (ex d.b h.lt).1
        have := st.others (u := d.g) (fun e' => e e'.symm)
        rw [h.begins.1, h.begins.2] at this
        cases this
      exact List.mem_map.2 ⟨d.g, hu, (hδ _ hu).1.unique ex h (hδ _ hu).2⟩
  let L := D.mergeSort (fun a b => decide (pos a ≤ pos b))
  have hLp : L.Perm D := List.mergeSort_perm _ _
  have hLs : L.Pairwise (fun a b => pos a ≤ pos b) := by
    have := List.pairwise_mergeSort (le := fun a b : Done => decide (pos a ≤ pos b)) (by simp; omega) (by simp; omega) D
    exact this.imp (by simp)
  have hLm : ∀ d, d ∈ L ↔ Counts σ n d := fun d => by rw [hLp.mem_iff, hDm]
  have hLg : (L.map (·.g)).Nodup := by
    rw [(hLp.map _).nodup_iff, hDg]; exact hGn
  refine ⟨L, hLg, fun d h => (hLm d).2 (.inl h), fun d h => ((hLm d).1 h).imp id And.left, ?_, ?_⟩
  · refine hLs.imp_of_mem ?_
    intro a b ha hb hab hlt
    have h1 := (hpos a ((hLm a).1 ha)).1
    have h2 := (hpos b ((hLm b).1 hb)).2.1
    omega
  · refine chain (val := fun i => held (σ i)) (pos := pos) (n := n) L 0 (Nat.zero_le _) hLs (List.Nodup.of_map _ hLg)
      (fun d hd => ⟨Nat.zero_le _, (hpos d ((hLm d).1 hd)).2.2.1⟩) (fun d hd => (hpos d ((hLm d).1 hd)).2.2.2.1) ?_ ?_
    · intro d hd d' hd' j e1 e2
      have h1 := ((hpos d ((hLm d).1 hd)).2.2.2.2.1 j e1).1
      have h2 := ((hpos d' ((hLm d').1 hd')).2.2.2.2.1 j e2).1
      exact ((hLm d).1 hd).unique ex ((hLm d').1 hd') (h1.symm.trans h2)
    · intro j _ hj hne
      obtain ⟨st, hp⟩ := ex j hj
      obtain ⟨si, ci⟩ := inv j (by omega)
      obtain ⟨si', _⟩ := inv (j + 1) (by omega)
      have heff : ∃ r c v, Effect (σ j) (γ j) r c v := by
        by_contra hno
        apply hne
        funext k
        obtain ⟨k1, k2⟩ := k
        exact held_congr (si.kept_same si' st hp.neat (fun v he => hno ⟨_, _, v, he⟩))
      obtain ⟨r, c, v, he⟩ := heff
      obtain ⟨fn, hr⟩ := effect_over st he
      have hov := ex.over (i := j + 1) (u := γ j) (by rw [hr]; rfl) n (by omega) (le_refl _)
      obtain ⟨d, h1, h2, _⟩ := ex.counts hi hov (hret _)
      refine ⟨d, (hLm d).2 h1, ?_⟩
      -- its call is this Set
      have hcall := effect_call he
      have hdb : d.b < j := by
        by_contra hge
        have hbe := h1.begins
        rw [h2] at hbe
        have hjn : (σ j).pc (γ j) ≠ .idle := by intro e; rw [e] at hcall; cases hcall.1
        exact ex.not_idle hjn d.b (by omega) (by have := h1.lt; omega) hbe.1
      have hbe := h1.begins
      rw [h2] at hbe
      have hset : d.cl = .set r c v := by
        cases ex.track inv h1.lt hbe j hdb (by omega) with
        | run h _ => rw [hcall.1] at h; injection h with h; exact h.symm
        | got _ _ _ _ _ e h => rw [h, e] at hcall; cases hcall.1
        | wrote _ _ _ _ _ h =>
          rcases h with ⟨_, h⟩ | h <;> · rw [h] at hcall; cases hcall.1
        | read _ _ _ _ _ h => rw [h] at hcall; cases hcall.1
      obtain ⟨p1, p2, p3, p4, p5, p6⟩ := hpos d h1
      obtain ⟨j', hj'⟩ := p6 ⟨_, _, _, hset⟩
      obtain ⟨q1, r', c', v', q2⟩ := p5 j' hj'
      rw [h2] at q1 q2
      have hj'n : j' < n := by omega
      have e : j' = j := by
        rcases Nat.lt_trichotomy j' j with hl | hl | hl
        · exfalso
          obtain ⟨st2, _⟩ := ex j' hj'n
          rw [q1] at st2
          obtain ⟨fn2, hr2⟩ := effect_over st2 q2
          have := ex.over (i := j' + 1) (u := γ j) (by rw [hr2]; rfl) j (by omega) (by omega)
          rw [hcall.2] at this; cases this
        · exact hl
        · exfalso
          have := ex.over (i := j + 1) (u := γ j) (by rw [hr]; rfl) j' (by omega) (by omega)
          rw [(effect_call q2).2] at this; cases this
      rw [hj', e]

end

end SLM.EConc
