import Verif.Proofs.EConc3
import Mathlib.Tactic.Choose
/-! What the bucket holds, step by step, while Sets and Gets run: only the write of a Set changes it. -/
set_option autoImplicit false
namespace SLM.EConc
open Emb (Slot Pool)

/-- The step in which a Set of this key writes this value to the array. -/
def Effect (s : St) (t : Tid) (r c : U64) (v : IVal) : Prop :=
  (∃ a i, s.pc t = .upd (.set r c v) a i) ∨ ∃ f fn a i, s.pc t = .wr f fn a i ∧ f.r = r ∧ f.c = c ∧ f.v = v

/-- The Sets that have found their key hold a pointer into the current array. -/
def CurI (s : St) : Prop := ∀ t cl a i, (s.pc t = .lockUpd cl a i ∨ s.pc t = .upd cl a i) → a = s.cur

/-- A new array is published only while no Set holds an item it has found. -/
def PubAlone (s : St) (s' : St) : Prop :=
  s'.cur ≠ s.cur → ∀ u cl a i, s.pc u ≠ .lockUpd cl a i ∧ s.pc u ≠ .upd cl a i

theorem XStep.mv {s s' : St} {t : Tid} (st : XStep s t s') :
    (∃ cl, s.pc t = .idle ∧ s' = setPC s t (.look cl)) ∨ ∃ ch s1 p, exact s t = some ch ∧ Mv ch s t s1 p ∧ s' = setPC s1 t p := by
  cases st with
  | start h => obtain ⟨h1, _, h2⟩ := start_eq h; exact .inl ⟨_, h1, h2⟩
  | move hx h => obtain ⟨_, s1, p, mv, e⟩ := step_mv h; exact .inr ⟨_, s1, p, hx, mv, e⟩

theorem CurI.step {s s' : St} {t : Tid} (h : CurI s) (st : XStep s t s') (hp : PubAlone s s') : CurI s' := by
  intro u cl a i hu
  by_cases hcur : s'.cur = s.cur
  · rw [hcur]
    by_cases e : u = t
    · subst e
      rcases st.mv with ⟨cl', h1, rfl⟩ | ⟨ch, s1, p, hx, mv, rfl⟩
      · simp only [setPC_same, reduceCtorEq, or_self] at hu
      · simp only [setPC_same] at hu
        cases mv <;> simp only [reduceCtorEq, or_self, false_or, or_false, PC.lockUpd.injEq, PC.upd.injEq] at hu
        case found_upd cl' a' i' hp' hi hc =>
          obtain ⟨rfl, rfl, rfl⟩ := hu
          unfold exact at hx
          rw [hp'] at hx
          cases hx
          simp only [exactItem, Option.map_eq_some_iff, Prod.mk.injEq] at hi
          obtain ⟨_, _, h2, _⟩ := hi
          exact h2.symm
        case lockUpd cl' a' i' hp' hl =>
          obtain ⟨rfl, rfl, rfl⟩ := hu
          exact h _ _ _ _ (.inl hp')
    · have hpc : s'.pc u = s.pc u := by
        rcases st.mv with ⟨cl', h1, rfl⟩ | ⟨ch, s1, p, hx, mv, rfl⟩
        · exact setPC_other _ _ _ e
        · rw [setPC_other _ _ _ e, mv.pc_eq]
      rw [hpc] at hu
      exact h u cl a i hu
  · exfalso
    have hno := hp hcur
    by_cases e : u = t
    · subst e
      rcases st.mv with ⟨cl', h1, rfl⟩ | ⟨ch, s1, p, hx, mv, rfl⟩
      · exact hcur rfl
      · simp only [setPC_same] at hu
        cases mv <;> simp only [reduceCtorEq, or_self, false_or, or_false, PC.lockUpd.injEq, PC.upd.injEq] at hu
        case found_upd => exact hcur rfl
        case lockUpd => exact hcur rfl
    · have hpc : s'.pc u = s.pc u := by
        rcases st.mv with ⟨cl', h1, rfl⟩ | ⟨ch, s1, p, hx, mv, rfl⟩
        · exact setPC_other _ _ _ e
        · rw [setPC_other _ _ _ e, mv.pc_eq]
      rw [hpc] at hu
      rcases hu with hu | hu
      · exact (hno u cl a i).1 hu
      · exact (hno u cl a i).2 hu

/-- Two unclaimed slots do not carry the same hash. -/
theorem SI.uniq {g : U64 → U64} {s : St} (h : SI g s) {i j : Nat} (hi : i < s.len) (hj : j < s.len)
    (ui : ∀ t, (s.pc t).claimAt ≠ some i) (uj : ∀ t, (s.pc t).claimAt ≠ some j) (e : rv s i = rv s j) : i = j := by
  by_contra hne
  by_cases hc : ∃ t f fn a k, s.pc t = .clR f fn a k
  · obtain ⟨t, f, fn, a, k, hp⟩ := hc
    have hx := (h.clR t f fn a k hp).2.2
    have hik : i ≠ k := fun e => ui t (by rw [hp, e]; rfl)
    have hjk : j ≠ k := fun e => uj t (by rw [hp, e]; rfl)
    rcases Nat.lt_or_gt_of_ne hne with hl | hl
    · have := hx i j hik hjk hl hj
      rw [e] at this
      bv_omega
    · have := hx j i hjk hik hl hi
      rw [e] at this
      bv_omega
  · have hs := h.srt (fun t f fn a k hp => hc ⟨t, f, fn, a, k, hp⟩)
    rcases Nat.lt_or_gt_of_ne hne with hl | hl
    · have := hs i j hl hj
      rw [e] at this
      bv_omega
    · have := hs j i hl hi
      rw [e] at this
      bv_omega

theorem SI.kept_uniq {g : U64 → U64} {s : St} (h : SI g s) {r c : U64} {v v' : IVal} (k1 : Kept s r c v) (k2 : Kept s r c v') : v = v' := by
  obtain ⟨i, h1, h2, _, h4, _, h6⟩ := k1
  obtain ⟨j, g1, g2, _, g4, _, g6⟩ := k2
  have := h.uniq h1 g1 h6 g6 (show rv s i = rv s j by unfold rv; rw [h2, g2])
  subst this
  rw [← h4, ← g4]

/-- A key comes into the bucket only with the last write of a Set. -/
theorem SI.kept_new {g : U64 → U64} {s s' : St} {t : Tid} {r c : U64} {v : IVal} (h : SI g s) (st : XStep s t s')
    (hk : Kept s' r c v) : (∃ v0, Kept s r c v0) ∨ ∃ f fn a i, s.pc t = .wr f fn a i ∧ f.r = r ∧ f.c = c := by
  obtain ⟨i, h1, h2, h3, h4, h5, h6⟩ := hk
  rcases st.mv with ⟨cl', hid, rfl⟩ | ⟨ch, s1, p, hx, mv, rfl⟩
  · left
    refine ⟨_, i, h1, h2, h3, h4, h5, fun u hu => ?_⟩
    by_cases e : u = t
    · subst e; rw [hid] at hu; cases hu
    · exact h6 u (by rw [setPC_other _ _ _ e]; exact hu)
  · have hpc := mv.pc_eq
    have hwf : (s.pc t).isFree = false := h.pi.li.noFree t
    have hg := h.good t
    have hshape := h.pi.shape t
    have oth : ∀ u, u ≠ t → ∀ k, (s.pc u).claimAt = some k → ((setPC s1 t p).pc u).claimAt = some k := by
      intro u e k hu; rw [setPC_other _ _ _ e, hpc]; exact hu
    have others : (s.pc t).locked = true → ∀ u, u ≠ t → ∀ k, (s.pc u).claimAt ≠ some k := by
      intro hl u e k hu
      refine e (h.pi.li.unique hl ?_)
      cases hp : s.pc u <;> rw [hp] at hu <;> simp [PC.claimAt, PC.locked] at hu ⊢
    have mk : ∀ j, j < s.len → (slotOf s s.cur j).rev = r → (slotOf s s.cur j).conflict = c → (∀ u, (s.pc u).claimAt ≠ some j) →
        (∃ v0, Kept s r c v0) ∨ ∃ f fn a i, s.pc t = .wr f fn a i ∧ f.r = r ∧ f.c = c := fun j e1 e2 e3 e4 =>
      .inl ⟨_, j, e1, e2, e3, rfl, h.nd.slot s.cur j, e4⟩
    have keep : s1.cur = s.cur → i < s.len → (slotOf s1 s.cur i).rev = (slotOf s s.cur i).rev →
        (slotOf s1 s.cur i).conflict = (slotOf s s.cur i).conflict → (s.pc t).claimAt ≠ some i →
        (∃ v0, Kept s r c v0) ∨ ∃ f fn a i, s.pc t = .wr f fn a i ∧ f.r = r ∧ f.c = c := by
      intro e1 e2 e3 e4 e5
      have a2 : (slotOf s1 s1.cur i).rev = r := h2
      have a3 : (slotOf s1 s1.cur i).conflict = c := h3
      rw [e1] at a2 a3
      refine mk i e2 (e3.symm.trans a2) (e4.symm.trans a3) (fun u hu => ?_)
      by_cases e : u = t
      · subst e; exact e5 hu
      · exact h6 u (oth u e i hu)
    have hclt := h6 t
    rw [setPC_same] at hclt
    cases mv <;> rw [‹s.pc t = _›] at hwf hg hshape <;> first
      | (cases hwf; done)
      | (refine keep rfl h1 rfl rfl ?_; rw [‹s.pc t = _›]; simp [PC.claimAt]; done)
      | (exfalso; rename_i hh; exact mark_keeps hshape (hg _ rfl).2.2.2; done)
      | skip
    case upd r' c' v' a j hp =>
      refine keep rfl h1 (slotOf_setSlot_rev _ _ _ _ _ _ rfl) (slotOf_setSlot_conf _ _ _ _ _ _ rfl) ?_
      rw [hp]; simp [PC.claimAt]
    case purgeLast cl a j hp hc ha hi =>
      exfalso
      obtain ⟨_, _, _, e⟩ := upd_set hshape (hg _ rfl).2.2.2
      exact hc _ _ _ e
    case purge cl a j hp hc ha =>
      exfalso
      obtain ⟨_, _, _, e⟩ := upd_set hshape (hg _ rfl).2.2.2
      exact hc _ _ _ e
    case app2 f hp hc =>
      have hne : i ≠ s.len := by intro e; exact hclt (by rw [e]; rfl)
      have h1 : i < s.len + 1 := h1
      refine keep rfl (by omega) rfl rfl ?_
      rw [hp]; simp [PC.claimAt]
    case ins2 f j hp hg =>
      have e := slotOf_setArr_ne (s := s) (l := ((pool s).insertAt j).arr) (Nat.ne_of_lt h.pi.cur) i
      refine keep rfl h1 (congrArg Slot.rev e) (congrArg Slot.conflict e) ?_
      rw [hp]; simp [PC.claimAt]
    case exp2 f q hp hq =>
      have e := slotOf_setArr_ne (s := s) (l := q.arr) (Nat.ne_of_lt h.pi.cur) i
      refine keep rfl h1 (congrArg Slot.rev e) (congrArg Slot.conflict e) ?_
      rw [hp]; simp [PC.claimAt]
    case ins3 f n j hp =>
      have hc := h.pi.ins3 t f n j hp
      have hoth := others (by rw [hp]; rfl)
      have h1 : i < s.len + 1 := h1
      have h2 : (slotOf s n i).rev = r := h2
      have h3 : (slotOf s n i).conflict = c := h3
      have hun : ∀ k u, (s.pc u).claimAt ≠ some k := by
        intro k u hu
        by_cases e : u = t
        · subst e; rw [hp] at hu; cases hu
        · exact hoth u e k hu
      have hne : i ≠ j := by intro e; exact hclt (by rw [e]; rfl)
      by_cases hij : i < j
      · have e := hc.lo i hij
        have := hc.lt
        exact mk i (by omega) (e.rev.symm.trans h2) (e.conf.symm.trans h3) (hun i)
      · obtain ⟨k, rfl⟩ : ∃ k, i = k + 1 := ⟨i - 1, by omega⟩
        have e := hc.hi k (by omega) (by omega)
        exact mk k (by omega) (e.rev.symm.trans h2) (e.conf.symm.trans h3) (hun k)
    case exp3 f n hp =>
      have hc := h.pi.exp3 t f n hp
      have hoth := others (by rw [hp]; rfl)
      have h1 : i < s.len := h1
      have e := hc.lo i h1
      refine mk i h1 (e.rev.symm.trans h2) (e.conf.symm.trans h3) (fun u hu => ?_)
      by_cases e : u = t
      · subst e; rw [hp] at hu; cases hu
      · exact hoth u e i hu
    case clR f fn a j hp =>
      have hne : i ≠ j := by intro e; exact hclt (by rw [e]; rfl)
      have e : ∀ x, slotOf (setSlot s a j x) s.cur i = slotOf s s.cur i := fun x => slotOf_setSlot_ne s x (fun hh => hne hh.2)
      refine keep rfl h1 (congrArg Slot.rev (e _)) (congrArg Slot.conflict (e _)) ?_
      rw [hp]; simp only [PC.claimAt, ne_eq, Option.some.injEq]; exact fun e => hne e.symm
    case clC f fn a j hp =>
      have hne : i ≠ j := by intro e; exact hclt (by rw [e]; rfl)
      have e : ∀ x, slotOf (setSlot s a j x) s.cur i = slotOf s s.cur i := fun x => slotOf_setSlot_ne s x (fun hh => hne hh.2)
      refine keep rfl h1 (congrArg Slot.rev (e _)) (congrArg Slot.conflict (e _)) ?_
      rw [hp]; simp only [PC.claimAt, ne_eq, Option.some.injEq]; exact fun e => hne e.symm
    case wr f fn a j hp =>
      by_cases hij : i = j
      · subst hij
        obtain ⟨rfl, _, g3, g4⟩ := h.pi.wr t f fn a i hp
        right
        have e1 := slotOf_setSlot_rev s s.cur i s.cur i { slotOf s s.cur i with val := f.v } rfl
        have e2 := slotOf_setSlot_conf s s.cur i s.cur i { slotOf s s.cur i with val := f.v } rfl
        exact ⟨f, fn, _, i, hp, g3.symm.trans (e1.symm.trans h2), g4.symm.trans (e2.symm.trans h3)⟩
      · refine keep rfl h1 (slotOf_setSlot_rev _ _ _ _ _ _ rfl) (slotOf_setSlot_conf _ _ _ _ _ _ rfl) ?_
        rw [hp]; simp only [PC.claimAt, ne_eq, Option.some.injEq]; exact fun e => hij e.symm
    case retUnlock res hp =>
      have e1 : (release s t).cur = s.cur := by unfold release; split <;> rfl
      have e2 : (release s t).len = s.len := by unfold release; split <;> rfl
      have e3 : (release s t).arrs = s.arrs := by unfold release; split <;> rfl
      have e4 : slotOf (release s t) s.cur i = slotOf s s.cur i := slotOf_congr e3 _ _
      have h1 : i < (release s t).len := h1
      refine keep e1 (by omega) (congrArg Slot.rev e4) (congrArg Slot.conflict e4) ?_
      rw [hp]; simp [PC.claimAt]

/-- The write of a Set: the key has the value afterwards. -/
theorem SI.kept_effect {g : U64 → U64} {s s' : St} {t : Tid} {r c : U64} {v : IVal} (h : SI g s) (hc : CurI s) (st : XStep s t s')
    (he : Effect s t r c v) : Kept s' r c v := by
  have st' := st.step h.pi.cur h.vis
  rcases he with ⟨a, i, hp⟩ | ⟨f, fn, a, i, hp, rfl, rfl, rfl⟩
  · have := hc t _ a i (.inr hp)
    subst this
    exact kept_upd h.pi hp (h.nd.slot _ _) st'
  · exact kept_wr h.pi hp (h.nd.slot _ _) st'

/-- Other keys, and steps that are no write of a Set: nothing changes. -/
theorem SI.kept_same {g : U64 → U64} {s s' : St} {t : Tid} {r c : U64} (h : SI g s) (h' : SI g s') (st : XStep s t s') (hn : Neat g s t s')
    (he : ∀ v, ¬ Effect s t r c v) (v : IVal) : Kept s' r c v ↔ Kept s r c v := by
  have st' := st.step h.pi.cur h.vis
  have fw : ∀ v, Kept s r c v → Kept s' r c v := fun v hk => by
    refine kept_step h.pi st' ⟨h.nd.noFree h.pi.li st', fun cl h1 h2 => good_plain (hn.1 cl h1 h2)⟩ ?_ hk
    intro cl a i hp hcl
    rcases hp with hp | hp
    · have hsh := h.pi.shape t
      rw [hp] at hsh
      obtain ⟨r', c', v', rfl⟩ := upd_set hsh (h.good t cl (by rw [hp]; rfl)).2.2.2
      obtain ⟨e1, e2⟩ := hcl
      simp only [Call.rev, Call.conf] at e1 e2
      subst e1 e2
      exact he v' (.inl ⟨a, i, hp⟩)
    · have hsh := h.pi.shape t
      rw [hp] at hsh
      exact mark_keeps hsh (h.good t cl (by rw [hp]; rfl)).2.2.2
  refine ⟨fun hk => ?_, fw v⟩
  rcases h.kept_new st hk with ⟨v0, h0⟩ | ⟨f, fn, a, i, hp, e1, e2⟩
  · rw [h'.kept_uniq hk (fw v0 h0)]; exact h0
  · exact absurd (.inr ⟨f, fn, a, i, hp, e1, e2, rfl⟩) (he f.v)

/-- A Get whose item gets another value: the bucket holds this value for its key. -/
theorem SI.item_val {g : U64 → U64} {s s' : St} {t u : Tid} {cl : Call} {a i : Nat} (h : SI g s) (hc : CurI s) (st : XStep s t s')
    (hu : (s.pc u).item = some (cl, a, i)) : (slotOf s' a i).val = (slotOf s a i).val ∨ Kept s' cl.rev cl.conf (slotOf s' a i).val := by
  have it := h.pi.item u cl a i hu
  have hgo : cl.rev ≠ 0 := (h.good u cl (by cases hp : s.pc u <;> rw [hp] at hu <;> simp [PC.item, PC.call] at hu ⊢ <;> exact hu.1)).1
  have st0 := st
  rcases st.mv with ⟨cl', hid, rfl⟩ | ⟨ch, s1, p, hx, mv, rfl⟩
  · exact .inl rfl
  · have hwf : (s.pc t).isFree = false := h.pi.li.noFree t
    have hg := h.good t
    have hshape := h.pi.shape t
    cases mv <;> rw [‹s.pc t = _›] at hwf hg hshape <;> first
      | (cases hwf; done)
      | exact .inl rfl
      | (exfalso; rename_i hh; exact mark_keeps hshape (hg _ rfl).2.2.2; done)
      | skip
    case upd r' c' v' b j hp =>
      by_cases e : a = b ∧ i = j
      · obtain ⟨rfl, rfl⟩ := e
        have it2 := h.pi.item t _ a i (by rw [hp]; rfl)
        have hb := hc t _ a i (.inr hp)
        subst hb
        have hi : i < s.len := by
          by_contra hcc
          have := it.2.2.1
          rw [h.pi.zero i (by omega)] at this
          exact hgo this.symm
        have hcap : i < (s.arrs s.cur).length := Nat.lt_of_lt_of_le hi h.pi.room
        right
        have hk := h.kept_effect hc st0 (.inl ⟨_, _, hp⟩)
        have e1 : r' = cl.rev := it2.2.2.1.symm.trans it.2.2.1
        have e2 : c' = cl.conf := it2.2.2.2.symm.trans it.2.2.2
        rw [← e1, ← e2]
        have e3 : (slotOf (setSlot s s.cur i { slotOf s s.cur i with val := v' }) s.cur i).val = v' := by
          rw [slotOf_setSlot, if_pos ⟨rfl, rfl, hcap⟩]
        show Kept _ r' c' (slotOf (setSlot s s.cur i { slotOf s s.cur i with val := v' }) s.cur i).val
        rw [e3]; exact hk
      · left; exact congrArg Slot.val (slotOf_setSlot_ne s _ e)
    case purgeLast cl a j hp hc ha hi =>
      exfalso
      obtain ⟨_, _, _, e⟩ := upd_set hshape (hg _ rfl).2.2.2
      exact hc _ _ _ e
    case purge cl a j hp hc ha =>
      exfalso
      obtain ⟨_, _, _, e⟩ := upd_set hshape (hg _ rfl).2.2.2
      exact hc _ _ _ e
    case ins2 f j hp hg => exact .inl (congrArg Slot.val (slotOf_setArr_ne (s := s) (l := ((pool s).insertAt j).arr) (Nat.ne_of_lt it.1) i))
    case exp2 f q hp hq => exact .inl (congrArg Slot.val (slotOf_setArr_ne (s := s) (l := q.arr) (Nat.ne_of_lt it.1) i))
    case clR f fn b j hp =>
      left
      show (slotOf (setSlot s b j _) a i).val = _
      rw [slotOf_setSlot]; split
      · rename_i hh; obtain ⟨rfl, rfl, _⟩ := hh; rfl
      · rfl
    case clC f fn b j hp =>
      left
      show (slotOf (setSlot s b j _) a i).val = _
      rw [slotOf_setSlot]; split
      · rename_i hh; obtain ⟨rfl, rfl, _⟩ := hh; rfl
      · rfl
    case wr f fn b j hp =>
      by_cases e : a = b ∧ i = j
      · obtain ⟨rfl, rfl⟩ := e
        obtain ⟨hb, hi, g3, g4⟩ := h.pi.wr t f fn a i hp
        subst hb
        have hcap : i < (s.arrs s.cur).length := Nat.lt_of_lt_of_le hi h.pi.room
        right
        have hk := h.kept_effect hc st0 (.inr ⟨f, fn, _, i, hp, rfl, rfl, rfl⟩)
        have e1 : f.r = cl.rev := g3.symm.trans it.2.2.1
        have e2 : f.c = cl.conf := g4.symm.trans it.2.2.2
        rw [← e1, ← e2]
        have e3 : (slotOf (setSlot s s.cur i { slotOf s s.cur i with val := f.v }) s.cur i).val = f.v := by
          rw [slotOf_setSlot, if_pos ⟨rfl, rfl, hcap⟩]
        show Kept _ f.r f.c (slotOf (setSlot s s.cur i { slotOf s s.cur i with val := f.v }) s.cur i).val
        rw [e3]; exact hk
      · left; exact congrArg Slot.val (slotOf_setSlot_ne s _ e)
    case retUnlock res hp =>
      left
      have e3 : (release s t).arrs = s.arrs := by unfold release; split <;> rfl
      exact congrArg Slot.val (slotOf_congr e3 a i)

end SLM.EConc
