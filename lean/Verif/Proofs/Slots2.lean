import Verif.Proofs.Slots
/-! One group of buckets: invariants along calm executions, lookups, progress. -/
set_option autoImplicit false
set_option linter.unusedSimpArgs false
namespace SLM.Slots

structure Inv (s : St) : Prop where
  glob : Glob s.core
  loc : ∀ u, Loc s.core (s.pc u)
  excl : ∀ u w, u ≠ w → Excl s.core (s.pc u) (s.pc w)
  busy : s.core.len < s.core.cnt → ∃ u, grows s.core (s.pc u) ≠ none

theorem inv_fresh : Inv fresh := by
  refine ⟨?_, fun _ => trivial, fun _ _ _ => .inl rfl, fun h => ?_⟩
  · constructor <;> simp [fresh]
  · simp [fresh] at h

set_option maxHeartbeats 4000000 in
theorem act_busy1 {c c' : Core} {p p' : PC} (ha : act c p = some (c', p')) (hl : Loc c p)
    (hp : grows c p ≠ none) (hlt : c'.len < c'.cnt) : grows c' p' ≠ none := by
  cases p
  all_goals (try (simp only [act] at ha))
  all_goals (repeat' split at ha)
  all_goals (simp only [Option.some.injEq, Prod.mk.injEq, reduceCtorEq] at ha)
  all_goals (obtain ⟨rfl, rfl⟩ := ha)
  all_goals (simp only [Loc, New, grows] at *)
  all_goals grind

set_option maxHeartbeats 4000000 in
theorem act_busy2 {c c' : Core} {p p' : PC} (ha : act c p = some (c', p')) (hl : Loc c p)
    (hp : grows c p = none) (hlt : c'.len < c'.cnt) : grows c' p' ≠ none ∨ c.len < c.cnt := by
  cases p
  all_goals (try (simp only [act] at ha))
  all_goals (repeat' split at ha)
  all_goals (simp only [Option.some.injEq, Prod.mk.injEq, reduceCtorEq] at ha)
  all_goals (obtain ⟨rfl, rfl⟩ := ha)
  all_goals (simp only [Loc, New, grows] at *)
  all_goals grind

set_option maxHeartbeats 4000000 in
theorem act_len {c c' : Core} {p p' : PC} (ha : act c p = some (c', p')) (hl : Loc c p)
    (hp : grows c p = none) : c'.len = c.len := by
  cases p
  all_goals (try (simp only [act] at ha))
  all_goals (repeat' split at ha)
  all_goals (simp only [Option.some.injEq, Prod.mk.injEq, reduceCtorEq] at ha)
  all_goals (obtain ⟨rfl, rfl⟩ := ha)
  all_goals (simp only [Loc, New, grows] at *)
  all_goals grind

set_option maxHeartbeats 4000000 in
theorem act_len_le {c c' : Core} {p p' : PC} (ha : act c p = some (c', p')) (hl : Loc c p) : c.len ≤ c'.len := by
  cases p
  all_goals (try (simp only [act] at ha))
  all_goals (repeat' split at ha)
  all_goals (simp only [Option.some.injEq, Prod.mk.injEq, reduceCtorEq] at ha)
  all_goals (obtain ⟨rfl, rfl⟩ := ha)
  all_goals (simp only [Loc, New] at *)
  all_goals grind

theorem grows_mono {c c' : Core} {q : PC} (h : c.len ≤ c'.len) (hq : grows c q = none) : grows c' q = none := by
  cases q <;> simp only [grows] at * <;> grind

theorem grows_len {c c' : Core} (h : c'.len = c.len) (q : PC) : grows c' q = grows c q := by
  cases q <;> simp only [grows, h]

theorem setPC_same (pc : Tid → PC) (g : Tid) (p : PC) : setPC pc g p g = p := by simp [setPC]
theorem setPC_ne (pc : Tid → PC) {g u : Tid} (p : PC) (h : u ≠ g) : setPC pc g p u = pc u := by simp [setPC, h]

theorem excl_symm {c : Core} {p q : PC} (h : Excl c p q) : Excl c q p := h.elim .inr .inl

theorem Step.inv {s s' : St} {g : Tid} (st : Step s g s') (hc : Calm s g) (h : Inv s) : Inv s' := by
  have start : ∀ p, s.pc g = .idle → (∀ c, Loc c p) → (∀ c, grows c p = none) → Inv ⟨s.core, setPC s.pc g p⟩ := by
    intro p hi hl hg
    refine ⟨h.glob, fun u => ?_, fun u w huw => ?_, fun hlt => ?_⟩
    · by_cases hu : u = g
      · subst hu; simp only [setPC_same]; exact hl _
      · simp only [setPC_ne _ _ hu]; exact h.loc u
    · by_cases hu : u = g
      · subst hu; left; simp only [setPC_same]; exact hg _
      · by_cases hw : w = g
        · subst hw; right; simp only [setPC_same]; exact hg _
        · simp only [setPC_ne _ _ hu, setPC_ne _ _ hw]; exact h.excl u w huw
    · obtain ⟨u, hu⟩ := h.busy hlt
      refine ⟨u, ?_⟩
      by_cases hug : u = g
      · subst hug; rw [hi] at hu; exact absurd rfl hu
      · simp only [setPC_ne _ _ hug]; exact hu
  cases st with
  | split i h1 h2 h3 => exact start _ h1 (fun _ => trivial) (fun _ => rfl)
  | look i h1 h2 => exact start _ h1 (fun _ => trivial) (fun _ => rfl)
  | run c p ha =>
    have hcp : CalmPC s.core (s.pc g) := hc
    refine ⟨act_glob ha hcp h.glob (h.loc g), fun u => ?_, fun u w huw => ?_, fun hlt => ?_⟩
    · by_cases hu : u = g
      · subst hu; simp only [setPC_same]; exact act_loc ha hcp h.glob (h.loc _)
      · simp only [setPC_ne _ _ hu]
        exact act_frame ha hcp h.glob (h.loc g) (h.loc u) (h.excl g u (Ne.symm hu))
    · by_cases hu : u = g
      · subst hu
        simp only [setPC_same, setPC_ne _ _ (Ne.symm huw)]
        exact act_excl ha hcp h.glob (h.loc _) (h.loc w) (h.excl u w huw)
      · by_cases hw : w = g
        · subst hw
          simp only [setPC_same, setPC_ne _ _ hu]
          exact excl_symm (act_excl ha hcp h.glob (h.loc _) (h.loc u) (h.excl w u (Ne.symm huw)))
        · simp only [setPC_ne _ _ hu, setPC_ne _ _ hw]
          by_cases hg : grows s.core (s.pc g) = none
          · have := h.excl u w huw
            unfold Excl at *
            rw [grows_len (act_len ha (h.loc g) hg), grows_len (act_len ha (h.loc g) hg)]
            exact this
          · have b1 := (h.excl g u (Ne.symm hu)).resolve_left hg
            exact .inl (grows_mono (act_len_le ha (h.loc g)) b1)
    · by_cases hg : grows s.core (s.pc g) = none
      · rcases act_busy2 ha (h.loc g) hg hlt with h1 | h1
        · exact ⟨g, by simpa only [setPC_same] using h1⟩
        · obtain ⟨u, hu⟩ := h.busy h1
          have hug : u ≠ g := fun e => hu (e ▸ hg)
          refine ⟨u, ?_⟩
          simp only [setPC_ne _ _ hug]
          rw [grows_len (act_len ha (h.loc g) hg)]; exact hu
      · exact ⟨g, by simpa only [setPC_same] using act_busy1 ha (h.loc g) hg hlt⟩

/-- A calm execution. -/
inductive CSteps : St → St → Prop
  | refl (s : St) : CSteps s s
  | step {a b c : St} {g : Tid} : CSteps a b → Step b g c → Calm b g → CSteps a c

theorem CSteps.inv {s : St} (h : CSteps fresh s) : Inv s := by
  generalize hf : fresh = f at h
  induction h with
  | refl => subst hf; exact inv_fresh
  | step _ st hc ih => exact st.inv hc ih

set_option maxHeartbeats 4000000 in
/-- What no step takes back, and what no step does to a child of the group that was handed out as its longest. -/
theorem act_mono {c c' : Core} {p p' : PC} (ha : act c p = some (c', p')) (hl : Loc c p) (hg : Glob c) (i : Nat) :
    ((c.slot i).level = true → (c'.slot i).level = true) ∧
    ((c.slot i).linked = true → (c'.slot i).linked = true) ∧
    ((c.slot i).okfn = some true → i < c.len → (c'.slot i).okfn = some true ∧ (c'.slot i).setups = (c.slot i).setups) := by
  obtain ⟨le, zero, top, top2, base, above, okt, okn, su⟩ := hg
  cases p
  all_goals (try (simp only [act] at ha))
  all_goals (repeat' split at ha)
  all_goals (simp only [Option.some.injEq, Prod.mk.injEq, reduceCtorEq] at ha)
  all_goals (obtain ⟨rfl, rfl⟩ := ha)
  all_goals (simp only [Loc, New, upd] at *)
  all_goals grind

structure Mono (a b : Core) : Prop where
  len : a.len ≤ b.len
  level : ∀ i, (a.slot i).level = true → (b.slot i).level = true
  linked : ∀ i, (a.slot i).linked = true → (b.slot i).linked = true
  once : ∀ i, (a.slot i).okfn = some true → i < a.len → (b.slot i).okfn = some true ∧ (b.slot i).setups = (a.slot i).setups

theorem Mono.refl (a : Core) : Mono a a := ⟨Nat.le_refl _, fun _ h => h, fun _ h => h, fun _ h _ => ⟨h, rfl⟩⟩

theorem Mono.trans {a b c : Core} (h1 : Mono a b) (h2 : Mono b c) : Mono a c :=
  ⟨Nat.le_trans h1.len h2.len, fun i h => h2.level i (h1.level i h), fun i h => h2.linked i (h1.linked i h), fun i h hl => by
    obtain ⟨a1, a2⟩ := h1.once i h hl
    obtain ⟨b1, b2⟩ := h2.once i a1 (Nat.lt_of_lt_of_le hl h1.len)
    exact ⟨b1, b2.trans a2⟩⟩

theorem Step.mono {s s' : St} {g : Tid} (st : Step s g s') (h : Inv s) : Mono s.core s'.core := by
  cases st with
  | split i h1 h2 h3 => exact .refl _
  | look i h1 h2 => exact .refl _
  | run c p ha =>
    exact ⟨act_len_le ha (h.loc g), fun i => (act_mono ha (h.loc g) h.glob i).1, fun i => (act_mono ha (h.loc g) h.glob i).2.1,
      fun i => (act_mono ha (h.loc g) h.glob i).2.2⟩

theorem CSteps.inv_of {s s' : St} (h : CSteps s s') (hi : Inv s) : Inv s' := by
  induction h with
  | refl => exact hi
  | step _ st hc ih => exact st.inv hc ih

theorem CSteps.mono {s s' : St} (h : CSteps s s') (hi : Inv s) : Mono s.core s'.core := by
  induction h with
  | refl => exact .refl _
  | step h0 st hc ih => exact ih.trans (st.mono (h0.inv_of hi))

/-- A lookup of child `i` that has to find child `k` or a later one. -/
def Looking (i k : Nat) : PC → Prop
  | .look j => j = i
  | .look2 j => j = i
  | .lookL j => j = i
  | .scan0 j => j = i
  | .scan j m => j = i ∧ k ≤ m ∧ m ≤ i
  | .ans (some m) => k ≤ m ∧ m ≤ i
  | _ => False

theorem act_looking {c c' : Core} {p p' : PC} {i k : Nat} (ha : act c p = some (c', p')) (hl : Looking i k p) (hk : k ≤ i)
    (hkl : k < c.len) (hlev : (c.slot k).level = true) : Looking i k p' := by
  cases p
  all_goals (simp only [Looking] at hl)
  all_goals (try (simp only [act] at ha))
  all_goals (repeat' split at ha)
  all_goals (simp only [Option.some.injEq, Prod.mk.injEq, reduceCtorEq] at ha)
  all_goals (obtain ⟨rfl, rfl⟩ := ha)
  all_goals (simp only [Looking])
  all_goals grind

theorem looking {s s' : St} (h : CSteps s s') (hi : Inv s) {g : Tid} {i k : Nat} (hl : Looking i k (s.pc g)) (hk : k ≤ i)
    (hkl : k < s.core.len) (hlev : (s.core.slot k).level = true) : Looking i k (s'.pc g) := by
  induction h with
  | refl => exact hl
  | @step b c u h0 st hc ih =>
    have hm := h0.mono hi
    cases st with
    | split j h1 h2 h3 =>
      by_cases hu : g = u
      · subst hu; rw [h1] at ih; exact ih.elim
      · simp only [setPC_ne _ _ hu]; exact ih
    | look j h1 h2 =>
      by_cases hu : g = u
      · subst hu; rw [h1] at ih; exact ih.elim
      · simp only [setPC_ne _ _ hu]; exact ih
    | run c p ha =>
      by_cases hu : g = u
      · subst hu; simp only [setPC_same]
        exact act_looking ha ih hk (Nat.lt_of_lt_of_le hkl hm.len) (hm.level k hlev)
      · simp only [setPC_ne _ _ hu]; exact ih

/-- `n` steps, all of goroutine `g`. -/
inductive Alone (g : Tid) : Nat → St → St → Prop
  | refl (s : St) : Alone g 0 s s
  | step {a b c : St} {n : Nat} : Step a g b → Alone g n b c → Alone g (n + 1) a c

/-- Left alone, goroutine `g` ends its split with at most `n` steps. -/
def Ends (g : Tid) (n : Nat) (s : St) : Prop := ∃ m s', m ≤ n ∧ Alone g m s s' ∧ s'.pc g = .ret

theorem Ends.weaken {g : Tid} {n m : Nat} {s : St} (h : Ends g n s) (hm : n ≤ m) : Ends g m s := by
  obtain ⟨a, s', h1, h2, h3⟩ := h
  exact ⟨a, s', Nat.le_trans h1 hm, h2, h3⟩

def atPC (s : St) (g : Tid) (c : Core) (p : PC) : St := ⟨c, setPC s.pc g p⟩

theorem Ends.of {g : Tid} {n : Nat} {s : St} {c c' : Core} {p p' : PC} (ha : act c p = some (c', p'))
    (h : Ends g n (atPC s g c' p')) : Ends g (n + 1) (atPC s g c p) := by
  obtain ⟨m, s', h1, h2, h3⟩ := h
  refine ⟨m + 1, s', Nat.succ_le_succ h1, .step (b := atPC s g c' p') ?_ h2, h3⟩
  have := Step.run (atPC s g c p) g c' p' (by simpa [atPC, setPC_same] using ha)
  have e : (⟨c', setPC (atPC s g c p).pc g p'⟩ : St) = atPC s g c' p' := by
    simp only [atPC, St.mk.injEq, true_and]
    funext u
    by_cases hu : u = g <;> simp [setPC, hu]
  rwa [e] at this

theorem ends_ret (g : Tid) (s : St) (c : Core) : Ends g 0 (atPC s g c .ret) :=
  ⟨0, _, Nat.le_refl _, .refl _, by simp [atPC, setPC_same]⟩

theorem ends_fin3 (g : Tid) (s : St) (c : Core) (i : Nat) : Ends g 1 (atPC s g c (.fin3 i)) :=
  Ends.of (by simp only [act]; rfl) (ends_ret ..)

theorem ends_finA (g : Tid) (s : St) (c : Core) (i : Nat) (k : Option Bool) (h : i < c.len) : Ends g 2 (atPC s g c (.fin i k)) := by
  by_cases hk : k = some true
  · exact Ends.of (by simp only [act, hk, h, if_true]; rfl) (ends_fin3 ..)
  · by_cases hf : k = some false
    · exact Ends.of (c' := c) (p' := .fin3 i) (by simp [act, hf]) (ends_fin3 ..)
    · exact Ends.of (c' := c) (p' := .ret) (by simp [act, hf, hk]) ((ends_ret ..).weaken (by omega))

theorem ends_finR (g : Tid) (s : St) (c : Core) (i : Nat) : Ends g 4 (atPC s g c (.finR i)) :=
  Ends.of (by simp only [act]; rfl)
    (Ends.of (c' := { c with len := i + 1 }) (p' := .fin i (some true)) (by simp [act]) (ends_finA _ _ _ _ _ (by simp)))

theorem ends_fin (g : Tid) (s : St) (c : Core) (i : Nat) (k : Option Bool) : Ends g 5 (atPC s g c (.fin i k)) := by
  by_cases h : i < c.len
  · exact (ends_finA g s c i k h).weaken (by omega)
  · by_cases hk : k = some true
    · exact Ends.of (c' := c) (p' := .finR i) (by simp [act, hk, h]) (ends_finR ..)
    · by_cases hf : k = some false
      · exact Ends.of (c' := c) (p' := .fin3 i) (by simp [act, hf]) ((ends_fin3 ..).weaken (by omega))
      · exact Ends.of (c' := c) (p' := .ret) (by simp [act, hf, hk]) ((ends_ret ..).weaken (by omega))

theorem ends_fin2 (g : Tid) (s : St) (c : Core) (i n : Nat) : Ends g 6 (atPC s g c (.fin2 i n)) :=
  Ends.of (by simp only [act]; rfl) (ends_fin ..)

theorem ends_link (g : Tid) (s : St) (c : Core) (i : Nat) (k : Option Bool) : Ends g 6 (atPC s g c (.link i k)) :=
  Ends.of (by simp only [act]; rfl) (ends_fin ..)

theorem ends_prep (g : Tid) (s : St) (c : Core) (i : Nat) (k : Option Bool) : Ends g 7 (atPC s g c (.prep i k)) :=
  Ends.of (by simp only [act]; rfl) (ends_link ..)

theorem ends_got (g : Tid) (s : St) (c : Core) (i : Nat) (k : Option Bool) : Ends g 8 (atPC s g c (.got i k)) := by
  by_cases h : (c.slot i).linked = true
  · exact Ends.of (c' := c) (p' := .fin i k) (by simp [act, h]) ((ends_fin ..).weaken (by omega))
  · exact Ends.of (c' := c) (p' := .prep i k) (by simp [act, h]) (ends_prep ..)

theorem ends_own (g : Tid) (s : St) (c : Core) (i : Nat) : Ends g 9 (atPC s g c (.own i)) :=
  Ends.of (by simp only [act]; rfl) (ends_got ..)

theorem ends_gap2 (g : Tid) (s : St) (c : Core) (i : Nat) : Ends g 9 (atPC s g c (.gap2 i)) :=
  Ends.of (by simp only [act]; rfl) (ends_got ..)

theorem ends_gap (g : Tid) (s : St) (c : Core) (i : Nat) : Ends g 10 (atPC s g c (.gap i)) :=
  Ends.of (by simp only [act]; rfl) (ends_gap2 ..)

theorem ends_state (g : Tid) (s : St) (c : Core) (i : Nat) : Ends g 11 (atPC s g c (.state i)) := by
  by_cases h : (c.slot i).st = .none
  · exact Ends.of (by simp only [act, h, if_true]; rfl) (ends_gap ..)
  · exact Ends.of (by simp only [act, h, if_false]; rfl) ((ends_got ..).weaken (by omega))

theorem ends_chkA (g : Tid) (s : St) (c : Core) (i : Nat) (h : i < c.len) : Ends g 12 (atPC s g c (.chk i)) :=
  Ends.of (c' := c) (p' := .state i) (by simp only [act, if_neg (Nat.not_le.2 h)]) (ends_state ..)

theorem ends_casA (g : Tid) (s : St) (c : Core) (i : Nat) (h : c.cnt = c.len) : Ends g 11 (atPC s g c (.cas i)) :=
  Ends.of (by simp only [act]; rfl) (Ends.of (by simp only [act, if_pos h]; rfl) (ends_own ..))

theorem ends_setupA (g : Tid) (s : St) (c : Core) (i : Nat) (h : c.cnt = c.len) : Ends g 13 (atPC s g c (.setup i)) := by
  by_cases hi : c.cnt ≤ i
  · exact Ends.of (c' := c) (p' := .cas i) (by simp only [act, if_pos hi]) ((ends_casA g s c i h).weaken (by omega))
  · exact Ends.of (c' := c) (p' := .chk i) (by simp only [act, if_neg hi]) (ends_chkA _ _ _ _ (by omega))

theorem ends_chk (g : Tid) (s : St) (c : Core) (i : Nat) (h : c.cnt = c.len) : Ends g 14 (atPC s g c (.chk i)) := by
  by_cases hi : c.len ≤ i
  · exact Ends.of (c' := c) (p' := .setup i) (by simp only [act, if_pos hi]) (ends_setupA _ _ _ _ h)
  · exact (ends_chkA g s c i (by omega)).weaken (by omega)

theorem ends_cas2 (g : Tid) (s : St) (c : Core) (i n : Nat) (h : c.cnt = c.len) : Ends g 15 (atPC s g c (.cas2 i n)) := by
  by_cases hn : c.cnt = n
  · exact Ends.of (by simp only [act, if_pos hn]; rfl) ((ends_own ..).weaken (by omega))
  · exact Ends.of (c' := c) (p' := .chk i) (by simp only [act, if_neg hn]) (ends_chk _ _ _ _ h)

theorem ends_mk (g : Tid) (s : St) (c : Core) (i : Nat) (h : c.cnt = 1) : Ends g 14 (atPC s g c (.mk i)) :=
  Ends.of (by simp only [act]; rfl) (ends_setupA _ _ _ _ h)

theorem ends_init2 (g : Tid) (s : St) (c : Core) (i : Nat) (h : c.cnt = c.len) (h0 : c.cnt ≠ 0) : Ends g 14 (atPC s g c (.init2 i)) :=
  Ends.of (c' := c) (p' := .setup i) (by simp only [act, if_neg (h ▸ h0)]) (ends_setupA _ _ _ _ h)

theorem ends_init (g : Tid) (s : St) (c : Core) (i : Nat) (h : c.cnt = c.len) : Ends g 15 (atPC s g c (.init i)) := by
  by_cases h0 : c.cnt = 0
  · exact Ends.of (by simp only [act, if_pos h0]; rfl) (ends_mk _ _ _ _ rfl)
  · exact Ends.of (c' := c) (p' := .init2 i) (by simp only [act, if_neg h0]) (ends_init2 _ _ _ _ h h0)

/-- Program points of a split that has begun and has not ended. -/
def splitting : PC → Bool
  | .idle => false
  | .ret => false
  | .look _ => false
  | .look2 _ => false
  | .lookL _ => false
  | .scan0 _ => false
  | .scan _ _ => false
  | .ans _ => false
  | _ => true

theorem atPC_self (s : St) (g : Tid) : atPC s g s.core (s.pc g) = s := by
  cases s with
  | mk c pc =>
    simp only [atPC, St.mk.injEq, true_and]
    funext u
    by_cases hu : u = g <;> simp [setPC, hu]

theorem ends_grower {s : St} {g : Tid} (hl : Loc s.core (s.pc g)) (h : grows s.core (s.pc g) ≠ none) : Ends g 15 s := by
  rw [← atPC_self s g]
  cases hp : s.pc g <;> rw [hp] at h hl <;> simp only [grows, ne_eq, not_true_eq_false] at h
  · exact (ends_mk _ _ _ _ hl.1).weaken (by omega)
  · exact (ends_own ..).weaken (by omega)
  · exact (ends_got ..).weaken (by omega)
  · exact (ends_prep ..).weaken (by omega)
  · exact (ends_link ..).weaken (by omega)
  · exact (ends_fin ..).weaken (by omega)
  · exact (ends_finR ..).weaken (by omega)
  · exact (ends_fin2 ..).weaken (by omega)

theorem ends_calm {s : St} {g : Tid} (h : s.core.cnt = s.core.len)
    (hl : Loc s.core (s.pc g)) (hp : splitting (s.pc g) = true) : Ends g 15 s := by
  rw [← atPC_self s g]
  cases hq : s.pc g <;> rw [hq] at hp hl <;> simp only [splitting, Bool.false_eq_true] at hp
  · exact ends_init _ _ _ _ h
  · exact (ends_init2 _ _ _ _ h hl).weaken (by omega)
  · exact (ends_mk _ _ _ _ hl.1).weaken (by omega)
  · exact (ends_setupA _ _ _ _ h).weaken (by omega)
  · exact (ends_casA _ _ _ _ h).weaken (by omega)
  · exact ends_cas2 _ _ _ _ _ h
  · exact (ends_own ..).weaken (by omega)
  · exact (ends_chk _ _ _ _ h).weaken (by omega)
  · exact (ends_state ..).weaken (by omega)
  · exact (ends_gap ..).weaken (by omega)
  · exact (ends_gap2 ..).weaken (by omega)
  · exact (ends_got ..).weaken (by omega)
  · exact (ends_prep ..).weaken (by omega)
  · exact (ends_link ..).weaken (by omega)
  · exact (ends_fin ..).weaken (by omega)
  · exact (ends_finR ..).weaken (by omega)
  · exact (ends_fin2 ..).weaken (by omega)
  · exact (ends_fin3 ..).weaken (by omega)

/-! ### Executions without overlapping splits -/

/-- At most one split is under way. -/
def NoOverlap (s : St) : Prop := ∀ u w, splitting (s.pc u) = true → splitting (s.pc w) = true → u = w

/-- An execution in which splits do not overlap (lookups may overlap everything). -/
inductive NSteps : St → St → Prop
  | refl (s : St) : NSteps s s
  | step {a b c : St} {g : Tid} : NSteps a b → Step b g c → NoOverlap b → NSteps a c

/-- What a goroutine has read is still so. -/
def Fresh (s : St) : Prop := ∀ u i, (s.pc u = .cas i ∨ ∃ n, s.pc u = .cas2 i n) → s.core.cnt ≤ i

theorem act_fresh {c c' : Core} {p p' : PC} (ha : act c p = some (c', p')) (h : ∀ i, (p = .cas i ∨ ∃ n, p = .cas2 i n) → c.cnt ≤ i) :
    (∀ i, (p' = .cas i ∨ ∃ n, p' = .cas2 i n) → c'.cnt ≤ i) ∧ (splitting p = true ∨ c'.cnt = c.cnt) := by
  cases p
  all_goals (try (simp only [act] at ha))
  all_goals (repeat' split at ha)
  all_goals (simp only [Option.some.injEq, Prod.mk.injEq, reduceCtorEq] at ha)
  all_goals (obtain ⟨rfl, rfl⟩ := ha)
  all_goals (simp only [splitting])
  all_goals grind

theorem NSteps.calm {s s' : St} (h : NSteps s s') (hs : s = fresh) : CSteps s s' ∧ Fresh s' := by
  induction h with
  | refl => exact ⟨.refl _, by subst hs; intro u i hu; simp [fresh] at hu⟩
  | @step b c g h0 st hn ih =>
    obtain ⟨h1, h2⟩ := ih
    refine ⟨.step h1 st ?_, ?_⟩
    · intro i n hp hc; rw [← hc]; exact h2 g i (.inr ⟨n, hp⟩)
    · have start : ∀ p, (∀ i, ¬(p = .cas i ∨ ∃ n, p = .cas2 i n)) → Fresh ⟨b.core, setPC b.pc g p⟩ := by
        intro p hp u i hu
        by_cases hug : u = g
        · subst hug; simp only [setPC_same] at hu; exact absurd hu (hp i)
        · simp only [setPC_ne _ _ hug] at hu; exact h2 u i hu
      cases st with
      | split i _ _ _ => exact start _ (by simp)
      | look i _ _ => exact start _ (by simp)
      | run c p ha =>
        obtain ⟨a1, a2⟩ := act_fresh ha (h2 g)
        intro u i hu
        by_cases hug : u = g
        · subst hug; simp only [setPC_same] at hu; exact a1 i hu
        · simp only [setPC_ne _ _ hug] at hu
          rcases a2 with a2 | a2
          · refine absurd (hn u g ?_ a2) hug
            rcases hu with hu | ⟨n, hu⟩ <;> rw [hu] <;> rfl
          · show c.cnt ≤ i
            rw [a2]; exact h2 u i hu

/-! ### A lookup ends -/

def lookMu : PC → Nat
  | .look i => i + 5
  | .look2 i => i + 4
  | .lookL i => i + 3
  | .scan0 i => i + 2
  | .scan _ j => j + 1
  | _ => 0

def lookPC : PC → Bool
  | .look _ => true
  | .look2 _ => true
  | .lookL _ => true
  | .scan0 _ => true
  | .scan _ _ => true
  | .ans _ => true
  | _ => false

theorem act_lookMu {c c' : Core} {p p' : PC} (ha : act c p = some (c', p')) (hp : lookPC p = true) :
    lookMu p' < lookMu p ∧ lookPC p' = true ∧ c' = c := by
  cases p
  all_goals (simp only [lookPC, Bool.false_eq_true] at hp)
  all_goals (try (simp only [act] at ha))
  all_goals (repeat' split at ha)
  all_goals (simp only [Option.some.injEq, Prod.mk.injEq, reduceCtorEq] at ha)
  all_goals (obtain ⟨rfl, rfl⟩ := ha)
  all_goals (simp only [lookMu, lookPC, true_and, and_true])
  all_goals omega

/-- Executions in which goroutine `g` takes exactly `n` steps. -/
inductive Count (g : Tid) : Nat → St → St → Prop
  | refl (s : St) : Count g 0 s s
  | own {n : Nat} {a b c : St} : Count g n a b → Step b g c → Count g (n + 1) a c
  | other {n : Nat} {a b c : St} {u : Tid} : Count g n a b → Step b u c → u ≠ g → Count g n a c

theorem lookMu_bound {g : Tid} {n : Nat} {s s' : St} (h : Count g n s s') (hp : lookPC (s.pc g) = true) :
    lookPC (s'.pc g) = true ∧ n + lookMu (s'.pc g) ≤ lookMu (s.pc g) := by
  induction h with
  | refl => exact ⟨hp, by omega⟩
  | own _ st ih =>
    obtain ⟨h1, h2⟩ := ih hp
    cases st with
    | split i hi _ _ => rw [hi] at h1; exact absurd h1 (by simp [lookPC])
    | look i hi _ => rw [hi] at h1; exact absurd h1 (by simp [lookPC])
    | run c p ha =>
      obtain ⟨a1, a2, _⟩ := act_lookMu ha h1
      simp only [setPC_same]
      exact ⟨a2, by omega⟩
  | other _ st hu ih =>
    cases st <;> simpa only [setPC_ne _ _ (Ne.symm hu)] using ih hp

theorem look_step {s : St} {g : Tid} (hp : lookPC (s.pc g) = true) : (∃ r, s.pc g = .ans r) ∨ ∃ s', Step s g s' := by
  cases h : s.pc g <;> rw [h] at hp <;> simp only [lookPC, Bool.false_eq_true] at hp
  all_goals first
    | exact .inl ⟨_, rfl⟩
    | exact .inr ⟨_, .run s g _ _ (by rw [h]; simp only [act]; rfl)⟩

end SLM.Slots
