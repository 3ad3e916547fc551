import Verif.Proofs.Conc11
/-! Concurrent use with one writer at a time: Sets, Deletes and splits do not overlap each other, Gets and Ranges overlap anything. -/
set_option autoImplicit false
namespace SLM.Conc
variable {Pk : CSt → Call → Ref → Prop}

/-- A call that changes the map. -/
def Call.writes : Call → Prop
  | .get _ _ => False
  | .range => False
  | _ => True

/-- The goroutine is in a Set, a Delete, a split, or in a search on another map of the process. -/
def Writer : PC → Prop
  | .idle => False
  | .ret _ => False
  | .walk _ _ _ => False
  | .pick cl => cl.writes
  | .look cl _ _ _ _ => cl.writes
  | .lost cl _ _ => cl.writes
  | .hit cl _ => cl.writes
  | .miss cl _ => cl.writes
  | _ => True

theorem Writer.newE {p : PC} {e : Entry} (h : p.newE = some e) : Writer p := by
  cases p <;> simp_all [PC.newE, Writer]

theorem Writer.of_call {p : PC} {cl : Call} (h : callOf p = some cl) (hw : cl.writes) : Writer p := by
  cases p <;> simp only [callOf, reduceCtorEq, Option.some.injEq] at h <;> first | trivial | (subst h; exact hw)

theorem Step.writer {s s' : CSt} {g : Tid} (st : Step Pk s g s') (h : Writer (s'.pc g)) : s.pc g = .idle ∨ Writer (s.pc g) := by
  cases st <;> rw [setPC_same] at h
  all_goals (first | (rename_i h1; rw [h1]) | (rename_i h1 _; rw [h1]) | (rename_i h1 _ _; rw [h1]) | (rename_i h1 _ _ _; rw [h1]) | (rename_i h1 _ _ _ _; rw [h1]))
  all_goals (first | exact Or.inl rfl | exact Or.inr h | exact Or.inr trivial | exact h.elim | skip)
  all_goals (split at h <;> first | exact Or.inr h | exact h.elim)

/-- The conditions on a step: a Set, Delete or split (or a search on another map) starts only when none is in progress; no Get of the key locates a
bucket whose sentinel is not linked yet; no key with the same primary hash and another conflict hash is Set. -/
structure OneWriter (t c : U64) (s : CSt) (g : Tid) (s' : CSt) : Prop where
  start : s.pc g = .idle → Writer (s'.pc g) → ∀ u, u ≠ g → ¬ Writer (s.pc u)
  located : ∀ c' p r, s'.pc g ≠ .lost (.get t c') p r
  conf : s.pc g = .idle → ∀ c' key v, s'.pc g = .pick (.set t c' key v) → c' = c

/-- The insertion of a Set's entry is on its way to a place where the check succeeds. -/
def Put (Pk : CSt → Call → Ref → Prop) (s : CSt) (t : U64) (p : PC) : Prop :=
  ∀ e, p.newE = some e → e.dummy = false → e.rev = t → ∃ b, At s.items b (· ≤ t) ∧ Placing Pk s s e b p

structure WInv1 (Pk : CSt → Call → Ref → Prop) (s : CSt) (t : U64) : Prop where
  j : J1 s
  setB : ∀ u, SetB s.items (s.pc u)
  top : ∃ m ∈ s.items, t < m.rev
  one : ∀ a b, Writer (s.pc a) → Writer (s.pc b) → a = b
  lost : ∀ u cl p r, s.pc u = .lost cl p r → ¬ cl.writes
  put : ∀ u, Put Pk s t (s.pc u)

theorem Placing.base {s0 s1 s : CSt} {e e' : Entry} {b : Ref} {p : PC} (hp : p.newE = some e') (h : Placing Pk s0 s e b p) : Placing Pk s1 s e b p := by
  cases p with
  | ret res => cases hp
  | fOpt second _ _ _ => cases second <;> exact h
  | fLoop second _ _ _ _ _ => cases second <;> exact h
  | fEnd second _ _ _ _ => cases second <;> exact h
  | _ => exact h

/-- Only a writer touches the search option or links a node. -/
theorem Step.reader {s s' : CSt} {g : Tid} (st : Step Pk s g s') (h : ¬ Writer (s.pc g)) (h' : ¬ Writer (s'.pc g)) : s'.opt = s.opt ∧ s'.items = s.items := by
  cases st <;> rw [setPC_same] at h' <;> (try exact ⟨rfl, rfl⟩) <;> exfalso
  all_goals first
    | exact h' trivial
    | exact h (by rename_i h1; rw [h1]; trivial)
    | exact h (by rename_i h1 _ _; rw [h1]; trivial)

theorem Step.newE_back {s s' : CSt} {g : Tid} (st : Step Pk s g s') {e : Entry} (h : (s'.pc g).newE = some e) :
    (s.pc g).newE = some e ∨ (∃ t c key v b, s.pc g = .miss (.set t c key v) b ∧ e.rev = t ∧ s'.pc g = .fOpt false e (some b) b ∧ s'.items = s.items) ∨
      (∃ t c key v p r, s.pc g = .lost (.set t c key v) p r) ∨ e.dummy = true := by
  cases st <;> rw [setPC_same] at h ⊢
  all_goals (first | (rename_i h1; rw [h1]) | (rename_i h1 _; rw [h1]) | (rename_i h1 _ _; rw [h1]) | (rename_i h1 _ _ _; rw [h1]) | (rename_i h1 _ _ _ _; rw [h1]))
  all_goals (first | exact Or.inl h | (cases h; exact Or.inr (Or.inl ⟨_, _, _, _, _, rfl, rfl, rfl, rfl⟩)) | exact Or.inr (Or.inr (Or.inl ⟨_, _, _, _, _, _, rfl⟩)) | (cases h; exact Or.inr (Or.inr (Or.inr rfl))) | (cases h; done) | skip)
  all_goals (split at h <;> first | exact Or.inl h | cases h)

theorem WInv1.alone {s : CSt} {t : U64} (I : WInv1 Pk s t) (g : Tid) : Alone s g := by
  intro e r h u e' hu h'
  exact hu (I.one u g (by rw [h']; trivial) (by rw [h]; trivial))

theorem WInv1.step (pk : PkOk Pk) {s s' : CSt} {g : Tid} {t c : U64} (I : WInv1 Pk s t) (st : Step Pk s g s') (o : OneWriter t c s g s') : WInv1 Pk s' t := by
  have hone : ∀ a b, Writer (s'.pc a) → Writer (s'.pc b) → a = b := solo_step st (fun h => st.writer h) o.start I.one
  obtain ⟨m, hm, hmt⟩ := I.top
  have hlost : ∀ u cl p r, s'.pc u = .lost cl p r → ¬ cl.writes := by
    intro u cl p r hp hw
    by_cases hu : u = g
    · subst hu
      cases st <;> simp only [setPC_same, reduceCtorEq, PC.lost.injEq] at hp
      case pickLost cl1 t1 c1 p1 r1 h1 h2 h3 h4 h5 =>
        obtain ⟨rfl, rfl, rfl⟩ := hp
        obtain ⟨⟨v, hv⟩, _⟩ := h3
        have : v = u := I.one v u (Writer.newE hv) (by rw [h1]; exact hw)
        subst this
        rw [h1] at hv; cases hv
      case lookHit => split at hp <;> cases hp
      case lookAdv => split at hp <;> cases hp
      case findAdv => split at hp <;> cases hp
      case rangeAdv => split at hp <;> cases hp
    · rw [st.others hu] at hp
      exact I.lost u cl p r hp hw
  refine ⟨st.j1 pk (I.alone g) I.j, ?_, ?_, hone, hlost, ?_⟩
  · intro u
    by_cases hu : u = g
    · subst hu; exact st.setB pk (I.setB u)
    · rw [st.others hu]; exact (I.setB u).ext st.ext
  · obtain ⟨m', hm', hs⟩ := st.ext.mem hm
    exact ⟨m', hm', by rw [hs.2.1]; exact hmt⟩
  · intro u e he hd ht
    by_cases hu : u = g
    · subst hu
      rcases st.newE_back he with h1 | ⟨t1, c1, key, v, b, h1, h2, h3, h4⟩ | ⟨t1, c1, key, v, p, r, h1⟩ | h1
      · obtain ⟨b, hb, hp⟩ := I.put u e h1 hd ht
        have := hp.self I.j (.refl _) st (I.alone u) hd (by rw [ht]; exact hb) hm (by rw [ht]; exact hmt)
        exact ⟨b, hb.ext st.ext, this.base he⟩
      · have hsb := I.setB u
        rw [h1] at hsb
        subst ht h2
        exact ⟨b, by rw [h4]; exact hsb, by rw [h3]; exact ⟨rfl, rfl, rfl⟩⟩
      · exact (I.lost u _ p r h1 trivial).elim
      · rw [hd] at h1; cases h1
    · rw [st.others hu] at he
      have hwu : Writer (s.pc u) := Writer.newE he
      have hg : ¬ Writer (s.pc g) := fun h => hu (I.one u g hwu h)
      have hg' : ¬ Writer (s'.pc g) := fun h => hu (hone u g (by rw [st.others hu]; exact hwu) h)
      obtain ⟨b, hb, hp⟩ := I.put u e he hd ht
      obtain ⟨h1, h2⟩ := st.reader hg hg'
      refine ⟨b, by rw [h2]; exact hb, ?_⟩
      rw [st.others hu]
      exact (hp.quiet (f := id) (fun _ => Same.rfl) (by simp [h2]) h1 (.step (.refl _) st (I.alone g))).base he

theorem WInv1.polite {s s' : CSt} {g : Tid} {t c : U64} (I : WInv1 Pk s t) (I' : WInv1 Pk s' t) (st : Step Pk s g s') (o : OneWriter t c s g s') : Polite t c s g s' := by
  have hset : ∀ p : PC, InSet t p → Writer p := by
    intro p h
    obtain ⟨c, key, v, h⟩ := inSet_iff.1 h
    exact Writer.of_call h trivial
  have hdel : ∀ p : PC, InDel t p → Writer p := by
    rintro p ⟨c, h⟩
    exact Writer.of_call h trivial
  refine ⟨I.alone g, ?_, fun hi h u hu h2 => o.start hi (hset _ h) u hu (hset _ h2), fun hi h u hu h2 => o.start hi (hdel _ h) u hu (hdel _ h2), o.conf, ?_⟩
  · intro cl p r h c' ht
    cases cl with
    | get t1 c1 =>
      simp only [Call.target, Option.some.injEq, Prod.mk.injEq] at ht
      obtain ⟨rfl, rfl⟩ := ht
      exact o.located _ _ _ h
    | set => exact I'.lost g _ p r h trivial
    | del => exact I'.lost g _ p r h trivial
    | _ => cases ht
  · intro e r h ht hd
    obtain ⟨b, _, hp⟩ := I.put g e (by rw [h]; rfl) hd ht
    rw [h] at hp
    obtain ⟨_, h1, h2⟩ := hp
    exact checkOk_of I.j.nd h1 h2

theorem Exec.oneWriter (pk : PkOk Pk) {σ : Nat → CSt} {γ : Nat → Tid} {n : Nat} {t c : U64} (ex : Exec Pk (OneWriter t c) σ γ n) (j0 : J1 (σ 0))
    (h0 : ∀ u, (σ 0).pc u = .idle) (top : ∃ m ∈ (σ 0).items, t < m.rev) : Exec Pk (Polite t c) σ γ n := by
  have hI : ∀ i, i ≤ n → WInv1 Pk (σ i) t := by
    intro i
    induction i with
    | zero =>
      intro _
      refine ⟨j0, ?_, top, ?_, ?_, ?_⟩
      · intro u; rw [h0]; trivial
      · intro a b h; rw [h0] at h; exact h.elim
      · intro u cl p r h; rw [h0] at h; cases h
      · intro u e h; rw [h0] at h; cases h
    | succ i ih =>
      intro hi
      obtain ⟨st, o⟩ := ex i (by omega)
      exact (ih (by omega)).step pk st o
  intro i hi
  exact ⟨(ex i hi).1, (hI i (by omega)).polite (hI (i + 1) (by omega)) (ex i hi).1 (ex i hi).2⟩

end SLM.Conc
