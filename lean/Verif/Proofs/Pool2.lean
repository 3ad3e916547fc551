import Verif.Proofs.Pool
import Verif.Proofs.Util
/-! Progress of the pool machine below the last slot, and the deadlock at the last slot. -/
set_option autoImplicit false
namespace SLM.Pool

/-- State of the machine while the first pool has at most 63 slots in use. -/
structure Low (s : CSt) : Prop where
  count : s.count = 1
  cap : (s.pools 0).cap = 64
  ncr : ∀ t, s.pc t ≠ .crashed
  nexp : ∀ t p, s.pc t ≠ .expand p
  nat : ∀ t p i, s.pc t ≠ .at p i true
  ngot : ∀ t p a i, s.pc t ≠ .got p a i true
  cas63 : ∀ t p i, s.pc t = .cas p i true → i = 63
  lock63 : ∀ t p i, s.pc t = .lock p i → i = 63
  rd : ∀ t p i h, (s.pc t = .cas p i h ∨ s.pc t = .lock p i) → i ≤ (s.pools 0).len
  own : ∀ t, (s.pools 0).owner = some t → s.pc t = .cas 0 63 true

theorem Low.warm : Low warm := by constructor <;> simp [SLM.Pool.warm]

theorem Low.setPC {s : CSt} (L : Low s) (t : Tid) (c : PC) (h1 : c ≠ .crashed) (h2 : ∀ p, c ≠ .expand p) (h3 : ∀ p i, c ≠ .at p i true)
    (h4 : ∀ p a i, c ≠ .got p a i true) (h5 : ∀ p i, c = .cas p i true → i = 63) (h6 : ∀ p i, c = .lock p i → i = 63)
    (h8 : ∀ p i h, (c = .cas p i h ∨ c = .lock p i) → i ≤ (s.pools 0).len)
    (h7 : (s.pools 0).owner = some t → c = .cas 0 63 true) : Low (setPC s t c) := by
  constructor <;> simp only [setPC_pools, setPC_count, setPC_pc]
  · exact L.count
  · exact L.cap
  · intro u; split; exacts [h1, L.ncr u]
  · intro u; split; exacts [h2, L.nexp u]
  · intro u; split; exacts [h3, L.nat u]
  · intro u; split; exacts [h4, L.ngot u]
  · intro u; split; exacts [h5, L.cas63 u]
  · intro u; split; exacts [h6, L.lock63 u]
  · intro u; split; exacts [h8, L.rd u]
  · intro u hu; split
    · subst u; exact h7 hu
    · exact L.own u hu

theorem Low.nown {s : CSt} (L : Low s) {t : Tid} (h : ∀ p i, s.pc t ≠ .cas p i true) (c : PC) :
    (s.pools 0).owner = some t → c = .cas 0 63 true := fun ho => absurd (L.own t ho) (h 0 63)

theorem Low.step {s s' : CSt} {t : Tid} (I : Inv s) (L : Low s) (h : Step s t s') (hl : (s'.pools 0).len ≤ 63) : Low s' := by
  have p0 : ∀ p, (s.pc t).pool = some p → p = 0 := by
    intro p hp; have := I.pc_lt t p hp; rw [L.count] at this; omega
  cases h with
  | enter h => exact L.setPC t _ (by simp) (by simp) (by simp) (by simp) (by simp) (by simp) (by simp) (L.nown (by simp [h]) _)
  | startInit p h hi => exact L.setPC t _ (by simp) (by simp) (by simp) (by simp) (by simp) (by simp) (by simp) (L.nown (by simp [h]) _)
  | startReady p h hi => exact L.setPC t _ (by simp) (by simp) (by simp) (by simp) (by simp) (by simp) (by simp) (L.nown (by simp [h]) _)
  | doInit p h => exact absurd h (I.no_ini t p)
  | full p h hf =>
    have := p0 p (by rw [h]; rfl); subst this
    simp at hl; rw [L.cap] at hf; omega
  | notFull p h _ => exact L.setPC t _ (by simp) (by simp) (by simp) (by simp) (by simp) (by simp) (by simp) (L.nown (by simp [h]) _)
  | readLast p h hh =>
    have := p0 p (by rw [h]; rfl); subst this
    rw [L.cap] at hh
    exact L.setPC t _ (by simp) (by simp) (by simp) (by simp) (by simp) (by intro p i hc; simp at hc; omega) (by intro p i h hc; simp at hc; omega) (L.nown (by simp [h]) _)
  | readMid p h hh =>
    have := p0 p (by rw [h]; rfl); subst this
    exact L.setPC t _ (by simp) (by simp) (by simp) (by simp) (by simp) (by simp) (by intro p i h hc; simp at hc; omega) (L.nown (by simp [h]) _)
  | lockRetry p i h _ hc => exact L.setPC t _ (by simp) (by simp) (by simp) (by simp) (by simp) (by simp) (by simp) (L.nown (by simp [h]) _)
  | casFail p i b h hc =>
    cases b with
    | false => exact L.setPC t _ (by simp) (by simp) (by simp) (by simp) (by simp) (by simp) (by simp) (L.nown (by simp [h]) _)
    | true =>
      have := p0 p (by rw [h]; rfl); subst this
      have h63 := L.cas63 t 0 i h
      have := L.rd t 0 i true (Or.inl h)
      simp at hl; omega
  | atNil p i b h hc =>
    have := p0 p (by rw [h]; rfl); subst this
    have := I.at_lt t 0 i b h
    simp at hl; rw [L.cap] at hc; omega
  | expandCrash p h _ _ => exact absurd h (L.nexp t p)
  | expandOk p h _ => exact absurd h (L.nexp t p)
  | finish p a i b h =>
    cases b with
    | true => exact absurd h (L.ngot t p a i)
    | false => exact L.setPC t _ (by simp) (by simp) (by simp) (by simp) (by simp) (by simp) (by simp) (L.nown (by simp [h]) _)
  | atOk p i b h h1 h2 =>
    cases b with
    | true => exact absurd h (L.nat t p i)
    | false =>
      have := L.setPC t (.got p (s.pools p).arr i false) (by simp) (by simp) (by simp) (by simp) (by simp) (by simp) (by simp) (L.nown (by simp [h]) _)
      obtain ⟨a1, a2, a3, a4, a5, a6, a7, a8, a9, a10⟩ := this
      exact ⟨a1, a2, a3, a4, a5, a6, a7, a8, a9, a10⟩
  | lockOk p i h ho hc =>
    have := p0 p (by rw [h]; rfl); subst this
    have h63 := L.lock63 t 0 i h
    subst h63
    constructor <;> simp only [setPC_pools, setPC_count, setPC_pc, setPool_count, setPool_pc, setPool_self]
    · exact L.count
    · exact L.cap
    · intro u; split; exacts [by simp, L.ncr u]
    · intro u; split; exacts [by simp, L.nexp u]
    · intro u; split; exacts [by simp, L.nat u]
    · intro u; split; exacts [by simp, L.ngot u]
    · intro u; split; exacts [by simp, L.cas63 u]
    · intro u; split; exacts [by simp, L.lock63 u]
    · intro u; split
      · intro p i b hc; simp at hc; have := L.rd t 0 63 true (Or.inr h); omega
      · exact L.rd u
    · intro u hu; simp at hu; simp [hu]
  | casOk p i b h hi =>
    have := p0 p (by rw [h]; rfl); subst this
    cases b with
    | true =>
      have := L.cas63 t 0 i h
      simp at hl; omega
    | false =>
      have ho := L.nown (t := t) (by simp [h]) .idle
      constructor <;> simp only [setPC_pools, setPC_count, setPC_pc, setPool_count, setPool_pc, setPool_self]
      · exact L.count
      · exact L.cap
      · intro u; split; exacts [by simp, L.ncr u]
      · intro u; split; exacts [by simp, L.nexp u]
      · intro u; split; exacts [by simp, L.nat u]
      · intro u; split; exacts [by simp, L.ngot u]
      · intro u; split; exacts [by simp, L.cas63 u]
      · intro u; split; exacts [by simp, L.lock63 u]
      · intro u; split
        · simp
        · intro p i b hc; have := L.rd u p i b hc; omega
      · intro u hu; split
        · subst u; simp at ho; exact absurd hu ho
        · exact L.own u hu

/-- The length of a pool never shrinks once it is initialised. -/
theorem len_mono {s s' : CSt} {t : Tid} (I : Inv s) (h : Step s t s') (p : Nat) (hp : p < s.count) :
    (s.pools p).len ≤ (s'.pools p).len := by
  cases h with
  | doInit p h => exact absurd h (I.no_ini t p)
  | lockOk q i h ho hc =>
    by_cases hq : p = q
    · subst hq; simp
    · simp [setPool_ne _ _ _ _ hq]
  | casOk q i b h hi =>
    by_cases hq : p = q
    · subst hq; simp; omega
    · simp [setPool_ne _ _ _ _ hq]
  | expandOk q h _ =>
    have hq : p ≠ s.count := by omega
    simp [setPool_ne _ _ _ _ hq]
  | finish q a i b h =>
    cases b
    · simp
    · by_cases hq : p = q
      · subst hq; simp
      · simp [setPool_ne _ _ _ _ hq]
  | _ => exact Int.le_refl _

theorem count_mono {s s' : CSt} {t : Tid} (h : Step s t s') : s.count ≤ s'.count := by
  cases h with
  | finish q a i b h => cases b <;> simp
  | expandOk q h _ => simp
  | _ => exact Nat.le_refl _

theorem count_pos {s : CSt} (h : Steps warm s) : 0 < s.count := by
  induction h with
  | refl => simp [warm]
  | step _ hs ih => have := count_mono hs; omega

theorem low_steps {s : CSt} (h : Steps warm s) (hl : (s.pools 0).len ≤ 63) : Low s := by
  induction h with
  | refl => exact Low.warm
  | step h hs ih =>
    have I := Inv.warm.steps h
    have := len_mono I hs 0 (count_pos h)
    exact Low.step I (ih (by omega)) hs hl

/-- A goroutine waiting for a lock that it holds itself. -/
structure Dead (s : CSt) (t : Tid) (p : Nat) : Prop where
  lt : p < s.count
  pc : s.pc t = .expand p
  own : (s.pools p).owner = some t
  nheld : ∀ u, (∀ i, s.pc u ≠ .cas p i true) ∧ (∀ i, s.pc u ≠ .at p i true) ∧ (∀ a i, s.pc u ≠ .got p a i true)

theorem Dead.setPC {s : CSt} {t : Tid} {p : Nat} (D : Dead s t p) {u : Tid} {c : PC} (hu : u ≠ t)
    (hc : (∀ i, c ≠ .cas p i true) ∧ (∀ i, c ≠ .at p i true) ∧ (∀ a i, c ≠ .got p a i true)) : Dead (setPC s u c) t p := by
  refine ⟨D.lt, ?_, D.own, ?_⟩
  · rw [setPC_pc_ne _ _ _ _ (Ne.symm hu)]; exact D.pc
  · intro v; rw [setPC_pc]; split
    · exact hc
    · exact D.nheld v

theorem Dead.step {s s' : CSt} {t u : Tid} {p : Nat} (D : Dead s t p) (h : Step s u s') : Dead s' t p := by
  have hpc := D.pc
  have hown := D.own
  cases h with
  | enter h => exact D.setPC (by rintro rfl; simp [hpc] at h) (by simp)
  | startInit q h hi => exact D.setPC (by rintro rfl; simp [hpc] at h) (by simp)
  | startReady q h hi => exact D.setPC (by rintro rfl; simp [hpc] at h) (by simp)
  | full q h hi => exact D.setPC (by rintro rfl; simp [hpc] at h) (by simp)
  | notFull q h hi => exact D.setPC (by rintro rfl; simp [hpc] at h) (by simp)
  | readLast q h hi => exact D.setPC (by rintro rfl; simp [hpc] at h) (by simp)
  | readMid q h hi => exact D.setPC (by rintro rfl; simp [hpc] at h) (by simp)
  | lockRetry q i h ho hi => exact D.setPC (by rintro rfl; simp [hpc] at h) (by simp)
  | casFail q i b h hi => exact D.setPC (by rintro rfl; simp [hpc] at h) (by simp)
  | atNil q i b h hi => exact D.setPC (by rintro rfl; simp [hpc] at h) (by simp)
  | expandCrash q h ho hi =>
    exact D.setPC (by rintro rfl; rw [hpc] at h; cases h; simp [hown] at ho) (by simp)
  | doInit q h =>
    have hu : u ≠ t := by rintro rfl; simp [hpc] at h
    apply Dead.setPC (hu := hu) <;> [(simp [Ne.symm, *]); refine Dead.mk (by first | exact D.lt | exact Nat.lt_succ_of_lt D.lt) hpc ?_ D.nheld]
    by_cases hq : p = q
    · subst hq; simpa using hown
    · simpa [setPool_ne _ _ _ _ hq] using hown
  | lockOk q i h ho hi =>
    have hu : u ≠ t := by rintro rfl; simp [hpc] at h
    have hq : p ≠ q := by rintro rfl; simp [hown] at ho
    have hq' := Ne.symm hq
    apply Dead.setPC (hu := hu) <;> [(simp [Ne.symm, *]); refine Dead.mk (by first | exact D.lt | exact Nat.lt_succ_of_lt D.lt) hpc ?_ D.nheld]
    simpa [setPool_ne _ _ _ _ hq] using hown
  | casOk q i b h hi =>
    have hu : u ≠ t := by rintro rfl; simp [hpc] at h
    apply Dead.setPC (hu := hu) <;> [skip; refine Dead.mk D.lt hpc ?_ D.nheld]
    · refine ⟨by simp, ?_, by simp⟩
      intro j hj; cases hj; exact (D.nheld u).1 _ h
    · by_cases hq : p = q
      · subst hq; simpa using hown
      · simpa [setPool_ne _ _ _ _ hq] using hown
  | atOk q i b h h1 h2 =>
    have hu : u ≠ t := by rintro rfl; simp [hpc] at h
    have := Dead.setPC D hu (c := .got q (s.pools q).arr i b) (by
      refine ⟨by simp, by simp, ?_⟩
      intro a j hj; cases hj; exact (D.nheld u).2.1 _ h)
    exact ⟨this.lt, this.pc, this.own, this.nheld⟩
  | expandOk q h ho =>
    have hu : u ≠ t := by rintro rfl; rw [hpc] at h; cases h; simp [hown] at ho
    apply Dead.setPC (hu := hu) <;> [(simp [Ne.symm, *]); refine Dead.mk (by first | exact D.lt | exact Nat.lt_succ_of_lt D.lt) hpc ?_ D.nheld]
    have hq : p ≠ s.count := by have := D.lt; omega
    simpa [setPool_ne _ _ _ _ hq] using hown
  | finish q a i b h =>
    have hu : u ≠ t := by rintro rfl; simp [hpc] at h
    cases b with
    | false => exact D.setPC hu (by simp)
    | true =>
      have hq : p ≠ q := by rintro rfl; exact (D.nheld u).2.2 a i h
      apply Dead.setPC (hu := hu) <;> [(simp [Ne.symm, *]); refine Dead.mk (by first | exact D.lt | exact Nat.lt_succ_of_lt D.lt) hpc ?_ D.nheld]
      simpa [setPool_ne _ _ _ _ hq] using hown

theorem Dead.steps {s s' : CSt} {t : Tid} {p : Nat} (D : Dead s t p) (h : Steps s s') : Dead s' t p := by
  induction h with
  | refl => exact D
  | step _ hs ih => exact ih.step hs

/-- Every goroutine that wants a slot waits for the dead lock holder. -/
structure Hang (s : CSt) : Prop where
  dead : Dead s 1 0
  cur : s.cur = 0
  ini : (s.pools 0).inited = true
  full : (s.pools 0).cap ≤ (s.pools 0).len
  pcs : ∀ u, s.pc u = .idle ∨ s.pc u = .start 0 ∨ s.pc u = .check 0 ∨ s.pc u = .expand 0

theorem Hang.step {s s' : CSt} {u : Tid} (H : Hang s) (h : Step s u s') : Hang s' ∧ s'.log = s.log := by
  have D' := H.dead.step h
  have hu := H.pcs u
  have upd : ∀ c : PC, (c = .idle ∨ c = .start 0 ∨ c = .check 0 ∨ c = .expand 0) →
      ∀ v, (setPC s u c).pc v = .idle ∨ (setPC s u c).pc v = .start 0 ∨ (setPC s u c).pc v = .check 0 ∨ (setPC s u c).pc v = .expand 0 := by
    intro c hc v; rw [setPC_pc]; split
    · exact hc
    · exact H.pcs v
  cases h with
  | enter h => exact ⟨⟨D', H.cur, H.ini, H.full, upd _ (by simp [H.cur])⟩, rfl⟩
  | startInit q h hi => simp [h] at hu; subst hu; simp [H.ini] at hi
  | startReady q h hi => simp [h] at hu; subst hu; exact ⟨⟨D', H.cur, H.ini, H.full, upd _ (by simp)⟩, rfl⟩
  | full q h hi => simp [h] at hu; subst hu; exact ⟨⟨D', H.cur, H.ini, H.full, upd _ (by simp)⟩, rfl⟩
  | notFull q h hi => simp [h] at hu; subst hu; exact absurd H.full hi
  | expandCrash q h ho hi => simp [h] at hu; subst hu; simp [H.dead.own] at ho
  | expandOk q h ho => simp [h] at hu; subst hu; simp [H.dead.own] at ho
  | readLast q h hi => simp [h] at hu
  | readMid q h hi => simp [h] at hu
  | lockRetry q i h ho hi => simp [h] at hu
  | casFail q i b h hi => simp [h] at hu
  | atNil q i b h hi => simp [h] at hu
  | doInit q h => simp [h] at hu
  | lockOk q i h ho hi => simp [h] at hu
  | casOk q i b h hi => simp [h] at hu
  | atOk q i b h h1 h2 => simp [h] at hu
  | finish q a i b h => simp [h] at hu

theorem Hang.steps {s s' : CSt} (H : Hang s) (h : Steps s s') : Hang s' ∧ s'.log = s.log := by
  induction h with
  | refl => exact ⟨H, rfl⟩
  | step _ hs ih => exact ⟨(ih.1.step hs).1, (ih.1.step hs).2.trans ih.2⟩

end SLM.Pool
