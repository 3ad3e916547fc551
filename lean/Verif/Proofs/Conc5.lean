import Verif.Proofs.Conc4
/-! The bucket of a Set; uniqueness of a key; the shared search option; Range. -/
set_option autoImplicit false
namespace SLM.Conc

variable {Pk : CSt → Call → Ref → Prop}

/-! ### The bucket a Set starts from is not above its hash -/

def SetB (l : List Entry) : PC → Prop
  | .look (.set t _ _ _) _ b _ _ => At l b (· ≤ t)
  | .miss (.set t _ _ _) b => At l b (· ≤ t)
  | .lost (.set t _ _ _) _ r => r ≤ t
  | _ => True

theorem SetB.ext {l l' : List Entry} {p : PC} (he : Ext l l') (h : SetB l p) : SetB l' p := by
  cases p with
  | look cl _ _ _ _ => cases cl <;> simp only [SetB] at h ⊢; exact h.ext he
  | miss cl _ => cases cl <;> simp only [SetB] at h ⊢; exact h.ext he
  | lost cl _ _ => cases cl <;> exact h
  | _ => trivial

theorem Step.setB (pk : PkOk Pk) {s s' : CSt} {g : Tid} (h : Step Pk s g s') (hb : SetB s.items (s.pc g)) : SetB s'.items (s'.pc g) := by
  cases h <;> rw [setPC_same] <;> try trivial
  case pickKey cl t c b d h1 h2 h3 h4 =>
    cases cl with
    | set t' c' key v =>
      obtain ⟨x, hx, hr, _, hle⟩ := pk.linked s _ b h3
      exact ⟨x, hx, hr, hle _ _ _ _ rfl⟩
    | _ => trivial
  case pickLost cl t c p r h1 h2 h3 h4 h5 =>
    cases cl with
    | set t' c' key v =>
      simp only [Call.target, Option.some.injEq, Prod.mk.injEq] at h2
      obtain ⟨rfl, rfl⟩ := h2
      exact h4
    | _ => trivial
  case lostFound cl t c p r d h1 h2 h3 h4 =>
    cases cl with
    | set t' c' key v =>
      rw [h1] at hb
      obtain ⟨hd1, hd2, _⟩ := node_some h3
      exact ⟨d, hd1, hd2, by rw [h4]; exact hb⟩
    | _ => trivial
  case lookCont cl t c fwd b cur x h1 h2 h3 h4 =>
    rw [h1] at hb; cases cl <;> exact hb
  case lookHit cl t c fwd b cur x h1 h2 h3 h4 h5 =>
    rw [h1] at hb
    by_cases hc : x.conflict = c
    · simp only [hc, if_true]; trivial
    · simp only [hc, if_false]; cases cl <;> exact hb
  case lookMiss cl t c fwd b cur x h1 h2 h3 h4 h5 =>
    rw [h1] at hb; cases cl <;> exact hb
  case lookAdv cl fwd b cur h1 =>
    rw [h1] at hb
    split
    · cases cl <;> exact hb
    · cases cl <;> exact hb
  case findAdv => split <;> trivial
  case rangeAdv => split <;> trivial

theorem Steps.setB (pk : PkOk Pk) {s s' : CSt} (h : Steps Pk s s') (hb : ∀ g, SetB s.items (s.pc g)) : ∀ g, SetB s'.items (s'.pc g) := by
  induction h with
  | refl => exact hb
  | @step a b u _ h2 ih =>
    intro g
    by_cases hu : g = u
    · subst hu; exact h2.setB pk (ih g)
    · rw [h2.others hu]; exact (ih g).ext h2.ext

/-! ### One live entry per key -/

/-- A Set of a key with reversed hash `t` is in progress. -/
def InSet (t : U64) : PC → Prop
  | .pick (.set t' _ _ _) => t' = t
  | .look (.set t' _ _ _) _ _ _ _ => t' = t
  | .hit (.set t' _ _ _) _ => t' = t
  | .miss (.set t' _ _ _) _ => t' = t
  | .lost (.set t' _ _ _) _ _ => t' = t
  | .fOpt _ e _ _ => e.rev = t ∧ e.dummy = false
  | .fLoop _ e _ _ _ _ => e.rev = t ∧ e.dummy = false
  | .fEnd _ e _ _ _ => e.rev = t ∧ e.dummy = false
  | .start2 e _ _ => e.rev = t ∧ e.dummy = false
  | .target e _ _ => e.rev = t ∧ e.dummy = false
  | .check e _ => e.rev = t ∧ e.dummy = false
  | .link e _ => e.rev = t ∧ e.dummy = false
  | _ => False

/-- No other goroutine is in a Set of the key when `g` starts one, and the key has conflict hash `c`. -/
def SoloStart (t c : U64) (s : CSt) (g : Tid) (s' : CSt) : Prop :=
  s.pc g = .idle → InSet t (s'.pc g) → (∀ u, u ≠ g → ¬ InSet t (s.pc u)) ∧ ∀ c' key v, s'.pc g = .pick (.set t c' key v) → c' = c

/-- A Set of a key with this hash does not locate a bucket whose sentinel is not linked. -/
def Located (t : U64) (p : PC) : Prop := ∀ c key v q r, p ≠ .lost (.set t c key v) q r

/-- Executions in which Sets of the key with reversed hash `t` and conflict hash `c` do not overlap each other and always locate a
bucket whose sentinel is linked, and no key with the same primary hash and another conflict hash is Set. -/
inductive USteps (Pk : CSt → Call → Ref → Prop) (t cf : U64) : CSt → CSt → Prop
  | refl (s : CSt) : USteps Pk t cf s s
  | step {a b c : CSt} {g : Tid} : USteps Pk t cf a b → Step Pk b g c → Alone b g → SoloStart t cf b g c → Located t (c.pc g) → USteps Pk t cf a c

theorem USteps.gsteps {t cf : U64} {a b : CSt} (h : USteps Pk t cf a b) : GSteps Pk a b := by
  induction h with
  | refl => exact .refl _
  | step _ h2 h3 _ _ ih => exact .step ih h2 h3

/-- At most one live item has this reversed hash. -/
def AtMostOne (l : List Entry) (t : U64) : Prop :=
  ∀ x ∈ l, ∀ y ∈ l, x.rev = t → y.rev = t → x.ignored = false → y.ignored = false → x.ref = y.ref

/-- What is known about a Set in progress. -/
def Way (l : List Entry) (t : U64) : PC → Prop
  | .pick _ => True
  | .look (.set t' _ _ _) fwd _ cur adv => t' = t → ∀ x ∈ l, x.rev = t → x.ignored = false →
      if fwd then (cur = x.ref ∧ adv = false) ∨ SB l cur x.ref else (cur = x.ref ∧ adv = false) ∨ SB l x.ref cur
  | .miss (.set t' _ _ _) _ => t' = t → ∀ x ∈ l, x.rev = t → x.ignored = true
  | .lost (.set t' _ _ _) _ _ => t' ≠ t
  | .fOpt _ e _ _ => InSet t (.fOpt false e none (.item 0)) → ∀ x ∈ l, x.rev = t → x.ignored = true
  | .fLoop _ e _ _ _ _ => InSet t (.fOpt false e none (.item 0)) → ∀ x ∈ l, x.rev = t → x.ignored = true
  | .fEnd _ e _ _ _ => InSet t (.fOpt false e none (.item 0)) → ∀ x ∈ l, x.rev = t → x.ignored = true
  | .start2 e _ _ => InSet t (.fOpt false e none (.item 0)) → ∀ x ∈ l, x.rev = t → x.ignored = true
  | .target e _ _ => InSet t (.fOpt false e none (.item 0)) → ∀ x ∈ l, x.rev = t → x.ignored = true
  | .check e _ => InSet t (.fOpt false e none (.item 0)) → ∀ x ∈ l, x.rev = t → x.ignored = true
  | .link e _ => InSet t (.fOpt false e none (.item 0)) → ∀ x ∈ l, x.rev = t → x.ignored = true
  | _ => True

/-- The conflict hash of a Set in progress. -/
def SetC (t c : U64) : PC → Prop
  | .pick (.set t' c' _ _) => t' = t → c' = c
  | .look (.set t' c' _ _) _ _ _ _ => t' = t → c' = c
  | .lost (.set t' c' _ _) _ _ => t' = t → c' = c
  | _ => True

structure UInv (s : CSt) (t cf : U64) : Prop where
  conf : ∀ u, SetC t cf (s.pc u)
  one : AtMostOne s.items t
  solo : ∀ u w, InSet t (s.pc u) → InSet t (s.pc w) → u = w
  way : ∀ u, Way s.items t (s.pc u)

theorem Same.live {x y : Entry} (h : Same x y) (hy : y.ignored = false) : x.ignored = false := by
  simp only [Entry.ignored, Bool.or_eq_false_iff] at hy ⊢
  refine ⟨by rw [← h.2.2.2.1]; exact hy.1, ?_⟩
  cases hd : x.deleted with
  | false => rfl
  | true => rw [h.2.2.2.2 hd] at hy; cases hy.2

theorem none_map {f : Entry → Entry} (hf : ∀ x, Same x (f x)) {l : List Entry} {t : U64} (h : ∀ x ∈ l, x.rev = t → x.ignored = true) :
    ∀ x ∈ l.map f, x.rev = t → x.ignored = true := by
  intro x hx hxt
  obtain ⟨y, hy, rfl⟩ := List.mem_map.1 hx
  rw [(hf y).2.1] at hxt
  by_contra hc
  have := (hf y).live (by simpa using hc)
  rw [h y hy hxt] at this; cases this

theorem Way.map {f : Entry → Entry} (hf : ∀ x, Same x (f x)) {l : List Entry} {t : U64} {p : PC} (h : Way l t p) : Way (l.map f) t p := by
  cases p with
  | look cl fwd b cur adv =>
    cases cl <;> simp only [Way] at h ⊢
    intro ht x hx hxt hxl
    obtain ⟨y, hy, rfl⟩ := List.mem_map.1 hx
    rw [(hf y).2.1] at hxt
    have := h ht y hy hxt ((hf y).live hxl)
    rw [(hf y).1]
    cases fwd <;> simpa [SB.mapIff hf] using this
  | miss cl b => cases cl <;> simp only [Way] at h ⊢; exact fun ht => none_map hf (h ht)
  | lost cl _ _ => cases cl <;> exact h
  | fOpt second e b st => exact fun ht => none_map hf (h ht)
  | fLoop second e b prev cur adv => exact fun ht => none_map hf (h ht)
  | fEnd second e b prev res => exact fun ht => none_map hf (h ht)
  | start2 e b res => exact fun ht => none_map hf (h ht)
  | target e b res => exact fun ht => none_map hf (h ht)
  | check e r => exact fun ht => none_map hf (h ht)
  | link e r => exact fun ht => none_map hf (h ht)
  | _ => trivial

/-- A Set not of this key, or none at all: nothing to know. -/
theorem Way.trivial {l : List Entry} {t : U64} {p : PC} (h : ¬ InSet t p) : Way l t p := by
  cases p with
  | look cl fwd b cur adv => cases cl <;> simp only [Way, InSet] at h ⊢; exact fun ht => absurd ht h
  | miss cl b => cases cl <;> simp only [Way, InSet] at h ⊢; exact fun ht => absurd ht h
  | lost cl _ _ => cases cl <;> first | exact True.intro | exact h
  | fOpt second e b st => exact fun ht => absurd ht h
  | fLoop second e b prev cur adv => exact fun ht => absurd ht h
  | fEnd second e b prev res => exact fun ht => absurd ht h
  | start2 e b res => exact fun ht => absurd ht h
  | target e b res => exact fun ht => absurd ht h
  | check e r => exact fun ht => absurd ht h
  | link e r => exact fun ht => absurd ht h
  | _ => trivial

/-- Another goroutine's insertion of a node with another hash (or of a sentinel). -/
theorem Way.ins {l : List Entry} {t : U64} {p : PC} {e : Entry} {r : Ref} (he : ¬ (e.rev = t ∧ e.dummy = false)) (h : Way l t p) :
    Way (insBefore r e l) t p := by
  have key : (∀ x ∈ l, x.rev = t → x.ignored = true) → ∀ x ∈ insBefore r e l, x.rev = t → x.ignored = true := by
    intro hn x hx hxt
    rcases mem_insBefore.1 hx with rfl | hx
    · simp only [Entry.ignored]
      cases hd : x.dummy with
      | true => rfl
      | false => exact absurd ⟨hxt, hd⟩ he
    · exact hn x hx hxt
  cases p with
  | look cl fwd b cur adv =>
    cases cl <;> simp only [Way] at h ⊢
    intro ht x hx hxt hxl
    rcases mem_insBefore.1 hx with rfl | hx
    · exfalso
      apply he
      refine ⟨hxt, ?_⟩
      simp only [Entry.ignored, Bool.or_eq_false_iff] at hxl; exact hxl.1
    · have := h ht x hx hxt hxl
      have hext : Ext l (insBefore r e l) := ⟨id, fun _ => Same.rfl, by simpa using insBefore_sub r e l⟩
      cases fwd
      · simp only [Bool.false_eq_true, if_false] at this ⊢; exact this.imp id (SB.ext hext)
      · simp only [if_true] at this ⊢; exact this.imp id (SB.ext hext)
  | miss cl b => cases cl <;> simp only [Way] at h ⊢; exact fun ht => key (h ht)
  | lost cl _ _ => cases cl <;> exact h
  | fOpt second e b st => exact fun ht => key (h ht)
  | fLoop second e b prev cur adv => exact fun ht => key (h ht)
  | fEnd second e b prev res => exact fun ht => key (h ht)
  | start2 e b res => exact fun ht => key (h ht)
  | target e b res => exact fun ht => key (h ht)
  | check e r => exact fun ht => key (h ht)
  | link e r => exact fun ht => key (h ht)
  | _ => trivial

theorem AtMostOne.map {f : Entry → Entry} (hf : ∀ x, Same x (f x)) {l : List Entry} {t : U64} (h : AtMostOne l t) : AtMostOne (l.map f) t := by
  intro x hx y hy hxt hyt hxl hyl
  obtain ⟨x', hx', rfl⟩ := List.mem_map.1 hx
  obtain ⟨y', hy', rfl⟩ := List.mem_map.1 hy
  rw [(hf x').2.1] at hxt
  rw [(hf y').2.1] at hyt
  rw [(hf x').1, (hf y').1]
  exact h x' hx' y' hy' hxt hyt ((hf x').live hxl) ((hf y').live hyl)

/-- A goroutine enters a Set only from idle. -/
theorem Step.inSet {s s' : CSt} {g : Tid} (h : Step Pk s g s') {t : U64} (hi : InSet t (s'.pc g)) : s.pc g = .idle ∨ InSet t (s.pc g) := by
  cases h <;> rw [setPC_same] at hi
  case begin h1 _ => exact Or.inl h1
  case beginSplit h1 _ => exact Or.inl h1
  case pickKey cl t' c b d h1 h2 h3 h4 => right; rw [h1]; cases cl <;> exact hi
  case pickSplit h1 _ => simp [InSet, dummyEntry] at hi
  case pickLost cl t' c p r h1 h2 h3 h4 h5 => right; rw [h1]; cases cl <;> exact hi
  case lostFound cl t' c p r d h1 h2 h3 h4 => right; rw [h1]; cases cl <;> exact hi
  case lostPanic => exact absurd hi (by simp [InSet])
  case lostGet => exact absurd hi (by simp [InSet])
  case lostDel => exact absurd hi (by simp [InSet])
  case lostSet t' c key v p r h1 h2 => right; rw [h1]; simpa [InSet, newItem] using hi
  case lostSetLate t' c key v p r d h1 h2 h3 h4 => right; rw [h1]; simpa [InSet, newItem] using hi
  case lookCont cl t' c fwd b cur x h1 h2 h3 h4 => right; rw [h1]; cases cl <;> exact hi
  case lookHit cl t' c fwd b cur x h1 h2 h3 h4 h5 =>
    right; rw [h1]; split at hi <;> (cases cl <;> exact hi)
  case lookMiss cl t' c fwd b cur x h1 h2 h3 h4 h5 => right; rw [h1]; cases cl <;> exact hi
  case lookAdv cl fwd b cur h1 => right; rw [h1]; split at hi <;> (cases cl <;> exact hi)
  case hitGet => exact absurd hi (by simp [InSet])
  case hitSet => exact absurd hi (by simp [InSet])
  case hitSetPanic => exact absurd hi (by simp [InSet])
  case hitDel => exact absurd hi (by simp [InSet])
  case missGet => exact absurd hi (by simp [InSet])
  case missDel => exact absurd hi (by simp [InSet])
  case missSet t' c key v b h1 => right; rw [h1]; simpa [InSet, newItem] using hi
  case findOpt h1 => right; rw [h1]; exact hi
  case findStop h1 _ _ => right; rw [h1]; exact hi
  case findCont h1 _ _ => right; rw [h1]; exact hi
  case findAdv h1 => right; rw [h1]; split at hi <;> exact hi
  case findEnd1 h1 => right; rw [h1]; exact hi
  case findEnd2 h1 => right; rw [h1]; exact hi
  case start2 h1 => right; rw [h1]; exact hi
  case targetPos h1 => right; rw [h1]; exact hi
  case targetFall h1 _ _ => right; rw [h1]; exact hi
  case checkOk h1 _ => right; rw [h1]; exact hi
  case checkFail => exact absurd hi (by simp [InSet])
  case link => exact absurd hi (by simp [InSet])
  case rangeStart => exact absurd hi (by simp [InSet])
  case rangeSee => exact absurd hi (by simp [InSet])
  case rangeAdv => split at hi <;> exact absurd hi (by simp [InSet])
  case foreignOpt => exact absurd hi (by simp [InSet])
  case foreignEnd => exact absurd hi (by simp [InSet])

/-- Own steps of a Set. -/
theorem Way.self (pk : PkOk Pk) {s s' : CSt} {g : Tid} {t c : U64} (j : J1 s) (st : Step Pk s g s') (hc : Clear s t c)
    (hcc : SetC t c (s.pc g)) (hloc : Located t (s'.pc g))
    (h : Way s.items t (s.pc g)) : Way s'.items t (s'.pc g) := by
  cases st with
  | begin cl' t' c' h1 h2 => rw [setPC_same]; trivial
  | beginSplit t' p h1 h2 => rw [setPC_same]; trivial
  | pickKey cl' t' c' b d h1 h2 h3 h4 =>
    rw [setPC_same]
    cases cl' <;> simp only [Way]
    rename_i t1 c1 key v
    simp only [Call.target, Option.some.injEq, Prod.mk.injEq] at h2
    obtain ⟨rfl, rfl⟩ := h2
    intro ht x hx hxt hxl
    subst ht
    obtain ⟨hd1, hd2, _⟩ := node_some h4
    obtain ⟨d', hd', hr', hdum, _⟩ := pk.linked s _ b h3
    have hdd : d' = d := List.inj_on_of_nodup_map j.nd hd' hd1 (hr'.trans hd2.symm)
    subst hdd
    have hne : b ≠ x.ref := by
      intro hbr
      have : d' = x := List.inj_on_of_nodup_map j.nd hd1 hx (hd2.trans hbr)
      rw [this] at hdum
      simp [Entry.ignored, hdum] at hxl
    have hbm : b ∈ refs s.items := List.mem_map.2 ⟨d', hd1, hd2⟩
    have hxm : x.ref ∈ refs s.items := List.mem_map.2 ⟨x, hx, rfl⟩
    by_cases hlt : d'.rev < t1
    · simp only [hlt, decide_true, if_true]
      right
      rcases SB.total hbm hxm hne with hsb | hsb
      · exact hsb
      · have := SB.rev_le j.nd j.sorted hsb hx rfl hd1 hd2
        rw [hxt] at this
        exact absurd hlt (by bv_omega)
    · simp only [hlt, decide_false, Bool.false_eq_true, if_false]
      right
      rcases SB.total hbm hxm hne with hsb | hsb
      · have := SB.rev_le j.nd j.sorted hsb hd1 hd2 hx rfl
        rw [hxt] at this
        have heq : d'.rev = t1 := by bv_omega
        rw [(hc d' hd1 heq).1] at hdum; cases hdum
      · exact hsb
  | pickLost cl' t' c' p r h1 h2 h3 h4 h5 =>
    rw [setPC_same] at hloc ⊢
    cases cl' <;> simp only [Way]
    rename_i t1 c1 key v
    intro ht
    subst ht
    exact hloc _ _ _ _ _ rfl
  | lostFound cl' t' c' p r d h1 h2 h3 h4 =>
    rw [h1] at h; rw [setPC_same]
    cases cl' <;> simp only [Way] at h ⊢
    exact fun ht => absurd ht h
  | lostSet t' c' key v p r h1 h2 =>
    rw [h1] at h; rw [setPC_same]
    intro ht
    simp only [InSet, newItem] at ht
    exact absurd ht.1 h
  | lostSetLate t' c' key v p r d h1 h2 h3 h4 =>
    rw [h1] at h; rw [setPC_same]
    intro ht
    simp only [InSet, newItem] at ht
    exact absurd ht.1 h
  | pickSplit t' p b h1 h2 =>
    rw [setPC_same]; exact Way.trivial (by simp [InSet, dummyEntry])
  | lookCont cl' t' c' fwd b cur x h1 h2 h3 h4 =>
    rw [h1] at h; rw [setPC_same]
    cases cl' <;> simp only [Way] at h ⊢
    simp only [Call.target, Option.some.injEq, Prod.mk.injEq] at h2
    obtain ⟨rfl, rfl⟩ := h2
    intro ht y hy hyt hyl
    have h' := h ht y hy hyt hyl
    subst ht
    obtain ⟨hx1, hx2, _⟩ := node_some h3
    have hne : cur ≠ y.ref := by
      intro hcr
      have : x = y := List.inj_on_of_nodup_map j.nd hx1 hy (hx2.trans hcr)
      subst this
      rw [hyl] at h4
      rcases h4 with h4 | h4
      · cases h4
      · rw [hyt] at h4; cases fwd <;> simp at h4
    cases fwd
    · simp only [Bool.false_eq_true, if_false] at h' ⊢
      rcases h' with ⟨h', _⟩ | h'
      · exact absurd h' hne
      · exact Or.inr h'
    · simp only [if_true] at h' ⊢
      rcases h' with ⟨h', _⟩ | h'
      · exact absurd h' hne
      · exact Or.inr h'
  | lookHit cl' t' c' fwd b cur x h1 h2 h3 h4 h5 =>
    rw [setPC_same]
    split
    · cases cl' <;> exact True.intro
    · rename_i hcf
      cases cl' <;> simp only [Way]
      rename_i t1 c1 key v
      simp only [Call.target, Option.some.injEq, Prod.mk.injEq] at h2
      obtain ⟨rfl, rfl⟩ := h2
      intro ht
      exfalso
      rw [h1] at hcc
      have := hcc ht
      subst ht this
      obtain ⟨hx1, hx2, _⟩ := node_some h3
      exact hcf (hc x hx1 h5).2
  | lookMiss cl' t' c' fwd b cur x h1 h2 h3 h4 h5 =>
    rw [h1] at h; rw [setPC_same]
    cases cl' <;> simp only [Way] at h ⊢
    simp only [Call.target, Option.some.injEq, Prod.mk.injEq] at h2
    obtain ⟨rfl, rfl⟩ := h2
    intro ht y hy hyt
    by_contra hyl
    have h' := h ht y hy hyt (by simpa using hyl)
    subst ht
    obtain ⟨hx1, hx2, _⟩ := node_some h3
    cases fwd
    · simp only [Bool.false_eq_true, if_false] at h' h5
      rcases h' with ⟨h', _⟩ | h'
      · have : x = y := List.inj_on_of_nodup_map j.nd hx1 hy (hx2.trans h')
        subst this; rw [hyt] at h5; bv_omega
      · have := SB.rev_le j.nd j.sorted h' hy rfl hx1 hx2
        rw [hyt] at this; bv_omega
    · simp only [if_true] at h' h5
      rcases h' with ⟨h', _⟩ | h'
      · have : x = y := List.inj_on_of_nodup_map j.nd hx1 hy (hx2.trans h')
        subst this; rw [hyt] at h5; bv_omega
      · have := SB.rev_le j.nd j.sorted h' hx1 hx2 hy rfl
        rw [hyt] at this; bv_omega
  | lookAdv cl' fwd b cur h1 =>
    rw [h1] at h; rw [setPC_same]
    cases cl'
    case set t' c' key v =>
      simp only [Way] at h
      cases fwd
      · simp only [Bool.false_eq_true, if_false] at h ⊢
        cases hp : pv s.items cur with
        | none =>
          intro ht y hy hyt
          by_contra hyl
          rcases h ht y hy hyt (by simpa using hyl) with ⟨_, h'⟩ | h'
          · cases h'
          · exact SB.prev_ne j.nd h' hp
        | some r' =>
          intro ht y hy hyt hyl
          simp only [Bool.false_eq_true, if_false]
          rcases h ht y hy hyt hyl with ⟨_, h'⟩ | h'
          · cases h'
          · rcases SB.prev j.nd h' hp with h' | h'
            · exact Or.inl ⟨h', by trivial⟩
            · exact Or.inr h'
      · simp only [if_true] at h ⊢
        cases hp : nx s.items cur with
        | none =>
          intro ht y hy hyt
          by_contra hyl
          rcases h ht y hy hyt (by simpa using hyl) with ⟨_, h'⟩ | h'
          · cases h'
          · exact SB.next_ne j.nd h' hp
        | some r' =>
          intro ht y hy hyt hyl
          simp only [if_true]
          rcases h ht y hy hyt hyl with ⟨_, h'⟩ | h'
          · cases h'
          · rcases SB.next j.nd h' hp with h' | h'
            · exact Or.inl ⟨h', by trivial⟩
            · exact Or.inr h'
    all_goals (split <;> trivial)
  | missSet t' c' key v b h1 =>
    rw [h1] at h; rw [setPC_same]
    intro ht
    simp only [InSet, newItem] at ht
    exact h ht.1
  | findOpt second e b start h1 => rw [h1] at h; rw [setPC_same]; exact h
  | findStop second e b prev cur x h1 h2 h3 => rw [h1] at h; rw [setPC_same]; exact h
  | findCont second e b prev cur x h1 h2 h3 => rw [h1] at h; rw [setPC_same]; exact h
  | findAdv second e b prev cur h1 => rw [h1] at h; rw [setPC_same]; split <;> exact h
  | findEnd1 e b prev res h1 => rw [h1] at h; rw [setPC_same]; exact h
  | findEnd2 e b prev res h1 => rw [h1] at h; rw [setPC_same]; exact h
  | start2 e b res h1 => rw [h1] at h; rw [setPC_same]; exact h
  | targetPos e b r h1 => rw [h1] at h; rw [setPC_same]; exact h
  | targetFall e b phd r h1 h2 h3 => rw [h1] at h; rw [setPC_same]; exact h
  | checkOk e r h1 h2 => rw [h1] at h; rw [setPC_same]; exact h
  | rangeAdv cur seen h1 => rw [setPC_same]; split <;> trivial
  | _ => rw [setPC_same]; trivial

theorem Step.setC {s s' : CSt} {g : Tid} (h : Step Pk s g s') {t c : U64} (hc : SetC t c (s.pc g))
    (hs : s.pc g = .idle → ∀ c' key v, s'.pc g = .pick (.set t c' key v) → c' = c) : SetC t c (s'.pc g) := by
  cases h with
  | begin cl t' c' h1 h2 =>
    rw [setPC_same] at hs ⊢
    cases cl <;> simp only [SetC]
    intro ht
    subst ht
    exact hs h1 _ _ _ rfl
  | pickKey cl' t' c' b d h1 h2 h3 h4 => rw [h1] at hc; rw [setPC_same]; cases cl' <;> exact hc
  | pickLost cl' t' c' p r h1 h2 h3 h4 h5 => rw [h1] at hc; rw [setPC_same]; cases cl' <;> exact hc
  | lostFound cl' t' c' p r d h1 h2 h3 h4 => rw [h1] at hc; rw [setPC_same]; cases cl' <;> exact hc
  | lookCont cl' t' c' fwd b cur x h1 h2 h3 h4 => rw [h1] at hc; rw [setPC_same]; cases cl' <;> exact hc
  | lookHit cl' t' c' fwd b cur x h1 h2 h3 h4 h5 => rw [setPC_same]; split <;> (cases cl' <;> trivial)
  | lookAdv cl' fwd b cur h1 => rw [h1] at hc; rw [setPC_same]; split <;> (cases cl' <;> first | exact hc | trivial)
  | findAdv second e b prev cur h1 => rw [setPC_same]; split <;> trivial
  | rangeAdv cur seen h1 => rw [setPC_same]; split <;> trivial
  | _ => rw [setPC_same]; trivial

theorem Step.uinv (pk : PkOk Pk) {s s' : CSt} {g : Tid} {t cf : U64} (j : J1 s) (st : Step Pk s g s') (solo : SoloStart t cf s g s')
    (hloc : Located t (s'.pc g)) (hc : Clear s t cf) (h : UInv s t cf) : UInv s' t cf := by
  have hset : s.pc g = .idle → ∀ c' key v, s'.pc g = .pick (.set t c' key v) → c' = cf := by
    intro hi c' key v hp
    exact (solo hi (by rw [hp]; rfl)).2 c' key v hp
  refine ⟨?_, ?_, ?_, ?_⟩
  · intro u
    by_cases hu : u = g
    · subst hu; exact st.setC (h.conf u) hset
    · rw [st.others hu]; exact h.conf u
  · cases st.eff with
    | none h1 => rw [h1]; exact h.one
    | inplace f hf h1 => rw [h1]; exact h.one.map hf
    | ins e r h1 h2 =>
      rw [h2]
      by_cases he : e.rev = t ∧ e.dummy = false
      · have hw := h.way g
        rw [h1] at hw
        have hw2 : ∀ x ∈ s.items, x.rev = t → x.ignored = true := hw he
        clear hw
        intro x hx y hy hxt hyt hxl hyl
        rcases mem_insBefore.1 hx with rfl | hx
        · rcases mem_insBefore.1 hy with rfl | hy
          · rfl
          · rw [hw2 y hy hyt] at hyl; cases hyl
        · rw [hw2 x hx hxt] at hxl; cases hxl
      · have hne : ∀ x, x.rev = t → x.ignored = false → x = e → False := by
          intro x hxt hxl hxe
          subst hxe
          simp only [Entry.ignored, Bool.or_eq_false_iff] at hxl
          exact he ⟨hxt, hxl.1⟩
        intro x hx y hy hxt hyt hxl hyl
        rcases mem_insBefore.1 hx with hxe | hx
        · exact absurd hxe (fun h => hne x hxt hxl h)
        · rcases mem_insBefore.1 hy with hye | hy
          · exact absurd hye (fun h => hne y hyt hyl h)
          · exact h.one x hx y hy hxt hyt hxl hyl
  · intro u w hu hw
    by_cases eu : u = g <;> by_cases ew : w = g
    · rw [eu, ew]
    · subst eu
      rw [st.others ew] at hw
      rcases st.inSet hu with hi | hi
      · exact absurd hw ((solo hi hu).1 w ew)
      · exact h.solo _ _ hi hw
    · subst ew
      rw [st.others eu] at hu
      rcases st.inSet hw with hi | hi
      · exact absurd hu ((solo hi hw).1 u eu)
      · exact h.solo _ _ hu hi
    · rw [st.others eu] at hu; rw [st.others ew] at hw
      exact h.solo u w hu hw
  · intro u
    by_cases hu : u = g
    · subst hu; exact Way.self pk j st hc (h.conf u) hloc (h.way u)
    · rw [st.others hu]
      have hw := h.way u
      cases st.eff with
      | none h1 => rw [h1]; exact hw
      | inplace f hf h1 => rw [h1]; exact hw.map hf
      | ins e r h1 h2 =>
        rw [h2]
        by_cases he : e.rev = t ∧ e.dummy = false
        · apply Way.trivial
          intro hi
          exact hu (h.solo u g hi (by rw [h1]; exact he))
        · exact hw.ins he

theorem USteps.uinv (pk : PkOk Pk) {s0 s : CSt} {t cf : U64} (j : J1 s0) (h : USteps Pk t cf s0 s) (hc : Clear s t cf) (h0 : UInv s0 t cf) :
    UInv s t cf := by
  induction h with
  | refl => exact h0
  | step h1 h2 al solo hloc ih =>
    have jb := h1.gsteps.j1 pk j
    have hcb := hc.back h2.ext
    exact h2.uinv pk jb solo hloc hcb (ih hcb)

/-! ### The shared search option -/

/-- Inside `find`, with the option value to be restored. -/
def InFind : PC → Option Bool
  | .fLoop _ _ _ prev _ _ => some prev
  | .fEnd _ _ _ prev _ => some prev
  | .foreign prev => some prev
  | _ => none

/-- When `g` enters a `find` no other goroutine of the process is inside one. -/
def FindAlone (s : CSt) (g : Tid) (s' : CSt) : Prop :=
  InFind (s.pc g) = none → InFind (s'.pc g) ≠ none → ∀ u, u ≠ g → InFind (s.pc u) = none

inductive FSteps (Pk : CSt → Call → Ref → Prop) : CSt → CSt → Prop
  | refl (s : CSt) : FSteps Pk s s
  | step {a b c : CSt} {g : Tid} : FSteps Pk a b → Step Pk b g c → FindAlone b g c → FSteps Pk a c

structure OInv (s : CSt) : Prop where
  free : (∀ u, InFind (s.pc u) = none) → s.opt = true
  one : ∀ u w, InFind (s.pc u) ≠ none → InFind (s.pc w) ≠ none → u = w
  prev : ∀ u p, InFind (s.pc u) = some p → p = true ∧ s.opt = false

/-- A step either leaves the option alone, or enters or leaves a `find`. -/
theorem Step.find {s s' : CSt} {g : Tid} (h : Step Pk s g s') :
    (s'.opt = s.opt ∧ InFind (s'.pc g) = InFind (s.pc g)) ∨
    (s'.opt = false ∧ InFind (s.pc g) = none ∧ InFind (s'.pc g) = some s.opt) ∨
    (∃ p, s'.opt = p ∧ InFind (s.pc g) = some p ∧ InFind (s'.pc g) = none) := by
  cases h <;> rw [setPC_same]
  case findOpt h1 => right; left; rw [h1]; exact ⟨rfl, rfl, rfl⟩
  case foreignOpt h1 => right; left; rw [h1]; exact ⟨rfl, rfl, rfl⟩
  case findEnd1 prev res h1 => right; right; rw [h1]; exact ⟨prev, rfl, rfl, rfl⟩
  case findEnd2 prev res h1 => right; right; rw [h1]; exact ⟨prev, rfl, rfl, rfl⟩
  case foreignEnd prev h1 => right; right; rw [h1]; exact ⟨prev, rfl, rfl, rfl⟩
  case findAdv h1 => left; rw [h1]; refine ⟨rfl, ?_⟩; split <;> rfl
  case lookHit h1 _ _ _ _ => left; rw [h1]; refine ⟨rfl, ?_⟩; split <;> rfl
  case lookAdv h1 => left; rw [h1]; refine ⟨rfl, ?_⟩; split <;> rfl
  case rangeAdv h1 => left; rw [h1]; refine ⟨rfl, ?_⟩; split <;> rfl
  all_goals (left; refine ⟨rfl, ?_⟩; simp only [*, InFind])

theorem Step.oinv {s s' : CSt} {g : Tid} (st : Step Pk s g s') (al : FindAlone s g s') (h : OInv s) : OInv s' := by
  have others : ∀ u, u ≠ g → InFind (s'.pc u) = InFind (s.pc u) := fun u hu => by rw [st.others hu]
  rcases st.find with ⟨h1, h2⟩ | ⟨h1, h2, h3⟩ | ⟨p, h1, h2, h3⟩
  · have all : ∀ u, InFind (s'.pc u) = InFind (s.pc u) := fun u => by
      by_cases hu : u = g
      · rw [hu, h2]
      · exact others u hu
    refine ⟨?_, ?_, ?_⟩
    · intro hn; rw [h1]; exact h.free (fun u => by rw [← all u]; exact hn u)
    · intro u w hu hw; rw [all] at hu hw; exact h.one u w hu hw
    · intro u p hu; rw [all] at hu; rw [h1]; exact h.prev u p hu
  · have hal := al h2 (by rw [h3]; simp)
    have hfree : s.opt = true := h.free (fun u => by
      by_cases hu : u = g
      · rw [hu]; exact h2
      · exact hal u hu)
    refine ⟨?_, ?_, ?_⟩
    · intro hn; have := hn g; rw [h3] at this; cases this
    · intro u w hu hw
      have key : ∀ v, InFind (s'.pc v) ≠ none → v = g := by
        intro v hv
        by_contra hvg
        rw [others v hvg] at hv; exact hv (hal v hvg)
      rw [key u hu, key w hw]
    · intro u p hu
      by_cases hug : u = g
      · subst hug; rw [h3] at hu; cases hu; exact ⟨hfree, h1⟩
      · rw [others u hug, hal u hug] at hu; cases hu
  · have hp := h.prev g p h2
    refine ⟨?_, ?_, ?_⟩
    · intro _; rw [h1]; exact hp.1
    · intro u w hu hw
      have key : ∀ v, InFind (s'.pc v) ≠ none → InFind (s.pc v) ≠ none := by
        intro v hv
        by_cases hvg : v = g
        · subst hvg; exact absurd h3 hv
        · rw [others v hvg] at hv; exact hv
      exact h.one u w (key u hu) (key w hw)
    · intro u q hu
      exfalso
      by_cases hug : u = g
      · subst hug; rw [h3] at hu; cases hu
      · rw [others u hug] at hu
        exact hug (h.one u g (by rw [hu]; simp) (by rw [h2]; simp))

theorem FSteps.oinv {s s' : CSt} (h : FSteps Pk s s') (h0 : OInv s) : OInv s' := by
  induction h with
  | refl => exact h0
  | step _ st al ih => exact st.oinv al ih

theorem ofSt_oinv (st : St) : OInv (ofSt st) := by
  refine ⟨fun _ => rfl, ?_, ?_⟩
  · intro u w hu; simp [ofSt, InFind] at hu
  · intro u p hu; simp [ofSt, InFind] at hu

end SLM.Conc
