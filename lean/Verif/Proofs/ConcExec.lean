import Verif.Proofs.Conc7
/-! An executable scheduler for the concurrent machine, sound with respect to `Step`; used for witnesses only. -/
set_option autoImplicit false
namespace SLM.Conc

/-- The step goroutine `g` takes next; `cl` is the call it starts if it is idle. -/
def stepX (m : Mode) (s : CSt) (g : Tid) (cl : Call) : Option CSt :=
  match s.pc g with
  | .idle =>
    match cl with
    | .split t p => if p ∈ s.used then none else some (setPC { s with used := p :: s.used } g (.pick (.split t p)))
    | .range => match s.items.head? with | some x => some (setPC s g (.walk x.ref [] false)) | none => none
    | .foreign => some (setPC { s with opt := false } g (.foreign s.opt))
    | .get t c => some (setPC s g (.pick (.get t c)))
    | .set t c k v => some (setPC s g (.pick (.set t c k v)))
    | .del t c => some (setPC s g (.pick (.del t c)))
  | .pick cl =>
    match pkBucket m s.items cl with
    | none => none
    | some b =>
      match cl with
      | .split t p => some (setPC s g (.fOpt true (dummyEntry p t) none b))
      | cl =>
        match cl.target, node s.items b with
        | some (t, _), some d => some (setPC s g (.look cl (decide (d.rev < t)) b b false))
        | _, _ => none
  | .look cl fwd b cur false =>
    match cl.target, node s.items cur with
    | some (t, c), some x =>
      if x.ignored = true ∨ (if fwd then x.rev < t else x.rev > t) then some (setPC s g (.look cl fwd b cur true))
      else if x.rev = t then some (setPC s g (if x.conflict = c then .hit cl cur else .miss cl b))
      else some (setPC s g (.miss cl b))
    | _, _ => none
  | .look cl fwd b cur true =>
    some (setPC s g (match (if fwd then nx s.items cur else pv s.items cur) with
      | some r => .look cl fwd b r false
      | none => .miss cl b))
  | .hit cl r =>
    match cl, node s.items r with
    | .get _ _, some x => some (setPC s g (.ret (.val x.val true)))
    | .set _ _ _ v, some x =>
      match setValue .sample x.val v with
      | .ok (nv, ok) => some (setPC { s with items := setVal r nv s.items } g (.ret (.bool ok)))
      | .error _ => some (setPC s g (.ret .panic))
    | .del _ _, _ => some (setPC { s with items := markDeleted .sample r s.items } g (.ret (.bool true)))
    | _, _ => none
  | .miss cl b =>
    match cl with
    | .get _ _ => some (setPC s g (.ret (.val none false)))
    | .del _ _ => some (setPC s g (.ret (.bool false)))
    | .set t c key v => some (setPC { s with nextId := s.nextId + 1 } g (.fOpt false (newItem s.nextId t c key v) (some b) b))
    | _ => none
  | .fOpt second e b start => some (setPC { s with opt := false } g (.fLoop second e b s.opt start false))
  | .fLoop second e b prev cur false =>
    match node s.items cur with
    | none => none
    | some x => some (setPC s g (if stops second e x s.opt then .fEnd second e b prev (some cur) else .fLoop second e b prev cur true))
  | .fLoop second e b prev cur true =>
    some (setPC s g (match nx s.items cur with
      | some r => .fLoop second e b prev r false
      | none => .fEnd second e b prev none))
  | .fEnd false e (some b) prev res => some (setPC { s with opt := prev } g (.start2 e b res))
  | .fEnd false _ none _ _ => none
  | .fEnd true e b prev res => some (setPC { s with opt := prev } g (.target e b res))
  | .start2 e b res => some (setPC s g (.fOpt true e (some b) (tStart s.items e b res)))
  | .target e _ (some r) => some (setPC s g (.check e r))
  | .target e none none => (s.items.getLast?).map (fun x => setPC s g (.check e x.ref))
  | .target _ (some _) none => none
  | .check e r => some (setPC s g (if checkOk s.items e r then .link e r else .ret (.bool true)))
  | .link e r => some (setPC { s with items := insBefore r e s.items } g (.ret (.bool true)))
  | .walk cur seen false =>
    match node s.items cur with
    | none => none
    | some x => some (setPC s g (.walk cur (if x.ignored then seen else seen ++ [cur]) true))
  | .walk cur seen true =>
    some (setPC s g (match nx s.items cur with
      | some r => .walk r seen false
      | none => .ret (.seen seen)))
  | .foreign prev => some (setPC { s with opt := prev } g (.ret (.bool true)))
  | .lost cl _ r =>
    match cl with
    | .get t _ => if r < t then some (setPC s g (.ret (.val none false))) else if r = t then some (setPC s g (.ret .panic)) else none
    | .del t _ => if r < t then some (setPC s g (.ret (.bool false))) else if r = t then some (setPC s g (.ret .panic)) else none
    | .set t c key v =>
      if r < t then some (setPC { s with nextId := s.nextId + 1 } g (.target (newItem s.nextId t c key v) none none))
      else if r = t then some (setPC s g (.ret .panic)) else none
    | _ => none
  | .ret _ => none

theorem stepX_step {m : Mode} {s s' : CSt} {g : Tid} {cl : Call} (h : stepX m s g cl = some s') : Step (pkExact m) s g s' := by
  unfold stepX at h
  split at h
  · rename_i hp
    split at h
    · split at h
      · cases h
      · cases h; exact .beginSplit _ _ _ _ hp (by assumption)
    · split at h
      · cases h; exact .rangeStart _ _ _ hp (by assumption)
      · cases h
    · cases h; exact .foreignOpt _ _ hp
    · cases h; exact .begin _ _ _ _ _ hp rfl
    · cases h; exact .begin _ _ _ _ _ hp rfl
    · cases h; exact .begin _ _ _ _ _ hp rfl
  · rename_i cl' hp
    split at h
    · cases h
    · rename_i b hb
      split at h
      · cases h; exact .pickSplit _ _ _ _ _ hp hb
      · split at h
        · rename_i d h1 h2
          cases h; exact .pickKey _ _ _ _ _ _ _ hp h1 hb h2
        · cases h
  · rename_i cl' fwd b cur hp
    split at h
    · rename_i t c x h1 h2
      by_cases h3 : x.ignored = true ∨ (if fwd then x.rev < t else x.rev > t)
      · rw [if_pos h3] at h
        cases h; exact .lookCont _ _ _ _ _ _ _ _ _ hp h1 h2 h3
      · rw [if_neg h3] at h
        simp only [not_or] at h3
        have hig : x.ignored = false := by simpa using h3.1
        split at h
        · cases h; exact .lookHit _ _ _ _ _ _ _ _ _ hp h1 h2 hig (by assumption)
        · rename_i h4
          cases h
          refine .lookMiss _ _ _ _ _ _ _ _ _ hp h1 h2 hig ?_
          have h5 := h3.2
          split
          · rename_i hf; subst hf; simp only [if_true] at h5; bv_omega
          · rename_i hf; rw [if_neg hf] at h5; bv_omega
    · cases h
  · rename_i hp
    cases h; exact .lookAdv _ _ _ _ _ _ hp
  · rename_i hp
    split at h
    · cases h; exact .hitGet _ _ _ _ _ _ hp (by assumption)
    · split at h
      · cases h; exact .hitSet _ _ _ _ _ _ _ _ _ _ hp (by assumption) (by assumption)
      · cases h; exact .hitSetPanic _ _ _ _ _ _ _ _ _ hp (by assumption) (by assumption)
    · cases h; exact .hitDel _ _ _ _ _ hp
    · cases h
  · rename_i hp
    split at h
    · cases h; exact .missGet _ _ _ _ _ hp
    · cases h; exact .missDel _ _ _ _ _ hp
    · cases h; exact .missSet _ _ _ _ _ _ _ hp
    · cases h
  · rename_i hp; cases h; exact .findOpt _ _ _ _ _ _ hp
  · rename_i hp
    split at h
    · cases h
    · cases h
      split
      · exact .findStop _ _ _ _ _ _ _ _ hp (by assumption) (by assumption)
      · exact .findCont _ _ _ _ _ _ _ _ hp (by assumption) (by simp_all)
  · rename_i hp; cases h; exact .findAdv _ _ _ _ _ _ _ hp
  · rename_i hp; cases h; exact .findEnd1 _ _ _ _ _ _ hp
  · cases h
  · rename_i hp; cases h; exact .findEnd2 _ _ _ _ _ _ hp
  · rename_i hp; cases h; exact .start2 _ _ _ _ _ hp
  · rename_i hp; cases h; exact .targetPos _ _ _ _ _ hp
  · rename_i hp
    cases hl : s.items.getLast? with
    | none => rw [hl] at h; cases h
    | some x =>
      rw [hl] at h; cases h
      refine .targetFall _ _ _ _ x.ref x.ref hp ?_ (by simp [fallback, hl])
      obtain ⟨y, hy⟩ := node_mem (List.mem_map.2 ⟨x, List.mem_of_getLast? hl, rfl⟩ : x.ref ∈ refs s.items)
      rw [hy]; rfl
  · cases h
  · rename_i hp; cases h
    split
    · exact .checkOk _ _ _ _ hp (by assumption)
    · exact .checkFail _ _ _ _ hp (by simp_all)
  · rename_i hp; cases h; exact .link _ _ _ _ hp
  · rename_i hp
    split at h
    · cases h
    · cases h; exact .rangeSee _ _ _ _ _ hp (by assumption)
  · rename_i hp; cases h; exact .rangeAdv _ _ _ _ hp
  · rename_i hp; cases h; exact .foreignEnd _ _ _ hp
  · rename_i hp
    split at h
    · split at h
      · cases h; exact .lostGet _ _ _ _ _ _ hp (by assumption)
      · split at h
        · cases h; exact .lostPanic _ _ _ _ _ _ _ hp rfl (by assumption)
        · cases h
    · split at h
      · cases h; exact .lostDel _ _ _ _ _ _ hp (by assumption)
      · split at h
        · cases h; exact .lostPanic _ _ _ _ _ _ _ hp rfl (by assumption)
        · cases h
    · split at h
      · cases h; exact .lostSet _ _ _ _ _ _ _ _ hp (by assumption)
      · split at h
        · cases h; exact .lostPanic _ _ _ _ _ _ _ hp rfl (by assumption)
        · cases h
    · cases h
  · cases h

/-- At most `n` steps of goroutine `g`. -/
def burst (m : Mode) (calls : Tid → Call) (s : CSt) (g : Tid) : Nat → CSt
  | 0 => s
  | n + 1 => match stepX m s g (calls g) with | some s' => burst m calls s' g n | none => s

/-- A schedule: which goroutine runs, and for how many steps at most. -/
def sched (m : Mode) (calls : Tid → Call) (s : CSt) : List (Tid × Nat) → CSt
  | [] => s
  | (g, n) :: rest => sched m calls (burst m calls s g n) rest

theorem Steps.cons {Pk : CSt → Call → Ref → Prop} {a b c : CSt} {g : Tid} (h : Step Pk a g b) (h' : Steps Pk b c) : Steps Pk a c := by
  induction h' with
  | refl => exact .step (.refl _) h
  | step _ h2 ih => exact .step ih h2

theorem burst_steps (m : Mode) (calls : Tid → Call) (s : CSt) (g : Tid) (n : Nat) : Steps (pkExact m) s (burst m calls s g n) := by
  induction n generalizing s with
  | zero => exact .refl _
  | succ n ih =>
    unfold burst
    split
    · rename_i s' h; exact Steps.cons (stepX_step h) (ih s')
    · exact .refl _

theorem sched_steps (m : Mode) (calls : Tid → Call) (s : CSt) (l : List (Tid × Nat)) : Steps (pkExact m) s (sched m calls s l) := by
  induction l generalizing s with
  | nil => exact .refl _
  | cons a l ih => obtain ⟨g, n⟩ := a; exact (burst_steps m calls s g n).trans (ih _)

/-- Executions all of whose steps satisfy `P`. -/
inductive CSteps (Pk : CSt → Call → Ref → Prop) (P : CSt → Tid → CSt → Prop) : CSt → CSt → Prop
  | refl (s : CSt) : CSteps Pk P s s
  | step {a b c : CSt} {g : Tid} : CSteps Pk P a b → Step Pk b g c → P b g c → CSteps Pk P a c

theorem CSteps.trans {Pk : CSt → Call → Ref → Prop} {P : CSt → Tid → CSt → Prop} {a b c : CSt} (h : CSteps Pk P a b) (h' : CSteps Pk P b c) :
    CSteps Pk P a c := by
  induction h' with
  | refl => exact h
  | step _ h2 h3 ih => exact .step ih h2 h3

theorem CSteps.gsteps {Pk : CSt → Call → Ref → Prop} {a b : CSt} (h : CSteps Pk (fun s g _ => Alone s g) a b) : GSteps Pk a b := by
  induction h with
  | refl => exact .refl _
  | step _ h2 h3 ih => exact .step ih h2 h3

theorem CSteps.qsteps {Pk : CSt → Call → Ref → Prop} {g : Tid} {a b : CSt}
    (h : CSteps Pk (fun s u s' => Alone s u ∧ (u ≠ g → s'.opt = s.opt ∧ refs s'.items = refs s.items) ∧ (u = g → isLost (s'.pc u) = false)) a b) : QSteps Pk g a b := by
  induction h with
  | refl => exact .refl _
  | step _ h2 h3 ih => exact .step ih h2 h3.1 h3.2.1 h3.2.2

theorem CSteps.usteps {Pk : CSt → Call → Ref → Prop} {t cf : U64} {a b : CSt}
    (h : CSteps Pk (fun s u s' => Alone s u ∧ SoloStart t cf s u s' ∧ Located t (s'.pc u)) a b) : USteps Pk t cf a b := by
  induction h with
  | refl => exact .refl _
  | step _ h2 h3 ih => exact .step ih h2 h3.1 h3.2.1 h3.2.2

/-- A call that never locates a bucket whose sentinel is not linked. -/
theorem CSteps.ssteps {Pk : CSt → Call → Ref → Prop} {g : Tid} {a b : CSt}
    (h : CSteps Pk (fun _ u s' => u = g → isLost (s'.pc u) = false) a b) : SSteps Pk g a b := by
  induction h with
  | refl => exact .refl _
  | step _ h2 h3 ih => exact .step ih h2 h3

theorem CSteps.fsteps {Pk : CSt → Call → Ref → Prop} {a b : CSt} (h : CSteps Pk FindAlone a b) : FSteps Pk a b := by
  induction h with
  | refl => exact .refl _
  | step _ h2 h3 ih => exact .step ih h2 h3

/-- As `burst`, with a test of every step; `none` if it fails or if the goroutine is not below `k`. -/
def burstC (ck : CSt → Tid → CSt → Bool) (m : Mode) (calls : Tid → Call) (k : Nat) (s : CSt) (g : Tid) : Nat → Option CSt
  | 0 => some s
  | n + 1 =>
    match stepX m s g (calls g) with
    | some s' => if ck s g s' = true ∧ g < k then burstC ck m calls k s' g n else none
    | none => some s

def schedC (ck : CSt → Tid → CSt → Bool) (m : Mode) (calls : Tid → Call) (k : Nat) (s : CSt) : List (Tid × Nat) → Option CSt
  | [] => some s
  | (g, n) :: rest => (burstC ck m calls k s g n).bind (fun s' => schedC ck m calls k s' rest)

theorem burstC_sound {ck : CSt → Tid → CSt → Bool} {P : CSt → Tid → CSt → Prop} {m : Mode} {calls : Tid → Call} {k : Nat}
    (hck : ∀ s g s', (∀ u, k ≤ u → s.pc u = .idle) → ck s g s' = true → P s g s') {s s' : CSt} {g : Tid} {n : Nat}
    (h : burstC ck m calls k s g n = some s') (hi : ∀ u, k ≤ u → s.pc u = .idle) :
    CSteps (pkExact m) P s s' ∧ ∀ u, k ≤ u → s'.pc u = .idle := by
  induction n generalizing s with
  | zero => cases h; exact ⟨.refl _, hi⟩
  | succ n ih =>
    unfold burstC at h
    split at h
    · rename_i s1 h1
      split at h
      · rename_i h2
        have hst := stepX_step h1
        have := ih h (fun u hu => by rw [hst.others (fun e => Nat.lt_irrefl k (Nat.lt_of_le_of_lt (e ▸ hu) h2.2))]; exact hi u hu)
        exact ⟨CSteps.trans (.step (.refl _) hst (hck _ _ _ hi h2.1)) this.1, this.2⟩
      · cases h
    · cases h; exact ⟨.refl _, hi⟩

theorem schedC_sound {ck : CSt → Tid → CSt → Bool} {P : CSt → Tid → CSt → Prop} {m : Mode} {calls : Tid → Call} {k : Nat}
    (hck : ∀ s g s', (∀ u, k ≤ u → s.pc u = .idle) → ck s g s' = true → P s g s') {s s' : CSt} {l : List (Tid × Nat)}
    (h : schedC ck m calls k s l = some s') (hi : ∀ u, k ≤ u → s.pc u = .idle) :
    CSteps (pkExact m) P s s' ∧ ∀ u, k ≤ u → s'.pc u = .idle := by
  induction l generalizing s with
  | nil => cases h; exact ⟨.refl _, hi⟩
  | cons a l ih =>
    obtain ⟨g, n⟩ := a
    simp only [schedC, Option.bind_eq_some_iff] at h
    obtain ⟨s1, h1, h2⟩ := h
    have h3 := burstC_sound hck h1 hi
    have h4 := ih h2 h3.2
    exact ⟨h3.1.trans h4.1, h4.2⟩

/-- `Alone`, tested for the goroutines below `k` (the others are idle). -/
def aloneB (k : Nat) (s : CSt) (g : Tid) : Bool :=
  match s.pc g with
  | .link _ r => (List.range k).all (fun u => decide (u = g) || (match s.pc u with | .link _ r' => !decide (r' = r) | _ => true))
  | _ => true

theorem aloneB_sound {s : CSt} {g : Tid} {k : Nat} (hi : ∀ u, k ≤ u → s.pc u = .idle) (h : aloneB k s g = true) : Alone s g := by
  intro e r hg u e' hu hc
  unfold aloneB at h
  rw [hg] at h
  simp only [List.all_eq_true, List.mem_range] at h
  by_cases hk : u < k
  · have := h u hk
    rw [hc] at this
    simp [hu] at this
  · rw [hi u (Nat.le_of_not_lt hk)] at hc; cases hc

def quietB (k : Nat) (g : Tid) (s : CSt) (u : Tid) (s' : CSt) : Bool :=
  aloneB k s u && (decide (u = g) || (decide (s'.opt = s.opt) && decide (refs s'.items = refs s.items))) && !(isLost (s'.pc u))

theorem quietB_sound {k : Nat} {g : Tid} : ∀ s u s', (∀ u, k ≤ u → s.pc u = .idle) → quietB k g s u s' = true →
    Alone s u ∧ (u ≠ g → s'.opt = s.opt ∧ refs s'.items = refs s.items) ∧ (u = g → isLost (s'.pc u) = false) := by
  intro s u s' hi h
  simp only [quietB, Bool.and_eq_true, Bool.or_eq_true, decide_eq_true_eq, Bool.not_eq_true'] at h
  exact ⟨aloneB_sound hi h.1.1, fun hu => h.1.2.resolve_left hu, fun _ => h.2⟩

def inSetB (t : U64) : PC → Bool
  | .pick (.set t' _ _ _) => t' = t
  | .look (.set t' _ _ _) _ _ _ _ => t' = t
  | .hit (.set t' _ _ _) _ => t' = t
  | .miss (.set t' _ _ _) _ => t' = t
  | .lost (.set t' _ _ _) _ _ => t' = t
  | .fOpt _ e _ _ => e.rev = t ∧ e.dummy = false
  | .fLoop _ e _ _ _ _ => e.rev = t ∧ e.dummy = false
  | .fEnd _ e _ _ _ => e.rev = t ∧ e.dummy = false
  | .start2 e _ _ => e.rev = t ∧ e.dummy = false
  | .target e _ _ => e.rev = t ∧ e.dummy = false
  | .check e _ => e.rev = t ∧ e.dummy = false
  | .link e _ => e.rev = t ∧ e.dummy = false
  | _ => false

theorem inSetB_iff {t : U64} {p : PC} : inSetB t p = true ↔ InSet t p := by
  cases p with
  | pick cl => cases cl <;> simp [inSetB, InSet]
  | look cl _ _ _ _ => cases cl <;> simp [inSetB, InSet]
  | hit cl _ => cases cl <;> simp [inSetB, InSet]
  | miss cl _ => cases cl <;> simp [inSetB, InSet]
  | lost cl _ _ => cases cl <;> simp [inSetB, InSet]
  | _ => simp [inSetB, InSet]

def soloB (k : Nat) (t cf : U64) (s : CSt) (g : Tid) (s' : CSt) : Bool :=
  aloneB k s g && (!(decide (s.pc g = .idle)) || !(inSetB t (s'.pc g)) ||
    ((List.range k).all (fun u => decide (u = g) || !(inSetB t (s.pc u))) &&
      (match s'.pc g with | .pick (.set _ c' _ _) => decide (c' = cf) | _ => true))) && !(isLost (s'.pc g))

theorem soloB_sound {k : Nat} {t cf : U64} : ∀ s g s', (∀ u, k ≤ u → s.pc u = .idle) → soloB k t cf s g s' = true →
    Alone s g ∧ SoloStart t cf s g s' ∧ Located t (s'.pc g) := by
  intro s g s' hi h
  simp only [soloB, Bool.and_eq_true] at h
  refine ⟨aloneB_sound hi h.1.1, ?_, ?_⟩
  rotate_left
  · intro c key v q r hc
    rw [hc] at h; simp [isLost] at h
  intro h1 h2
  have h3 := h.1.2
  rw [← inSetB_iff] at h2
  simp only [h1, h2, decide_true, Bool.not_true, Bool.false_or, Bool.and_eq_true, List.all_eq_true, List.mem_range, Bool.or_eq_true,
    decide_eq_true_eq, Bool.not_eq_true'] at h3
  refine ⟨?_, ?_⟩
  · intro u hu hc
    rw [← inSetB_iff] at hc
    by_cases hk : u < k
    · rcases h3.1 u hk with h4 | h4
      · exact hu h4
      · rw [hc] at h4; cases h4
    · rw [hi u (Nat.le_of_not_lt hk)] at hc; cases hc
  · intro c' key v hp
    rw [hp] at h3
    simpa using h3.2

def findAloneB (k : Nat) (s : CSt) (g : Tid) (s' : CSt) : Bool :=
  !(decide (InFind (s.pc g) = none)) || decide (InFind (s'.pc g) = none) ||
    (List.range k).all (fun u => decide (u = g) || decide (InFind (s.pc u) = none))

theorem findAloneB_sound {k : Nat} : ∀ s g s', (∀ u, k ≤ u → s.pc u = .idle) → findAloneB k s g s' = true → FindAlone s g s' := by
  intro s g s' hi h h1 h2 u hu
  simp only [findAloneB, h1, h2, decide_true, decide_false, Bool.not_true, Bool.false_or, List.all_eq_true, List.mem_range, Bool.or_eq_true,
    decide_eq_true_eq] at h
  by_cases hk : u < k
  · exact (h u hk).resolve_left hu
  · rw [hi u (Nat.le_of_not_lt hk)]; rfl

/-! ### The bucket the code picks meets the condition of the theorems -/

theorem bestBelow_some {ok : U64 → Bool} {l : List Entry} {d : Entry} (h : bestBelow ok l = some d) : d ∈ l ∧ d.dummy = true ∧ ok d.rev = true := by
  induction l generalizing d with
  | nil => cases h
  | cons e es ih =>
    unfold bestBelow at h
    cases hb : bestBelow ok es with
    | none =>
      rw [hb] at h
      simp only at h
      split at h
      · rename_i h1; cases h; simp at h1; exact ⟨by simp, h1.1, h1.2⟩
      · cases h
    | some d' =>
      rw [hb] at h
      simp only at h
      have := ih hb
      split at h
      · rename_i h1; cases h; simp at h1; exact ⟨by simp, h1.1.1, h1.1.2⟩
      · cases h; exact ⟨by simp [this.1], this.2⟩

theorem bestAbove_some {r : U64} {l : List Entry} {d : Entry} (h : bestAbove r l = some d) : d ∈ l ∧ d.dummy = true := by
  induction l generalizing d with
  | nil => cases h
  | cons e es ih =>
    unfold bestAbove at h
    cases hb : bestAbove r es with
    | none =>
      rw [hb] at h
      simp only at h
      split at h
      · rename_i h1; cases h; simp at h1; exact ⟨by simp, h1.1⟩
      · cases h
    | some d' =>
      rw [hb] at h
      simp only at h
      have := ih hb
      split at h
      · rename_i h1; cases h; simp at h1; exact ⟨by simp, h1.1.1⟩
      · cases h; exact ⟨by simp [this.1], this.2⟩

theorem pkExact_ok (m : Mode) : PkOk (pkExact m) := by
  constructor
  intro s cl b h
  unfold pkExact pkBucket at h
  cases cl with
  | get t c =>
    simp only at h
    cases hb : bestBelow (fun r => decide (r ≤ t)) s.items with
    | none => rw [hb] at h; cases h
    | some d =>
      rw [hb] at h
      simp only at h
      have hd := bestBelow_some hb
      cases ha : bestAbove d.rev s.items with
      | none => rw [ha] at h; cases h; exact ⟨d, hd.1, rfl, hd.2.1, by simp⟩
      | some p =>
        rw [ha] at h
        simp only at h
        have hp := bestAbove_some ha
        split at h
        · cases h; exact ⟨p, hp.1, rfl, hp.2, by simp⟩
        · cases h; exact ⟨d, hd.1, rfl, hd.2.1, by simp⟩
  | set t c key v =>
    obtain ⟨d, hd, rfl⟩ := Option.map_eq_some_iff.1 h
    have := bestBelow_some hd
    refine ⟨d, this.1, rfl, this.2.1, ?_⟩
    intro t' c' key' v' he
    cases he
    simpa using this.2.2
  | del t c =>
    obtain ⟨d, hd, rfl⟩ := Option.map_eq_some_iff.1 h
    have := bestBelow_some hd
    exact ⟨d, this.1, rfl, this.2.1, by simp⟩
  | split t p =>
    obtain ⟨d, hd, rfl⟩ := Option.map_eq_some_iff.1 h
    have := bestBelow_some hd
    exact ⟨d, this.1, rfl, this.2.1, by simp⟩
  | range => cases h
  | foreign => cases h

end SLM.Conc
