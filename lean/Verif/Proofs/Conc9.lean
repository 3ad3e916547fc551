import Verif.Proofs.ConcExec
/-! Progress: no call ever waits for another one, and every call takes a bounded number of its own steps. -/
set_option autoImplicit false
namespace SLM.Conc

variable {Pk : CSt → Call → Ref → Prop}

/-- Executions that count the steps of `g`. -/
inductive NSteps (Pk : CSt → Call → Ref → Prop) (g : Tid) : Nat → CSt → CSt → Prop
  | refl (s : CSt) : NSteps Pk g 0 s s
  | own {k : Nat} {a b c : CSt} : NSteps Pk g k a b → Step Pk b g c → NSteps Pk g (k + 1) a c
  | other {k : Nat} {a b c : CSt} {u : Tid} : NSteps Pk g k a b → Step Pk b u c → u ≠ g → NSteps Pk g k a c

/-- Executions in which only `g` takes steps. -/
inductive Solo (Pk : CSt → Call → Ref → Prop) (g : Tid) : CSt → CSt → Prop
  | refl (s : CSt) : Solo Pk g s s
  | step {a b c : CSt} : Solo Pk g a b → Step Pk b g c → Solo Pk g a c

theorem NSteps.steps {g : Tid} {k : Nat} {a b : CSt} (h : NSteps Pk g k a b) : Steps Pk a b := by
  induction h with
  | refl => exact .refl _
  | own _ h ih => exact .step ih h
  | other _ h _ ih => exact .step ih h

theorem Steps.nsteps (g : Tid) {a b : CSt} (h : Steps Pk a b) : ∃ k, NSteps Pk g k a b := by
  induction h with
  | refl => exact ⟨0, .refl _⟩
  | @step _ _ u _ h ih =>
    obtain ⟨k, hk⟩ := ih
    by_cases e : u = g
    · exact ⟨k + 1, .own hk (e ▸ h)⟩
    · exact ⟨k, .other hk h e⟩

/-! ### The measure -/

def rest (l : List Entry) (fwd : Bool) (r : Ref) : Nat := if fwd then (fromRef r l).length else (beforeRef r l).length

def one (adv : Bool) : Nat := if adv then 0 else 1

/-- More than the number of steps a goroutine has left if the list does not grow. -/
def mu (l : List Entry) : PC → Nat
  | .idle => 6 * l.length + 16
  | .pick _ => 6 * l.length + 15
  | .lost _ _ _ => 6 * l.length + 14
  | .look _ fwd _ cur adv => 4 * l.length + 12 + 2 * rest l fwd cur + one adv
  | .hit _ _ => 1
  | .miss _ _ => 4 * l.length + 11
  | .fOpt false _ _ _ => 4 * l.length + 10
  | .fLoop false _ _ _ cur adv => 2 * l.length + 8 + 2 * rest l true cur + one adv
  | .fEnd false _ _ _ _ => 2 * l.length + 8
  | .start2 _ _ _ => 2 * l.length + 7
  | .fOpt true _ _ _ => 2 * l.length + 6
  | .fLoop true _ _ _ cur adv => 4 + 2 * rest l true cur + one adv
  | .fEnd true _ _ _ _ => 4
  | .target _ _ _ => 3
  | .check _ _ => 2
  | .link _ _ => 1
  | .walk cur _ adv => 2 * rest l true cur + one adv
  | .foreign _ => 1
  | .ret _ => 0

theorem rest_le (l : List Entry) (fwd : Bool) (r : Ref) : rest l fwd r ≤ l.length := by
  unfold rest fromRef beforeRef
  split
  · exact List.length_dropWhile_le _ _
  · exact (List.takeWhile_sublist _).length_le

theorem rest_pos {l : List Entry} {r : Ref} (h : r ∈ refs l) : 0 < rest l true r := by
  obtain ⟨d, post, _, hf, _⟩ := split_at r l h
  simp [rest, hf]

theorem before_split {pre post : List Entry} {x : Entry} (hn : (refs (pre ++ x :: post)).Nodup) :
    beforeRef x.ref (pre ++ x :: post) = pre ∧ fromRef x.ref (pre ++ x :: post) = x :: post := by
  have h := (nodup_split hn).1
  have hp : ∀ y ∈ pre, decide (y.ref ≠ x.ref) = true := fun y hy => by
    simp only [ne_eq, decide_eq_true_eq]
    intro e; exact h (e ▸ List.mem_map.2 ⟨y, hy, rfl⟩)
  unfold beforeRef fromRef
  rw [List.takeWhile_append_of_pos hp, List.dropWhile_append_of_pos hp]
  simp

theorem rest_nx {l : List Entry} {r r' : Ref} (hn : (refs l).Nodup) (h : nx l r = some r') : rest l true r = rest l true r' + 1 := by
  obtain ⟨x, y, post, h1, h2, h3⟩ := nx_some h
  subst h1 h2
  generalize beforeRef x.ref l = pre at h3
  subst h3
  have e1 := (before_split hn).2
  have e2 := (before_split (pre := pre ++ [x]) (x := y) (post := post) (by simpa using hn)).2
  simp only [rest, if_true]
  rw [e1, show pre ++ x :: y :: post = (pre ++ [x]) ++ y :: post by simp, e2]
  simp

theorem rest_pv {l : List Entry} {r r' : Ref} (hn : (refs l).Nodup) (hr : r ∈ refs l) (h : pv l r = some r') :
    rest l false r = rest l false r' + 1 := by
  obtain ⟨pre, x, y, post, h1, h2, h3, h4⟩ := pv_some h hr
  subst h1 h2
  subst h3
  have e1 := (before_split hn).1
  simp only [rest, Bool.false_eq_true, if_false]
  rw [h4, e1]; simp

theorem rest_map {f : Entry → Entry} (hf : ∀ x, Same x (f x)) (l : List Entry) (fwd : Bool) (r : Ref) : rest (l.map f) fwd r = rest l fwd r := by
  unfold rest; rw [from_map hf, before_map hf]; simp

theorem dropWhile_ins {α : Type} (p : α → Bool) (e : α) (he : p e = true) (a b : List α) :
    ((a ++ e :: b).dropWhile p).length ≤ ((a ++ b).dropWhile p).length + 1 := by
  induction a with
  | nil => simp [he]
  | cons x a ih =>
    simp only [List.cons_append, List.dropWhile_cons]
    split
    · exact ih
    · simp; omega

theorem takeWhile_ins {α : Type} (p : α → Bool) (e : α) (he : p e = true) (a b : List α) :
    ((a ++ e :: b).takeWhile p).length ≤ ((a ++ b).takeWhile p).length + 1 := by
  induction a with
  | nil => simp [he]
  | cons x a ih =>
    simp only [List.cons_append, List.takeWhile_cons]
    split
    · simpa using ih
    · simp

theorem rest_ins {l : List Entry} {e : Entry} {q r : Ref} (fwd : Bool) (h : e.ref ≠ r) : rest (insBefore q e l) fwd r ≤ rest l fwd r + 1 := by
  have hp : decide (e.ref ≠ r) = true := by simpa using h
  unfold rest
  split
  · have := dropWhile_ins (fun x : Entry => decide (x.ref ≠ r)) e hp (beforeRef q l) (fromRef q l)
    rw [before_append_from] at this
    exact this
  · have := takeWhile_ins (fun x : Entry => decide (x.ref ≠ r)) e hp (beforeRef q l) (fromRef q l)
    rw [before_append_from] at this
    exact this

theorem len_ins (l : List Entry) (e : Entry) (q : Ref) : (insBefore q e l).length = l.length + 1 := by
  have := congrArg List.length (before_append_from q l)
  simp only [List.length_append] at this
  simp only [insBefore, List.length_append, List.length_cons]
  omega

theorem mu_map {f : Entry → Entry} (hf : ∀ x, Same x (f x)) (l : List Entry) (p : PC) : mu (l.map f) p = mu l p := by
  cases p <;> simp [mu, rest_map hf]
  all_goals (rename_i b _ _ _; cases b <;> simp [mu, rest_map hf])

theorem mu_ins {l : List Entry} {e : Entry} {q : Ref} {p : PC} (h : ∀ r ∈ p.curs, e.ref ≠ r) : mu (insBefore q e l) p ≤ mu l p + 6 := by
  cases p <;> simp only [mu, len_ins] <;> try omega
  case look cl fwd b cur adv => have := rest_ins (l := l) (q := q) fwd (h cur (by simp [PC.curs])); omega
  case walk cur seen adv => have := rest_ins (l := l) (q := q) true (h cur (by simp [PC.curs])); omega
  case fOpt second _ _ _ => cases second <;> simp only [mu, len_ins] <;> omega
  case fEnd second _ _ _ _ => cases second <;> simp only [mu, len_ins] <;> omega
  case fLoop second _ _ _ cur _ =>
    have := rest_ins (l := l) (q := q) true (h cur (by simp [PC.curs]))
    cases second <;> simp only [mu, len_ins] <;> omega

/-- A step of another goroutine costs `g` at most six steps, and only if it makes the list longer. -/
theorem mu_other {s s' : CSt} {g u : Tid} (j : J0 s) (st : Step Pk s u s') (hu : u ≠ g) :
    s.items.length ≤ s'.items.length ∧ mu s'.items (s'.pc g) + 6 * s.items.length ≤ mu s.items (s.pc g) + 6 * s'.items.length := by
  rw [st.others (fun e => hu e.symm)]
  cases st.eff with
  | none h => rw [h]; omega
  | inplace f hf h => rw [h, mu_map hf]; simp
  | ins e r hp h =>
    rw [h, len_ins]
    have := mu_ins (l := s.items) (q := r) (e := e) (p := s.pc g) (fun q hq eq => (j.new u e.ref (by rw [hp]; rfl)).2 (eq ▸ j.cur g q hq))
    omega

theorem len_setVal (r : Ref) (v : IVal) (l : List Entry) : (setVal r v l).length = l.length := by
  obtain ⟨f, _, h⟩ := setVal_same r v l; rw [h]; simp
theorem len_markDeleted (k : Kind) (r : Ref) (l : List Entry) : (markDeleted k r l).length = l.length := by
  obtain ⟨f, _, h⟩ := markDeleted_same k r l; rw [h]; simp

theorem setPC_items (s : CSt) (g : Tid) (c : PC) : (setPC s g c).items = s.items := rfl

/-- A step of `g` itself brings it nearer to its end. -/
theorem mu_own {s s' : CSt} {g : Tid} (j : J0 s) (st : Step Pk s g s') :
    s.items.length ≤ s'.items.length ∧ mu s'.items (s'.pc g) + 1 ≤ mu s.items (s.pc g) := by
  have hn := j.nd
  have hc := j.cur g
  have hle := rest_le s.items
  cases st
  case begin cl t c hp _ => rw [hp]; simp [setPC_same, setPC_items, mu]
  case beginSplit t p hp _ => rw [hp]; simp [setPC_same, setPC_items, mu]
  case pickKey cl t c b d hp _ _ _ =>
    rw [hp]; have := hle (decide (d.rev < t)) b
    simp only [setPC_same, setPC_items, mu, one]; simp; omega
  case pickSplit t p b hp _ => rw [hp]; simp only [setPC_same, setPC_items, mu]; omega
  case pickLost cl t c p r hp _ _ _ _ => rw [hp]; simp [setPC_same, setPC_items, mu]
  case lostFound cl t c p r d hp _ _ _ =>
    rw [hp]; have := hle (decide (r < t)) (.dummy p)
    simp only [setPC_same, setPC_items, mu, one]; simp; omega
  case lostPanic cl t c p r hp _ _ => rw [hp]; simp [setPC_same, setPC_items, mu]
  case lostGet t c p r hp _ => rw [hp]; simp [setPC_same, setPC_items, mu]
  case lostDel t c p r hp _ => rw [hp]; simp [setPC_same, setPC_items, mu]
  case lostSet t c key v p r hp _ => rw [hp]; simp only [setPC_same, setPC_items, mu]; omega
  case lostSetLate t c key v p r d hp _ _ _ => rw [hp]; simp only [setPC_same, setPC_items, mu]; omega
  case lookCont cl t c fwd b cur x hp _ _ _ => rw [hp]; simp [setPC_same, setPC_items, mu, one]
  case lookHit cl t c fwd b cur x hp _ _ _ _ =>
    rw [hp]; simp only [setPC_same, setPC_items]
    by_cases hx : x.conflict = c
    · rw [if_pos hx]; simp only [mu, one]; omega
    · rw [if_neg hx]; simp only [mu, one]; omega
  case lookMiss cl t c fwd b cur x hp _ _ _ _ => rw [hp]; simp only [setPC_same, setPC_items, mu, one]; omega
  case lookAdv cl fwd b cur hp =>
    rw [hp] at hc ⊢
    have hcur : cur ∈ refs s.items := hc cur (by simp [PC.curs])
    simp only [setPC_same, setPC_items]
    cases fwd with
    | true =>
      simp only [if_true]
      cases h : nx s.items cur with
      | none => simp only [mu, one]; omega
      | some r => have := rest_nx hn h; simp only [mu, one]; simp; omega
    | false =>
      simp only [Bool.false_eq_true, if_false]
      cases h : pv s.items cur with
      | none => simp only [mu, one]; omega
      | some r => have := rest_pv hn hcur h; simp only [mu, one]; simp; omega
  case hitGet t c r x hp _ => rw [hp]; simp [setPC_same, setPC_items, mu]
  case hitSet t c key v r x nv ok hp _ _ => rw [hp]; simp [setPC_same, setPC_items, mu, len_setVal]
  case hitSetPanic t c key v r x p hp _ _ => rw [hp]; simp [setPC_same, setPC_items, mu]
  case hitDel t c r hp => rw [hp]; simp [setPC_same, setPC_items, mu, len_markDeleted]
  case missGet t c b hp => rw [hp]; simp [setPC_same, setPC_items, mu]
  case missDel t c b hp => rw [hp]; simp [setPC_same, setPC_items, mu]
  case missSet t c key v b hp => rw [hp]; simp [setPC_same, setPC_items, mu]
  case findOpt second e b start hp =>
    rw [hp]; have := hle true start
    cases second <;> simp only [setPC_same, setPC_items, mu, one] <;> simp <;> omega
  case findStop second e b prev cur x hp _ _ =>
    rw [hp]; cases second <;> simp only [setPC_same, setPC_items, mu, one] <;> simp <;> omega
  case findCont second e b prev cur x hp _ _ =>
    rw [hp]; cases second <;> simp [setPC_same, setPC_items, mu, one]
  case findAdv second e b prev cur hp =>
    rw [hp] at hc ⊢
    have h1 := rest_pos (hc cur (by simp [PC.curs]))
    simp only [setPC_same, setPC_items]
    cases h : nx s.items cur with
    | none => cases second <;> simp only [mu, one] <;> simp <;> omega
    | some r => have := rest_nx hn h; cases second <;> simp only [mu, one] <;> simp <;> omega
  case findEnd1 e b prev res hp => rw [hp]; simp [setPC_same, setPC_items, mu]
  case findEnd2 e b prev res hp => rw [hp]; simp [setPC_same, setPC_items, mu]
  case start2 e b res hp => rw [hp]; simp [setPC_same, setPC_items, mu]
  case targetPos e b r hp => rw [hp]; simp [setPC_same, setPC_items, mu]
  case targetFall e b phd r hp _ _ => rw [hp]; simp [setPC_same, setPC_items, mu]
  case checkOk e r hp _ => rw [hp]; simp [setPC_same, setPC_items, mu]
  case checkFail e r hp _ => rw [hp]; simp [setPC_same, setPC_items, mu]
  case link e r hp => rw [hp]; simp [setPC_same, setPC_items, mu, len_ins]
  case rangeStart x hp _ =>
    rw [hp]; have := hle true x.ref
    simp only [setPC_same, setPC_items, mu, one]; simp; omega
  case rangeSee cur seen x hp _ => rw [hp]; simp [setPC_same, setPC_items, mu, one]
  case rangeAdv cur seen hp =>
    rw [hp] at hc ⊢
    have h1 := rest_pos (hc cur (by simp [PC.curs]))
    simp only [setPC_same, setPC_items]
    cases h : nx s.items cur with
    | none => simp only [mu, one]; simp; omega
    | some r => have := rest_nx hn h; simp only [mu, one]; simp; omega
  case foreignOpt hp => rw [hp]; simp [setPC_same, setPC_items, mu]
  case foreignEnd prev hp => rw [hp]; simp [setPC_same, setPC_items, mu]

/-- The number of steps a goroutine has taken. -/
theorem NSteps.bound (pk : PkOk Pk) {g : Tid} {k : Nat} {a b : CSt} (h : NSteps Pk g k a b) (j : J0 a) :
    a.items.length ≤ b.items.length ∧ k + mu b.items (b.pc g) + 6 * a.items.length ≤ mu a.items (a.pc g) + 6 * b.items.length := by
  induction h with
  | refl => omega
  | own h st ih =>
    have h1 := mu_own (h.steps.j0 pk j) st
    have := ih j
    omega
  | other h st hu ih =>
    have h1 := mu_other (h.steps.j0 pk j) st hu
    have := ih j
    omega

/-! ### No goroutine ever waits -/

/-- The shape of calls in progress. -/
def Shape : PC → Prop
  | .pick cl => (∃ tc, cl.target = some tc) ∨ ∃ t p, cl = .split t p
  | .look cl _ _ _ _ => ∃ tc, cl.target = some tc
  | .lost cl _ r => ∃ tc, cl.target = some tc ∧ r ≤ tc.1
  | .hit cl _ => ∃ tc, cl.target = some tc
  | .miss cl _ => ∃ tc, cl.target = some tc
  | .fOpt false _ b _ => b.isSome
  | .fLoop false _ b _ _ _ => b.isSome
  | .fEnd false _ b _ _ => b.isSome
  | _ => True

theorem Step.shape {s s' : CSt} {g : Tid} (st : Step Pk s g s') (h : Shape (s.pc g)) : Shape (s'.pc g) := by
  cases st
  case begin cl t c hp ht => simp only [setPC_same]; exact .inl ⟨_, ht⟩
  case beginSplit t p hp _ => simp only [setPC_same]; exact .inr ⟨_, _, rfl⟩
  case pickKey cl t c b d hp ht _ _ => simp only [setPC_same]; exact ⟨_, ht⟩
  case lookCont cl t c fwd b cur x hp ht _ _ => simp only [setPC_same]; exact ⟨_, ht⟩
  case lookHit cl t c fwd b cur x hp ht _ _ _ => simp only [setPC_same]; split <;> exact ⟨_, ht⟩
  case lookMiss cl t c fwd b cur x hp ht _ _ _ => simp only [setPC_same]; exact ⟨_, ht⟩
  case lookAdv cl fwd b cur hp =>
    rw [hp] at h
    simp only [setPC_same]; split <;> exact h
  case findOpt second e b start hp => rw [hp] at h; simp only [setPC_same]; cases second <;> exact h
  case findStop second e b prev cur x hp _ _ => rw [hp] at h; simp only [setPC_same]; cases second <;> exact h
  case findCont second e b prev cur x hp _ _ => rw [hp] at h; simp only [setPC_same]; cases second <;> exact h
  case findAdv second e b prev cur hp => rw [hp] at h; simp only [setPC_same]; cases second <;> split <;> exact h
  case missSet => simp only [setPC_same]; rfl
  case pickLost cl t c p r hp ht _ hle _ => simp only [setPC_same]; exact ⟨_, ht, hle⟩
  case lostFound cl t c p r d hp ht _ _ => simp only [setPC_same]; exact ⟨_, ht⟩
  case lostSetLate => simp only [setPC_same]; rfl
  case rangeAdv => simp only [setPC_same]; split <;> trivial
  all_goals (simp only [setPC_same]; trivial)

theorem Steps.shape {s s' : CSt} (st : Steps Pk s s') (h : ∀ g, Shape (s.pc g)) : ∀ g, Shape (s'.pc g) := by
  induction st with
  | refl => exact h
  | @step _ _ u _ st ih =>
    intro g
    by_cases e : g = u
    · subst e; exact st.shape (ih g)
    · rw [st.others e]; exact ih g

/-- There is a bucket from the smallest boundary on. -/
def Bottom (l : List Entry) : Prop := ∃ d ∈ l, d.dummy = true ∧ d.rev = 0

theorem Bottom.ext {l l' : List Entry} (h : Ext l l') (hb : Bottom l) : Bottom l' := by
  obtain ⟨d, hd, h1, h2⟩ := hb
  obtain ⟨y, hy, hs⟩ := h.mem hd
  exact ⟨y, hy, hs.2.2.2.1.trans h1, hs.2.1.trans h2⟩

theorem bestBelow_isSome {ok : U64 → Bool} {l : List Entry} (h : ∃ d ∈ l, d.dummy = true ∧ ok d.rev = true) : ∃ d, bestBelow ok l = some d := by
  induction l with
  | nil => simp at h
  | cons e es ih =>
    unfold bestBelow
    cases hb : bestBelow ok es with
    | some d => simp only []; split <;> exact ⟨_, rfl⟩
    | none =>
      obtain ⟨d, hd, h1, h2⟩ := h
      simp only []
      rcases List.mem_cons.1 hd with rfl | hd
      · rw [h1, h2]; exact ⟨_, rfl⟩
      · obtain ⟨d', hd'⟩ := ih ⟨d, hd, h1, h2⟩
        rw [hb] at hd'; cases hd'

theorem zero_le_u64 (t : U64) : (0 : U64) ≤ t := by bv_omega
theorem zero_lt_u64 {t : U64} (h : t ≠ 0) : (0 : U64) < t := by bv_omega

theorem pkBucket_isSome (m : Mode) {l : List Entry} (hb : Bottom l) {cl : Call}
    (h : (∃ tc, cl.target = some tc) ∨ ∃ t p, cl = .split t p ∧ t ≠ 0) : ∃ b, pkBucket m l cl = some b := by
  obtain ⟨d, hd, h1, h2⟩ := hb
  rcases h with ⟨tc, h⟩ | ⟨t, p, rfl, h⟩
  · cases cl <;> simp [Call.target] at h
    case get t c =>
      obtain ⟨x, hx⟩ := bestBelow_isSome (ok := fun r => decide (r ≤ t)) ⟨d, hd, h1, by rw [h2]; simpa using zero_le_u64 t⟩
      simp only [pkBucket, hx]
      split <;> exact ⟨_, rfl⟩
    case set t c key v =>
      obtain ⟨x, hx⟩ := bestBelow_isSome (ok := fun r => decide (r ≤ t)) ⟨d, hd, h1, by rw [h2]; simpa using zero_le_u64 t⟩
      simp only [pkBucket, hx]; exact ⟨_, rfl⟩
    case del t c =>
      obtain ⟨x, hx⟩ := bestBelow_isSome (ok := fun r => decide (r ≤ t)) ⟨d, hd, h1, by rw [h2]; simpa using zero_le_u64 t⟩
      simp only [pkBucket, hx]; exact ⟨_, rfl⟩
  · obtain ⟨x, hx⟩ := bestBelow_isSome (ok := fun r => decide (r < t)) ⟨d, hd, h1, by rw [h2]; simpa using zero_lt_u64 h⟩
    simp only [pkBucket, hx]; exact ⟨_, rfl⟩

/-- A call in progress. -/
def Busy : PC → Prop
  | .idle => False
  | .ret _ => False
  | .pick (.split t _) => t ≠ 0
  | _ => True

/-- A goroutine with a call in progress can take a step. -/
theorem can_step (m : Mode) {s : CSt} {g : Tid} (j : J0 s) (hs : Shape (s.pc g)) (hb : Bottom s.items) (h : Busy (s.pc g)) :
    ∃ s', Step (pkExact m) s g s' := by
  have hc := j.cur g
  have hd : ∃ x, s.items.head? = some x := by
    obtain ⟨d, hd, _⟩ := hb
    cases hi : s.items with
    | nil => rw [hi] at hd; simp at hd
    | cons a l => exact ⟨a, rfl⟩
  cases hp : s.pc g <;> rw [hp] at hs h hc
  case idle => exact h.elim
  case ret => exact h.elim
  case pick cl =>
    have hcl : (∃ tc, cl.target = some tc) ∨ ∃ t p, cl = .split t p ∧ t ≠ 0 := by
      rcases hs with hs | ⟨t, p, rfl⟩
      · exact .inl hs
      · exact .inr ⟨t, p, rfl, h⟩
    obtain ⟨b, hbk⟩ := pkBucket_isSome m hb hcl
    rcases hs with ⟨⟨t, c⟩, ht⟩ | ⟨t, p, rfl⟩
    · obtain ⟨d, hd1, hd2, _⟩ := (pkExact_ok m).linked s cl b hbk
      obtain ⟨x, hx⟩ := node_mem (List.mem_map.2 ⟨d, hd1, hd2⟩ : b ∈ refs s.items)
      exact ⟨_, .pickKey _ _ _ _ _ _ _ hp ht hbk hx⟩
    · exact ⟨_, .pickSplit _ _ _ _ _ hp hbk⟩
  case look cl fwd b cur adv =>
    obtain ⟨⟨t, c⟩, ht⟩ := hs
    cases adv with
    | true => exact ⟨_, .lookAdv _ _ _ _ _ _ hp⟩
    | false =>
      obtain ⟨x, hx⟩ := node_mem (hc cur (by simp [PC.curs]))
      by_cases h3 : x.ignored = true ∨ (if fwd then x.rev < t else x.rev > t)
      · exact ⟨_, .lookCont _ _ _ _ _ _ _ _ _ hp ht hx h3⟩
      · simp only [not_or] at h3
        have hig : x.ignored = false := by simpa using h3.1
        by_cases h4 : x.rev = t
        · exact ⟨_, .lookHit _ _ _ _ _ _ _ _ _ hp ht hx hig h4⟩
        · refine ⟨_, .lookMiss _ _ _ _ _ _ _ _ _ hp ht hx hig ?_⟩
          have h5 := h3.2
          split
          · rename_i hf; subst hf; simp only [if_true] at h5; bv_omega
          · rename_i hf; rw [if_neg hf] at h5; bv_omega
  case lost cl p r =>
    obtain ⟨tc, ht, hle⟩ := hs
    by_cases heq : r = tc.1
    · exact ⟨_, .lostPanic _ _ _ tc.1 tc.2 _ _ hp ht heq⟩
    · have hlt : r < tc.1 := by bv_omega
      cases cl <;> simp [Call.target] at ht
      case get => subst ht; exact ⟨_, .lostGet _ _ _ _ _ _ hp hlt⟩
      case del => subst ht; exact ⟨_, .lostDel _ _ _ _ _ _ hp hlt⟩
      case set => subst ht; exact ⟨_, .lostSet _ _ _ _ _ _ _ _ hp hlt⟩
  case hit cl r =>
    obtain ⟨tc, ht⟩ := hs
    obtain ⟨x, hx⟩ := node_mem (hc r (by simp [PC.curs]))
    cases cl <;> simp [Call.target] at ht
    case get => exact ⟨_, .hitGet _ _ _ _ _ _ hp hx⟩
    case del => exact ⟨_, .hitDel _ _ _ _ _ hp⟩
    case set t c key v =>
      cases hv : setValue .sample x.val v with
      | error p => exact ⟨_, .hitSetPanic _ _ _ _ _ _ _ _ _ hp hx hv⟩
      | ok a => exact ⟨_, .hitSet _ _ _ _ _ _ _ _ a.1 a.2 hp hx hv⟩
  case miss cl b =>
    obtain ⟨tc, ht⟩ := hs
    cases cl <;> simp [Call.target] at ht
    case get => exact ⟨_, .missGet _ _ _ _ _ hp⟩
    case del => exact ⟨_, .missDel _ _ _ _ _ hp⟩
    case set => exact ⟨_, .missSet _ _ _ _ _ _ _ hp⟩
  case fOpt second e b start => exact ⟨_, .findOpt _ _ _ _ _ _ hp⟩
  case fLoop second e b prev cur adv =>
    cases adv with
    | true => exact ⟨_, .findAdv _ _ _ _ _ _ _ hp⟩
    | false =>
      obtain ⟨x, hx⟩ := node_mem (hc cur (by simp [PC.curs]))
      cases hst : stops second e x s.opt with
      | true => exact ⟨_, .findStop _ _ _ _ _ _ _ _ hp hx hst⟩
      | false => exact ⟨_, .findCont _ _ _ _ _ _ _ _ hp hx hst⟩
  case fEnd second e b prev res =>
    cases second with
    | true => exact ⟨_, .findEnd2 _ _ _ _ _ _ hp⟩
    | false =>
      cases b with
      | none => simp [Shape] at hs
      | some b => exact ⟨_, .findEnd1 _ _ _ _ _ _ hp⟩
  case start2 e b res => exact ⟨_, .start2 _ _ _ _ _ hp⟩
  case target e b res =>
    cases res with
    | some r => exact ⟨_, .targetPos _ _ _ _ _ hp⟩
    | none =>
      obtain ⟨x, hx⟩ := hd
      have hxm : x ∈ s.items := List.mem_of_head? hx
      obtain ⟨y, hy⟩ := node_mem (List.mem_map.2 ⟨x, hxm, rfl⟩ : x.ref ∈ refs s.items)
      have hf : ∃ r, fallback s.items x.ref b = some r := by
        cases b with
        | none =>
          have : s.items ≠ [] := by intro e; rw [e] at hxm; simp at hxm
          simp [fallback, List.getLast?_eq_some_getLast this]
        | some hd' =>
          obtain ⟨d, post, _, hf, _⟩ := split_at hd' s.items (hc hd' (by simp [PC.curs]))
          simp only [fallback, hf]; exact ⟨_, rfl⟩
      obtain ⟨r, hr⟩ := hf
      exact ⟨_, .targetFall _ _ _ _ x.ref r hp (by rw [hy]; rfl) hr⟩
  case check e r =>
    cases hk : checkOk s.items e r with
    | true => exact ⟨_, .checkOk _ _ _ _ hp hk⟩
    | false => exact ⟨_, .checkFail _ _ _ _ hp hk⟩
  case link e r => exact ⟨_, .link _ _ _ _ hp⟩
  case walk cur seen adv =>
    cases adv with
    | true => exact ⟨_, .rangeAdv _ _ _ _ hp⟩
    | false =>
      obtain ⟨x, hx⟩ := node_mem (hc cur (by simp [PC.curs]))
      exact ⟨_, .rangeSee _ _ _ _ _ hp hx⟩
  case foreign prev => exact ⟨_, .foreignEnd _ _ _ hp⟩

/-- After its first step a call stays in progress until it returns. -/
theorem Step.busy {s s' : CSt} {g : Tid} (st : Step Pk s g s') (h : Busy (s.pc g)) : Busy (s'.pc g) ∨ ∃ r, s'.pc g = .ret r := by
  cases st
  case begin hp _ => rw [hp] at h; exact h.elim
  case beginSplit hp _ => rw [hp] at h; exact h.elim
  case rangeStart hp _ => rw [hp] at h; exact h.elim
  case foreignOpt hp => rw [hp] at h; exact h.elim
  case lookHit => simp only [setPC_same]; split <;> exact .inl trivial
  case lookAdv => simp only [setPC_same]; split <;> exact .inl trivial
  case findAdv => simp only [setPC_same]; split <;> exact .inl trivial
  case rangeAdv => simp only [setPC_same]; split; exacts [.inl trivial, .inr ⟨_, rfl⟩]
  all_goals (simp only [setPC_same]; first | exact .inr ⟨_, rfl⟩ | exact .inl trivial)

theorem Solo.steps {g : Tid} {a b : CSt} (h : Solo Pk g a b) : Steps Pk a b := by
  induction h with
  | refl => exact .refl _
  | step _ h ih => exact .step ih h

theorem Solo.head {g : Tid} {a b c : CSt} (h : Step Pk a g b) (h' : Solo Pk g b c) : Solo Pk g a c := by
  induction h' with
  | refl => exact .step (.refl _) h
  | step _ h2 ih => exact .step ih h2

/-- On its own a call comes to its end. -/
theorem solo_ends (m : Mode) {g : Tid} (n : Nat) {s : CSt} (hn : mu s.items (s.pc g) ≤ n) (j : J0 s) (hs : ∀ g, Shape (s.pc g))
    (hb : Bottom s.items) (h : Busy (s.pc g)) : ∃ s' r, Solo (pkExact m) g s s' ∧ s'.pc g = .ret r := by
  induction n generalizing s with
  | zero =>
    obtain ⟨s1, st⟩ := can_step m j (hs g) hb h
    have := mu_own j st
    omega
  | succ n ih =>
    obtain ⟨s1, st⟩ := can_step m j (hs g) hb h
    have h1 := mu_own j st
    rcases st.busy h with h2 | ⟨r, h2⟩
    · obtain ⟨s', r, h3, h4⟩ := ih (by omega) (st.j0 (pkExact_ok m) j) (Steps.shape (.step (.refl _) st) hs) (hb.ext st.ext) h2
      exact ⟨s', r, Solo.head st h3, h4⟩
    · exact ⟨s1, r, .step (.refl _) st, h2⟩

end SLM.Conc
