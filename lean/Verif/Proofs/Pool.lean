import Verif.Model.Pool
/-! Invariants and schedules of the pool machine of Model/Pool.lean. -/
set_option autoImplicit false
namespace SLM.Pool

@[simp] theorem setPC_pc_self (s : CSt) (t : Tid) (c : PC) : (setPC s t c).pc t = c := by simp [setPC]
theorem setPC_pc (s : CSt) (t u : Tid) (c : PC) : (setPC s t c).pc u = if u = t then c else s.pc u := rfl
theorem setPC_pc_ne (s : CSt) (t u : Tid) (c : PC) (h : u ≠ t) : (setPC s t c).pc u = s.pc u := by simp [setPC, h]
@[simp] theorem setPC_pools (s : CSt) (t : Tid) (c : PC) : (setPC s t c).pools = s.pools := rfl
@[simp] theorem setPC_count (s : CSt) (t : Tid) (c : PC) : (setPC s t c).count = s.count := rfl
@[simp] theorem setPC_cur (s : CSt) (t : Tid) (c : PC) : (setPC s t c).cur = s.cur := rfl
@[simp] theorem setPC_arrs (s : CSt) (t : Tid) (c : PC) : (setPC s t c).arrs = s.arrs := rfl
@[simp] theorem setPC_log (s : CSt) (t : Tid) (c : PC) : (setPC s t c).log = s.log := rfl
@[simp] theorem setPool_self (s : CSt) (p : Nat) (o : PoolObj) : (setPool s p o).pools p = o := by simp [setPool]
theorem setPool_ne (s : CSt) (p q : Nat) (o : PoolObj) (h : q ≠ p) : (setPool s p o).pools q = s.pools q := by simp [setPool, h]
@[simp] theorem setPool_pc (s : CSt) (p : Nat) (o : PoolObj) : (setPool s p o).pc = s.pc := rfl
@[simp] theorem setPool_count (s : CSt) (p : Nat) (o : PoolObj) : (setPool s p o).count = s.count := rfl
@[simp] theorem setPool_cur (s : CSt) (p : Nat) (o : PoolObj) : (setPool s p o).cur = s.cur := rfl
@[simp] theorem setPool_arrs (s : CSt) (p : Nat) (o : PoolObj) : (setPool s p o).arrs = s.arrs := rfl
@[simp] theorem setPool_log (s : CSt) (p : Nat) (o : PoolObj) : (setPool s p o).log = s.log := rfl

theorem Steps.trans {a b c : CSt} (h1 : Steps a b) (h2 : Steps b c) : Steps a c := by
  induction h2 with
  | refl => exact h1
  | step _ hs ih => exact Steps.step ih hs

theorem Steps.one {a b : CSt} {t : Tid} (h : Step a t b) : Steps a b := Steps.step (Steps.refl a) h

/-- The pool object a program point works on. -/
def PC.pool : PC → Option Nat
  | .start p | .ini p | .check p | .readLen p | .lock p _ | .cas p _ _ | .at p _ _ | .expand p | .got p _ _ _ => some p
  | .idle | .crashed => none

/-- Invariant of every schedule that starts with an initialised pool. -/
structure Inv (s : CSt) : Prop where
  cur_lt : s.cur < s.count
  inited : ∀ p, p < s.count → (s.pools p).inited = true
  arr_lt : ∀ p, p < s.count → (s.pools p).arr < s.arrs
  arr_inj : ∀ p q, p < s.count → q < s.count → (s.pools p).arr = (s.pools q).arr → p = q
  len_nn : ∀ p, p < s.count → 0 ≤ (s.pools p).len
  pc_lt : ∀ t p, (s.pc t).pool = some p → p < s.count
  no_ini : ∀ t p, s.pc t ≠ .ini p
  read_nn : ∀ t p i h, (s.pc t = .at p i h ∨ s.pc t = .cas p i h ∨ s.pc t = .lock p i) → 0 ≤ i
  at_lt : ∀ t p i h, s.pc t = .at p i h → i < (s.pools p).len
  at_inj : ∀ t u p i h h', s.pc t = .at p i h → s.pc u = .at p i h' → t = u
  at_fresh : ∀ t p i h, s.pc t = .at p i h → ∀ e ∈ s.log, e.2 ≠ ((s.pools p).arr, i)
  log_ok : ∀ e ∈ s.log, ∃ p, p < s.count ∧ (s.pools p).arr = e.2.1 ∧ 0 ≤ e.2.2 ∧ e.2.2 < (s.pools p).len ∧ e.2.2 < (s.pools p).cap
  log_nd : (s.log.map (·.2)).Nodup

theorem Inv.warm : Inv warm := by
  constructor <;> simp [SLM.Pool.warm, PC.pool]

/-- Changing only one goroutine's program point. -/
theorem Inv.setPC {s : CSt} (I : Inv s) (t : Tid) (c : PC) (hp : ∀ p, c.pool = some p → p < s.count)
    (hi : ∀ p, c ≠ .ini p) (ha : ∀ p i h, c ≠ .at p i h)
    (hn : ∀ p i h, (c = .cas p i h ∨ c = .lock p i) → 0 ≤ i) : Inv (setPC s t c) := by
  have key : ∀ u, (SLM.Pool.setPC s t c).pc u = if u = t then c else s.pc u := fun u => rfl
  constructor <;> simp only [setPC_pools, setPC_count, setPC_cur, setPC_arrs, setPC_log, key]
  · exact I.cur_lt
  · exact I.inited
  · exact I.arr_lt
  · exact I.arr_inj
  · exact I.len_nn
  · intro u p h; split at h
    · exact hp p h
    · exact I.pc_lt u p h
  · intro u p; split
    · exact hi p
    · exact I.no_ini u p
  · intro u p i h hh; split at hh
    · rcases hh with hh | hh
      · exact absurd hh (ha p i h)
      · exact hn p i h hh
    · exact I.read_nn u p i h hh
  · intro u p i h hh; split at hh
    · exact absurd hh (ha p i h)
    · exact I.at_lt u p i h hh
  · intro u v p i h h' hu hv; split at hu
    · exact absurd hu (ha p i h)
    · split at hv
      · exact absurd hv (ha p i h')
      · exact I.at_inj u v p i h h' hu hv
  · intro u p i h hh; split at hh
    · exact absurd hh (ha p i h)
    · exact I.at_fresh u p i h hh
  · exact I.log_ok
  · exact I.log_nd

/-- Changing only the owner of a lock. -/
theorem Inv.owner {s : CSt} (I : Inv s) (p : Nat) (o : Option Tid) :
    Inv (setPool s p { s.pools p with owner := o }) := by
  have key : ∀ q, ((setPool s p { s.pools p with owner := o }).pools q).inited = (s.pools q).inited ∧
      ((setPool s p { s.pools p with owner := o }).pools q).arr = (s.pools q).arr ∧
      ((setPool s p { s.pools p with owner := o }).pools q).len = (s.pools q).len ∧
      ((setPool s p { s.pools p with owner := o }).pools q).cap = (s.pools q).cap := by
    intro q; by_cases h : q = p
    · subst h; simp
    · simp [setPool_ne _ _ _ _ h]
  have k1 := fun q => (key q).1
  have k2 := fun q => (key q).2.1
  have k3 := fun q => (key q).2.2.1
  have k4 := fun q => (key q).2.2.2
  obtain ⟨a1, a2, a3, a4, a5, a6, a7, a8, a9, a10, a11, a12, a13⟩ := I
  constructor <;> simp only [k1, k2, k3, k4, setPool_count, setPool_cur, setPool_arrs, setPool_log, setPool_pc] <;> assumption

theorem Inv.step {s s' : CSt} {t : Tid} (I : Inv s) (h : Step s t s') : Inv s' := by
  cases h with
  | enter h => exact I.setPC t _ (by simp [PC.pool]; exact I.cur_lt) (by simp) (by simp) (by simp)
  | startInit p h hi =>
    have := I.inited p (I.pc_lt t p (by rw [h]; rfl)); rw [this] at hi; cases hi
  | startReady p h hi =>
    exact I.setPC t _ (by simp [PC.pool]; exact I.pc_lt t p (by rw [h]; rfl)) (by simp) (by simp) (by simp)
  | doInit p h => exact absurd h (I.no_ini t p)
  | full p h _ => exact I.setPC t _ (by simp [PC.pool]; exact I.pc_lt t p (by rw [h]; rfl)) (by simp) (by simp) (by simp)
  | notFull p h _ => exact I.setPC t _ (by simp [PC.pool]; exact I.pc_lt t p (by rw [h]; rfl)) (by simp) (by simp) (by simp)
  | readLast p h _ =>
    have hp := I.pc_lt t p (by rw [h]; rfl)
    exact I.setPC t _ (by simp [PC.pool]; exact hp) (by simp) (by simp)
      (by intro q i b hh; rcases hh with hh | hh <;> simp at hh; rw [← hh.2]; exact I.len_nn p hp)
  | readMid p h _ =>
    have hp := I.pc_lt t p (by rw [h]; rfl)
    exact I.setPC t _ (by simp [PC.pool]; exact hp) (by simp) (by simp)
      (by intro q i b hh; rcases hh with hh | hh <;> simp at hh; rw [← hh.2.1]; exact I.len_nn p hp)
  | lockOk p i h _ _ =>
    have hp := I.pc_lt t p (by rw [h]; rfl)
    have hn := I.read_nn t p i true (Or.inr (Or.inr h))
    exact (I.owner p (some t)).setPC t _ (by simp [PC.pool]; exact hp) (by simp) (by simp)
      (by intro q j b hh; rcases hh with hh | hh <;> simp at hh; rw [← hh.2.1]; exact hn)
  | lockRetry p i h _ _ => exact I.setPC t _ (by simp [PC.pool]; exact I.pc_lt t p (by rw [h]; rfl)) (by simp) (by simp) (by simp)
  | casFail p i b h _ => exact I.setPC t _ (by simp [PC.pool]; exact I.pc_lt t p (by rw [h]; rfl)) (by simp) (by simp) (by simp)
  | atNil p i b h _ => exact I.setPC t _ (by simp [PC.pool]) (by simp) (by simp) (by simp)
  | expandCrash p h _ _ => exact I.setPC t _ (by simp [PC.pool]) (by simp) (by simp) (by simp)
  | finish p a i b h =>
    cases b with
    | false => exact I.setPC t _ (by simp [PC.pool]) (by simp) (by simp) (by simp)
    | true => exact (I.owner p none).setPC t _ (by simp [PC.pool]) (by simp) (by simp) (by simp)
  | casOk p i b h hl =>
    have hp := I.pc_lt t p (by rw [h]; rfl)
    have hn := I.read_nn t p i b (Or.inr (Or.inl h))
    have key : ∀ q, ((setPool s p { s.pools p with len := i + 1 }).pools q).inited = (s.pools q).inited ∧
      ((setPool s p { s.pools p with len := i + 1 }).pools q).arr = (s.pools q).arr ∧
      ((setPool s p { s.pools p with len := i + 1 }).pools q).len = (if q = p then i + 1 else (s.pools q).len) ∧
      ((setPool s p { s.pools p with len := i + 1 }).pools q).cap = (s.pools q).cap := by
      intro q; by_cases h : q = p
      · subst h; simp
      · simp [setPool_ne _ _ _ _ h, h]
    have k1 := fun q => (key q).1
    have k2 := fun q => (key q).2.1
    have k3 := fun q => (key q).2.2.1
    have k4 := fun q => (key q).2.2.2
    have kp : ∀ u, (SLM.Pool.setPC (setPool s p { s.pools p with len := i + 1 }) t (.at p i b)).pc u
        = if u = t then .at p i b else s.pc u := fun u => rfl
    have nolog : ∀ e ∈ s.log, e.2 ≠ ((s.pools p).arr, i) := by
      intro e he hc
      obtain ⟨q, hq, ha, _, hlt, _⟩ := I.log_ok e he
      rw [hc] at ha hlt
      have : q = p := I.arr_inj q p hq hp ha
      subst this; simp at hlt; omega
    constructor <;> simp only [setPC_pools, setPC_count, setPC_cur, setPC_arrs, setPC_log, k1, k2, k3, k4, kp,
        setPool_count, setPool_cur, setPool_arrs, setPool_log]
    · exact I.cur_lt
    · exact I.inited
    · exact I.arr_lt
    · exact I.arr_inj
    · intro q hq; split
      · omega
      · exact I.len_nn q hq
    · intro u q hh; split at hh
      · simp [PC.pool] at hh; omega
      · exact I.pc_lt u q hh
    · intro u q; split
      · simp
      · exact I.no_ini u q
    · intro u q j b' hh; split at hh
      · simp at hh; omega
      · exact I.read_nn u q j b' hh
    · intro u q j b' hh; split at hh
      · simp at hh; rw [if_pos hh.1.symm]; omega
      · have := I.at_lt u q j b' hh
        split
        · subst q; omega
        · exact this
    · intro u v q j b1 b2 hu hv
      split at hu <;> split at hv
      · rename_i e1 e2; exact e1.trans e2.symm
      · simp at hu; obtain ⟨rfl, rfl, _⟩ := hu
        have := I.at_lt v p i b2 hv; omega
      · simp at hv; obtain ⟨rfl, rfl, _⟩ := hv
        have := I.at_lt u p i b1 hu; omega
      · exact I.at_inj u v q j b1 b2 hu hv
    · intro u q j b' hh; split at hh
      · simp at hh; obtain ⟨rfl, rfl, _⟩ := hh; exact nolog
      · exact I.at_fresh u q j b' hh
    · intro e he
      obtain ⟨q, hq, ha, h0, hlt, hc⟩ := I.log_ok e he
      refine ⟨q, hq, ha, h0, ?_, hc⟩
      split
      · subst q; omega
      · exact hlt
    · exact I.log_nd
  | atOk p i b h hl hc =>
    have hp := I.pc_lt t p (by rw [h]; rfl)
    have hn := I.read_nn t p i b (Or.inl h)
    have kp : ∀ u, (SLM.Pool.setPC s t (.got p (s.pools p).arr i b)).pc u
        = if u = t then .got p (s.pools p).arr i b else s.pc u := fun u => rfl
    constructor <;> simp only [setPC_pools, setPC_count, setPC_cur, setPC_arrs, kp]
    · exact I.cur_lt
    · exact I.inited
    · exact I.arr_lt
    · exact I.arr_inj
    · exact I.len_nn
    · intro u q hh; split at hh
      · simp [PC.pool] at hh; omega
      · exact I.pc_lt u q hh
    · intro u q; split
      · simp
      · exact I.no_ini u q
    · intro u q j b' hh; split at hh
      · simp at hh
      · exact I.read_nn u q j b' hh
    · intro u q j b' hh; split at hh
      · simp at hh
      · exact I.at_lt u q j b' hh
    · intro u v q j b1 b2 hu hv
      split at hu
      · simp at hu
      · split at hv
        · simp at hv
        · exact I.at_inj u v q j b1 b2 hu hv
    · intro u q j b' hh; split at hh
      · simp at hh
      · rename_i hne
        intro e he
        rcases List.mem_cons.mp he with rfl | he
        · intro hc'
          simp at hc'
          have hq := I.pc_lt u q (by rw [hh]; rfl)
          have : p = q := I.arr_inj p q hp hq hc'.1
          subst this
          obtain ⟨_, rfl⟩ := hc'
          exact hne (I.at_inj u t p i b' b hh h)
        · exact I.at_fresh u q j b' hh e he
    · intro e he
      rcases List.mem_cons.mp he with rfl | he
      · exact ⟨p, hp, rfl, hn, hl, hc⟩
      · exact I.log_ok e he
    · simp only [List.map_cons, List.nodup_cons]
      refine ⟨?_, I.log_nd⟩
      intro hm
      obtain ⟨e, he, h2⟩ := List.mem_map.mp hm
      exact I.at_fresh t p i b h e he h2
  | expandOk p h ho =>
    have hp := I.pc_lt t p (by rw [h]; rfl)
    generalize hO : ({ inited := true, arr := s.arrs, len := (s.pools p).len, cap := poolCap (s.pools p).len, owner := none } : PoolObj) = O
    have key : ∀ q, (setPool s s.count O).pools q = if q = s.count then O else s.pools q := fun q => rfl
    have o1 : O.inited = true := by rw [← hO]
    have o2 : O.arr = s.arrs := by rw [← hO]
    have o3 : O.len = (s.pools p).len := by rw [← hO]
    have old : ∀ u q, (s.pc u).pool = some q → q ≠ s.count := by
      intro u q hh; have := I.pc_lt u q hh; omega
    constructor <;> simp only [setPC_pools, setPC_count, setPC_cur, setPC_arrs, setPC_log, key, setPC_pc, setPool_pc, setPool_log]
    · omega
    · intro q hq; split
      · exact o1
      · exact I.inited q (by omega)
    · intro q hq; split
      · omega
      · have := I.arr_lt q (by omega); omega
    · intro q r hq hr hh
      split at hh <;> split at hh
      · omega
      · have := I.arr_lt r (by omega); omega
      · have := I.arr_lt q (by omega); omega
      · exact I.arr_inj q r (by omega) (by omega) hh
    · intro q hq; split
      · rw [o3]; exact I.len_nn p hp
      · exact I.len_nn q (by omega)
    · intro u q hh; split at hh
      · simp [PC.pool] at hh; omega
      · have := I.pc_lt u q hh; omega
    · intro u q; split
      · simp
      · exact I.no_ini u q
    · intro u q j b' hh; split at hh
      · simp at hh
      · exact I.read_nn u q j b' hh
    · intro u q j b' hh; split at hh
      · simp at hh
      · rw [if_neg (old u q (by rw [hh]; rfl))]; exact I.at_lt u q j b' hh
    · intro u v q j b1 b2 hu hv
      split at hu
      · simp at hu
      · split at hv
        · simp at hv
        · exact I.at_inj u v q j b1 b2 hu hv
    · intro u q j b' hh; split at hh
      · simp at hh
      · rw [if_neg (old u q (by rw [hh]; rfl))]; exact I.at_fresh u q j b' hh
    · intro e he
      obtain ⟨q, hq, ha, h0, hlt, hc⟩ := I.log_ok e he
      have : q ≠ s.count := by omega
      exact ⟨q, by omega, by rw [if_neg this]; exact ha, h0, by rw [if_neg this]; exact hlt, by rw [if_neg this]; exact hc⟩
    · exact I.log_nd

theorem Inv.steps {s s' : CSt} (I : Inv s) (h : Steps s s') : Inv s' := by
  induction h with
  | refl => exact I
  | step _ hs ih => exact ih.step hs

/-- One step of goroutine `t`, as a function (no step: blocked, crashed or nothing to do). -/
def next (s : CSt) (t : Tid) : Option CSt :=
  match s.pc t with
  | .idle => some (setPC s t (.start s.cur))
  | .start p => if (s.pools p).inited = false then some (setPC s t (.ini p)) else some (setPC s t (.check p))
  | .ini p => some (setPC { setPool s p { s.pools p with inited := true, arr := s.arrs, len := 0, cap := 64 } with arrs := s.arrs + 1 }
        t (.check p))
  | .check p => if (s.pools p).cap ≤ (s.pools p).len then some (setPC s t (.expand p)) else some (setPC s t (.readLen p))
  | .readLen p => if (s.pools p).len + 1 = (s.pools p).cap then some (setPC s t (.lock p (s.pools p).len))
      else some (setPC s t (.cas p (s.pools p).len false))
  | .lock p i => if (s.pools p).owner = none then
      (if i + 1 = (s.pools p).cap then some (setPC (setPool s p { s.pools p with owner := some t }) t (.cas p i true))
       else some (setPC s t (.start p))) else none
  | .cas p i h => if (s.pools p).len = i then some (setPC (setPool s p { s.pools p with len := i + 1 }) t (.at p i h))
      else some (setPC s t (.start p))
  | .at p i h => if i < (s.pools p).len ∧ i < (s.pools p).cap then
        some { setPC s t (.got p (s.pools p).arr i h) with log := (t, (s.pools p).arr, i) :: s.log }
      else some (setPC s t .crashed)
  | .expand p => if (s.pools p).owner = none then some
      (setPC { setPool s s.count { inited := true, arr := s.arrs, len := (s.pools p).len, cap := poolCap (s.pools p).len, owner := none }
        with count := s.count + 1, cur := s.count, arrs := s.arrs + 1 } t (.start s.count)) else none
  | .got p _ _ h => some (setPC (if h then setPool s p { s.pools p with owner := none } else s) t .idle)
  | .crashed => none

theorem next_step (s s' : CSt) (t : Tid) (h : next s t = some s') : Step s t s' := by
  unfold next at h
  split at h <;> rename_i hpc
  · cases h; exact Step.enter s t hpc
  · split at h <;> cases h
    · exact Step.startInit s t _ hpc (by assumption)
    · exact Step.startReady s t _ hpc (by rename_i hc; simpa using hc)
  · cases h; exact Step.doInit s t _ hpc
  · split at h <;> cases h
    · exact Step.full s t _ hpc (by assumption)
    · exact Step.notFull s t _ hpc (by assumption)
  · split at h <;> cases h
    · exact Step.readLast s t _ hpc (by assumption)
    · exact Step.readMid s t _ hpc (by assumption)
  · split at h
    · split at h <;> cases h
      · exact Step.lockOk s t _ _ hpc (by assumption) (by assumption)
      · exact Step.lockRetry s t _ _ hpc (by assumption) (by assumption)
    · cases h
  · split at h <;> cases h
    · exact Step.casOk s t _ _ _ hpc (by assumption)
    · exact Step.casFail s t _ _ _ hpc (by assumption)
  · split at h <;> rename_i hc <;> cases h
    · exact Step.atOk s t _ _ _ hpc hc.1 hc.2
    · exact Step.atNil s t _ _ _ hpc (by omega)
  · split at h
    · cases h; exact Step.expandOk s t _ hpc (by assumption)
    · cases h
  · cases h; exact Step.finish s t _ _ _ _ hpc
  · cases h

theorem next_other (s s' : CSt) (t u : Tid) (hu : u ≠ t) (h : next s t = some s') : s'.pc u = s.pc u := by
  have := next_step s s' t h
  cases this <;> first
    | exact setPC_pc_ne _ _ _ _ hu
    | (rename_i b hpc; cases b <;> exact setPC_pc_ne _ _ _ _ hu)

def exec (s : CSt) : List Tid → Option CSt
  | [] => some s
  | t :: ts => (next s t).bind (fun s1 => exec s1 ts)

theorem exec_steps (s s' : CSt) (ts : List Tid) (h : exec s ts = some s') : Steps s s' := by
  induction ts generalizing s with
  | nil => simp [exec] at h; subst h; exact Steps.refl s
  | cons t ts ih =>
    simp only [exec] at h
    cases hn : next s t with
    | none => simp [hn] at h
    | some s1 => rw [hn] at h; exact (Steps.one (next_step s s1 t hn)).trans (ih s1 h)


end SLM.Pool
