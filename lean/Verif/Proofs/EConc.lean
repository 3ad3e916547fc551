import Verif.Model.EConc
import Verif.Proofs.EmbPool
/-! The embedded concurrent machine: its moves as rules, and the lock. -/
set_option autoImplicit false
namespace SLM.EConc
open Emb (Slot Pool)

/-- The moves of `step`, one rule each: goroutine `t` goes to `p` and the shared part of the state becomes that of `s1`. -/
inductive Mv (ch : Choice) (s : St) (t : Tid) : St → PC → Prop
  | found_upd {cl a i} (hp : s.pc t = .look cl) (hi : ch.item = some (a, i))
      (hc : (∃ r c v, cl = .set r c v) ∨ (∃ r c, cl = .purge r c)) : Mv ch s t s (.lockUpd cl a i)
  | found_get {r c a i} (hp : s.pc t = .look (.get r c)) (hi : ch.item = some (a, i)) : Mv ch s t s (.getV (.get r c) a i)
  | found_del {r c a i} (hp : s.pc t = .look (.del r c)) (hi : ch.item = some (a, i)) : Mv ch s t s (.mark (.del r c) a i)
  | miss_set {r c v} (hp : s.pc t = .look (.set r c v)) (hi : ch.item = none) :
      Mv ch s t s (.gw { r := r, c := c, v := v, mu := true, ov := none })
  | miss {cl res} (hp : s.pc t = .look cl) (hi : ch.item = none)
      (hc : (∃ r c, cl = .get r c ∧ res = .val none false) ∨ (∃ r c, (cl = .del r c ∨ cl = .purge r c) ∧ res = .bool false)) :
      Mv ch s t s (.done res)
  | busy {cl a i} (hp : s.pc t = .lockUpd cl a i) (hl : s.lock = true) : Mv ch s t s (.look cl)
  | lockUpd {cl a i} (hp : s.pc t = .lockUpd cl a i) (hl : s.lock = false) : Mv ch s t (acquire s t) (.upd cl a i)
  | upd {r c v a i} (hp : s.pc t = .upd (.set r c v) a i) :
      Mv ch s t (setSlot s a i { slotOf s a i with val := v }) (.ret true (.bool true))
  | purgeLast {cl a i} (hp : s.pc t = .upd cl a i) (hc : ∀ r c v, cl ≠ .set r c v) (ha : a = s.cur) (hi : i + 1 = s.len) :
      Mv ch s t { setSlot s a i { slotOf s a i with deleted := true } with
        len := ({ arr := (setSlot s a i { slotOf s a i with deleted := true }).arrs s.cur, len := (s.len : Int) - 1 } : Pool).shrinkLen.len.toNat }
        (.ret true (.bool true))
  | purge {cl a i} (hp : s.pc t = .upd cl a i) (hc : ∀ r c v, cl ≠ .set r c v) (ha : ¬ (a = s.cur ∧ i + 1 = s.len)) :
      Mv ch s t (setSlot s a i { slotOf s a i with deleted := true }) (.ret true (.bool true))
  | getV {cl a i} (hp : s.pc t = .getV cl a i) : Mv ch s t s (.done (.val (slotOf s a i).val true))
  | mark {cl a i} (hp : s.pc t = .mark cl a i) :
      Mv ch s t (setSlot s a i { slotOf s a i with deleted := true }) (.done (.bool true))
  | gw {f} (hp : s.pc t = .gw f) : Mv ch s t s (.gw2 f (Emb.lastActive (s.arrs s.cur) s.len) s.len (cap s))
  | toApp {f tail l c} (hp : s.pc t = .gw2 f tail l c) (hv : ch.verdict = .append) : Mv ch s t s (.app f)
  | toExp {f tail l c} (hp : s.pc t = .gw2 f tail l c) (hv : ch.verdict = .expand) : Mv ch s t s (.exp f)
  | toFree {f tail l c} (hp : s.pc t = .gw2 f tail l c) (hv : ch.verdict = .free) : Mv ch s t s (.free f tail)
  | toIns {f tail l c} (hp : s.pc t = .gw2 f tail l c) (hv : ch.verdict = .insert) : Mv ch s t s (.ins f)
  | appLock {f} (hp : s.pc t = .app f) (hm : f.mu = true) (hl : s.lock = false) : Mv ch s t (acquire s t) (.app2 f)
  | appNil {f} (hp : s.pc t = .app f) (hm : f.mu = false) : Mv ch s t s (.app2 f)
  | appFull {f} (hp : s.pc t = .app2 f) (hc : cap s ≤ s.len) : Mv ch s t s (.gw f.inner)
  | app2 {f} (hp : s.pc t = .app2 f) (hc : s.len < cap s) :
      Mv ch s t { s with len := s.len + 1 } (.clR f (f.fn f.mu) s.cur s.len)
  | insLock {f} (hp : s.pc t = .ins f) (hm : f.mu = true) (hl : s.lock = false) : Mv ch s t (acquire s t) (.ins2 f)
  | insNil {f} (hp : s.pc t = .ins f) (hm : f.mu = false) : Mv ch s t s (.ins2 f)
  | insNone {f} (hp : s.pc t = .ins2 f) (hg : (pool s).firstGE f.r = none) : Mv ch s t s (.gw f.inner)
  | ins2 {f i} (hp : s.pc t = .ins2 f) (hg : (pool s).firstGE f.r = some i) :
      Mv ch s t { setArr s s.next ((pool s).insertAt i).arr with next := s.next + 1 } (.ins3 f s.next i)
  | ins3 {f n i} (hp : s.pc t = .ins3 f n i) : Mv ch s t { s with cur := n, len := s.len + 1 } (.clR f (f.fn true) n i)
  | expLock {f} (hp : s.pc t = .exp f) (hm : f.mu = true) (hl : s.lock = false) : Mv ch s t (acquire s t) (.exp2 f)
  | expNil {f} (hp : s.pc t = .exp f) (hm : f.mu = false) : Mv ch s t s (.exp2 f)
  | exp2 {f q} (hp : s.pc t = .exp2 f) (hq : (pool s).expand = .ok q) :
      Mv ch s t { setArr s s.next q.arr with next := s.next + 1 } (.exp3 f s.next)
  | exp3 {f n} (hp : s.pc t = .exp3 f n) : Mv ch s t { s with cur := n } (.gw { f with mu := false, ov := some (f.fn f.mu) })
  | freeBusy {f tail} (hp : s.pc t = .free f tail) (hm : f.mu = true) (hl : s.lock = true) : Mv ch s t s (.freeW f tail)
  | freeLock {f tail} (hp : s.pc t = .free f tail) (hm : f.mu = true) (hl : s.lock = false) :
      Mv ch s t (acquire s t) (.free2 f tail)
  | freeNil {f tail} (hp : s.pc t = .free f tail) (hm : f.mu = false) : Mv ch s t s (.free2 f tail)
  | freeW {f tail} (hp : s.pc t = .freeW f tail) (hl : s.lock = false) : Mv ch s t (acquire s t) (.freeW2 f tail)
  | freeW2 {f tail} (hp : s.pc t = .freeW2 f tail) : Mv ch s t (release s t) (.free2 f tail)
  | freeRetry {f tail} (hp : s.pc t = .free2 f tail) (hf : (pool s).findFree f.r tail = none) : Mv ch s t s (.gw f)
  | free2 {f tail i} (hp : s.pc t = .free2 f tail) (hf : (pool s).findFree f.r tail = some i) :
      Mv ch s t (setSlot s s.cur i { slotOf s s.cur i with rev := 0, conflict := 0, deleted := false })
        (.clR f (f.fn f.mu) s.cur i)
  | clR {f fn a i} (hp : s.pc t = .clR f fn a i) :
      Mv ch s t (setSlot s a i { slotOf s a i with rev := if (slotOf s a i).rev = 0 then f.r else (slotOf s a i).rev })
        (.clC f fn a i)
  | clC {f fn a i} (hp : s.pc t = .clC f fn a i) :
      Mv ch s t (setSlot s a i { slotOf s a i with
        conflict := if (slotOf s a i).conflict = 0 then f.c else (slotOf s a i).conflict }) (.wr f fn a i)
  | wr {f fn a i} (hp : s.pc t = .wr f fn a i) :
      Mv ch s t (setSlot s a i { slotOf s a i with val := f.v }) (.ret fn (.bool true))
  | retUnlock {res} (hp : s.pc t = .ret true res) : Mv ch s t (release s t) (.done res)
  | ret {res} (hp : s.pc t = .ret false res) : Mv ch s t s (.done res)

/-- `step` is described by the rules. -/
theorem step_mv {ch : Choice} {s s' : St} {t : Tid} (h : step ch s t = some s') :
    s.fatal = false ∧ ∃ s1 p, Mv ch s t s1 p ∧ s' = setPC s1 t p := by
  unfold step at h
  split at h
  · cases h
  rename_i hf
  refine ⟨by simpa using hf, ?_⟩
  split at h <;> rename_i hp
  · cases h
  · rename_i cl
    split at h <;> rename_i hi <;> cases h
    · exact ⟨_, _, .found_upd hp hi (.inl ⟨_, _, _, rfl⟩), rfl⟩
    · exact ⟨_, _, .found_upd hp hi (.inr ⟨_, _, rfl⟩), rfl⟩
    · exact ⟨_, _, .found_get hp hi, rfl⟩
    · exact ⟨_, _, .found_del hp hi, rfl⟩
    · exact ⟨_, _, .miss_set hp hi, rfl⟩
    · exact ⟨_, _, .miss hp hi (.inl ⟨_, _, rfl, rfl⟩), rfl⟩
    · exact ⟨_, _, .miss hp hi (.inr ⟨_, _, .inl rfl, rfl⟩), rfl⟩
    · exact ⟨_, _, .miss hp hi (.inr ⟨_, _, .inr rfl, rfl⟩), rfl⟩
  · split at h <;> rename_i hl <;> cases h
    · exact ⟨_, _, .busy hp hl, rfl⟩
    · exact ⟨_, _, .lockUpd hp (by simpa using hl), rfl⟩
  · split at h
    · cases h; exact ⟨_, _, .upd hp, rfl⟩
    · rename_i cl a i cl' hc
      simp only at h
      split at h <;> rename_i hl <;> cases h
      · exact ⟨_, _, .purgeLast hp hc hl.1 hl.2, rfl⟩
      · exact ⟨_, _, .purge hp hc hl, rfl⟩
  · cases h; exact ⟨_, _, .getV hp, rfl⟩
  · cases h; exact ⟨_, _, .mark hp, rfl⟩
  · cases h; exact ⟨_, _, .gw hp, rfl⟩
  · split at h <;> rename_i hv <;> cases h
    · exact ⟨_, _, .toApp hp hv, rfl⟩
    · exact ⟨_, _, .toExp hp hv, rfl⟩
    · exact ⟨_, _, .toFree hp hv, rfl⟩
    · exact ⟨_, _, .toIns hp hv, rfl⟩
  · unfold lockIf at h
    split at h
    · rename_i hm
      split at h
      · cases h
      · rename_i hl
        cases h; exact ⟨_, _, .appLock hp hm (by simpa using hl), rfl⟩
    · rename_i hm
      cases h; exact ⟨_, _, .appNil hp (by simpa using hm), rfl⟩
  · split at h <;> rename_i hc <;> cases h
    · exact ⟨_, _, .appFull hp hc, rfl⟩
    · exact ⟨_, _, .app2 hp (by omega), rfl⟩
  · unfold lockIf at h
    split at h
    · rename_i hm
      split at h
      · cases h
      · rename_i hl
        cases h; exact ⟨_, _, .insLock hp hm (by simpa using hl), rfl⟩
    · rename_i hm
      cases h; exact ⟨_, _, .insNil hp (by simpa using hm), rfl⟩
  · split at h <;> rename_i hc <;> cases h
    · exact ⟨_, _, .insNone hp hc, rfl⟩
    · exact ⟨_, _, .ins2 hp hc, rfl⟩
  · cases h; exact ⟨_, _, .ins3 hp, rfl⟩
  · unfold lockIf at h
    split at h
    · rename_i hm
      split at h
      · cases h
      · rename_i hl
        cases h; exact ⟨_, _, .expLock hp hm (by simpa using hl), rfl⟩
    · rename_i hm
      cases h; exact ⟨_, _, .expNil hp (by simpa using hm), rfl⟩
  · split at h <;> rename_i hc <;> cases h
    exact ⟨_, _, .exp2 hp hc, rfl⟩
  · cases h; exact ⟨_, _, .exp3 hp, rfl⟩
  · split at h <;> rename_i hm
    · split at h <;> rename_i hl <;> cases h
      · exact ⟨_, _, .freeBusy hp hm hl, rfl⟩
      · exact ⟨_, _, .freeLock hp hm (by simpa using hl), rfl⟩
    · cases h; exact ⟨_, _, .freeNil hp (by simpa using hm), rfl⟩
  · split at h <;> rename_i hl <;> cases h
    exact ⟨_, _, .freeW hp (by simpa using hl), rfl⟩
  · cases h; exact ⟨_, _, .freeW2 hp, rfl⟩
  · split at h <;> rename_i hc <;> cases h
    · exact ⟨_, _, .freeRetry hp hc, rfl⟩
    · exact ⟨_, _, .free2 hp hc, rfl⟩
  · cases h; exact ⟨_, _, .clR hp, rfl⟩
  · cases h; exact ⟨_, _, .clC hp, rfl⟩
  · cases h; exact ⟨_, _, .wr hp, rfl⟩
  · rename_i fn res
    cases fn <;> cases h
    · exact ⟨_, _, .ret hp, rfl⟩
    · exact ⟨_, _, .retUnlock hp, rfl⟩
  · cases h

theorem start_eq {s s' : St} {t : Tid} {cl : Call} (h : start s t cl = some s') :
    s.pc t = .idle ∧ s.fatal = false ∧ s' = setPC s t (.look cl) := by
  unfold start at h
  split at h
  · rename_i hh; cases h; exact ⟨hh.1, hh.2, rfl⟩
  · cases h

@[simp] theorem setPC_same (s : St) (t : Tid) (p : PC) : (setPC s t p).pc t = p := by simp [setPC]
theorem setPC_other (s : St) (t : Tid) (p : PC) {u : Tid} (h : u ≠ t) : (setPC s t p).pc u = s.pc u := by simp [setPC, h]
@[simp] theorem setPC_arrs (s : St) (t : Tid) (p : PC) : (setPC s t p).arrs = s.arrs := rfl
@[simp] theorem setPC_next (s : St) (t : Tid) (p : PC) : (setPC s t p).next = s.next := rfl
@[simp] theorem setPC_cur (s : St) (t : Tid) (p : PC) : (setPC s t p).cur = s.cur := rfl
@[simp] theorem setPC_len (s : St) (t : Tid) (p : PC) : (setPC s t p).len = s.len := rfl
@[simp] theorem setPC_lock (s : St) (t : Tid) (p : PC) : (setPC s t p).lock = s.lock := rfl
@[simp] theorem setPC_fatal (s : St) (t : Tid) (p : PC) : (setPC s t p).fatal = s.fatal := rfl
@[simp] theorem setPC_log (s : St) (t : Tid) (p : PC) : (setPC s t p).log = s.log := rfl

/-- Nobody else's program counter moves. -/
theorem Mv.pc_eq {ch : Choice} {s s1 : St} {t : Tid} {p : PC} (h : Mv ch s t s1 p) : s1.pc = s.pc := by
  cases h <;> first | rfl | (unfold release; split <;> rfl)

/-! ### The lock -/

/-- Who holds the lock according to the log: the goroutine of the last event, if that is an acquisition. -/
def holder (l : List Ev) : Option Tid :=
  match l.getLast? with
  | some (.acq t) => some t
  | _ => none

@[simp] theorem holder_acq (l : List Ev) (t : Tid) : holder (l ++ [.acq t]) = some t := by simp [holder]
@[simp] theorem holder_rel (l : List Ev) (t : Tid) : holder (l ++ [.rel t]) = none := by simp [holder]

/-- Every event fits what came before: the lock is taken when free, and released by the goroutine that holds it. -/
inductive Proper : List Ev → Prop
  | nil : Proper []
  | acq {l t} (h : Proper l) (hh : holder l = none) : Proper (l ++ [.acq t])
  | rel {l t} (h : Proper l) (hh : holder l = some t) : Proper (l ++ [.rel t])

/-- The activation of `getWithFn` a goroutine is in. -/
def PC.frame : PC → Option Fr
  | .gw f | .gw2 f _ _ _ | .app f | .app2 f | .ins f | .ins2 f | .ins3 f _ _ | .exp f | .exp2 f | .exp3 f _ => some f
  | .free f _ | .freeW f _ | .freeW2 f _ | .free2 f _ => some f
  | _ => none

/-- The places where a goroutine relies on the lock. -/
def PC.locked : PC → Bool
  | .upd .. | .app2 _ | .ins2 _ | .ins3 .. | .exp2 _ | .exp3 .. | .clR .. | .clC .. | .wr .. => true
  | .ret fn _ => fn
  | .gw f | .gw2 f _ _ _ | .app f | .ins f | .exp f => !f.mu
  | _ => false

def PC.isFree : PC → Bool
  | .free .. | .freeW .. | .freeW2 .. | .free2 .. => true
  | _ => false

/-- The step does not go for a deleted slot (map_embedded.go:503). -/
def NoFree (_ : St) (t : Tid) (s' : St) : Prop := (s'.pc t).isFree = false

/-- Schedules all of whose steps satisfy `P`. -/
inductive Via (P : St → Tid → St → Prop) : St → St → Prop
  | refl {s} : Via P s s
  | tail {s s1 s2 t} (h : Via P s s1) (st : Step s1 t s2) (hp : P s1 t s2) : Via P s s2

theorem Via.steps {P : St → Tid → St → Prop} {s s' : St} (h : Via P s s') : Steps s s' := by
  induction h with
  | refl => exact .refl
  | tail _ st _ ih => exact .tail ih st

theorem Via.mono {P Q : St → Tid → St → Prop} (hpq : ∀ s t s', P s t s' → Q s t s') {s s' : St} (h : Via P s s') : Via Q s s' := by
  induction h with
  | refl => exact .refl
  | tail _ st hp ih => exact .tail ih st (hpq _ _ _ hp)

theorem Via.trans {P : St → Tid → St → Prop} {a b c : St} (h1 : Via P a b) (h2 : Via P b c) : Via P a c := by
  induction h2 with
  | refl => exact h1
  | tail _ st hp ih => exact .tail ih st hp

/-- The lock is consistent with its log, and whoever relies on it holds it. -/
structure LI (s : St) : Prop where
  lock : s.lock = (holder s.log).isSome
  proper : Proper s.log
  fatal : s.fatal = false
  held : ∀ t, (s.pc t).locked = true → holder s.log = some t
  noFree : ∀ t, (s.pc t).isFree = false
  frame : ∀ t f, (s.pc t).frame = some f → f.mu = true → f.ov = none

theorem LI.init (n : Nat) : LI (init n) :=
  ⟨rfl, .nil, rfl, fun t h => by simp [EConc.init, PC.locked] at h, fun t => rfl,
   fun t f h => by simp [EConc.init, PC.frame] at h⟩

theorem LI.setPC_of {s s1 : St} {t : Tid} {p : PC} (h : LI s) (hpc : s1.pc = s.pc) (hl : s1.lock = s.lock)
    (hlog : s1.log = s.log) (hf : s1.fatal = s.fatal) (hk : p.locked = true → holder s.log = some t)
    (hfree : p.isFree = false) (hfr : ∀ f, p.frame = some f → f.mu = true → f.ov = none) : LI (setPC s1 t p) := by
  refine ⟨by simp [hl, hlog, h.lock], by simpa [hlog] using h.proper, by simpa [hf] using h.fatal, ?_, ?_, ?_⟩
  · intro u hu
    by_cases e : u = t
    · subst e; simp at hu; simpa [hlog] using hk hu
    · rw [setPC_other _ _ _ e, hpc] at hu; simpa [hlog] using h.held u hu
  · intro u
    by_cases e : u = t
    · subst e; simpa using hfree
    · rw [setPC_other _ _ _ e, hpc]; exact h.noFree u
  · intro u f hu hm
    by_cases e : u = t
    · subst e; simp at hu; exact hfr f hu hm
    · rw [setPC_other _ _ _ e, hpc] at hu; exact h.frame u f hu hm

theorem LI.acquire {s : St} {t : Tid} {p : PC} (h : LI s) (hl : s.lock = false) (hfree : p.isFree = false)
    (hfr : ∀ f, p.frame = some f → f.mu = true → f.ov = none) : LI (setPC (acquire s t) t p) := by
  have hn : holder s.log = none := by
    have := h.lock; rw [hl] at this
    cases hh : holder s.log with
    | none => rfl
    | some u => rw [hh] at this; simp at this
  refine ⟨by simp [EConc.acquire], by simp only [setPC_log]; exact .acq h.proper hn, h.fatal, ?_, ?_, ?_⟩
  · intro u hu
    by_cases e : u = t
    · subst e; simp [EConc.acquire]
    · rw [setPC_other _ _ _ e] at hu
      have := h.held u hu
      rw [hn] at this; cases this
  · intro u
    by_cases e : u = t
    · subst e; simpa using hfree
    · rw [setPC_other _ _ _ e]; exact h.noFree u
  · intro u f hu hm
    by_cases e : u = t
    · subst e; simp at hu; exact hfr f hu hm
    · rw [setPC_other _ _ _ e] at hu; exact h.frame u f hu hm

theorem LI.release {s : St} {t : Tid} {res : Res} (h : LI s) (hh : holder s.log = some t) :
    LI (setPC (release s t) t (.done res)) := by
  have hl : s.lock = true := by rw [h.lock, hh]; rfl
  unfold EConc.release
  rw [if_pos hl]
  refine ⟨by simp, by simp only [setPC_log]; exact .rel h.proper hh, h.fatal, ?_, ?_, ?_⟩
  · intro u hu
    by_cases e : u = t
    · subst e; simp [PC.locked] at hu
    · rw [setPC_other _ _ _ e] at hu
      have := h.held u hu
      rw [hh] at this; cases this; exact absurd rfl e
  · intro u
    by_cases e : u = t
    · subst e; simp [PC.isFree]
    · rw [setPC_other _ _ _ e]; exact h.noFree u
  · intro u f hu hm
    by_cases e : u = t
    · subst e; simp [PC.frame] at hu
    · rw [setPC_other _ _ _ e] at hu; exact h.frame u f hu hm

theorem LI.step {s s' : St} {t : Tid} (h : LI s) (st : Step s t s') (hn : NoFree s t s') : LI s' := by
  cases st with
  | start hs =>
    obtain ⟨_, _, rfl⟩ := start_eq hs
    exact h.setPC_of rfl rfl rfl rfl (by simp [PC.locked]) rfl (by simp [PC.frame])
  | move _ hs =>
    obtain ⟨_, s1, p, mv, rfl⟩ := step_mv hs
    have hpf : p.isFree = false := by simpa [NoFree] using hn
    have hself := h.held t
    have hframe := h.frame t
    have hnf := h.noFree t
    cases mv <;> rw [‹s.pc t = _›] at hself hframe hnf <;> first
      | (exfalso; exact Bool.noConfusion hnf)
      | exact h.release (hself rfl)
      | (refine h.acquire ‹_› hpf ?_
         first
           | exact hframe
           | (simp [PC.frame]; done))
      | (refine h.setPC_of rfl rfl rfl rfl ?_ hpf ?_
         · first
             | exact fun _ => hself rfl
             | exact hself
             | (simp [PC.locked]; done)
             | (intro _; refine hself ?_; simp [PC.locked, *]; done)
         · first
             | exact hframe
             | (simp [PC.frame]; done)
             | (simp [PC.frame, Fr.inner]; done))

theorem LI.via {s s' : St} (h : LI s) (v : Via NoFree s s') : LI s' := by
  induction v with
  | refl => exact h
  | tail _ st hp ih => exact ih.step st hp

/-! ### Release -/

/-- No append meets a full array, and no insert fails to find its place, after the lock was taken
(map_embedded.go:311, 440). -/
def NoRetry (s : St) (t : Tid) (s' : St) : Prop :=
  ∀ f g, (s.pc t = .app2 f ∨ s.pc t = .ins2 f) → s'.pc t ≠ .gw g

/-- The function returned with the slot, or about to be called. -/
def PC.fn : PC → Option Bool
  | .clR _ fn _ _ | .clC _ fn _ _ | .wr _ fn _ _ | .ret fn _ => some fn
  | _ => none

structure RI (s : St) : Prop where
  li : LI s
  frame : ∀ t f, (s.pc t).frame = some f → f.mu = false → f.ov = some true
  fn : ∀ t b, (s.pc t).fn = some b → b = true
  only : ∀ t, holder s.log = some t → (s.pc t).locked = true

theorem RI.init (n : Nat) : RI (EConc.init n) :=
  ⟨LI.init n, fun t f h => by simp [EConc.init, PC.frame] at h, fun t f h => by simp [EConc.init, PC.fn] at h,
   fun t h => by simp [EConc.init, holder] at h⟩

theorem release_log {s : St} {t : Tid} : (release s t).log = s.log ++ [.rel t] := by unfold release; split <;> rfl

theorem RI.step {s s' : St} {t : Tid} (h : RI s) (st : Step s t s') (hn : NoFree s t s') (hr : NoRetry s t s') : RI s' := by
  have hli := h.li.step st hn
  refine ⟨hli, ?_, ?_, ?_⟩
  all_goals
    cases st with
    | start hs =>
      obtain ⟨hid, _, rfl⟩ := start_eq hs
      try intro u f hu
      try intro u hu
      by_cases e : u = t
      · subst e
        first
          | (simp [PC.frame] at hu; done)
          | (simp [PC.fn] at hu; done)
          | (have := h.only u hu; rw [hid] at this; simp [PC.locked] at this)
      · first
          | (rw [setPC_other _ _ _ e] at hu ⊢; exact h.only u hu)
          | (rw [setPC_other _ _ _ e] at hu; exact h.frame u f hu)
          | (rw [setPC_other _ _ _ e] at hu; exact h.fn u f hu)
          | (rw [setPC_other _ _ _ e]; exact h.only u hu)
    | move _ hs =>
      obtain ⟨_, s1, p, mv, rfl⟩ := step_mv hs
      have hpc := mv.pc_eq
      have hframe := h.frame t
      have hfn := h.fn t
      have honly := h.only t
      have hnf := h.li.noFree t
      have hfr' := h.li.frame t
      try intro u f hu
      try intro u hu
      by_cases e : u = t
      · subst e
        simp only [setPC_same, setPC_log] at hu ⊢
        cases mv <;> rw [‹s.pc u = _›] at hframe hfn honly hnf hfr' <;> first
          | (exfalso; exact Bool.noConfusion hnf)
          | (exfalso; refine hr _ _ (.inl ‹_›) (setPC_same _ _ _))
          | (exfalso; refine hr _ _ (.inr ‹_›) (setPC_same _ _ _))
          | exact hframe _ hu
          | exact hfn _ hu
          | exact honly hu
          | rfl
          | (simp [release_log] at hu; done)
          | (simp [PC.frame] at hu; done)
          | (simp [PC.fn] at hu; done)
          | (have := honly hu; simp [PC.locked] at this ⊢; done)
          | (have := honly hu; simp [PC.locked, *] at this ⊢; done)
          | (cases hu; simp; done)
          | (cases hu; intro hm; cases hm; done)
          | (rename_i f0 hp _; cases hu; have := hframe f0 rfl; have := hfr' f0 rfl; cases hm : f0.mu <;> simp_all [Fr.fn]; done)
          | (rename_i f0 hp; cases hu; have := hframe f0 rfl; have := hfr' f0 rfl; cases hm : f0.mu <;> simp_all [Fr.fn]; done)
          | (rename_i f0 _ hp; cases hu; have := hframe f0 rfl; have := hfr' f0 rfl; cases hm : f0.mu <;> simp_all [Fr.fn]; done)
          | (rename_i f0 _ _ hp; cases hu; have := hframe f0 rfl; have := hfr' f0 rfl; cases hm : f0.mu <;> simp_all [Fr.fn]; done)
          | (simp [NoFree, PC.isFree] at hn; done)
          | (have := hfn _ rfl; subst this; rfl)
      · first
          | (rw [setPC_other _ _ _ e, hpc] at hu; exact h.frame u f hu)
          | (rw [setPC_other _ _ _ e, hpc] at hu; exact h.fn u f hu)
          | (rw [setPC_other _ _ _ e, hpc]
             simp only [setPC_log] at hu
             cases mv <;> first
               | exact h.only u hu
               | (simp [acquire] at hu; exact absurd hu.symm e)
               | (simp [release_log] at hu; done))

theorem RI.via {s s' : St} (h : RI s) (v : Via (fun s t s' => NoFree s t s' ∧ NoRetry s t s') s s') : RI s' := by
  induction v with
  | refl => exact h
  | tail _ st hp ih => exact ih.step st hp.1 hp.2

/-! ### The calls in progress -/

/-- The call a goroutine works on, while it still matters for the array. -/
def PC.call : PC → Option Call
  | .look cl | .lockUpd cl _ _ | .upd cl _ _ | .getV cl _ _ | .mark cl _ _ => some cl
  | .clR f _ _ _ | .clC f _ _ _ | .wr f _ _ _ => some (.set f.r f.c f.v)
  | .gw f | .gw2 f _ _ _ | .app f | .app2 f | .ins f | .ins2 f | .ins3 f _ _ | .exp f | .exp2 f | .exp3 f _
  | .free f _ | .freeW f _ | .freeW2 f _ | .free2 f _ => some (.set f.r f.c f.v)
  | _ => none

/-- Every call started satisfies `Q`. -/
def Calls (Q : Call → Prop) (s : St) (t : Tid) (s' : St) : Prop := ∀ cl, s.pc t = .idle → s'.pc t = .look cl → Q cl

theorem calls_step {Q : Call → Prop} {s s' : St} {t : Tid} (h : ∀ t cl, (s.pc t).call = some cl → Q cl)
    (st : Step s t s') (hc : Calls Q s t s') : ∀ t cl, (s'.pc t).call = some cl → Q cl := by
  intro u cl hu
  cases st with
  | start hs =>
    obtain ⟨hid, _, rfl⟩ := start_eq hs
    by_cases e : u = t
    · subst e
      simp [PC.call] at hu
      subst hu
      exact hc _ hid (setPC_same _ _ _)
    · rw [setPC_other _ _ _ e] at hu; exact h u cl hu
  | move _ hs =>
    obtain ⟨_, s1, p, mv, rfl⟩ := step_mv hs
    have hpc := mv.pc_eq
    by_cases e : u = t
    · subst e
      simp only [setPC_same] at hu
      have hq := h u
      cases mv <;> rw [‹s.pc u = _›] at hq <;> first
        | exact hq _ hu
        | (cases hu; done)
    · rw [setPC_other _ _ _ e, hpc] at hu; exact h u cl hu

/-- Only Set and Purge update under the lock, only Delete marks without it. -/
def PC.shape : PC → Bool
  | .lockUpd (.set ..) _ _ | .lockUpd (.purge ..) _ _ | .upd (.set ..) _ _ | .upd (.purge ..) _ _ => true
  | .lockUpd _ _ _ | .upd _ _ _ => false
  | .mark (.del ..) _ _ => true
  | .mark _ _ _ => false
  | .getV (.get ..) _ _ => true
  | .getV _ _ _ => false
  | _ => true

theorem shape_step {s s' : St} {t : Tid} (h : ∀ t, (s.pc t).shape = true) (st : Step s t s') : ∀ t, (s'.pc t).shape = true := by
  intro u
  cases st with
  | start hs =>
    obtain ⟨hid, _, rfl⟩ := start_eq hs
    by_cases e : u = t
    · subst e; simp [PC.shape]
    · rw [setPC_other _ _ _ e]; exact h u
  | move _ hs =>
    obtain ⟨_, s1, p, mv, rfl⟩ := step_mv hs
    have hpc := mv.pc_eq
    by_cases e : u = t
    · subst e
      simp only [setPC_same]
      have hq := h u
      cases mv <;> rw [‹s.pc u = _›] at hq <;> first
        | rfl
        | exact hq
        | (rename_i hc; rcases hc with ⟨r, c, v, rfl⟩ | ⟨r, c, rfl⟩ <;> rfl)
        | (rename_i cl _ _ _ _; cases cl <;> first | rfl | exact hq)
    · rw [setPC_other _ _ _ e, hpc]; exact h u

/-- A call that deletes nothing. -/
def Call.keeps : Call → Bool
  | .set .. | .get .. => true
  | _ => false

theorem slotOf_setSlot (s : St) (a i b j : Nat) (x : Slot) :
    slotOf (setSlot s a i x) b j = if b = a ∧ j = i ∧ i < (s.arrs a).length then x else slotOf s b j := by
  unfold slotOf setSlot setArr
  simp only
  by_cases hb : b = a
  · subst hb
    simp only [if_pos, List.getD_eq_getElem?_getD, true_and, List.getElem?_set]
    by_cases hj : i = j
    · subst hj
      by_cases hl : i < (s.arrs b).length
      · simp [hl]
      · simp [hl]
    · simp [hj, Ne.symm hj]
  · simp [hb]

/-- Nothing was ever deleted. -/
structure ND (s : St) : Prop where
  live : ∀ a, ∀ x ∈ s.arrs a, x.deleted = false
  calls : ∀ t cl, (s.pc t).call = some cl → cl.keeps = true
  shape : ∀ t, (s.pc t).shape = true

theorem ND.slot {s : St} (h : ND s) (a i : Nat) : (slotOf s a i).deleted = false := by
  unfold slotOf
  rw [List.getD_eq_getElem?_getD]
  cases hx : (s.arrs a)[i]? with
  | none => rfl
  | some x => exact h.live a x (List.mem_of_getElem? hx)

theorem live_setSlot {s : St} (h : ∀ a, ∀ x ∈ s.arrs a, x.deleted = false) {a i : Nat} {x : Slot} (hx : x.deleted = false) :
    ∀ b, ∀ y ∈ (setSlot s a i x).arrs b, y.deleted = false := by
  intro b y hy
  unfold setSlot setArr at hy
  simp only at hy
  split at hy
  · rcases List.mem_or_eq_of_mem_set hy with h1 | h1
    · exact h a y h1
    · exact h1 ▸ hx
  · exact h b y hy

theorem mem_insertAt {p : Pool} {i : Nat} {x : Slot} (h : x ∈ (p.insertAt i).arr) : x ∈ p.arr ∨ x = {} := by
  simp only [Pool.insertAt, List.mem_append, List.mem_cons, List.mem_replicate] at h
  rcases h with (h | h | h) | h
  · exact .inl (List.mem_of_mem_take h)
  · exact .inr h
  · exact .inl (List.mem_of_mem_take (List.mem_of_mem_drop h))
  · exact .inr h.2

theorem mem_expand {p q : Pool} (hq : p.expand = .ok q) {x : Slot} (h : x ∈ q.arr) : x ∈ p.arr ∨ x = {} := by
  unfold Pool.expand at hq
  simp only at hq
  split at hq
  · cases hq
  · injection hq with hq
    rw [← hq] at h
    simp only [List.mem_append, List.mem_replicate] at h
    rcases h with h | h
    · exact .inl (List.mem_of_mem_take h)
    · exact .inr h.2

theorem ND.step {s s' : St} {t : Tid} (h : ND s) (st : Step s t s') (hc : Calls (fun cl => cl.keeps = true) s t s') : ND s' := by
  refine ⟨?_, calls_step h.calls st hc, shape_step h.shape st⟩
  cases st with
  | start hs =>
    obtain ⟨_, _, rfl⟩ := start_eq hs
    exact h.live
  | move _ hs =>
    obtain ⟨_, s1, p, mv, rfl⟩ := step_mv hs
    simp only [setPC_arrs]
    have hq := h.calls t
    cases mv <;> rw [‹s.pc t = _›] at hq <;> first
      | exact h.live
      | (unfold release; split <;> exact h.live)
      | exact live_setSlot h.live (h.slot _ _)
      | exact live_setSlot h.live rfl
      | (have := hq _ rfl; simp [Call.keeps] at this; done)
      | skip
    case ins2 =>
      intro a x hx
      simp only [setArr] at hx
      split at hx
      · rcases mem_insertAt hx with h1 | h1
        · exact h.live _ x h1
        · subst h1; rfl
      · exact h.live a x hx
    case exp2 hq2 =>
      intro a x hx
      simp only [setArr] at hx
      split at hx
      · rcases mem_expand hq2 hx with h1 | h1
        · exact h.live _ x h1
        · subst h1; rfl
      · exact h.live a x hx
    case purgeLast cl a i ha hi hp hc2 =>
      have h1 := hq _ rfl
      have h2 := h.shape t
      rw [‹s.pc t = _›] at h2
      cases cl <;> simp_all [Call.keeps, PC.shape]
    case purge cl a i hp hc2 ha =>
      have h1 := hq _ rfl
      have h2 := h.shape t
      rw [‹s.pc t = _›] at h2
      cases cl <;> simp_all [Call.keeps, PC.shape]
    case mark cl a i hp =>
      have h1 := hq _ rfl
      have h2 := h.shape t
      rw [‹s.pc t = _›] at h2
      cases cl <;> simp_all [Call.keeps, PC.shape]

theorem ND.init (n : Nat) : ND (EConc.init n) := by
  refine ⟨?_, fun t cl h => by simp [EConc.init, PC.call] at h, fun t => rfl⟩
  intro a x hx
  simp only [EConc.init] at hx
  split at hx
  · rw [(List.mem_replicate.1 hx).2]
  · cases hx

/-- Without Delete and Purge no slot is ever taken over. -/
theorem ND.noFree {s s' : St} {t : Tid} (h : ND s) (hl : LI s) (st : Step s t s') : NoFree s t s' := by
  unfold NoFree
  cases st with
  | start hs =>
    obtain ⟨_, _, rfl⟩ := start_eq hs
    simp [PC.isFree]
  | move hseen hs =>
    obtain ⟨_, s1, p, mv, rfl⟩ := step_mv hs
    simp only [setPC_same]
    have hnf := hl.noFree t
    cases mv <;> rw [‹s.pc t = _›] at hnf <;> first
      | rfl
      | (cases hnf; done)
      | skip
    rename_i hp hv
    obtain ⟨a, i, hd⟩ := hseen.verdict _ _ _ _ hp hv
    rw [h.slot a i] at hd
    cases hd

theorem keeps_noFree {s0 s : St} (h : ND s0) (hl : LI s0) (v : Via (Calls (fun cl => cl.keeps = true)) s0 s) :
    ND s ∧ LI s ∧ Via NoFree s0 s := by
  induction v with
  | refl => exact ⟨h, hl, .refl⟩
  | tail _ st hp ih =>
    obtain ⟨h1, h2, h3⟩ := ih
    have hn := h1.noFree h2 st
    exact ⟨h1.step st hp, h2.step st hn, .tail h3 st hn⟩

end SLM.EConc
