import Verif.Proofs.ESplit2
/-!
Embedded pool, several goroutines, splits (properties C107 and C108): theorems about Model/ESplit.lean.
-/
set_option autoImplicit false
namespace SLM.ESplit

/-- A Set of `r` has put its key into an array or has answered. -/
def PC.put : PC → Option U64
  | .added r _ | .pub r _ _ | .idx r _ _ _ | .cut r _ _ _ _ | .setP r _ _ _ _ | .lst r _ _ _ | .again r _ _ _ | .unl r _ => some r
  | _ => none

def Known (s : St) (r : U64) : Prop := r ∈ s.acked ∨ ∃ t, (s.pc t).put = some r

/-- The keys a goroutine that splits carries. -/
def PC.carry : PC → List U64
  | .setP _ _ _ _ (some l) => l
  | _ => []

structure KnownInv (s : St) : Prop where
  pool : ∀ b l r, s.pool b = some l → r ∈ l → Known s r
  carry : ∀ t r, r ∈ (s.pc t).carry → Known s r

theorem known_exec {max : Nat} {s s' : St} {mv : Move} (i : KnownInv s) (h : exec max s mv = some s') : KnownInv s' := by
  have of : ∀ (t : Tid), (∀ u, u ≠ t → s'.pc u = s.pc u) → (∀ r, r ∈ s.acked → r ∈ s'.acked) →
      (∀ r, (s.pc t).put = some r → r ∈ s'.acked ∨ (s'.pc t).put = some r) →
      (∀ b l r, s'.pool b = some l → r ∈ l → (∃ c l', s.pool c = some l' ∧ r ∈ l') ∨ r ∈ (s.pc t).carry ∨ (s'.pc t).put = some r) →
      (∀ r, r ∈ (s'.pc t).carry → (∃ c l', s.pool c = some l' ∧ r ∈ l') ∨ r ∈ (s.pc t).carry) → KnownInv s' := by
    intro t ho ha hp hpool hc
    have mono : ∀ r, Known s r → Known s' r := by
      rintro r (h | ⟨u, h⟩)
      · exact .inl (ha r h)
      · by_cases e : u = t
        · subst e
          rcases hp r h with h | h
          · exact .inl h
          · exact .inr ⟨u, h⟩
        · exact .inr ⟨u, by rw [ho u e]; exact h⟩
    refine ⟨?_, ?_⟩
    · intro b l r hb hr
      rcases hpool b l r hb hr with ⟨c, l', h1, h2⟩ | h1 | h1
      · exact mono r (i.pool c l' r h1 h2)
      · exact mono r (i.carry t r h1)
      · exact .inr ⟨t, h1⟩
    · intro u r hr
      by_cases e : u = t
      · subst e
        rcases hc r hr with ⟨c, l', h1, h2⟩ | h1
        · exact mono r (i.pool c l' r h1 h2)
        · exact mono r (i.carry u r h1)
      · rw [ho u e] at hr; exact mono r (i.carry u r hr)
  cases mv with
  | call t c =>
    obtain ⟨hpc, rfl⟩ := exec_call h
    refine of t (fun u hu => if_neg hu) (fun r hr => hr) ?_ (fun b l r hb hr => .inl ⟨b, l, hb, hr⟩) ?_
    · intro r e; rcases hpc with e2 | ⟨_, e2⟩ <;> rw [e2] at e <;> cases e
    · intro r e; rw [setPC_pc, if_pos rfl] at e; cases c <;> cases e
  | step t =>
    unfold exec at h; simp only at h
    unfold go at h
    cases hp : s.pc t <;> simp only [hp] at h
    case idle => cases h
    case done => cases h
    case gFind r =>
      cases h
      exact of t (fun u hu => if_neg hu) (fun r hr => hr) (by intro r e; rw [hp] at e; cases e) (fun b l r hb hr => .inl ⟨b, l, hb, hr⟩)
        (by intro r e; rw [setPC_pc, if_pos rfl] at e; cases e)
    case gRead r b =>
      obtain ⟨l, -, rfl⟩ := Option.map_eq_some_iff.mp h
      exact of t (fun u hu => if_neg hu) (fun r hr => hr) (by intro r e; rw [hp] at e; cases e) (fun b l r hb hr => .inl ⟨b, l, hb, hr⟩)
        (by intro r e; rw [setPC_pc, if_pos rfl] at e; cases e)
    case sFind r =>
      cases h
      exact of t (fun u hu => if_neg hu) (fun r hr => hr) (by intro r e; rw [hp] at e; cases e) (fun b l r hb hr => .inl ⟨b, l, hb, hr⟩)
        (by intro r e; rw [setPC_pc, if_pos rfl] at e; cases e)
    case sLook r b =>
      obtain ⟨l, -, rfl⟩ := Option.map_eq_some_iff.mp h
      exact of t (fun u hu => if_neg hu) (fun r hr => hr) (by intro r e; rw [hp] at e; cases e) (fun b l r hb hr => .inl ⟨b, l, hb, hr⟩)
        (by intro r e; rw [setPC_pc, if_pos rfl] at e; split at e <;> cases e)
    case uLock r b =>
      cases h
      split
      · rename_i hl; simp only [if_pos hl] at of
        exact of t (fun u hu => if_neg hu) (fun r hr => hr) (by intro r e; rw [hp] at e; cases e) (fun b l r hb hr => .inl ⟨b, l, hb, hr⟩)
          (by intro r e; rw [setPC_pc, if_pos rfl] at e; cases e)
      · rename_i hl; simp only [if_neg hl] at of
        exact of t (fun u hu => if_neg hu) (fun r hr => hr) (by intro r e; rw [hp] at e; cases e) (fun b l r hb hr => .inl ⟨b, l, hb, hr⟩)
          (by intro r e; rw [setPC_pc, if_pos rfl] at e; cases e)
    case sLock r b =>
      split at h
      · cases h
      obtain ⟨l, hx, rfl⟩ := Option.map_eq_some_iff.mp h
      refine of t (fun u hu => if_neg hu) (fun r hr => hr) (by intro r e; rw [hp] at e; cases e) ?_
        (by intro r e; rw [setPC_pc, if_pos rfl] at e; cases e)
      intro c l' k hc hk
      replace hc : (if c = b then some (ins r l) else s.pool c) = some l' := hc
      split at hc
      · cases hc
        rcases mem_ins.mp hk with rfl | hk
        · exact .inr (.inr (by rw [setPC_pc, if_pos rfl]; rfl))
        · exact .inl ⟨b, l, hx, hk⟩
      · exact .inl ⟨c, l', hc, hk⟩
    case added r h' =>
      obtain ⟨l, -, rfl⟩ := Option.map_eq_some_iff.mp h
      exact of t (fun u hu => if_neg hu) (fun r hr => hr) (by intro r e; rw [hp] at e; cases e; right; rw [setPC_pc, if_pos rfl]; split <;> rfl) (fun b l r hb hr => .inl ⟨b, l, hb, hr⟩)
        (by intro r e; rw [setPC_pc, if_pos rfl] at e; split at e <;> cases e)
    case pub r h' x =>
      cases h
      exact of t (fun u hu => if_neg hu) (fun r hr => hr) (by intro r e; rw [hp] at e; cases e; right; show ((setPC s t _).pc t).put = _; rw [setPC_pc, if_pos rfl]; rfl) (fun b l r hb hr => .inl ⟨b, l, hb, hr⟩)
        (by intro r e; replace e : r ∈ ((setPC s t _).pc t).carry := e; rw [setPC_pc, if_pos rfl] at e; cases e)
    case idx r h' x m =>
      obtain ⟨l, -, rfl⟩ := Option.map_eq_some_iff.mp h
      exact of t (fun u hu => if_neg hu) (fun r hr => hr) (by intro r e; rw [hp] at e; cases e; right; rw [setPC_pc, if_pos rfl]; split <;> rfl) (fun b l r hb hr => .inl ⟨b, l, hb, hr⟩)
        (by intro r e; rw [setPC_pc, if_pos rfl] at e; split at e <;> cases e)
    case cut r h' x m j =>
      obtain ⟨l, hx, rfl⟩ := Option.map_eq_some_iff.mp h
      split
      · rename_i hl; simp only [if_pos hl] at of
        exact of t (fun u hu => if_neg hu) (fun r hr => hr) (by intro r e; rw [hp] at e; cases e; right; rw [setPC_pc, if_pos rfl]; rfl) (fun b l r hb hr => .inl ⟨b, l, hb, hr⟩)
          (by intro r e; rw [setPC_pc, if_pos rfl] at e; cases e)
      · rename_i hl; simp only [if_neg hl] at of
        refine of t (fun u hu => if_neg hu) (fun r hr => hr) (by intro r e; rw [hp] at e; cases e; right; rw [setPC_pc, if_pos rfl]; rfl) ?_ ?_
        · intro c l' k hc hk
          replace hc : (if c = x then some (l.take j) else s.pool c) = some l' := hc
          split at hc
          · cases hc; exact .inl ⟨x, l, hx, List.mem_of_mem_take hk⟩
          · exact .inl ⟨c, l', hc, hk⟩
        · intro k e; rw [setPC_pc, if_pos rfl] at e; exact .inl ⟨x, l, hx, List.mem_of_mem_drop e⟩
    case setP r h' x m l =>
      cases l with
      | none =>
        cases h
        exact of t (fun u hu => if_neg hu) (fun r hr => hr) (by intro r e; rw [hp] at e; cases e; right; show ((setPC s t _).pc t).put = _; rw [setPC_pc, if_pos rfl]; rfl) (fun b l r hb hr => .inl ⟨b, l, hb, hr⟩)
          (by intro r e; replace e : r ∈ ((setPC s t _).pc t).carry := e; rw [setPC_pc, if_pos rfl] at e; cases e)
      | some l =>
        cases hm : s.pool m with
        | some l2 =>
          simp only [hm] at h
          cases h
          exact of t (fun u hu => if_neg hu) (fun r hr => hr) (by intro r e; rw [hp] at e; cases e; right; rw [setPC_pc, if_pos rfl]; rfl) (fun b l r hb hr => .inl ⟨b, l, hb, hr⟩)
            (by intro r e; rw [setPC_pc, if_pos rfl] at e; cases e)
        | none =>
          simp only [hm] at h
          cases h
          refine of t (fun u hu => if_neg hu) (fun r hr => hr) (by intro r e; rw [hp] at e; cases e; right; rw [setPC_pc, if_pos rfl]; rfl) ?_
            (by intro r e; rw [setPC_pc, if_pos rfl] at e; cases e)
          intro c l' k hc hk
          replace hc : (if c = m then some l else s.pool c) = some l' := hc
          split at hc
          · cases hc; exact .inr (.inl (by rw [hp]; exact hk))
          · exact .inl ⟨c, l', hc, hk⟩
    case lst r h' x m =>
      cases h
      exact of t (fun u hu => if_neg hu) (fun r hr => hr) (by intro r e; rw [hp] at e; cases e; right; show ((setPC s t _).pc t).put = _; rw [setPC_pc, if_pos rfl]; rfl) (fun b l r hb hr => .inl ⟨b, l, hb, hr⟩)
        (by intro r e; replace e : r ∈ ((setPC s t _).pc t).carry := e; rw [setPC_pc, if_pos rfl] at e; cases e)
    case again r h' x m =>
      cases h
      exact of t (fun u hu => if_neg hu) (fun r hr => hr) (by intro r e; rw [hp] at e; cases e; right; rw [setPC_pc, if_pos rfl]; split; rfl; split <;> rfl) (fun b l r hb hr => .inl ⟨b, l, hb, hr⟩)
        (by intro r e; rw [setPC_pc, if_pos rfl] at e; split at e; cases e; split at e <;> cases e)
    case unl r h' =>
      cases h
      exact of t (fun u hu => if_neg hu) (fun k hk => List.mem_cons_of_mem _ hk) (by intro r e; rw [hp] at e; cases e; left; exact List.mem_cons_self)
        (fun b l r hb hr => .inl ⟨b, l, hb, hr⟩) (by intro r e; replace e : r ∈ ((setPC (setLock s h' false) t _).pc t).carry := e; rw [setPC_pc, if_pos rfl] at e; cases e)

theorem init_known : KnownInv init := by
  refine ⟨?_, fun t r e => by (cases e)⟩
  intro b l r e hr
  replace e : (if b ∈ tops then some [] else none) = some l := e
  split at e
  · cases e; cases hr
  · cases e

theorem run_known {max : Nat} {P : St → Move → Prop} {s : St} (h : Run max P init s) : KnownInv s := by
  induction h with
  | refl => exact init_known
  | step mv _ _ e ih => exact known_exec ih e

/-! ### C107: no key is lost -/

/-- The answer of goroutine `t`'s Get of `r` when it reads bucket `b` now; `none`: it has to wait. -/
def answer (s : St) (r b : U64) : Option Bool := (s.pool b).map fun l => decide (r ∈ l)

/-- The next step of a Get that has chosen bucket `b` gives this answer. -/
theorem answer_go {max : Nat} {s : St} {t : Tid} {r b : U64} (h : s.pc t = .gRead r b) : go max s t = (answer s r b).map fun a => setPC s t (.done a) := by
  unfold go answer; rw [h]; simp only [Option.map_map]; rfl

/-- Some goroutine is in the middle of a split. -/
def Splitting (s : St) : Prop := ∃ t x m, (s.pc t).work = some (x, m)

theorem calm_inv {max : Nat} {s : St} (h : Run max (fun s mv => Tame s mv ∧ Fresh s mv) init s) : Inv s ∧ Placed s ∧ Kept s := by
  induction h with
  | refl => exact ⟨init_inv, init_placed, init_kept⟩
  | step mv _ p e ih =>
    obtain ⟨a, b, c⟩ := ih
    exact ⟨a.exec p.1 e, placed_step a p.1 p.2 e b, kept_step a p.1 e c⟩

theorem tame_inv {max : Nat} {P : St → Move → Prop} (hP : ∀ s mv, P s mv → Tame s mv) {s : St} (h : Run max P init s) : Inv s ∧ Kept s := by
  induction h with
  | refl => exact ⟨init_inv, init_kept⟩
  | step mv _ p e ih =>
    obtain ⟨a, c⟩ := ih
    exact ⟨a.exec (hP _ _ p) e, kept_step a (hP _ _ p) e c⟩

/-- C107: A key whose Set has answered is found by every Get that reads the bucket which is now right for the key, whatever the other goroutines are in the middle of: the
Get answers true, or it waits for a split that is running.  In particular by every Get not overlapped by a split that takes over its key.  For executions whose splits
are `Tame` and whose Sets are `Fresh`.  Missing: the other ones (see the refutations). -/
theorem C107_found_partial {max : Nat} {s : St} (h : Run max (fun s mv => Tame s mv ∧ Fresh s mv) init s) {r : U64} (hr : r ∈ s.acked) :
    answer s r (find s r) = some true ∨ (answer s r (find s r) = none ∧ Splitting s) := by
  obtain ⟨i, p, k⟩ := calm_inv h
  have wait : ∀ t m, (s.pc t).bare = some m → (∃ x, (s.pc t).work = some (x, m)) → IsFind s.reach r m →
      answer s r (find s r) = none ∧ Splitting s := by
    intro t m hb ⟨x, hw⟩ hf
    refine ⟨?_, t, x, m, hw⟩
    unfold answer
    rw [find_eq i.reach0 hf, i.bare t m hb]; rfl
  rcases k.acked r hr with ⟨b, l, hb, hrl⟩ | ⟨t, m, l, ht, hrl⟩
  · rcases p.pool b l r hb hrl with e | ⟨t, m, e, -, hf⟩
    · left
      unfold answer
      rw [find_eq i.reach0 e, hb]; simp [hrl]
    · exact .inr (wait t m (src_bare e) ⟨b, src_work e⟩ hf)
  · exact .inr (wait t m (fly_bare ht) (fly_work ht) (p.fly t m l r ht hrl))

/-- C107: when no split is running, every Get that starts and is not interrupted finds every key whose Set has answered. -/
theorem C107_quiet_partial {max : Nat} {s : St} (h : Run max (fun s mv => Tame s mv ∧ Fresh s mv) init s) (hq : ¬ Splitting s) {r : U64} (hr : r ∈ s.acked)
    {t : Tid} (ht : s.pc t = .gFind r) : ∃ s1 s2, go max s t = some s1 ∧ go max s1 t = some s2 ∧ s2.pc t = .done true := by
  have ha := (C107_found_partial h hr).resolve_right (fun e => hq e.2)
  have h1 : go max s t = some (setPC s t (.gRead r (find s r))) := by unfold go; rw [ht]
  refine ⟨_, setPC (setPC s t (.gRead r (find s r))) t (.done true), h1, ?_, ?_⟩
  · rw [answer_go (r := r) (b := find s r) (by rw [setPC_pc, if_pos rfl])]
    rw [show answer (setPC s t (.gRead r (find s r))) r (find s r) = answer s r (find s r) from rfl, ha]; rfl
  · rw [setPC_pc, if_pos rfl]

/-- C107: no key is invented: a Get that answers true does so for a key that a Set has already put into the map.  Any execution. -/
theorem C107_sound {max : Nat} {P : St → Move → Prop} {s : St} (h : Run max P init s) {r b : U64} (ha : answer s r b = some true) :
    r ∈ s.acked ∨ ∃ t, (s.pc t).put = some r := by
  unfold answer at ha
  obtain ⟨l, hl, e⟩ := Option.map_eq_some_iff.mp ha
  exact (run_known h).pool b l r hl (by simpa using e)

/-- C107: no key is thrown away: it stays in some array, or is on its way from one to another.  `Tame` executions. -/
theorem C107_kept_partial {max : Nat} {s : St} (h : Run max Tame init s) {r : U64} (hr : r ∈ s.acked) :
    (∃ b l, s.pool b = some l ∧ r ∈ l) ∨ ∃ t m l, (s.pc t).fly = some (m, l) ∧ r ∈ l :=
  (tame_inv (fun _ _ p => p) h).2.acked r hr

/-- C107, why `Fresh`: a Set of a new key that gets the lock of a bucket which is no longer the right one loses its key for ever: whatever happens afterwards (with `Tame`
splits), as long as nobody inserts the key again, no Get that reads the right bucket finds it. -/
theorem C107_refuted_stale {max : Nat} {s s1 s2 : St} {t : Tid} {r b : U64} (h : Run max Tame init s) (hp : s.pc t = .sLock r b)
    (hst : find s r ≠ b) (hnew : ¬ Present s r) (h1 : go max s t = some s1)
    (h2 : Run max (fun s mv => Tame s mv ∧ NoInsert r s mv) s1 s2) : answer s2 r (find s2 r) ≠ some true := by
  have i := (tame_inv (fun _ _ p => p) h).1
  have tm : Tame s (.step t) := by unfold Tame; simp only [hp]
  have i1 : Inv s1 := i.exec tm h1
  have l1 : Lost s1 r := by
    have hgo := h1
    unfold go at hgo
    simp only [hp] at hgo
    split at hgo
    · cases hgo
    rename_i hl
    obtain ⟨l, hx, e⟩ := Option.map_eq_some_iff.mp hgo
    subst e
    have hf : ∀ q : St, q.reach = s.reach → find q r = find s r := by intro q e; unfold find; rw [e]
    have hff := hf (setPC (setPool (setLock s b true) b (ins r l)) t (.added r b)) rfl
    have hne : ∀ c l', s.pool c = some l' → r ∉ l' := fun c l' e1 e2 => hnew (.inl ⟨c, l', e1, e2⟩)
    refine ⟨?_, ?_, ?_⟩
    · intro l' e
      rw [hff] at e
      replace e : (if find s r = b then some (ins r l) else s.pool (find s r)) = some l' := e
      rw [if_neg hst] at e
      exact hne _ l' e
    · intro u x l' e e2
      rw [hff, setPC_pc] at e
      split at e
      · cases e
      · have hxb : x ≠ b := by
          intro e3; subst e3
          have := i.held u x (i.work u x _ (src_work e)).1
          simp [this] at hl
        replace e2 : (if x = b then some (ins r l) else s.pool x) = some l' := e2
        rw [if_neg hxb] at e2
        exact hne _ l' e2
    · intro u l' e e2
      rw [setPC_pc] at e
      split at e
      · cases e
      · exact hnew (.inr ⟨u, _, l', e, e2⟩)
  have : Inv s2 ∧ Lost s2 r := by
    clear h1
    induction h2 with
    | refl => exact ⟨i1, l1⟩
    | step mv _ p e ih =>
      obtain ⟨a, b⟩ := ih
      exact ⟨a.exec p.1 e, lost_step a p.1 p.2 e b⟩
  intro e
  unfold answer at e
  obtain ⟨l, hl, e⟩ := Option.map_eq_some_iff.mp e
  exact this.2.pool l hl (by simpa using e)

/-! Concrete executions, `MaxPefBucket(1)`; keys in top bucket 0, whose new boundary is `2^59`. -/

def kA : U64 := 1
def kB : U64 := (1#64 <<< 59) + 1
def kC : U64 := (1#64 <<< 59) + (1#64 <<< 58) + 1
def kD : U64 := (1#64 <<< 59) + 2

def steps (t : Tid) (n : Nat) : List Move := List.replicate n (.step t)
/-- A Set of a new key, from call to return, without and with a split. -/
def setRun (t : Tid) (r : U64) : List Move := .call t (.set r) :: steps t 5
def setSplit (t : Tid) (r : U64) : List Move := .call t (.set r) :: steps t 11

/-- A run in which every move satisfies a decidable condition. -/
def checkRun (max : Nat) (f : St → Move → Bool) : St → List Move → Bool
  | _, [] => true
  | s, mv :: l => f s mv && (match exec max s mv with
    | some s' => checkRun max f s' l
    | none => false)

def tameB (s : St) : Move → Bool
  | .call _ _ => true
  | .step t =>
    match s.pc t with
    | .pub _ h x => decide (x = h) && decide (x ∈ s.listed) && decide (x.toNat + 4 ≤ (next s x).toNat)
    | .idx _ _ x m => (match s.pool x with
      | some l => decide (findIdx m l ≠ 0) && decide (findIdx m l < l.length)
      | none => true)
    | _ => true

def freshB (s : St) : Move → Bool
  | .call _ _ => true
  | .step t =>
    match s.pc t with
    | .sLock r b => s.lock b || decide (find s r = b)
    | _ => true

theorem tameB_sound {s : St} {mv : Move} (h : tameB s mv = true) : Tame s mv := by
  cases mv with
  | call => trivial
  | step t =>
    unfold tameB at h; unfold Tame
    cases e : s.pc t <;> simp only [e] at h ⊢
    case pub r h' x => simpa [and_assoc] using h
    case idx r h' x m =>
      intro l hl
      rw [hl] at h
      simpa using h

theorem freshB_sound {s : St} {mv : Move} (h : freshB s mv = true) : Fresh s mv := by
  cases mv with
  | call => trivial
  | step t =>
    unfold freshB at h; unfold Fresh
    cases e : s.pc t <;> simp only [e] at h ⊢
    case sLock r b =>
      intro hl
      simpa [hl] using h

theorem check_run {max : Nat} {f : St → Move → Bool} {P : St → Move → Prop} (hf : ∀ s mv, f s mv = true → P s mv) {l : List Move} :
    ∀ {s0 s : St}, Run max P s0 s → checkRun max f s l = true → ∃ s', runL max s l = some s' ∧ Run max P s0 s' := by
  induction l with
  | nil => intro s0 s h _; exact ⟨s, rfl, h⟩
  | cons mv l ih =>
    intro s0 s h hc
    unfold checkRun at hc
    simp only [Bool.and_eq_true] at hc
    obtain ⟨h1, h2⟩ := hc
    cases e : exec max s mv with
    | none => rw [e] at h2; cases h2
    | some s1 =>
      rw [e] at h2
      obtain ⟨s', a, b⟩ := ih (.step mv h (hf _ _ h1) e) h2
      exact ⟨s', by unfold runL; rw [e]; exact a, b⟩

set_option maxRecDepth 20000

/-- Set kB; Set kA splits the bucket while a Get of kB (goroutine 1) and a Set of kC (goroutine 2) are interleaved with it. -/
def goodRun : List Move :=
  setRun 0 kB ++ [.call 0 (.set kA)] ++ steps 0 5 ++ [.call 1 (.get kB), .step 1] ++ steps 0 4 ++ [.call 2 (.set kC)] ++ steps 2 2 ++ [.step 1] ++ steps 0 2 ++ steps 2 1

/-- The hypotheses of the theorems above are met by an execution with a split in the middle of which a Get and a Set of other goroutines run. -/
example : ∃ s, runL 1 init goodRun = some s ∧ Run 1 (fun s mv => Tame s mv ∧ Fresh s mv) init s ∧ s.acked = [kA, kB] ∧ s.pc 1 = .done true ∧
    find s kB = 1#64 <<< 59 := by
  obtain ⟨s, h1, h2⟩ := check_run (max := 1) (f := fun s mv => tameB s mv && freshB s mv) (P := fun s mv => Tame s mv ∧ Fresh s mv)
    (fun s mv h => by simp only [Bool.and_eq_true] at h; exact ⟨tameB_sound h.1, freshB_sound h.2⟩) (l := goodRun) (.refl init) (by decide +kernel)
  refine ⟨s, h1, h2, ?_⟩
  have : ((runL 1 init goodRun).map fun s => (s.acked, s.pc 1, find s kB)) = some ([kA, kB], .done true, 1#64 <<< 59) := by decide +kernel
  rw [h1] at this
  simp only [Option.map_some, Option.some.injEq, Prod.mk.injEq] at this
  exact this

/-- C107 refuted: Set(kB) has answered; a Get of kB begins; another goroutine sets kA, which splits the bucket; the Get answers "not found".  (`Tame` and `Fresh`: the Get
has chosen its bucket before the split.) -/
def getRun : List Move := setRun 0 kB ++ [.call 1 (.get kB), .step 1] ++ setSplit 0 kA ++ [.step 1]

theorem C107_refuted_get : ∃ s, runL 1 init getRun = some s ∧ Run 1 (fun s mv => Tame s mv ∧ Fresh s mv) init s ∧ s.pc 1 = .done false ∧ kB ∈ s.acked := by
  obtain ⟨s, h1, h2⟩ := check_run (max := 1) (f := fun s mv => tameB s mv && freshB s mv) (P := fun s mv => Tame s mv ∧ Fresh s mv)
    (fun s mv h => by simp only [Bool.and_eq_true] at h; exact ⟨tameB_sound h.1, freshB_sound h.2⟩) (l := getRun) (.refl init) (by decide +kernel)
  refine ⟨s, h1, h2, ?_⟩
  have : ((runL 1 init getRun).map fun s => (s.pc 1, decide (kB ∈ s.acked))) = some (.done false, true) := by decide +kernel
  rw [h1] at this
  simp only [Option.map_some, Option.some.injEq, Prod.mk.injEq, decide_eq_true_eq] at this
  exact this

/-- A move changes only the goroutine that makes it. -/
theorem exec_other {max : Nat} {s s' : St} {mv : Move} (h : exec max s mv = some s') {u : Tid} (hu : u ≠ mv.who) : s'.pc u = s.pc u := by
  cases mv with
  | call t c => obtain ⟨-, rfl⟩ := exec_call h; exact if_neg hu
  | step t =>
    replace hu : u ≠ t := hu
    unfold exec at h; simp only at h
    unfold go at h
    have key : ∀ (q : St) (p : PC), q.pc = s.pc → (setPC q t p).pc u = s.pc u := by
      intro q p e; rw [setPC_pc, if_neg hu, e]
    cases hp : s.pc t <;> simp only [hp] at h
    case idle => cases h
    case done => cases h
    case uLock r b => cases h; split <;> exact key _ _ rfl
    case sLock r b =>
      split at h
      · cases h
      · obtain ⟨l, -, rfl⟩ := Option.map_eq_some_iff.mp h; exact key _ _ rfl
    case cut r h' x m j => obtain ⟨l, -, rfl⟩ := Option.map_eq_some_iff.mp h; split <;> exact key _ _ rfl
    case setP r h' x m l =>
      cases l with
      | none => cases h; exact key _ _ rfl
      | some l =>
        cases hm : s.pool m <;> simp only [hm] at h <;> cases h <;> exact key _ _ rfl
    all_goals first
      | (obtain ⟨l, -, rfl⟩ := Option.map_eq_some_iff.mp h; exact key _ _ rfl)
      | (cases h; exact key _ _ rfl)

theorem runL_other {max : Nat} {u : Tid} {l : List Move} : ∀ {s s' : St}, runL max s l = some s' → (∀ mv ∈ l, u ≠ mv.who) → s'.pc u = s.pc u := by
  induction l with
  | nil => intro s s' h _; cases h; rfl
  | cons mv l ih =>
    intro s s' h hu
    unfold runL at h
    obtain ⟨s1, h1, h2⟩ := Option.bind_eq_some_iff.mp h
    rw [ih h2 (fun m hm => hu m (List.mem_cons_of_mem _ hm)), exec_other h1 (hu mv List.mem_cons_self)]

/-- C107 refuted: Set(kC) chooses its bucket; another goroutine sets kA, which splits the bucket; Set(kC) goes on and answers true.  Now everybody is done, and a Get of kC
answers "not found" (for ever: `C107_refuted_stale`, whose hypotheses the state before the Set's lock meets). -/
def setRunC : List Move := setRun 0 kB ++ [.call 1 (.set kC), .step 1, .step 1] ++ setSplit 0 kA

theorem C107_refuted_set : ∃ s, runL 1 init setRunC = some s ∧ Run 1 Tame init s ∧ s.pc 1 = .sLock kC 0 ∧ find s kC ≠ 0 ∧ ¬ Present s kC ∧
    ((runL 1 s (steps 1 9 ++ [.call 2 (.get kC), .step 2, .step 2])).map fun s => (s.acked, s.pc 0, s.pc 1, s.pc 2, s.broken)) =
      some ([kC, kA, kB], .done true, .done true, .done false, false) := by
  obtain ⟨s, h1, h2⟩ := check_run (max := 1) (f := tameB) (P := Tame) (fun s mv h => tameB_sound h) (l := setRunC) (.refl init) (by decide +kernel)
  refine ⟨s, h1, h2, ?_⟩
  have np : ¬ Present s kC := by
    have hk := run_known h2
    have h0 : ((runL 1 init setRunC).map fun s => (decide (kC ∈ s.acked) || decide ((s.pc 0).put = some kC) || decide ((s.pc 1).put = some kC))) = some false := by
      decide +kernel
    rw [h1] at h0
    simp only [Option.map_some, Option.some.injEq, Bool.or_eq_false_iff, decide_eq_false_iff_not] at h0
    have un : ¬ Known s kC := by
      rintro (e | ⟨u, e⟩)
      · exact h0.1.1 e
      · by_cases u0 : u = 0
        · subst u0; exact h0.1.2 e
        · by_cases u1 : u = 1
          · subst u1; exact h0.2 e
          · have hw : ∀ mv ∈ setRunC, mv.who = 0 ∨ mv.who = 1 := by decide +kernel
            rw [runL_other h1 (u := u) (fun mv hm e => by rcases hw mv hm with e2 | e2 <;> rw [e2] at e <;> contradiction)] at e
            cases e
    rintro (⟨b, l, hb, hr⟩ | ⟨u, m, l, hu, hr⟩)
    · exact un (hk.pool b l kC hb hr)
    · refine un (hk.carry u kC ?_)
      revert hu; unfold PC.fly; split
      · rename_i e; intro hu; cases hu; rw [e]; exact hr
      · intro hu; cases hu
  have : ((runL 1 init setRunC).map fun s => (decide (s.pc 1 = .sLock kC 0) && decide (find s kC ≠ 0) &&
      decide (((runL 1 s (steps 1 9 ++ [.call 2 (.get kC), .step 2, .step 2])).map fun s => (s.acked, s.pc 0, s.pc 1, s.pc 2, s.broken)) =
      some ([kC, kA, kB], .done true, .done true, .done false, false)))) = some true := by decide +kernel
  rw [h1] at this
  simp only [Option.map_some, Option.some.injEq, Bool.and_eq_true, decide_eq_true_eq, and_assoc] at this
  exact ⟨this.1, this.2.1, np, this.2.2⟩

/-! ### C108: the locks protect the arrays -/

/-- C108: with `Tame` splits an array changes only while the goroutine that changes it holds the lock of its bucket, no two goroutines hold the same lock, and
nothing breaks.  Missing: nested splits (see the refutations). -/
theorem C108_partial {max : Nat} {s s' : St} {mv : Move} (h : Run max Tame init s) (tm : Tame s mv) (e : exec max s mv = some s') :
    s'.broken = false ∧ (∀ t u b, (s'.pc t).held = some b → (s'.pc u).held = some b → t = u) ∧
      ∀ b l, s.pool b = some l → s'.pool b ≠ some l → (s'.pc mv.who).held = some b := by
  have i := (tame_inv (fun _ _ p => p) h).1
  have i' := i.exec tm e
  refine ⟨i'.ok, i'.one, ?_⟩
  intro b l hb hne
  obtain ⟨ef, -⟩ := eff i tm e
  cases ef with
  | quiet _ hp => rw [hp] at hne; exact absurd hb hne
  | publish _ _ _ _ _ _ hp => rw [hp] at hne; exact absurd hb hne
  | index _ hp => rw [hp] at hne; exact absurd hb hne
  | set m l' _ _ hm _ hp =>
    rw [hp] at hne; simp only at hne
    rw [if_neg] at hne
    · exact absurd hb hne
    · intro e2; subst e2; rw [hm] at hb; cases hb
  | cut x m l' a b' hx _ hp _ _ hk =>
    rw [hp] at hne; simp only at hne
    by_cases e2 : b = x
    · subst e2
      rw [hk]; exact (i.work _ b m (src_work a)).1
    · rw [if_neg e2] at hne; exact absurd hb hne
  | insert r c l' ek _ _ _ hp =>
    rw [hp] at hne; simp only at hne
    by_cases e2 : b = c
    · subst e2
      cases mv with
      | call t cl =>
        obtain ⟨hpc, -⟩ := exec_call e
        rcases hpc with e3 | ⟨_, e3⟩ <;> rw [show s.pc t = _ from ek] at e3 <;> cases e3
      | step t =>
        unfold exec at e; simp only at e
        unfold go at e
        simp only [show s.pc t = _ from ek] at e
        split at e
        · cases e
        · obtain ⟨l2, -, rfl⟩ := Option.map_eq_some_iff.mp e
          show ((setPC _ t _).pc t).held = _
          rw [setPC_pc, if_pos rfl]; rfl
    · rw [if_neg e2] at hne; exact absurd hb hne

/-- Set(kB) and Set(kC) fill bucket 0; both keys lie above its new boundary, so the split is given up (C26); Set(kA) makes it succeed and goes on, in a nested call, to split
the new bucket, whose lock it does not hold. -/
def nestRun : List Move := setRun 0 kB ++ (.call 0 (.set kC) :: steps 0 7) ++ (.call 0 (.set kA) :: steps 0 11)

/-- C108 refuted: a Set of another goroutine, which holds the lock, splits the same bucket at the same time; the second of the two finds the array already shortened, gets a
nil pool and crashes. -/
theorem C108_refuted_crash :
    ((runL 1 init (nestRun ++ (.call 1 (.set kD) :: steps 1 5) ++ steps 0 1 ++ steps 1 2 ++ steps 0 2)).map fun s => s.broken) = some true := by
  decide +kernel

/-- Before that nothing is broken, goroutine 1 holds the lock of the bucket that goroutine 0 is splitting too. -/
theorem C108_refuted_lock :
    ((runL 1 init (nestRun ++ (.call 1 (.set kD) :: steps 1 5) ++ steps 0 1)).map fun s =>
      (s.broken, (s.pc 0).held, (s.pc 0).work.map Prod.fst, (s.pc 1).held, (s.pc 1).work.map Prod.fst)) =
      some (false, some (0 : U64), some (1#64 <<< 59), some (1#64 <<< 59), some (1#64 <<< 59)) := by
  decide +kernel

/-- C108 refuted: with another timing nothing crashes, but Set(kD) answers true and its key is destroyed: it is in no array. -/
theorem C108_refuted_destroyed :
    ((runL 1 init (nestRun ++ steps 0 1 ++ (.call 1 (.set kD) :: steps 1 13) ++ steps 0 2)).map fun s =>
      (s.broken, s.pc 1, decide (kD ∈ s.acked), s.reach.all fun b => decide (kD ∉ (s.pool b).getD []), (s.pc 0).carry)) = some (false, .done true, true, true, []) := by
  decide +kernel

end SLM.ESplit
