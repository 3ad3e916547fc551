import Verif.Proofs.EConc6
import Verif.Props.EConc
/-!
C95: Sets and Gets on one embedded bucket are linearizable, as long as the Sets keep apart and no Get searches while a slot is half filled.  The specification is `plain`
(SpecBucket.lean), a plain map.  `Exec`, `Finished`, `Pending`: Proofs/EConc6.lean; every goroutine makes one call.
-/
set_option autoImplicit false
set_option maxRecDepth 20000
namespace SLM.EConc
open Emb (Slot Pool)

/-- The finished calls, and some of those that have begun and not returned yet, can be put into one order such that no call comes before one that had returned when it
began, and such that each of them answers as it would if they were made one after the other in this order on an empty plain map. -/
def Linearizable (σ : Nat → St) (n : Nat) : Prop :=
  ∃ L : List Done, (L.map (·.g)).Nodup ∧ (∀ d, Finished σ n d → d ∈ L) ∧ (∀ d ∈ L, Finished σ n d ∨ Pending σ n d) ∧ L.Pairwise (fun a b => ¬ b.r < a.b) ∧
    plainRun (fun _ => none) (L.map (·.cl)) = L.map (·.res)

/-- C95 in full: Sets and Gets of keys with distinct non-zero hashes, on an empty bucket. -/
def C95_statement : Prop :=
  ∀ (g : U64 → U64) (cap n : Nat) (σ : Nat → St) (γ : Nat → Tid), 0 < cap → σ 0 = init cap → Exec (Calls (Call.good g)) σ γ n → Linearizable σ n

theorem held_init (m : Nat) : held (init m) = fun _ => none := by
  funext k
  obtain ⟨r, c⟩ := k
  refine held_none ?_
  rintro v ⟨i, hi, _⟩
  exact absurd hi (Nat.not_lt_zero _)

/-- C95, for executions in which (`Apart`): a Set goes to insert its key only while no other Set is inserting; a new array is published only while no Set has an item in hand;
a Get searches only while no slot is taken and not yet filled.  Any number of Sets of stored keys, and Gets, may overlap with each other and with the Set that inserts. -/
theorem C95_partial {g : U64 → U64} {cap n : Nat} {σ : Nat → St} {γ : Nat → Tid} (hc : 0 < cap) (h0 : σ 0 = init cap) (ex : Exec (Apart g) σ γ n) :
    Linearizable σ n := by
  have := ex.linear (by rw [h0]; exact fun _ => rfl) (by rw [h0]; exact SI.init g hc)
  rw [h0, held_init] at this
  exact this

/-! ### One Set at a time -/

/-- The goroutine is in a Set. -/
def PC.setting : PC → Bool
  | .look (.set ..) | .lockUpd (.set ..) _ _ | .upd (.set ..) _ _ => true
  | .ret .. => true
  | p => p.frame.isSome || p.claims

/-- Sets and Gets; a Set begins only while no other one is running; a Get searches only while no slot is taken and not yet filled. -/
structure OneSet (g : U64 → U64) (s : St) (t : Tid) (s' : St) : Prop where
  calls : Calls (Call.good g) s t s'
  one : ∀ r c v, s.pc t = .idle → s'.pc t = .look (.set r c v) → ∀ u, (s.pc u).setting = false
  whole : ∀ r c, s.pc t = .look (.get r c) → ∀ u, (s.pc u).claims = false

/-- At most one goroutine is in a Set. -/
def Single (s : St) : Prop := ∀ t u, (s.pc t).setting = true → (s.pc u).setting = true → u = t

theorem setting_back {s s' : St} {t : Tid} (st : XStep s t s') (hk : ∀ cl, (s.pc t).call = some cl → cl.keeps = true) (hs : (s.pc t).shape = true)
    (h : (s'.pc t).setting = true) : (s.pc t).setting = true ∨ ∃ r c v, s.pc t = .idle ∧ s'.pc t = .look (.set r c v) := by
  rcases st.mv with ⟨cl', h1, rfl⟩ | ⟨ch, s1, p, hx, mv, rfl⟩
  · rw [setPC_same] at h ⊢
    cases cl' <;> simp [PC.setting, PC.frame, PC.claims] at h
    exact .inr ⟨_, _, _, h1, rfl⟩
  · left
    rw [setPC_same] at h
    cases mv <;> rw [‹s.pc t = _›] at hk hs ⊢ <;> first
      | rfl
      | (have := hk _ rfl; rename_i cl _ _ _ _ _; cases cl <;> first | rfl | (cases this; done) | (cases h; done))
      | (have := hk _ rfl; rename_i cl _ _ _ _; cases cl <;> first | rfl | (cases this; done) | (cases h; done))
      | (cases h; done)
      | (cases hk _ rfl; done)
      | (obtain ⟨_, _, _, rfl⟩ := upd_set hs (hk _ rfl); rfl)

theorem setting_of_inserting {p : PC} (h : p.inserting = true) : p.setting = true := by
  cases p <;> simp [PC.inserting, PC.setting, PC.frame, PC.claims] at h ⊢

theorem Single.step {g : U64 → U64} {s s' : St} {t : Tid} (h : Single s) (si : SI g s) (st : XStep s t s') (ho : OneSet g s t s') : Single s' := by
  have hb : ∀ u, (s'.pc u).setting = true → (s.pc u).setting = true ∨ (u = t ∧ ∀ w, (s.pc w).setting = false) := by
    intro u hu
    by_cases e : u = t
    · subst e
      rcases setting_back st (fun cl hc => (si.good u cl hc).2.2.2) (si.pi.shape u) hu with h1 | ⟨r, c, v, h1, h2⟩
      · exact .inl h1
      · exact .inr ⟨rfl, ho.one r c v h1 h2⟩
    · left; rw [st.others e] at hu; exact hu
  intro a b ha hb'
  rcases hb a ha with h1 | ⟨h1, h1'⟩ <;> rcases hb b hb' with h2 | ⟨h2, h2'⟩
  · exact h a b h1 h2
  · rw [h2'] at h1; cases h1
  · rw [h1'] at h2; cases h2
  · rw [h1, h2]

theorem OneSet.apart {g : U64 → U64} {s s' : St} {t : Tid} (ho : OneSet g s t s') (h : Single s) (si : SI g s) (st : XStep s t s') : Apart g s t s' := by
  refine ⟨ho.calls, ?_, ?_, ho.whole⟩
  · intro cl f h1 h2 u
    have hset : ∃ r c v, cl = .set r c v := by
      rcases st.mv with ⟨cl', h3, rfl⟩ | ⟨ch, s1, p, hx, mv, rfl⟩
      · rw [h1] at h3; cases h3
      · rw [setPC_same] at h2
        revert h1
        cases mv <;> (rw [‹s.pc t = _›]; intro h1) <;> cases h1 <;> first | (cases h2; done) | exact ⟨_, _, _, rfl⟩
    obtain ⟨r, c, v, rfl⟩ := hset
    by_contra hu
    have hu : (s.pc u).inserting = true := by simpa using hu
    have e := h t u (by rw [h1]; rfl) (setting_of_inserting hu)
    subst e
    rw [h1] at hu; cases hu
  · intro hne u cl a i
    have ht : (s.pc t).inserting = true := by
      rcases st.mv with ⟨cl', h3, rfl⟩ | ⟨ch, s1, p, hx, mv, rfl⟩
      · exact absurd rfl hne
      · cases mv <;> first | exact absurd rfl hne | skip
        case ins3 hp => rw [hp]; rfl
        case exp3 hp => rw [hp]; rfl
        all_goals exact absurd (show (release s t).cur = s.cur by unfold release; split <;> rfl) hne
    have key : ∀ p, s.pc u = p → (p = .lockUpd cl a i ∨ p = .upd cl a i) → False := by
      intro p hp hpe
      have hset : ∃ r c v, cl = .set r c v := by
        have hsh := si.pi.shape u
        have hgo := si.good u cl (by rw [hp]; rcases hpe with rfl | rfl <;> rfl)
        rw [hp] at hsh
        refine upd_set (a := a) (i := i) ?_ hgo.2.2.2
        rcases hpe with rfl | rfl <;> cases cl <;> exact hsh
      obtain ⟨r, c, v, rfl⟩ := hset
      have e := h t u (setting_of_inserting ht) (by rw [hp]; rcases hpe with rfl | rfl <;> rfl)
      subst e
      rw [hp] at ht
      rcases hpe with rfl | rfl <;> cases ht
    exact ⟨fun e => key _ e (.inl rfl), fun e => key _ e (.inr rfl)⟩

/-- C95 with a condition on the calls: the Sets do not overlap each other; a Get searches only while no slot is taken and not yet filled.  One writer, any number of
readers. -/
theorem C95_oneset_partial {g : U64 → U64} {cap n : Nat} {σ : Nat → St} {γ : Nat → Tid} (hc : 0 < cap) (h0 : σ 0 = init cap) (ex : Exec (OneSet g) σ γ n) :
    Linearizable σ n := by
  have key : ∀ i, i ≤ n → SI g (σ i) ∧ Single (σ i) := by
    intro i
    induction i with
    | zero => intro _; rw [h0]; exact ⟨SI.init g hc, fun t u h => by cases h⟩
    | succ i ih =>
      intro hi
      obtain ⟨a, b⟩ := ih (by omega)
      obtain ⟨st, ho⟩ := ex i (by omega)
      exact ⟨a.step st (ho.apart b a st).neat, b.step a st ho⟩
  refine C95_partial (g := g) (γ := γ) hc h0 (fun i hi => ?_)
  obtain ⟨a, b⟩ := key i (by omega)
  obtain ⟨st, ho⟩ := ex i hi
  exact ⟨st, ho.apart b a st⟩

/-! ### Executions with indices -/

theorem XVia.exec {P : St → Tid → St → Prop} {a b : St} (h : XVia P a b) : ∃ σ γ n, Exec P σ γ n ∧ σ 0 = a ∧ σ n = b := by
  induction h with
  | refl => exact ⟨fun _ => a, fun _ => 0, 0, fun i hi => absurd hi (Nat.not_lt_zero _), rfl, rfl⟩
  | @tail b' d t h1 st hp ih =>
    obtain ⟨σ, γ, n, hex, h2, h3⟩ := ih
    refine ⟨fun i => if i ≤ n then σ i else d, fun i => if i < n then γ i else t, n + 1, ?_, by simpa using h2, by simp⟩
    intro i hi
    by_cases hin : i < n
    · have h4 : i ≤ n := by omega
      have h5 : i + 1 ≤ n := by omega
      simp only [hin, h4, h5, if_true]
      exact hex i hin
    · have h4 : i = n := by omega
      subst h4
      simp only [Nat.le_refl, Nat.lt_irrefl, if_true, if_false, Nat.not_succ_le_self]
      rw [h3]; exact ⟨st, hp⟩

theorem Exec.append {P : St → Tid → St → Prop} {σ σ' : Nat → St} {γ γ' : Nat → Tid} {n n' : Nat} (h : Exec P σ γ n) (h' : Exec P σ' γ' n')
    (he : σ n = σ' 0) : Exec P (fun i => if i ≤ n then σ i else σ' (i - n)) (fun i => if i < n then γ i else γ' (i - n)) (n + n') := by
  intro i hi
  by_cases hin : i < n
  · have h1 : i ≤ n := by omega
    have h2 : i + 1 ≤ n := by omega
    simp only [hin, h1, h2, if_true]
    exact h i hin
  · have h2 : ¬ i + 1 ≤ n := by omega
    by_cases hie : i = n
    · subst hie
      simp only [Nat.lt_irrefl, Nat.le_refl, if_true, if_false, h2]
      have := h' 0 (by omega)
      rw [he]
      simpa [show i + 1 - i = 1 by omega] using this
    · have h1 : ¬ i ≤ n := by omega
      simp only [hin, h1, h2, if_false]
      have := h' (i - n) (by omega)
      rwa [show i - n + 1 = i + 1 - n by omega] at this

/-! ### The conditions are met -/

/-- The conditions of `Apart` for calls of goroutines below 8 on keys with second hash 1. -/
def apartB (s : St) (t : Tid) (s' : St) : Bool :=
  decide (t < 8) &&
  (match s.pc t, s'.pc t with
   | .idle, .look cl => decide (cl.rev ≠ 0) && decide (cl.conf = 1) && cl.keeps
   | .look _, .gw _ => (List.range 8).all (fun u => !(s.pc u).inserting)
   | _, _ => true) &&
  (decide (s'.cur = s.cur) || (List.range 8).all (fun u => match s.pc u with | .lockUpd .. => false | .upd .. => false | _ => true)) &&
  (match s.pc t with
   | .look (.get _ _) => (List.range 8).all (fun u => !(s.pc u).claims)
   | _ => true)

theorem apartB_ok (s : St) (t : Tid) (s' : St) (hi : ∀ u, 8 ≤ u → s.pc u = .idle) (h : apartB s t s' = true) : Apart g1 s t s' := by
  unfold apartB at h
  rw [Bool.and_eq_true, Bool.and_eq_true, Bool.and_eq_true] at h
  obtain ⟨⟨⟨_, h1⟩, h2⟩, h3⟩ := h
  refine ⟨?_, ?_, ?_, ?_⟩
  · intro cl e1 e2
    rw [e1, e2] at h1
    simp only [Bool.and_eq_true, decide_eq_true_eq] at h1
    exact ⟨h1.1.1, by rw [h1.1.2]; decide, h1.1.2, h1.2⟩
  · intro cl f e1 e2 u
    rw [e1, e2] at h1
    simp only [List.all_eq_true, List.mem_range] at h1
    by_cases hu : u < 8
    · simpa using h1 u hu
    · rw [hi u (Nat.not_lt.1 hu)]; rfl
  · intro hne u cl a i
    simp only [Bool.or_eq_true, decide_eq_true_eq, List.all_eq_true, List.mem_range] at h2
    rcases h2 with h2 | h2
    · exact absurd h2 hne
    · by_cases hu : u < 8
      · have := h2 u hu
        refine ⟨fun e => ?_, fun e => ?_⟩ <;> · rw [e] at this; cases this
      · rw [hi u (Nat.not_lt.1 hu)]; simp
  · intro r c e u
    rw [e] at h3
    simp only [List.all_eq_true, List.mem_range] at h3
    by_cases hu : u < 8
    · simpa using h3 u hu
    · rw [hi u (Nat.not_lt.1 hu)]; rfl

def oneSetB (s : St) (t : Tid) (s' : St) : Bool :=
  decide (t < 8) &&
  (match s.pc t, s'.pc t with
   | .idle, .look cl => decide (cl.rev ≠ 0) && decide (cl.conf = 1) && cl.keeps && (match cl with | .set .. => (List.range 8).all (fun u => !(s.pc u).setting) | _ => true)
   | _, _ => true) &&
  (match s.pc t with
   | .look (.get _ _) => (List.range 8).all (fun u => !(s.pc u).claims)
   | _ => true)

theorem oneSetB_ok (s : St) (t : Tid) (s' : St) (hi : ∀ u, 8 ≤ u → s.pc u = .idle) (h : oneSetB s t s' = true) : OneSet g1 s t s' := by
  unfold oneSetB at h
  rw [Bool.and_eq_true, Bool.and_eq_true] at h
  obtain ⟨⟨_, h1⟩, h3⟩ := h
  refine ⟨?_, ?_, ?_⟩
  · intro cl e1 e2
    rw [e1, e2] at h1
    simp only [Bool.and_eq_true, decide_eq_true_eq] at h1
    exact ⟨h1.1.1.1, by rw [h1.1.1.2]; decide, h1.1.1.2, h1.1.2⟩
  · intro r c v e1 e2 u
    rw [e1, e2] at h1
    simp only [Bool.and_eq_true, List.all_eq_true, List.mem_range] at h1
    by_cases hu : u < 8
    · simpa using h1.2 u hu
    · rw [hi u (Nat.not_lt.1 hu)]; rfl
  · intro r c e u
    rw [e] at h3
    simp only [List.all_eq_true, List.mem_range] at h3
    by_cases hu : u < 8
    · simpa using h3 u hu
    · rw [hi u (Nat.not_lt.1 hu)]; rfl

/-- 16 and 32 are stored; a Set of 32 (2), a Get of 32 (3), a Set of 24 (4, it has to insert) and a Get of 24 (5) are under way; the Get of 24 misses; the Set of 32 writes; the Set of
24 publishes a new array; the Get of 32 reads the new value from the old array; Gets of 24 and 32 find the new values. -/
def mixedL : List Cmd :=
  [.start 0 (.set 16 1 (w 1)), .move 0 20, .start 1 (.set 32 1 (w 2)), .move 1 20, .start 2 (.set 32 1 (w 7)), .move 2 1, .start 3 (.get 32 1), .move 3 1,
   .start 4 (.set 24 1 (w 9)), .move 4 3, .start 5 (.get 24 1), .move 5 9, .move 2 9, .move 4 30, .move 3 9, .start 6 (.get 24 1), .move 6 9, .start 7 (.get 32 1), .move 7 9]
def mixed : St := (execC apartB (init 3) mixedL).getD (init 3)
theorem mixed_run : execC apartB (init 3) mixedL = some mixed := getD_run (by decide +kernel)

example : ∃ σ γ n, Exec (Apart g1) σ γ n ∧ σ 0 = init 3 ∧ σ n = mixed ∧ mixed.cur ≠ 0 ∧ (∀ u, u < 8 → u ≠ 3 → u ≠ 5 → u < 6 → mixed.pc u = .done (.bool true)) ∧
    mixed.pc 3 = .done (.val (w 7) true) ∧ mixed.pc 5 = .done (.val none false) ∧ mixed.pc 6 = .done (.val (w 9) true) ∧ mixed.pc 7 = .done (.val (w 7) true) := by
  obtain ⟨h, _⟩ := execC_fin (N := 8) (fun s t s' h => by unfold apartB at h; simp only [Bool.and_eq_true, decide_eq_true_eq] at h; exact h.1.1.1)
    apartB_ok mixedL _ _ (fun _ _ => rfl) .refl mixed_run
  obtain ⟨σ, γ, n, h1, h2, h3⟩ := h.exec
  exact ⟨σ, γ, n, h1, h2, h3, by decide +kernel, by decide +kernel, by decide +kernel, by decide +kernel, by decide +kernel, by decide +kernel⟩

/-- One Set after the other, Gets at any time: 3 and 4 search before the array is replaced and read afterwards. -/
def readersL : List Cmd :=
  [.start 0 (.set 16 1 (w 1)), .move 0 20, .start 1 (.set 32 1 (w 2)), .start 3 (.get 16 1), .move 1 4, .move 3 1, .move 1 20, .start 4 (.get 32 1), .move 4 1,
   .start 2 (.set 24 1 (w 9)), .start 5 (.get 24 1), .move 2 5, .move 5 9, .move 2 30, .move 3 9, .move 4 9, .start 6 (.get 24 1), .move 6 9]
def readers : St := (execC oneSetB (init 3) readersL).getD (init 3)
theorem readers_run : execC oneSetB (init 3) readersL = some readers := getD_run (by decide +kernel)

example : ∃ σ γ n, Exec (OneSet g1) σ γ n ∧ σ 0 = init 3 ∧ σ n = readers ∧ readers.cur ≠ 0 ∧ readers.pc 2 = .done (.bool true) ∧
    readers.pc 3 = .done (.val (w 1) true) ∧ readers.pc 4 = .done (.val (w 2) true) ∧ readers.pc 5 = .done (.val none false) ∧
    readers.pc 6 = .done (.val (w 9) true) := by
  obtain ⟨h, _⟩ := execC_fin (N := 8) (fun s t s' h => by unfold oneSetB at h; simp only [Bool.and_eq_true, decide_eq_true_eq] at h; exact h.1.1)
    oneSetB_ok readersL _ _ (fun _ _ => rfl) .refl readers_run
  obtain ⟨σ, γ, n, h1, h2, h3⟩ := h.exec
  exact ⟨σ, γ, n, h1, h2, h3, by decide +kernel, by decide +kernel, by decide +kernel, by decide +kernel, by decide +kernel, by decide +kernel⟩

/-! ### C95 fails for all schedules -/

/-- Once a key is there, Sets and Gets one after the other never miss it. -/
theorem never_none {k : U64 × U64} : ∀ (L : List Done) (m : U64 × U64 → Option IVal), m k ≠ none → (∀ d ∈ L, d.cl.keeps = true) →
    plainRun m (L.map (·.cl)) = L.map (·.res) → ∀ d ∈ L, d.cl = .get k.1 k.2 → d.res ≠ .val none false := by
  intro L
  induction L with
  | nil => intro m _ _ _ d hd; cases hd
  | cons a L ih =>
    intro m hm hk hr d hd hcl
    simp only [List.map_cons, plainRun, List.cons.injEq] at hr
    have hm' : (plain m a.cl).1 k ≠ none := by
      have ha := hk a (by simp)
      cases hc : a.cl <;> rw [hc] at ha <;> first
        | (cases ha; done)
        | exact hm
        | (simp only [plain]; split <;> first | exact hm | simp)
    rcases List.mem_cons.1 hd with rfl | hd
    · rw [hcl] at hr
      have hk2 : m (k.1, k.2) ≠ none := hm
      simp only [plain] at hr
      rw [← hr.1]
      cases hv : m (k.1, k.2) with
      | none => exact absurd hv hk2
      | some v => simp
    · exact ih _ hm' (fun d hd => hk d (by simp [hd])) hr.2 d hd hcl

/-- A Get that misses does not come after a Set of its key. -/
theorem not_after {k : U64 × U64} {v : IVal} {d0 d3 : Done} (h0 : d0.cl = .set k.1 k.2 v) (h3 : d3.cl = .get k.1 k.2) (h4 : d3.res = .val none false) (h5 : d0.r < d3.b) :
    ∀ (L : List Done) (m : U64 × U64 → Option IVal), (∀ d ∈ L, d.cl.keeps = true) → L.Pairwise (fun a b => ¬ b.r < a.b) →
    plainRun m (L.map (·.cl)) = L.map (·.res) → d0 ∈ L → d3 ∈ L → False := by
  intro L
  induction L with
  | nil => intro m _ _ _ h; cases h
  | cons a L ih =>
    intro m hk hp hr m0 m3
    have hp' := List.pairwise_cons.1 hp
    simp only [List.map_cons, plainRun, List.cons.injEq] at hr
    rcases List.mem_cons.1 m0 with e0 | m0
    · rcases List.mem_cons.1 m3 with e3 | m3
      · rw [e0, ← e3, h3] at h0; cases h0
      · refine never_none (k := k) L _ ?_ (fun d hd => hk d (by simp [hd])) hr.2 d3 m3 h3 h4
        rw [← e0, h0]
        simp [plain]
    · rcases List.mem_cons.1 m3 with e3 | m3
      · rw [← e3] at hp'; exact hp'.1 d0 m0 h5
      · exact ih _ (fun d hd => hk d (by simp [hd])) hp'.2 hr.2 m0 m3

/-- Who calls what: goroutine 0 sets 16, 3 gets 16, the others set 32. -/
def callOf3 : Tid → Call
  | 0 => .set 16 1 (w 1)
  | 3 => .get 16 1
  | _ => .set 32 1 (w 2)

def Calls3 (s : St) (t : Tid) (s' : St) : Prop := ∀ cl, s.pc t = .idle → s'.pc t = .look cl → cl = callOf3 t

def calls3B (s : St) (t : Tid) (s' : St) : Bool :=
  match s.pc t, s'.pc t with
  | .idle, .look cl => decide (cl = callOf3 t)
  | _, _ => true

theorem calls3B_ok (s : St) (t : Tid) (s' : St) (h : calls3B s t s' = true) : Calls3 s t s' := by
  intro cl e1 e2
  unfold calls3B at h
  rw [e1, e2] at h
  simpa using h

theorem callOf3_good (t : Tid) : (callOf3 t).good g1 := by
  unfold callOf3
  split <;> exact ⟨by decide, by decide, rfl, rfl⟩

/-- 16 is stored; goroutine 1 has taken a slot for 32 and has not written its hash; goroutine 3 gets 16. -/
def got16L : List Cmd := [.start 0 (.set 16 1 (w 1)), .move 0 20]
def got16L2 : List Cmd := [.start 1 (.set 32 1 (w 2)), .move 1 5, .start 3 (.get 16 1), .move 3 9]
def got16 : St := (execC calls3B (init 3) got16L).getD (init 3)
def got16b : St := (execC calls3B got16 got16L2).getD got16

/-- C95 fails for all schedules: 16 is stored; while a Set of 32 has taken a slot and not written its hash, a Get of 16 answers "not found". -/
theorem C95_refuted : ¬ C95_statement := by
  intro hst
  have r1 : execC calls3B (init 3) got16L = some got16 := getD_run (by decide +kernel)
  have r2 : execC calls3B got16 got16L2 = some got16b := getD_run (by decide +kernel)
  have k1 : got16.pc 0 = .done (.bool true) ∧ got16.pc 3 = .idle := by decide +kernel
  have k2 : got16b.pc 3 = .done (.val none false) := by decide +kernel
  obtain ⟨σ1, γ1, n1, ex1, a1, b1⟩ := (execC_xvia calls3B_ok _ _ _ .refl r1).exec
  obtain ⟨σ2, γ2, n2, ex2, a2, b2⟩ := (execC_xvia calls3B_ok _ _ _ .refl r2).exec
  have hj : σ1 n1 = σ2 0 := by rw [a2]; exact b1
  have ex := ex1.append ex2 hj
  have e0 : (fun i => if i ≤ n1 then σ1 i else σ2 (i - n1)) 0 = init 3 := by simpa using a1
  have em : (fun i => if i ≤ n1 then σ1 i else σ2 (i - n1)) n1 = got16 := by
    simp only [Nat.le_refl, if_true]; exact b1
  have en : (fun i => if i ≤ n1 then σ1 i else σ2 (i - n1)) (n1 + n2) = got16b := by
    by_cases h : n2 = 0
    · subst h; simp only [Nat.add_zero, Nat.le_refl, if_true]; rw [hj]; exact b2
    · have h1 : ¬ n1 + n2 ≤ n1 := by omega
      simp only [h1, if_false, Nat.add_sub_cancel_left]; exact b2
  generalize (fun i => if i ≤ n1 then σ1 i else σ2 (i - n1)) = σ at ex e0 em en
  generalize (fun i => if i < n1 then γ1 i else γ2 (i - n1)) = γ at ex
  clear ex1 ex2 hj a1 a2 b1 b2 σ1 γ1 σ2 γ2
  -- every call is the one named above
  have hcl : ∀ u b cl, b < n1 + n2 → Begins σ u b cl → cl = callOf3 u := by
    intro u b cl hb hbe
    obtain ⟨st, hp⟩ := ex b hb
    have e : u = γ b := by
      by_contra e
      have := st.others e
      rw [hbe.1, hbe.2] at this; cases this
    rw [← e] at hp
    exact hp cl hbe.1 hbe.2
  obtain ⟨L, hL1, hL2, hL3, hL4, hL5⟩ := hst g1 3 (n1 + n2) σ γ (by decide) e0 (fun i hi => by
    obtain ⟨st, hp⟩ := ex i hi
    exact ⟨st, fun cl h1 h2 => by rw [hp cl h1 h2]; exact callOf3_good _⟩)
  have hid : ∀ u, (σ 0).pc u = .idle := by rw [e0]; exact fun _ => rfl
  -- the Set of 16
  obtain ⟨b0, cl0, p1, p2, _⟩ := ex.begun (hid 0) n1 (by omega) (by rw [em, k1.1]; simp)
  obtain ⟨q0, q1, q2, q3, q4⟩ := ex.returned p2 n1 p1 (by omega) (by rw [em]; exact k1.1)
  -- the Get of 16
  obtain ⟨b3, cl3, u1, u2, _⟩ := ex.begun (hid 3) (n1 + n2) (le_refl _) (by rw [en, k2]; simp)
  obtain ⟨v0, v1, v2, v3, v4⟩ := ex.returned u2 (n1 + n2) u1 (le_refl _) (by rw [en]; exact k2)
  have hb3 : n1 ≤ b3 := by
    by_contra hlt
    exact ex.not_idle (i := b3 + 1) (by rw [u2.2]; simp) n1 (by omega) (by omega) (by rw [em]; exact k1.2)
  have hkeeps : ∀ d ∈ L, d.cl.keeps = true := by
    intro d hd
    have hb : d.b < n1 + n2 ∧ Begins σ d.g d.b d.cl := by
      rcases hL3 d hd with h | h
      · exact ⟨by have := h.1; have := h.2.1; omega, h.2.2.1⟩
      · exact ⟨h.1, h.2.2.1⟩
    rw [hcl _ _ _ hb.1 hb.2]
    exact (callOf3_good _).2.2.2
  refine not_after (k := (16, 1)) (v := w 1) (d0 := ⟨0, cl0, .bool true, b0, q0⟩) (d3 := ⟨3, cl3, .val none false, b3, v0⟩)
    (hcl 0 b0 cl0 (by omega) p2) (hcl 3 b3 cl3 (by omega) u2) rfl (show q0 < b3 by omega) L _ hkeeps hL4 hL5
    (hL2 _ ⟨q1, by show q0 < _; omega, p2, q3, q4⟩) (hL2 _ ⟨v1, v2, u2, v3, v4⟩)

end SLM.EConc
