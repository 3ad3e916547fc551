import Verif.Proofs.Pool2
import Verif.Props.Counting
/-!
C30 (slots are handed out once), C31 (growth), C32 with pools (items held by the caller), C49 (allocation neither crashes nor
hangs).
-/
set_option autoImplicit false
set_option maxRecDepth 100000
namespace SLM.Pool
open History

/-! ### C30 -/

/-- The slots (backing array, index) handed out so far are pairwise different. -/
def SlotsDistinct (s : CSt) : Prop := (s.log.map (·.2)).Nodup

/-- Every slot handed out lies inside the array of some pool. -/
def SlotsInRange (s : CSt) : Prop :=
  ∀ t a i, (t, a, i) ∈ s.log → 0 ≤ i ∧ ∃ p, (s.pools p).arr = a ∧ i < (s.pools p).cap

/-- C30 fails: two goroutines that allocate concurrently from a pool nobody used before get the same slot. -/
theorem C30_refuted : ¬ ∀ s, Steps cinit s → SlotsDistinct s := by
  intro h
  have key : ((exec cinit [0,0, 1,1, 0,0,0,0, 1,1,1,1,1, 0]).map (·.log)) = some [(0,2,0),(1,2,0)] := by decide +kernel
  obtain ⟨s, h1, h2⟩ := Option.map_eq_some_iff.1 key
  have := h s (exec_steps _ _ _ h1)
  unfold SlotsDistinct at this
  rw [h2] at this
  simp at this

/-- C30 once the pool has served its first allocation: for any number of goroutines and all schedules, expansions included,
no slot is handed out twice and every slot lies inside its array. -/
theorem C30_partial (s : CSt) (h : Steps warm s) : SlotsDistinct s ∧ SlotsInRange s := by
  have I := Inv.warm.steps h
  refine ⟨I.log_nd, ?_⟩
  intro t a i hm
  obtain ⟨p, _, h1, h2, _, h3⟩ := I.log_ok _ hm
  exact ⟨h2, p, h1, h3⟩

/-- `warm` is what one goroutine leaves behind when it allocates alone. -/
theorem warm_reachable : ∃ s, Steps cinit s ∧ s.pools 0 = warm.pools 0 ∧ s.count = warm.count ∧ s.cur = warm.cur ∧
    s.arrs = warm.arrs ∧ s.log = warm.log ∧ s.pc 0 = .idle := by
  have key : ((exec cinit (List.replicate 8 0)).map (fun s => decide (s.pools 0 = warm.pools 0 ∧ s.count = warm.count ∧
      s.cur = warm.cur ∧ s.arrs = warm.arrs ∧ s.log = warm.log ∧ s.pc 0 = .idle))) = some true := by decide +kernel
  obtain ⟨s, h1, h2⟩ := Option.map_eq_some_iff.1 key
  exact ⟨s, exec_steps _ _ _ h1, of_decide_eq_true h2⟩

/-- A schedule of three goroutines with an expansion, to which `C30_partial` applies. -/
example : ((exec warm (List.replicate (7*62 + 8) 0 ++ [1,1,1] ++ [2,2] ++ List.replicate 6 1)).map
    (fun s => (s.count, s.log.length, (s.pools 1).len, (s.pools 1).cap))) = some (2, 65, 65, 128) := by decide +kernel

/-! ### C49 -/

/-- C49 fails (crash), even on a used pool: a goroutine checks that there is room, another takes the last slot, the first
increments the length beyond the capacity and dereferences nil. -/
theorem C49_refuted_crash : ∃ s, Steps warm s ∧ s.pc 1 = .crashed := by
  have key : ((exec warm (List.replicate (7*62) 0 ++ [1,1,1] ++ List.replicate 8 0 ++ [1,1,1])).map (fun s => s.pc 1)) =
      some PC.crashed := by decide +kernel
  obtain ⟨s, h1, h2⟩ := Option.map_eq_some_iff.1 key
  exact ⟨s, exec_steps _ _ _ h1, h2⟩

/-- The schedule of the deadlock: both goroutines see 63 of 64 slots used and go for the lock; the first takes the last slot
and finishes, the second gets the lock, loses the compare-and-swap, keeps the lock and wants to expand. -/
def hangSched : List Tid := List.replicate (7*62) 0 ++ [1,1,1,1] ++ List.replicate 8 0 ++ [1,1,1,1]

/-- C49 fails (hang): two goroutines that race for the last slot of a pool can leave the pool in a state in which the loser
waits for ever for a lock it holds itself, and no allocation from that pool ever completes again. -/
theorem C49_refuted_hang : ∃ s, Steps warm s ∧ (∀ u, u ≠ 1 → s.pc u = .idle) ∧
    ∀ s', Steps s s' → s'.pc 1 = .expand 0 ∧ (s'.pools 0).owner = some 1 ∧ s'.log = s.log := by
  have key : ((exec warm hangSched).map (fun s => (s.pc 0, s.pc 1, s.pools 0, s.count, s.cur))) =
      some (.idle, .expand 0, { inited := true, arr := 1, len := 64, cap := 64, owner := some 1 }, 1, 0) := by decide +kernel
  obtain ⟨s, h1, h2⟩ := Option.map_eq_some_iff.1 key
  simp only [Prod.mk.injEq] at h2
  obtain ⟨e0, e1, e2, e3, e4⟩ := h2
  have others : ∀ u, u ≠ 0 → u ≠ 1 → s.pc u = .idle := by
    intro u hu0 hu1
    have gen : ∀ (ts : List Tid) (a b : CSt), (∀ t ∈ ts, t ≠ u) → exec a ts = some b → b.pc u = a.pc u := by
      intro ts
      induction ts with
      | nil => intro a b _ h; simp [exec] at h; rw [h]
      | cons t ts ih =>
        intro a b hts h
        simp only [exec] at h
        cases hn : next a t with
        | none => simp [hn] at h
        | some c =>
          rw [hn] at h
          rw [ih c b (fun t ht => hts t (by simp [ht])) h]
          exact next_other a c t u (fun hc => hts t (by simp) hc.symm) hn
    refine gen _ warm s ?_ h1
    intro t ht hc
    subst hc
    simp [hangSched] at ht
    rcases ht with ht | ht | ht | ht <;> first | exact hu0 ht | exact hu1 ht
  have all : ∀ u, s.pc u = .idle ∨ s.pc u = .expand 0 := by
    intro u
    by_cases h0 : u = 0
    · subst h0; exact Or.inl e0
    · by_cases h1 : u = 1
      · subst h1; exact Or.inr e1
      · exact Or.inl (others u h0 h1)
  have H : Hang s := by
    refine ⟨⟨by omega, e1, by rw [e2], ?_⟩, e4, by rw [e2], by rw [e2], ?_⟩
    · intro u; rcases all u with h | h <;> simp [h]
    · intro u; rcases all u with h | h <;> simp [h]
  refine ⟨s, exec_steps _ _ _ h1, ?_, ?_⟩
  · intro u hu
    by_cases h0 : u = 0
    · subst h0; exact e0
    · exact others u h0 hu
  · intro s' hs
    have := H.steps hs
    exact ⟨this.1.dead.pc, this.1.dead.own, this.2⟩

/-- C49 while the first pool array is not yet full (at most 63 of its 64 slots taken): for any number of goroutines and all
schedules, no goroutine has crashed, and while some goroutine is inside an allocation, some goroutine can make a step. -/
theorem C49_partial (s : CSt) (h : Steps warm s) (hl : (s.pools 0).len ≤ 63) :
    (∀ t, s.pc t ≠ .crashed) ∧ ∀ t, s.pc t ≠ .idle → ∃ u s', s.pc u ≠ .idle ∧ Step s u s' := by
  have L := low_steps h hl
  have I := Inv.warm.steps h
  refine ⟨L.ncr, ?_⟩
  intro t ht
  have p0 : ∀ p, (s.pc t).pool = some p → p = 0 := by
    intro p hp; have := I.pc_lt t p hp; rw [L.count] at this; omega
  by_cases hlock : ∃ p i, s.pc t = .lock p i
  · obtain ⟨p, i, hp⟩ := hlock
    have := p0 p (by rw [hp]; rfl); subst this
    cases ho : (s.pools 0).owner with
    | some u =>
      have hu := L.own u ho
      refine ⟨u, ?_⟩
      by_cases hc : (s.pools 0).len = 63
      · exact ⟨_, by simp [hu], Step.casOk s u 0 63 true hu hc⟩
      · exact ⟨_, by simp [hu], Step.casFail s u 0 63 true hu hc⟩
    | none =>
      refine ⟨t, ?_⟩
      by_cases hc : i + 1 = (s.pools 0).cap
      · exact ⟨_, ht, Step.lockOk s t 0 i hp ho hc⟩
      · exact ⟨_, ht, Step.lockRetry s t 0 i hp ho hc⟩
  · have hn : ∃ s', next s t = some s' := by
      unfold next
      split <;> rename_i hpc
      · exact absurd hpc ht
      · split <;> exact ⟨_, rfl⟩
      · exact ⟨_, rfl⟩
      · split <;> exact ⟨_, rfl⟩
      · split <;> exact ⟨_, rfl⟩
      · exact absurd ⟨_, _, hpc⟩ hlock
      · split <;> exact ⟨_, rfl⟩
      · split <;> exact ⟨_, rfl⟩
      · exact absurd hpc (L.nexp t _)
      · exact ⟨_, rfl⟩
      · exact absurd hpc (L.ncr t)
    obtain ⟨s', hs⟩ := hn
    exact ⟨t, s', ht, next_step s s' t hs⟩

/-- Sixty-three slots taken, one goroutine waiting for the lock of the last one. -/
example : ((exec warm (List.replicate (7*62) 0 ++ [1,1,1,1] ++ [0,0,0,0,0])).map (fun s => ((s.pools 0).len, s.pc 1, s.pc 0))) =
    some (63, .lock 0 63, .cas 0 63 true) := by decide +kernel

/-! ### C31 -/

/-- C31: growing keeps every item at its index, and there is room for one more. -/
theorem C31_expand {α : Type} (items : List α) (h : (items.length : Int) < 2 ^ 63 - 64) :
    (∀ i : Nat, (expandItems items).1[i]? = items[i]?) ∧ ((expandItems items).1.length : Int) < (expandItems items).2 :=
  ⟨fun _ => rfl, (poolCap_bounds _ h).1⟩

/-- `n` allocations by one goroutine and the slots (generation, index) they return. -/
def allocs : Nat → SeqPool × List (Nat × Int)
  | 0 => ({}, [])
  | n + 1 => ((allocs n).1.alloc.1, (allocs n).2 ++ [(allocs n).1.alloc.2])

theorem poolCap_mul64 (m : Int) (h1 : 1 ≤ m) (h2 : 64 * m < 2 ^ 63 - 64) :
    ∃ q, poolCap (64 * m) = 64 * q ∧ m + 1 ≤ q := by
  by_cases h : 64 * m < 256
  · have : m = 1 ∨ m = 2 ∨ m = 3 := by omega
    rcases this with rfl | rfl | rfl
    · exact ⟨2, by decide +kernel, by omega⟩
    · exact ⟨4, by decide +kernel, by omega⟩
    · exact ⟨4, by decide +kernel, by omega⟩
  · exact ⟨1 + m, by rw [poolCap_big _ (by omega) h2]; omega, by omega⟩

/-- C31 over whole histories of one goroutine: the k-th allocation returns index k, the length is the number of allocations,
the capacity stays a multiple of 64 that is large enough, the generation never goes back, and an expansion leaves at least
64 free slots (so the lock that `Get` drops after an expansion is never the one that protects the last slot). -/
theorem C31_allocs (n : Nat) (h : (n : Int) < 2 ^ 62) :
    (allocs n).1.len = n ∧ (∃ q, (allocs n).1.cap = 64 * q ∧ 1 ≤ q) ∧ (n : Int) ≤ (allocs n).1.cap ∧
    (allocs n).2.map (·.2) = (List.range n).map (fun (k : Nat) => (k : Int)) ∧
    (∀ x ∈ (allocs n).2, x.1 ≤ (allocs n).1.gen) ∧
    ((allocs n).1.cap ≤ (allocs n).1.len → (allocs n).1.len + 64 ≤ (allocs n).1.alloc.1.cap) := by
  induction n with
  | zero => simp only [allocs]; refine ⟨rfl, ⟨1, rfl, by omega⟩, by decide, rfl, by simp, by intro h; simp at h⟩
  | succ n ih =>
    obtain ⟨h1, ⟨q, h2, h2'⟩, h3, h4, h5, h6⟩ := ih (by omega)
    have hal : (allocs n).1.alloc.1.len = n + 1 ∧ (∃ q, (allocs n).1.alloc.1.cap = 64 * q ∧ 1 ≤ q) ∧
        (n : Int) + 1 ≤ (allocs n).1.alloc.1.cap ∧ (allocs n).1.alloc.2.2 = n ∧
        (allocs n).1.gen ≤ (allocs n).1.alloc.1.gen ∧ (allocs n).1.alloc.2.1 = (allocs n).1.alloc.1.gen := by
      unfold SeqPool.alloc
      split
      · rename_i hc
        have he : (n : Int) = 64 * q := by omega
        obtain ⟨q', hq, hq'⟩ := poolCap_mul64 q h2' (by omega)
        simp only [h1, he, hq]
        exact ⟨trivial, ⟨q', rfl, by omega⟩, by omega, trivial, by omega, trivial⟩
      · rename_i hc
        simp only [h1, h2]
        exact ⟨trivial, ⟨q, rfl, h2'⟩, by omega, trivial, by omega, trivial⟩
    obtain ⟨a1, ⟨q', a2, a2'⟩, a3, a4, a5, a6⟩ := hal
    simp only [allocs]
    refine ⟨by rw [a1]; push_cast; rfl, ⟨q', a2, a2'⟩, by push_cast; exact a3, ?_, ?_, ?_⟩
    · simp [List.range_succ, h4, a4]
    · intro x hx
      rcases List.mem_append.1 hx with hx | hx
      · exact Nat.le_trans (h5 x hx) a5
      · simp at hx; rw [hx, a6]
    · intro hc
      have he : ((n : Int) + 1) = 64 * q' := by omega
      obtain ⟨q2, hq, hq'⟩ := poolCap_mul64 q' a2' (by omega)
      generalize (allocs n).1.alloc.1 = P at *
      unfold SeqPool.alloc
      rw [if_pos hc]
      simp only [a1, he, hq]
      omega

example : (allocs 100).1 = { gen := 1, len := 100, cap := 128 } := by decide +kernel

/-! ### C32 with pools -/

theorem prun_st (E : Env) (ops : List Op) (s : PSt) : (s.run E ops).1.st = (run E s.st ops).1 ∧ (s.run E ops).2 = (run E s.st ops).2 := by
  induction ops generalizing s with
  | nil => exact ⟨rfl, rfl⟩
  | cons op ops ih =>
    have h1 : (s.step E op).1.st = (step E s.st op).1 ∧ (s.step E op).2 = (step E s.st op).2 := by
      unfold PSt.step
      simp only
      split
      · split <;> exact ⟨rfl, rfl⟩
      · exact ⟨rfl, rfl⟩
    have h2 := ih (s.step E op).1
    simp only [PSt.run, run]
    rw [h1.1] at h2
    exact ⟨h2.1, by rw [h2.2, h1.2]⟩

theorem prun_append (E : Env) (a b : List Op) (s : PSt) : (s.run E (a ++ b)).1 = ((s.run E a).1.run E b).1 := by
  induction a generalizing s with
  | nil => rfl
  | cons op a ih => simp only [List.cons_append, PSt.run]; exact ih _

/-- `n` times: set a key and delete it again. -/
def setDelete (n : Nat) : List Op := (List.replicate n [Op.set (sk 0) (exV 2), Op.delete (sk 0)]).flatten

/-- What the user of a map with UsePool(true) sees: Set(a,1); it := LoadItem(a); 64 times Set(b), Delete(b);
it.SetValue(7); Get(a). -/
def heldScenario : Option (Out × Out) :=
  let s1 := ((pinit { pool := true, maxPer := 1000 }).run exE [Op.set (sk 1) (exV 1)]).1
  match s1.load exE (sk 1) with
  | none => none
  | some it =>
    let s2 := (s1.run exE (setDelete 64)).1
    let r := s2.heldSet it (exV 7)
    some (r.2, (r.1.step exE (.get (sk 1))).2)

/-- C32 fails with pools: SetValue on the item returned by LoadItem answers true, but Get still returns the old value,
because unrelated Sets made the pool move its items. -/
theorem C32_refuted : heldScenario = some (.bool true, .val (exV 1) true) := by decide +kernel

/-- In general: an item of an array that was replaced since is a dead copy, writes to it never reach the map. -/
theorem C32_stale (E : Env) (s : PSt) (it : Held) (v : IVal) (h : it.gen ≠ s.genOf it.ref) (op : Op) :
    ((s.heldSet it v).1.step E op).2 = (s.step E op).2 := by
  unfold PSt.heldSet
  rw [if_neg h]

/-- C32 with pools, as long as the pool of the item was not expanded since LoadItem. -/
theorem C32_pooled_partial {E : Env} {cfg : Cfg} {ops ops2 : List Op} (h : Clean E cfg (ops ++ ops2)) {key : Key} {it : Held}
    (hl : ((pinit cfg).run E ops).1.load E key = some it)
    (hd : ∀ key', Op.delete key' ∈ ops2 → keyToHash E.H key' ≠ keyToHash E.H key)
    (hg : it.gen = ((pinit cfg).run E (ops ++ ops2)).1.genOf it.ref) (v : IVal) :
    let s := ((pinit cfg).run E (ops ++ ops2)).1
    (s.heldSet it v).2 = .bool true → ((s.heldSet it v).1.step E (.get key)).2 = .val v true ∧
      ∀ key', keyToHash E.H key' ≠ keyToHash E.H key → ((s.heldSet it v).1.step E (.get key')).2 = (s.step E (.get key')).2 := by
  intro s hv
  have e1 := (prun_st E ops (pinit cfg)).1
  have e2 : s.st = (run E (initSt cfg) (ops ++ ops2)).1 := (prun_st E (ops ++ ops2) (pinit cfg)).1
  unfold PSt.load at hl
  rw [e1] at hl
  obtain ⟨x, hx, hit⟩ := Option.map_eq_some_iff.1 hl
  have r1 : it.ref = x.1 := by rw [← hit]
  have r2 : it.kind = x.2 := by rw [← hit]
  have key1 := (C32_live h hx hd).2 v
  have hs : s.heldSet it v = ({ s with st := (heldSetValue s.st (it.ref, it.kind) v).1 }, (heldSetValue s.st (it.ref, it.kind) v).2) := by
    unfold PSt.heldSet; rw [if_pos hg]
  rw [hs] at hv ⊢
  rw [r1, r2, e2] at hv
  have := key1 hv
  have g : ∀ (p : PSt) k, (p.step E (.get k)).2 = opGet E p.st k := fun p k => rfl
  simp only [g, r1, r2, e2]
  exact this

/-- Addresses only change for the item made by the current Set; with at most 64 operations no pool is expanded. -/
theorem prun_small {E : Env} {cfg : Cfg} (ops : List Op) (h : ops.length ≤ 64) :
    ∀ q, (((pinit cfg).run E ops).1.pools q).gen = 0 := by
  have gen : ∀ (ops : List Op) (s : PSt) (n : Nat), n + ops.length ≤ 64 →
      (∀ q, (s.pools q).gen = 0 ∧ (s.pools q).len ≤ n ∧ (s.pools q).cap = 64) → ∀ q, ((s.run E ops).1.pools q).gen = 0 := by
    intro ops
    induction ops with
    | nil => intro s n _ hs q; exact (hs q).1
    | cons op ops ih =>
      intro s n hn hs
      simp only [List.length_cons] at hn
      simp only [PSt.run]
      refine ih (s.step E op).1 (n + 1) (by omega) ?_
      have mono : ∀ q, (s.pools q).gen = 0 ∧ (s.pools q).len ≤ ((n + 1 : Nat) : Int) ∧ (s.pools q).cap = 64 := by
        intro q; have := hs q; push_cast; omega
      unfold PSt.step
      simp only
      split
      · split
        · intro q
          simp only
          split
          · unfold SeqPool.alloc
            have := hs (poolIdx (rev64 ‹U64›))
            rename_i k _ _ _
            rw [if_neg (by have := hs (poolIdx (rev64 k)); omega)]
            have := hs (poolIdx (rev64 k))
            push_cast
            exact ⟨this.1, by omega, this.2.2⟩
          · exact mono q
        · exact mono
      · exact mono
  exact gen ops (pinit cfg) 0 (by omega) (fun q => ⟨rfl, by simp [pinit], rfl⟩)

theorem step_nextId (E : Env) {st : St} (h : SLM.Inv st) (op : Op) : st.nextId ≤ (SLM.step E st op).1.nextId := by
  rcases step_eff E h op with x | ⟨e1, nv, b, x⟩ | ⟨key, e1, x⟩ | ⟨st2, k, c, e1, x⟩
  · obtain ⟨b, hb⟩ := x.same
    rw [hb]
  · rw [x.res]
  · rw [x.res]
  · have h1 : (setMid st2 k (findBucket st.mem (rev64 k)) e1).nextId = st2.nextId := rfl
    have h2 := x.nextId
    rcases x.grow with h | ⟨_, _, _, _, _, h⟩
    · rw [h, h1]; omega
    · have := h.same.2.2.2.2.2; omega

theorem prun_addr {E : Env} (ops : List Op) (s : PSt) (I : SLM.Inv s.st) (n : Nat) (hn : n < s.st.nextId) :
    (s.run E ops).1.addr n = s.addr n := by
  induction ops generalizing s with
  | nil => rfl
  | cons op ops ih =>
    have h1 : (s.step E op).1.st = (step E s.st op).1 := by
      have := (prun_st E [op] s).1
      simpa [PSt.run, run] using this
    have hn2 : n < (s.step E op).1.st.nextId := by rw [h1]; exact Nat.lt_of_lt_of_le hn (step_nextId E I op)
    simp only [PSt.run]
    rw [ih _ (by rw [h1]; exact step_inv E I op) hn2]
    unfold PSt.step
    simp only
    split
    · split
      · simp only; rw [if_neg (by omega)]
      · rfl
    · rfl

/-- C32 with pools for every program of at most 64 calls: a held item stays live (no pool can have been expanded). -/
theorem C32_pooled_small {E : Env} {cfg : Cfg} {ops ops2 : List Op} (h : Clean E cfg (ops ++ ops2)) {key : Key} {it : Held}
    (hl : ((pinit cfg).run E ops).1.load E key = some it)
    (hd : ∀ key', Op.delete key' ∈ ops2 → keyToHash E.H key' ≠ keyToHash E.H key)
    (hs : (ops ++ ops2).length ≤ 64) (v : IVal) :
    let s := ((pinit cfg).run E (ops ++ ops2)).1
    (s.heldSet it v).2 = .bool true → ((s.heldSet it v).1.step E (.get key)).2 = .val v true ∧
      ∀ key', keyToHash E.H key' ≠ keyToHash E.H key → ((s.heldSet it v).1.step E (.get key')).2 = (s.step E (.get key')).2 := by
  refine C32_pooled_partial h hl hd ?_ v
  have g1 := h.left.good
  have e1 := (prun_st E ops (pinit cfg)).1
  unfold PSt.load at hl
  obtain ⟨x, hx, hit⟩ := Option.map_eq_some_iff.1 hl
  have r1 : it.ref = x.1 := by rw [← hit]
  have r2 : it.gen = ((pinit cfg).run E ops).1.genOf x.1 := by rw [← hit]
  have hsplit : ((pinit cfg).run E (ops ++ ops2)).1 = (((pinit cfg).run E ops).1.run E ops2).1 := prun_append _ _ _ _
  have z1 := prun_small (E := E) (cfg := cfg) ops (by simp at hs; omega)
  have z2 := prun_small (E := E) (cfg := cfg) (ops ++ ops2) hs
  rw [r2, r1]
  cases hr : x.1 with
  | dummy p => rfl
  | item n =>
    simp only [PSt.genOf]
    have hn : n < ((pinit cfg).run E ops).1.st.nextId := by
      rw [e1] at hx ⊢
      unfold loadRef at hx
      cases hk : keyToHash E.H key with
      | none => rw [hk] at hx; simp at hx
      | some kc =>
        rw [hk] at hx
        obtain ⟨e, he, hxe⟩ := Option.map_eq_some_iff.1 hx
        have h2 : getWithBucket E (SLM.run E (initSt cfg) ops).1 kc.1 kc.2 = (some e, (getWithBucket E (SLM.run E (initSt cfg) ops).1 kc.1 kc.2).2) :=
          Prod.ext he rfl
        obtain ⟨m1, _, _, _⟩ := getWithBucket_mem h2
        exact (g1.inv.ii.itm e m1 n (by rw [← hr, ← hxe])).2
    have ha : ((pinit cfg).run E (ops ++ ops2)).1.addr n = ((pinit cfg).run E ops).1.addr n := by
      rw [hsplit]
      exact prun_addr ops2 _ (by rw [e1]; exact g1.inv) n hn
    rw [ha]
    cases ((pinit cfg).run E ops).1.addr n with
    | none => rfl
    | some a => simp [z1, z2]

/-- The hypotheses hold for a pooled map: store, load, store and delete another key, write through the item. -/
example : cleanB { pool := true, maxPer := 1000 } ([Op.set (sk 1) (exV 1)] ++ setDelete 5) = true ∧
    (((pinit { pool := true, maxPer := 1000 }).run exE [Op.set (sk 1) (exV 1)]).1.load exE (sk 1)).isSome = true ∧
    ((((pinit { pool := true, maxPer := 1000 }).run exE [Op.set (sk 1) (exV 1)]).1.load exE (sk 1)).bind (·.gen)) = some 0 := by
  decide +kernel

end SLM.Pool
