import Verif.Proofs.Depth
import Verif.Proofs.Example
/-!
C01, C15 with conditions on the arguments only (no reference to the state of the map): after `n` stores with
`MaxPefBucket(m)` at most `D = max(0, n - m)` buckets were split off, so a primary hash of at least `2^(4+D)` cannot be a
bucket boundary, and the crash of C15 needs at least 59 splits.
-/
set_option maxRecDepth 20000
set_option autoImplicit false
namespace SLM
open Spec (PMap ans Ans)
open History

/-- How many buckets a history of `ops` can split off. -/
def maxSplits (H : HashFns) (cfg : Cfg) (ops : List Op) : Nat := ((stores H ops : Int) - cfg.maxPer).toNat

theorem stores_cons (H : HashFns) (op : Op) (ops : List Op) :
    stores H (op :: ops) = (if (storeHash H op).isSome then 1 else 0) + stores H ops := by
  unfold stores
  rw [List.filter_cons]
  split <;> simp <;> omega

theorem boundary_large {st : St} (h : BI st.mem st.blist) {D : Nat} (hc : ∀ p ∈ st.blist, 2 ^ (60 - D) ∣ bval p) (hD : D ≤ 60) {k : U64}
    (hk : 2 ^ (4 + D) ≤ k.toNat) (hmax : k ≠ maxU64) : rev64 k ∉ boundaries st := by
  intro hm
  obtain ⟨p, hp, hr⟩ := List.mem_map.1 hm
  by_cases hn : p = []
  · subst hn
    rw [h.ti.root.1] at hr
    apply hmax
    have := congrArg rev64 hr
    rw [rev64_rev64] at this
    rw [← this]; decide
  · have h1 := h.rev_toNat hp hn
    rw [hr] at h1
    have h2 := hc p hp
    rw [← h1] at h2
    have := hash_lt_of_dvd (by omega) h2
    rw [show 64 - (60 - D) = 4 + D by omega] at this
    omega

theorem no_max_pred {st : St} (h : BI st.mem st.blist) {D : Nat} (hc : ∀ p ∈ st.blist, 2 ^ (60 - D) ∣ bval p) (hD : D ≤ 58) :
    ¬ ∃ p ∈ st.blist, (st.mem p).rev = maxU64 - 1 := by
  rintro ⟨p, hp, hr⟩
  by_cases hn : p = []
  · subst hn
    rw [h.ti.root.1] at hr
    revert hr; decide
  · have h1 := h.rev_toNat hp hn
    have h2 := hc p hp
    rw [← h1, hr] at h2
    have h4 : 2 ^ 2 ∣ (maxU64 - 1).toNat := dvd_trans (pow_dvd_pow 2 (by omega)) h2
    revert h4; decide

/-- At every point of such a history there are at most `D` split-off buckets. -/
theorem few_splits {st : St} {n t : Nat} {m : Int} (hd : DepthInv st n) (hm : st.maxPer = m) (hn : n ≤ t) :
    splits st ≤ ((t : Int) - m).toNat := by
  rcases hd.few with ⟨h, _⟩ | h
  · omega
  · rw [hm] at h; omega

theorem static_run {E : Env} {ops : List Op} {st : St} {n t : Nat} {m : Int} (hi : Inv st) (hd : DepthInv st n) (hm : st.maxPer = m)
    (hn : n + stores E.H ops ≤ t) (hD : ((t : Int) - m).toNat ≤ 58)
    (hk : ∀ op ∈ ops, ∀ k c, storeHash E.H op = some (k, c) → 2 ^ (4 + ((t : Int) - m).toNat) ≤ k.toNat ∧ k ≠ maxU64) :
    OffBoundary E st ops ∧ NoCrash E st ops := by
  induction ops generalizing st n with
  | nil => exact ⟨trivial, by simp [NoCrash, run]⟩
  | cons op ops ih =>
    rw [stores_cons] at hn
    have hs := few_splits hd hm (show n ≤ t by omega)
    have hc : Coarse st.blist ((t : Int) - m).toNat := (hd.coarse (by omega)).mono hs
    obtain ⟨hd', hm'⟩ := step_depth E hi hd op
    have := ih (step_inv E hi op) hd' (hm'.trans hm) (by omega) (fun o ho => hk o (by simp [ho]))
    constructor
    · refine ⟨?_, this.1⟩
      intro k c hs'
      obtain ⟨h1, h2⟩ := hk op (by simp) k c hs'
      exact Or.inr (boundary_large hi.bi hc.dvd (by omega) h1 h2)
    · rw [NoCrash, run_cons]
      simp only [List.mem_cons, not_or]
      refine ⟨?_, this.2⟩
      intro hcr
      have hb := no_max_pred hi.bi hc.dvd hD
      rcases step_eff E hi op with x | ⟨e, nv, b, x⟩ | ⟨key, e, x⟩ | ⟨st2, k, c, e, x⟩
      · exact hb (x.crash hcr.symm)
      · rw [x.res] at hcr; cases hcr
      · rw [x.res] at hcr; cases hcr
      · rw [x.out] at hcr; cases hcr

/-- Conditions on arguments that make a history clean. -/
theorem static_clean {E : Env} {cfg : Cfg} {ops : List Op} (hcoll : NoCollision E.H ops) (hf : FreshItems ops)
    (hD : maxSplits E.H cfg ops ≤ 58)
    (hk : ∀ op ∈ ops, ∀ k c, storeHash E.H op = some (k, c) → 2 ^ (4 + maxSplits E.H cfg ops) ≤ k.toNat ∧ k ≠ maxU64) :
    Clean E cfg ops := by
  have := static_run (E := E) (ops := ops) (t := stores E.H ops) (m := cfg.maxPer) (inv_init cfg) (depth_init cfg) (initSt_maxPer cfg)
    (by omega) hD hk
  exact ⟨hcoll, hf, this.1, this.2⟩

/-- C01 with conditions on the arguments only: at most `MaxPefBucket + 58` stores, no two keys with equal primary and
different secondary hash, primary hashes at least `2^(4+D)` and not `2^64-1`. In particular (`D = 0`), for up to
`MaxPefBucket` stores, primary hashes at least 16. -/
theorem C01_static_partial {E : Env} {cfg : Cfg} {ops : List Op} (hcoll : NoCollision E.H ops)
    (hf : FreshItems ops) (hD : maxSplits E.H cfg ops ≤ 58)
    (hk : ∀ op ∈ ops, ∀ k c, storeHash E.H op = some (k, c) → 2 ^ (4 + maxSplits E.H cfg ops) ≤ k.toNat ∧ k ≠ maxU64) :
    (run E (initSt cfg) ops).2.map ans = ((PMap.empty cfg.itemFn).run E.H ops).2 :=
  congrArg Prod.snd (static_clean hcoll hf hD hk).refines.2.2

/-- The example history meets the conditions with the default bucket size. -/
example : NoCollision exH exOps ∧ FreshItems exOps ∧ maxSplits exH { itemFn := .sample } exOps = 0 ∧
    ∀ op ∈ exOps, ∀ k c, storeHash exH op = some (k, c) → 2 ^ 4 ≤ k.toNat ∧ k ≠ maxU64 := by
  refine ⟨collB_sound (by decide +kernel), freshB_sound (by decide +kernel), by decide +kernel, ?_⟩
  intro op hop k c hs
  have : exOps.all (fun op => match storeHash exH op with | some (k, _) => decide (2 ^ 4 ≤ k.toNat ∧ k ≠ maxU64) | none => true) = true := by
    decide +kernel
  have := List.all_eq_true.1 this op hop
  rw [hs] at this
  simpa using this

/-! ### C15 -/

/-- C15, every reachable map: storing through Set with a string key or through StoreItem (hashable key) either answers a
bool, or panics on a change of value type (C17), or panics with "bucket head empty"; the last one only when a bucket with
boundary 2^64-2 exists. It never livelocks. -/
theorem C15_only_crash_partial {E : Env} {st : St} (h : Reachable E st) (op : Op) {kc : U64 × U64} (hs : storeHash E.H op = some kc)
    (hstr : ∀ key v, op = .set key v → ∃ s, key = .str s) :
    (∃ b, (step E st op).2 = .bool b) ∨ (step E st op).2 = .panic .valueType ∨
    ((step E st op).2 = .panic .bucketHeadEmpty ∧ maxU64 - 1 ∈ boundaries st) := by
  have hupd : ∀ e v, (∃ b, (update st e v).2 = .bool b) ∨ (update st e v).2 = .panic .valueType := by
    intro e v
    unfold update setValue
    cases st.itemFn <;> cases v <;> simp
    cases e.val with
    | none => simp
    | some o => rename_i w; by_cases ht : o.ty = w.ty <;> simp [ht]
  have hrest : ∀ (st2 : St) (k : U64) (e : Entry) (o : St), st2.mem = st.mem → st2.blist = st.blist → st2.items = st.items →
      st2.nextId = st.nextId + 1 → st2.lv = st.lv → e.ref = .item st.nextId → e.dummy = false →
      (let r : St × Out := match setNew st2 k (findBucket st.mem (rev64 k)) e with
        | .ok st' => (st', .bool true) | .error p => (o, .panic p)
       r.2 = .bool true ∨ (r.2 = .panic .bucketHeadEmpty ∧ maxU64 - 1 ∈ boundaries st)) := by
    intro st2 k e o h1 h2 h3 h4 hlv h5 h6
    have hmid : Inv (setMid st2 k (findBucket st.mem (rev64 k)) e) := setMid_inv h.inv h5 h6 h1 h2 h3 h4 hlv
    rcases setNew_spec hmid with ⟨s2, g1, _, _⟩ | ⟨g1, p, hp, g2⟩
    · rw [g1]; exact Or.inl rfl
    · rw [g1]
      refine Or.inr ⟨rfl, ?_⟩
      rw [h2] at hp; rw [h1] at g2
      exact List.mem_map.2 ⟨p, hp, g2⟩
  obtain ⟨k, c⟩ := kc
  cases op with
  | set key v =>
    obtain ⟨s, rfl⟩ := hstr key v rfl
    simp only [step]
    have hk : keyToHash E.H (.str s) = some (k, c) := hs
    cases hf : (getWithBucket E st k c).1 with
    | some e =>
      have h2 : getWithBucket E st k c = (some e, (getWithBucket E st k c).2) := by rw [← hf]
      have hop : opSet E st (.str s) v = update st e v := by unfold opSet; simp only [hk]; rw [h2]
      rw [hop]
      rcases hupd e v with h | h
      · exact Or.inl h
      · exact Or.inr (Or.inl h)
    | none =>
      rw [opSet_new hk hf]
      rcases hrest (setPre st) k (newSetEntry st (.str s) v k c) _ rfl rfl rfl rfl rfl rfl rfl with h | h
      · exact Or.inl ⟨true, h⟩
      · exact Or.inr (Or.inr h)
  | storeItem it =>
    simp only [step]
    have hk : keyToHash E.H it.key = some (k, c) := hs
    cases hf : (getWithBucket E st k c).1 with
    | some e =>
      have h2 : getWithBucket E st k c = (some e, (getWithBucket E st k c).2) := by rw [← hf]
      have hop : opStoreItem E st it = update st e it.val := by unfold opStoreItem NewItem.keyHash; simp only [hk]; rw [h2]
      rw [hop]
      rcases hupd e it.val with h | h
      · exact Or.inl h
      · exact Or.inr (Or.inl h)
    | none =>
      rw [opStoreItem_new hk hf]
      rcases hrest (storePre st) k (newItemEntry st it k c) _ rfl rfl rfl rfl rfl rfl rfl with h | h
      · exact Or.inl ⟨true, h⟩
      · exact Or.inr (Or.inr h)
  | _ => simp [storeHash] at hs

/-- C15 holds for the first `MaxPefBucket + 58` stores of a map, whatever their keys and values. -/
theorem C15_bounded_partial {E : Env} {cfg : Cfg} {ops : List Op} (hD : maxSplits E.H cfg ops ≤ 58) :
    Out.panic .bucketHeadEmpty ∉ (run E (initSt cfg) ops).2 := by
  have key : ∀ (ops : List Op) (st : St) (n t : Nat) (m : Int), Inv st → DepthInv st n → st.maxPer = m → n + stores E.H ops ≤ t →
      ((t : Int) - m).toNat ≤ 58 → NoCrash E st ops := by
    intro ops
    induction ops with
    | nil => intro st n t m _ _ _ _ _; simp [NoCrash, run]
    | cons op ops ih =>
      intro st n t m hi hd hm hn hD
      rw [stores_cons] at hn
      have hs := few_splits hd hm (show n ≤ t by omega)
      have hc : Coarse st.blist ((t : Int) - m).toNat := (hd.coarse (by omega)).mono hs
      obtain ⟨hd', hm'⟩ := step_depth E hi hd op
      have := ih _ _ t m (step_inv E hi op) hd' (hm'.trans hm) (by omega) hD
      rw [NoCrash, run_cons]
      simp only [List.mem_cons, not_or]
      refine ⟨?_, this⟩
      intro hcr
      have hb := no_max_pred hi.bi hc.dvd hD
      rcases step_eff E hi op with x | ⟨e, nv, b, x⟩ | ⟨key, e, x⟩ | ⟨st2, k, c, e, x⟩
      · exact hb (x.crash hcr.symm)
      · rw [x.res] at hcr; cases hcr
      · rw [x.res] at hcr; cases hcr
      · rw [x.out] at hcr; cases hcr
  exact key ops _ 0 (stores E.H ops) cfg.maxPer (inv_init cfg) (depth_init cfg) (initSt_maxPer cfg) (by omega) hD

example : maxSplits exH exCfg exOps = 9 := by decide +kernel

end SLM
