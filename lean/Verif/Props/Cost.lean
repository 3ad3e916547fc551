import Verif.Proofs.Cost
import Verif.Props.Locate
/-!
C98: what a lookup looks at.  `getLooked st k` / `setLooked st k` (Verif/Model/Cost.lean) are the entries of the item list that the lookup of the primary
hash `k` by Get, LoadItem and Delete / by Set and StoreItem looks at, in this order; with EnableStats set their number is what the lookup adds to
`DebugStats[CntReverseSearch]` and `DebugStats[CntSearchEntry]`.  `OneGap items x y`: no bucket boundary lies strictly between `x` and `y`.
-/
set_option autoImplicit false
set_option maxRecDepth 20000
namespace SLM
open History
open Conc (dummy_path prev_above bestAbove bestAbove_above bestAbove_min)

/-- The counted entries are the ones the answer depends on: a Get answers with the last of them, if it is live and has both hashes. -/
theorem C98_answer (E : Env) (st : St) (k c : U64) :
    getEntry E st k c = (getLooked st k).getLast?.filter (fun e => !e.ignored && decide (e.rev = rev64 k) && decide (e.conflict = c)) := by
  unfold getEntry getLooked
  rw [search_last]
  unfold lastHit
  cases (lookedAt st (bucketForKey st (rev64 k)) (rev64 k) true).getLast? with
  | none => rfl
  | some e =>
    by_cases h1 : e.ignored = true <;> by_cases h2 : e.rev = rev64 k <;> by_cases h3 : e.conflict = c <;> simp [Option.filter, h1, h2, h3]

theorem sentinel_below {st : St} (h : Inv st) {t : U64} (hn : Nearest st t (findBucket st.mem t)) :
    ∀ d ∈ st.items, d.dummy = true → d.rev < t → d.rev ≤ (st.mem (findBucket st.mem t)).rev := by
  intro d hd hdd hlt
  obtain ⟨q, hq, rfl⟩ := dummy_path h hd hdd
  have e : (st.mem q).rev = bvRev q := h.bi.rev_eq hq
  have hr : (dummyEntry q (bvRev q)).rev = bvRev q := rfl
  rw [hr] at hlt ⊢
  rw [← e] at hlt ⊢
  refine hn.2 q hq ?_ (by bv_omega)
  rintro rfl
  rw [h.bi.ti.root.1] at hlt
  have hm : maxU64.toNat = 2 ^ 64 - 1 := by decide
  rw [BitVec.lt_def, hm] at hlt
  have := t.isLt
  omega

theorem start_gap {st : St} (h : Inv st) {t : U64} (hn : Nearest st t (findBucket st.mem t)) :
    (∀ d ∈ st.items, d.dummy = true → d.rev < t → (st.mem (bucketForKey st t)).rev < t → d.rev ≤ (st.mem (bucketForKey st t)).rev) ∧
    (∀ d ∈ st.items, d.dummy = true → t < d.rev → t ≤ (st.mem (bucketForKey st t)).rev → (st.mem (bucketForKey st t)).rev ≤ d.rev) := by
  have hown : ∀ n, n = findBucket st.mem t →
      (∀ d ∈ st.items, d.dummy = true → d.rev < t → (st.mem n).rev < t → d.rev ≤ (st.mem n).rev) ∧
      (∀ d ∈ st.items, d.dummy = true → t < d.rev → t ≤ (st.mem n).rev → (st.mem n).rev ≤ d.rev) := by
    rintro n rfl
    refine ⟨fun d hd hdd h1 _ => sentinel_below h hn d hd hdd h1, fun d hd hdd h1 h2 => ?_⟩
    have := hn.1
    bv_omega
  unfold bucketForKey
  simp only
  split
  · split
    · rename_i hne
      by_cases hb : findBucket st.mem t ∈ st.blist
      · obtain ⟨_, f2, _⟩ := findBucket_spec h.bi.ti t
        obtain ⟨p1, p2⟩ := prev_above h hb f2
        have habove := bestAbove_above p2
        have hmin := bestAbove_min p2
        have hr : (dummyEntry (st.prevAsB (findBucket st.mem t)) (bvRev (st.prevAsB (findBucket st.mem t)))).rev = (st.mem (st.prevAsB (findBucket st.mem t))).rev :=
          (h.bi.rev_eq p1).symm
        rw [hr] at habove hmin
        rw [← h.bi.rev_eq hb] at habove hmin
        have hge : t ≤ (st.mem (st.prevAsB (findBucket st.mem t))).rev := by
          by_contra hc
          have := sentinel_below h hn _ (h.ii.has _ p1) rfl (by rw [hr]; bv_omega)
          rw [hr] at this
          bv_omega
        refine ⟨fun d hd hdd h1 h2 => ?_, fun d hd hdd h1 h2 => hmin d hd hdd ?_⟩
        · bv_omega
        · have := hn.1
          bv_omega
      · apply hown
        unfold St.prevAsB
        rw [if_neg hb]
    · exact hown _ rfl
  · exact hown _ rfl

/-- C98, the part that holds: in every reachable map, in every mode but CombineSearch2, for every hash whose nearest bucket FindBucket finds (C97 says
which, and always for the first MaxPefBucket + 56 stores), all live entries a Get looks at, except possibly the last, are in the key's own bucket: no boundary lies
strictly between them and the key. -/
theorem C98_partial {E : Env} {st : St} (h : Reachable E st) (hm : st.mode ≠ modeCombine2) (k : U64)
    (hn : Nearest st (rev64 k) (findBucket st.mem (rev64 k))) :
    ∀ e ∈ (getLooked st k).dropLast, e.ignored = false → OneGap st.items e.rev (rev64 k) := by
  have hi := h.inv
  obtain ⟨n, _, hr, he⟩ := looked_run hi (bucketForKey_valid hi.bi (rev64 k)) (rev64 k)
  obtain ⟨g1, g2⟩ := start_gap hi hn
  rw [he (Or.inl hm)] at hr
  exact hr.gap hi.ii.sorted g1 g2

/-- The same for the lookup of a Set or StoreItem, in every mode. -/
theorem C98_set_partial {E : Env} {st : St} (h : Reachable E st) (k : U64) (hn : Nearest st (rev64 k) (findBucket st.mem (rev64 k))) :
    ∀ e ∈ (setLooked st k).dropLast, e.ignored = false → OneGap st.items e.rev (rev64 k) := by
  have hi := h.inv
  obtain ⟨n, _, hr, he⟩ := looked_run hi (findBucket_spec hi.bi.ti (rev64 k)).1 (rev64 k)
  rw [he (Or.inr hn.1)] at hr
  refine hr.gap hi.ii.sorted (fun d hd hdd h1 _ => sentinel_below hi hn d hd hdd h1) (fun d hd hdd h1 h2 => ?_)
  have := hn.1
  bv_omega

/-- In numbers: at most one more than the live entries of the key's bucket, plus the entries that are passed over (deleted items and sentinels). -/
theorem C98_count_partial {E : Env} {st : St} (h : Reachable E st) (hm : st.mode ≠ modeCombine2) (k : U64)
    (hn : Nearest st (rev64 k) (findBucket st.mem (rev64 k))) :
    (getLooked st k).length ≤ 1 + st.items.countP (fun e => !e.ignored && decide (OneGap st.items e.rev (rev64 k))) + st.items.countP (·.ignored) := by
  have hi := h.inv
  have hg := C98_partial h hm k hn
  obtain ⟨n, _, hr, _⟩ := looked_run hi (bucketForKey_valid hi.bi (rev64 k)) (rev64 k)
  obtain ⟨l, hl, hp⟩ := hr.sub
  have hL : (lookedAt st (bucketForKey st (rev64 k)) (rev64 k) true) = getLooked st k := rfl
  rw [hL] at hp
  have h1 : ∀ p : Entry → Bool, (getLooked st k).dropLast.countP p ≤ st.items.countP p := fun p =>
    ((List.dropLast_sublist _).countP_le (p := p)).trans ((hp.countP_eq p).le.trans hl.countP_le)
  have h2 : (getLooked st k).dropLast.length = (getLooked st k).dropLast.countP (fun e => !e.ignored && decide (OneGap st.items e.rev (rev64 k))) +
      (getLooked st k).dropLast.countP (·.ignored) := by
    have : ∀ M : List Entry, (∀ e ∈ M, e.ignored = false → OneGap st.items e.rev (rev64 k)) →
        M.length = M.countP (fun e => !e.ignored && decide (OneGap st.items e.rev (rev64 k))) + M.countP (·.ignored) := by
      intro M hM
      induction M with
      | nil => rfl
      | cons x xs ih =>
        have := ih (fun e he => hM e (by simp [he]))
        have hx := hM x (by simp)
        rw [List.countP_cons, List.countP_cons, List.length_cons]
        cases hi : x.ignored with
        | true => simp; omega
        | false => simp [hx hi]; omega
    exact this _ hg
  have h3 := h1 (fun e => !e.ignored && decide (OneGap st.items e.rev (rev64 k)))
  have h4 := h1 (·.ignored)
  have h5 := List.length_dropLast (xs := getLooked st k)
  omega

/-! ### No bound in the number of keys: deleted items are passed over one by one, for ever -/

/-- `n` times: set the key, delete it. -/
def setDelete (key : Key) (v : IVal) : Nat → List Op
  | 0 => []
  | n + 1 => .set key v :: .delete key :: setDelete key v n

theorem setDelete_mem {key : Key} {v : IVal} {n : Nat} {op : Op} (h : op ∈ setDelete key v n) : op = .set key v ∨ op = .delete key := by
  induction n with
  | zero => cases h
  | succ n ih =>
    simp only [setDelete, List.mem_cons] at h
    rcases h with h | h | h
    · exact Or.inl h
    · exact Or.inr h
    · exact ih h

theorem setDelete_stores (H : HashFns) (key : Key) (v : IVal) (n : Nat) : stores H (setDelete key v n) ≤ n := by
  induction n with
  | zero => exact Nat.le_refl 0
  | succ n ih =>
    simp only [setDelete]
    rw [stores_cons, stores_cons]
    have : (storeHash H (.delete key)).isSome = false := rfl
    rw [this]
    split <;> simp <;> omega

theorem setDelete_clean {E : Env} {s : List (BitVec 8)} (v : IVal) (fn : Kind) (n : Nat) (h1 : 16 ≤ (E.H.mem s).toNat) (h2 : E.H.mem s ≠ maxU64) :
    Clean E { maxPer := n, itemFn := fn } (setDelete (.str s) v n) := by
  have hz : maxSplits E.H { maxPer := n, itemFn := fn } (setDelete (.str s) v n) = 0 := by
    unfold maxSplits
    have := setDelete_stores E.H (.str s) v n
    simp only
    omega
  have hs : ∀ op ∈ setDelete (.str s) v n, ∀ k c, storeHash E.H op = some (k, c) → k = E.H.mem s ∧ c = E.H.xx s := by
    intro op ho k c hk
    rcases setDelete_mem ho with rfl | rfl
    · simp only [storeHash, keyToHash, Option.some.injEq, Prod.mk.injEq] at hk
      exact ⟨hk.1.symm, hk.2.symm⟩
    · simp [storeHash] at hk
  apply static_clean
  · intro a ha b hb k c c' e1 e2
    rw [(hs a ha k c e1).2, (hs b hb k c' e2).2]
  · intro it hit
    rcases setDelete_mem hit with h | h <;> cases h
  · rw [hz]; omega
  · intro op ho k c hk
    rw [hz, (hs op ho k c hk).1]
    exact ⟨h1, h2⟩

/-- All answers are true. -/
theorem setDelete_plain {H : HashFns} {s : List (BitVec 8)} {v : IVal} (n : Nat) (pm : Spec.PMap) (h : pm.m (H.mem s, H.xx s) = none) :
    (pm.run H (setDelete (.str s) v n)).2 = List.replicate (2 * n) (.bool true) := by
  induction n generalizing pm with
  | zero => rfl
  | succ n ih =>
    have e : 2 * (n + 1) = 2 * n + 1 + 1 := by omega
    rw [e, List.replicate_succ, List.replicate_succ]
    simp only [setDelete, Spec.PMap.run, Spec.PMap.step, keyToHash, h, Spec.PMap.put, if_true]
    rw [ih]
    simp [Spec.PMap.del]

theorem ans_true {o : Out} (h : Spec.ans o = .bool true) : o = .bool true := by
  cases o <;> simp [Spec.ans] at h ⊢
  exact h

/-- How many items, live or not, have the reversed hash `t`. -/
def atHash (t : U64) (items : List Entry) : Nat := items.countP (fun e => !e.dummy && decide (e.rev = t))

theorem atHash_insAt (t : U64) (e : Entry) (l : List Entry) : atHash t (insAt e l) = atHash t l + (if !e.dummy && decide (e.rev = t) then 1 else 0) := by
  unfold atHash insAt
  conv => rhs; rw [← List.takeWhile_append_dropWhile (p := fun x => decide (x.rev ≤ e.rev)) (l := l)]
  simp only [List.countP_append, List.countP_cons]
  omega

theorem atHash_mapAt (t : U64) (r : Ref) (g : Entry → Entry) (l : List Entry) (h1 : ∀ e, (g e).dummy = e.dummy) (h2 : ∀ e, (g e).rev = e.rev) :
    atHash t (mapAt r g l) = atHash t l := by
  unfold atHash mapAt
  rw [List.countP_map]
  congr 1
  funext e
  simp only [Function.comp]
  split
  · rw [h1, h2]
  · rfl

/-- A round adds one dead item. -/
theorem setDelete_leak {E : Env} {s : List (BitVec 8)} {v : IVal} (n : Nat) {st : St} (g : Good st) (ha : AdmRun E st (setDelete (.str s) v n))
    (h0 : liveN st.items = 0) (ho : (run E st (setDelete (.str s) v n)).2 = List.replicate (2 * n) (.bool true)) :
    liveN (run E st (setDelete (.str s) v n)).1.items = 0 ∧
    atHash (rev64 (E.H.mem s)) (run E st (setDelete (.str s) v n)).1.items = atHash (rev64 (E.H.mem s)) st.items + n := by
  induction n generalizing st with
  | zero => exact ⟨h0, rfl⟩
  | succ n ih =>
    have e : 2 * (n + 1) = 2 * n + 1 + 1 := by omega
    rw [e, List.replicate_succ, List.replicate_succ] at ho
    simp only [setDelete] at ho ha ⊢
    rw [run_cons, run_cons] at ho ⊢
    simp only [List.cons.injEq] at ho ⊢
    obtain ⟨o1, o2, o3⟩ := ho
    have g1 := ha.step_good g
    have a2 := ha.2.2
    have g2 := a2.step_good g1
    -- the Set
    have hset : liveN (step E st (.set (.str s) v)).1.items = 1 ∧
        atHash (rev64 (E.H.mem s)) (step E st (.set (.str s) v)).1.items = atHash (rev64 (E.H.mem s)) st.items + 1 := by
      rcases step_eff E g.inv (.set (.str s) v) with x | ⟨e, nv, b, x⟩ | ⟨key, e, x⟩ | ⟨st2, k, c, e, x⟩
      · exact absurd o1 x.quiet
      · exfalso
        have h1 := x.live
        unfold liveN at h0
        rw [List.countP_eq_zero] at h0
        have := h0 e x.mem
        rw [h1] at this
        exact this rfl
      · exact absurd x.op (by simp)
      · have hlook : lookup st.items k c = none := by rw [← getWithBucket_eq g]; exact x.none
        have hh := x.hash
        have hfa : FreeAt st k c := ha.1 k c hh
        obtain ⟨hfree, hoff⟩ := hfa.spec g hlook
        have hei : e.ignored = false := by unfold Entry.ignored; simp [x.nodummy, x.nodel]
        have hk : k = E.H.mem s := by
          simp only [storeHash, keyToHash, Option.some.injEq, Prod.mk.injEq] at hh
          exact hh.1.symm
        have hrev : e.rev = rev64 k := by
          rcases x.pre with ⟨s, v, _, _, he⟩ | ⟨it, hop, _, he⟩
          · rw [he]; rfl
          · cases hop
        obtain ⟨_, hits⟩ := g.insert (st2 := st2) rfl x.mem x.blist x.items x.nextId x.lv x.ref hei hrev hfree hoff
        have hmid1 : liveN (setMid st2 k (findBucket st.mem (rev64 k)) e).items = 1 := by
          rw [hits, liveN_insAt, h0]; simp [hei]
        have hmid2 : atHash (rev64 (E.H.mem s)) (setMid st2 k (findBucket st.mem (rev64 k)) e).items = atHash (rev64 (E.H.mem s)) st.items + 1 := by
          rw [hits, atHash_insAt]; simp [x.nodummy, hrev, hk]
        rcases x.grow with hg | ⟨A, B, n, b, c', hb⟩
        · rw [hg]; exact ⟨hmid1, hmid2⟩
        · rw [hb.items, liveN_insAt, atHash_insAt, hmid1, hmid2]; simp [dummyEntry, Entry.ignored]
    -- the Delete
    have hdel : liveN (step E (step E st (.set (.str s) v)).1 (.delete (.str s))).1.items = 0 ∧
        atHash (rev64 (E.H.mem s)) (step E (step E st (.set (.str s) v)).1 (.delete (.str s))).1.items = atHash (rev64 (E.H.mem s)) st.items + 1 := by
      rcases step_eff E g1.inv (.delete (.str s)) with x | ⟨e, nv, b, x⟩ | ⟨key, e, x⟩ | ⟨st2, k, c, e, x⟩
      · exact absurd o2 x.quiet
      · have := x.hash; simp [storeHash] at this
      · rw [x.res]
        have h1 := liveN_mapAt g1.inv.ii.nodup x.mem
          (fun x => { x with deleted := true, key := match (step E st (.set (.str s) v)).1.itemFn with | .entry => .nil | .sample => x.key })
        have h2 := atHash_mapAt (rev64 (E.H.mem s)) e.ref
          (fun x => { x with deleted := true, key := match (step E st (.set (.str s) v)).1.itemFn with | .entry => .nil | .sample => x.key })
          (step E st (.set (.str s) v)).1.items (fun _ => rfl) (fun _ => rfl)
        simp only [x.live] at h1
        refine ⟨?_, h2.trans hset.2⟩
        show liveN (mapAt e.ref (fun x => { x with deleted := true, key := match (step E st (.set (.str s) v)).1.itemFn with | .entry => .nil | .sample => x.key })
          (step E st (.set (.str s) v)).1.items) = 0
        rw [hset.1] at h1
        simp [Entry.ignored] at h1
        omega
      · have := x.hash; simp [storeHash] at this
    obtain ⟨r1, r2⟩ := ih g2 a2.2.2 hdel.1 o3
    exact ⟨r1, by rw [r2, hdel.2]; omega⟩

theorem fwdLooked_all {t : U64} {l : List Entry} (h : ∀ e ∈ l, e.ignored = true) : fwdLooked t true l = l := by
  induction l with
  | nil => rfl
  | cons e es ih =>
    unfold fwdLooked
    rw [ih (fun x hx => h x (by simp [hx]))]
    simp [h e]

theorem bwdLooked_all {t : U64} {l : List Entry} (h : ∀ e ∈ l, e.ignored = true) : bwdLooked t true l = l := by
  induction l with
  | nil => rfl
  | cons e es ih =>
    unfold bwdLooked
    rw [ih (fun x hx => h x (by simp [hx]))]
    simp [h e]

theorem looked_all {st : St} (h : Inv st) (h0 : liveN st.items = 0) {t : U64} (ht : t ∉ boundaries st) {b : Path} (hv : V st.mem b) :
    atHash t st.items ≤ (lookedAt st b t true).length := by
  have hall : ∀ e ∈ st.items, e.ignored = true := by
    intro e he
    have := List.countP_eq_zero.1 h0 e he
    simpa using this
  have key : ∀ n, V st.mem n → atHash t st.items ≤ (if (st.mem n).rev < t then fwdLooked t true (fromRef (st.head n) st.items)
        else bwdLooked t true (backFrom (st.head n) st.items)).length := by
    intro n hn
    obtain ⟨p, hp, hh, hr, hm⟩ := head_spec h hn
    have hne : (st.mem n).rev ≠ t := by
      rintro he
      exact ht (List.mem_map.2 ⟨p, hp, by rw [h.bi.rev_eq hp, hr, he]⟩)
    rw [hh]
    obtain ⟨d, post, hd, hf, hl⟩ := split_at (.dummy p) st.items (List.mem_map.2 ⟨_, hm, rfl⟩)
    have hdm : d ∈ st.items := by rw [hl]; simp
    have hde : d = dummyEntry p (bvRev p) := (h.ii.dum d hdm p hd).2
    have hdr : d.rev = (st.mem n).rev := by rw [hde]; exact hr
    have hs := h.ii.sorted
    generalize hpre : beforeRef (.dummy p) st.items = pre at *
    have hs2 := hs
    rw [hl, Sorted, List.pairwise_append] at hs2
    obtain ⟨s1, s2, s3⟩ := hs2
    split
    · rename_i hlt
      rw [hf, fwdLooked_all (fun e he => hall e (by rw [hl]; exact List.mem_append_right _ he)), hl]
      unfold atHash
      rw [List.countP_append]
      have : List.countP (fun e => !e.dummy && decide (e.rev = t)) pre = 0 := by
        rw [List.countP_eq_zero]
        intro x hx
        have := s3 x hx d (by simp)
        simp only [Bool.and_eq_true, Bool.not_eq_true', decide_eq_true_eq, not_and]
        intro _ hc
        bv_omega
      rw [this, Nat.zero_add]
      exact List.countP_le_length
    · rename_i hge
      have hb : backFrom (.dummy p) st.items = d :: pre.reverse := by
        unfold backFrom; rw [hf, hpre]
      rw [hb, bwdLooked_all, hl]
      · unfold atHash
        rw [List.countP_append]
        have : List.countP (fun e => !e.dummy && decide (e.rev = t)) (d :: post) = 0 := by
          rw [List.countP_eq_zero]
          intro x hx
          have hx2 : d.rev ≤ x.rev := by
            rcases List.mem_cons.1 hx with rfl | hx
            · simp
            · exact (List.pairwise_cons.1 s2).1 x hx
          simp only [Bool.and_eq_true, Bool.not_eq_true', decide_eq_true_eq, not_and]
          intro _ hc
          bv_omega
        rw [this, Nat.add_zero]
        refine List.countP_le_length.trans ?_
        simp
      · intro e he
        apply hall
        rw [hl]
        rcases List.mem_cons.1 he with rfl | he
        · simp
        · exact List.mem_append_left _ (by simpa using he)
  unfold lookedAt
  simp only
  by_cases hm : st.mode = modeCombine2 ∧ (st.mem b).rev > t
  · simp only [if_pos hm]; exact key _ (h.lv.next hv)
  · simp only [if_neg hm]; exact key _ hv

/-- C98 fails: whatever the hash functions, after one key (a string whose primary hash is at least 16 and not 2^64 - 1) has been set and deleted `n` times,
with MaxPefBucket `n`, the map is empty and a Get of that key looks at `n` entries at least. -/
theorem C98_leak (E : Env) (s : List (BitVec 8)) (v : IVal) (fn : Kind) (n : Nat) (h1 : 16 ≤ (E.H.mem s).toNat) (h2 : E.H.mem s ≠ maxU64) :
    (run E (initSt { maxPer := n, itemFn := fn }) (setDelete (.str s) v n)).2 = List.replicate (2 * n) (.bool true) ∧
    (∀ e ∈ (run E (initSt { maxPer := n, itemFn := fn }) (setDelete (.str s) v n)).1.items, e.ignored = true) ∧
    n ≤ (getLooked (run E (initSt { maxPer := n, itemFn := fn }) (setDelete (.str s) v n)).1 (E.H.mem s)).length := by
  have hc := setDelete_clean (E := E) (s := s) v fn n h1 h2
  have hout : (run E (initSt { maxPer := n, itemFn := fn }) (setDelete (.str s) v n)).2 = List.replicate (2 * n) (.bool true) := by
    have h3 : (run E (initSt { maxPer := n, itemFn := fn }) (setDelete (.str s) v n)).2.map Spec.ans = List.replicate (2 * n) (.bool true) := by
      rw [show (run E (initSt { maxPer := n, itemFn := fn }) (setDelete (.str s) v n)).2.map Spec.ans =
        ((Spec.PMap.empty fn).run E.H (setDelete (.str s) v n)).2 from congrArg Prod.snd hc.refines.2.2]
      exact setDelete_plain n _ rfl
    have hlen := congrArg List.length h3
    rw [List.length_map, List.length_replicate] at hlen
    rw [List.eq_replicate_iff]
    refine ⟨hlen, fun o ho => ans_true ?_⟩
    exact List.eq_of_mem_replicate (h3 ▸ List.mem_map_of_mem ho)
  have hl0 : liveN (initSt { maxPer := n, itemFn := fn }).items = 0 := by
    unfold liveN
    rw [List.countP_eq_zero]
    intro e he
    have := initSt_dummy { maxPer := n, itemFn := fn } e he
    simp [Entry.ignored, this]
  obtain ⟨r1, r2⟩ := setDelete_leak n (good_init _) hc.adm hl0 hout
  have hi := run_inv E (inv_init { maxPer := n, itemFn := fn }) (setDelete (.str s) v n)
  refine ⟨hout, ?_, ?_⟩
  · intro e he
    have := List.countP_eq_zero.1 r1 e he
    simpa using this
  · have hb : rev64 (E.H.mem s) ∉ boundaries (run E (initSt { maxPer := n, itemFn := fn }) (setDelete (.str s) v n)).1 := by
      have key : ∀ (ops : List Op) (st : St) (m : Nat), Inv st → DepthInv st m → st.maxPer = n → m + stores E.H ops ≤ n →
          rev64 (E.H.mem s) ∉ boundaries (run E st ops).1 := by
        intro ops
        induction ops with
        | nil =>
          intro st m hi hd hm hn
          have hs := few_splits hd hm (show m ≤ n by omega)
          have hz : ((n : Int) - n).toNat = 0 := by omega
          rw [hz] at hs
          exact boundary_large hi.bi (D := 0) ((hd.coarse (by omega)).mono hs).dvd (by omega) h1 h2
        | cons op ops ih =>
          intro st m hi hd hm hn
          rw [stores_cons] at hn
          obtain ⟨hd', hm'⟩ := step_depth E hi hd op
          exact ih _ _ (step_inv E hi op) hd' (hm'.trans hm) (by omega)
      exact key _ _ 0 (inv_init _) (depth_init _) (initSt_maxPer _) (by have := setDelete_stores E.H (.str s) v n; omega)
    have := looked_all hi r1 hb (bucketForKey_valid hi.bi (rev64 (E.H.mem s)))
    unfold getLooked
    omega

/-- So no number of entries looked at is enough for a Get in an empty map. -/
theorem C98_refuted : ¬ ∃ bound : Nat, ∀ (E : Env) (cfg : Cfg) (ops : List Op) (k : U64),
    (∀ e ∈ (run E (initSt cfg) ops).1.items, e.ignored = true) → (getLooked (run E (initSt cfg) ops).1 k).length ≤ bound := by
  rintro ⟨bound, h⟩
  obtain ⟨_, h2, h3⟩ := C98_leak exE [1] none .sample (bound + 1) (by decide +kernel) (by decide +kernel)
  have := h _ _ _ (exE.H.mem [1]) h2
  omega

def crowdOps : List Op := (List.range 12).map (fun i => .set (sk (BitVec.ofNat 8 (16 * i + 1))) (exV i))

/-- The conditions of C98_partial are met with four buckets split off and three live entries looked at. -/
example : (run exE (initSt { maxPer := 3 }) crowdOps).1.mode ≠ modeCombine2 ∧ (run exE (initSt { maxPer := 3 }) crowdOps).1.blist.length = 21 ∧
    maxSplits exH { maxPer := 3 } crowdOps = 9 ∧
    (getLooked (run exE (initSt { maxPer := 3 }) crowdOps).1 (exH.mem [49])).map (·.ignored) = [true, false, false, false] := by
  refine ⟨?_, ?_, ?_, ?_⟩ <;> decide +kernel

end SLM
