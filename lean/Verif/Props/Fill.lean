import Verif.Proofs.Fill
import Verif.Proofs.Example
/-!
C99: MaxPefBucket and how full buckets get.  Neighbours `n :: c` of the bucket list `st.blist` (largest boundary first, the root `[]` closes the top) are a bucket
`c` and the next boundary; `(st.mem c).rev` is the boundary of `c` and `(st.mem c).len` its counter, both shown by DumpBucket.
-/
set_option autoImplicit false
set_option maxRecDepth 20000
namespace SLM
open History

/-- The keys that the bucket `c` with the upper neighbour `n` holds. -/
def fill (st : St) (c n : Path) : Nat :=
  st.items.countP (fun e => !e.ignored && decide ((st.mem c).rev ≤ e.rev) && (decide (e.rev < (st.mem n).rev) || n.isEmpty))

/-- The items the bucket holds, deleted ones included. -/
def stored (st : St) (c n : Path) : Nat :=
  st.items.countP (fun e => !e.dummy && decide ((st.mem c).rev ≤ e.rev) && (decide (e.rev < (st.mem n).rev) || n.isEmpty))

theorem stored_top {st : St} (h : Inv st) (y : Young st) {A B : List Path} {n c : Path} (hb : st.blist = A ++ n :: c :: B) :
    ∃ i, i < 16 ∧ c = [i] ∧ stored st c n = inTop i st.items := by
  have hb2 := hb
  rw [y.bl] at hb2
  obtain ⟨i, hi, hc, h3, h4⟩ := init_gap hb2
  have hcm : c ∈ st.blist := by rw [hb]; simp
  have hnm : n ∈ st.blist := by rw [hb]; simp
  refine ⟨i, hi, hc, ?_⟩
  unfold stored inTop
  congr 1
  funext e
  have e1 : (st.mem c).rev.toNat = i * 2 ^ 60 := by rw [h.bi.rev_toNat hcm (by rw [hc]; simp), h3]
  rw [Bool.and_assoc]
  congr 1
  have hl := e.rev.isLt
  have hp : (16 : Nat) ^ (16 - 1) = 2 ^ 60 := by decide
  rw [Bool.eq_iff_iff]
  simp only [Bool.and_eq_true, Bool.or_eq_true, decide_eq_true_eq, List.isEmpty_iff, BitVec.le_def, BitVec.lt_def, e1, nib_eq, hp]
  by_cases hn : n = []
  · subst hn
    have : bval ([] : Path) = 2 ^ 64 := rfl
    simp only [or_true, and_true]
    omega
  · rw [h.bi.rev_toNat hnm hn, h4]
    simp only [hn, or_false]
    omega

/-- Until the first bucket is divided, the counters DumpBucket shows are the numbers of stored items (deleted ones included). -/
theorem C99_counter_partial {E : Env} {cfg : Cfg} {ops : List Op} (hM : 0 ≤ cfg.maxPer) (hf : FreshItems ops)
    (hk : ∀ op ∈ ops, ∀ k c, storeHash E.H op = some (k, c) → k ≠ maxU64) (hb : (run E (initSt cfg) ops).1.blist.length = 17)
    {A B : List Path} {n c : Path} (hbl : (run E (initSt cfg) ops).1.blist = A ++ n :: c :: B) :
    (stored (run E (initSt cfg) ops).1 c n : Int) = ((run E (initSt cfg) ops).1.mem c).len := by
  rcases run_young (inv_init cfg) (Or.inl (young_init hM)) hf hk with y | y
  · obtain ⟨i, hi, rfl, h1⟩ := stored_top (run_inv E (inv_init cfg) ops) y hbl
    rw [h1]
    exact y.cnt i hi
  · omega

theorem run_maxPer {E : Env} {ops : List Op} {st : St} (h : Inv st) : (run E st ops).1.maxPer = st.maxPer := by
  induction ops generalizing st with
  | nil => rfl
  | cons op ops ih =>
    rw [run_cons]
    rw [ih (step_inv E h op)]
    rcases step_eff E h op with x | ⟨e, nv, b, x⟩ | ⟨key, e, x⟩ | ⟨st2, k, c, e, x⟩
    · obtain ⟨b, hb⟩ := x.same; rw [hb]
    · rw [x.res]
    · rw [x.res]
    · rw [(grow_len x.grow).2]; exact x.maxPer

/-- C99 until the first bucket is divided, for all buckets but the lowest: none holds more than MaxPefBucket keys. -/
theorem C99_partial {E : Env} {cfg : Cfg} {ops : List Op} (hM : 0 ≤ cfg.maxPer) (hf : FreshItems ops)
    (hk : ∀ op ∈ ops, ∀ k c, storeHash E.H op = some (k, c) → k ≠ maxU64) (hb : (run E (initSt cfg) ops).1.blist.length = 17)
    {A B : List Path} {n c : Path} (hbl : (run E (initSt cfg) ops).1.blist = A ++ n :: c :: B) (hc : 0 < ((run E (initSt cfg) ops).1.mem c).rev) :
    (fill (run E (initSt cfg) ops).1 c n : Int) ≤ cfg.maxPer := by
  have hi := run_inv E (inv_init cfg) ops
  rcases run_young (inv_init cfg) (Or.inl (young_init hM)) hf hk with y | y
  · obtain ⟨i, hi16, hci, h1⟩ := stored_top hi y hbl
    have h0 : 0 < i := by
      rcases Nat.eq_zero_or_pos i with h | h
      · exfalso
        subst h
        rw [hci, hi.bi.rev_eq (hi.bi.top_mem (by omega))] at hc
        revert hc
        decide
      · exact h
    have h2 : fill (run E (initSt cfg) ops).1 c n ≤ stored (run E (initSt cfg) ops).1 c n := by
      unfold fill stored
      apply List.countP_mono_left
      intro e _ he
      simp only [Bool.and_eq_true, Entry.ignored, Bool.not_eq_true', Bool.or_eq_false_iff] at he ⊢
      exact ⟨⟨he.1.1.1, he.1.2⟩, he.2⟩
    have h3 := y.cnt i hi16
    have h4 := y.lim i h0 hi16
    rw [run_maxPer (inv_init cfg), initSt_maxPer] at h4
    omega
  · omega

/-- A store of a new key that brings the counter of its bucket above MaxPefBucket adds one bucket, whose boundary halves the interval the key lies in, in every
reachable map; unless no other key and no boundary but the lowest lies below the new key (in hash order), or the interval has size one. -/
theorem C99_grows_partial {E : Env} {st : St} (h : Reachable E st) {op : Op} {k c : U64} (hs : storeHash E.H op = some (k, c)) (hm : k ≠ maxU64)
    (hf : ∀ it, op = .storeItem it → it.rev0 = 0) (hnew : ∀ e ∈ st.items, e.ignored = false → e.rev = rev64 k → e.conflict ≠ c) (hok : (step E st op).2 = .bool true)
    (hlen : st.maxPer ≤ (st.mem (findBucket st.mem (rev64 k))).len) :
    (∃ A B n b c', st.blist = A ++ n :: c' :: B ∧ (step E st op).1.blist = A ++ n :: b :: c' :: B ∧ 2 * bval b = bval c' + bval n ∧
      (st.mem c').rev ≤ rev64 k ∧ (rev64 k < (st.mem n).rev ∨ n = [])) ∨
    (∀ d ∈ st.items, 0 < d.rev → rev64 k < d.rev) ∨
    (∃ A B n c', st.blist = A ++ n :: c' :: B ∧ bval n = bval c' + 1 ∧ (st.mem c').rev ≤ rev64 k ∧ (rev64 k < (st.mem n).rev ∨ n = [])) := by
  have hi := h.inv
  have hmax : rev64 k ≠ maxU64 := by
    intro hc
    apply hm
    rw [← rev64_rev64 k, hc]
    decide +kernel
  rcases step_eff E hi op with x | ⟨e, nv, b, x⟩ | ⟨key, e, x⟩ | ⟨st2, k', c', e, x⟩
  · exact absurd hok x.quiet
  · exfalso
    have h1 := x.hash
    rw [hs] at h1
    injection h1 with h1
    injection h1 with h1 h2
    exact hnew e x.mem x.live (by rw [h1, rev64_rev64]) h2.symm
  · have := x.op
    subst this
    simp [storeHash] at hs
  · have h1 := x.hash
    rw [hs] at h1
    injection h1 with h1
    injection h1 with h1 h2
    subst h1 h2
    have hrev : e.rev = rev64 k := by
      rcases x.pre with ⟨s, v, _, _, he⟩ | ⟨it, hop, _, he⟩
      · rw [he]; rfl
      · rw [he]; simp [newItemEntry, hf it hop]
    obtain ⟨f1, f2, _⟩ := findBucket_spec hi.bi.ti (rev64 k)
    have hl : (st.mem (findBucket st.mem (rev64 k))).level > 0 := Nat.pos_of_ne_zero f1
    have := new_grows hi x hrev hmax (by
      simp only [setMid, x.mem, if_pos hl, upd]
      simp
      omega)
    have hbl : (setMid st2 k (findBucket st.mem (rev64 k)) e).blist = st.blist := x.blist
    rcases this with ⟨A, B, n, b, c', hb, h1, h2⟩ | h1 | h1
    · left
      have := hb.old
      rw [hbl] at this
      exact ⟨A, B, n, b, c', this, hb.new, hb.mid, h1, h2⟩
    · exact Or.inr (Or.inl h1)
    · exact Or.inr (Or.inr h1)

/-! ### The lowest bucket is not divided by keys that come in descending order -/

/-- An item with the reversed hash `r`. -/
def lowItem (r : Nat) : NewItem := { kind := .entry, key := .u64 (rev64 (BitVec.ofNat 64 r)), val := none }

/-- Stores of `N` different keys with the reversed hashes N, ..., 2, 1, in this order. -/
def descending : Nat → List Op
  | 0 => []
  | N + 1 => .storeItem (lowItem (N + 1)) :: descending N

/-- The state after some of them. -/
structure LowSt (st : St) (m : Nat) : Prop where
  inv : Inv st
  mem : EqL initMem st.mem
  bl : st.blist = (initSt {}).blist
  big : ∀ d ∈ st.items, 0 < d.rev → m < d.rev.toNat

def liveTop (items : List Entry) : Nat := items.countP (fun e => !e.ignored && decide (e.rev.toNat < 2 ^ 60))

theorem liveTop_insAt (e : Entry) (l : List Entry) : liveTop (insAt e l) = liveTop l + (if !e.ignored && decide (e.rev.toNat < 2 ^ 60) then 1 else 0) := by
  unfold liveTop insAt
  conv => rhs; rw [← List.takeWhile_append_dropWhile (p := fun x => decide (x.rev ≤ e.rev)) (l := l)]
  simp only [List.countP_append, List.countP_cons]
  omega

theorem makeBucketAt_zero (st : St) : makeBucketAt st 0 = .ok st := by
  have : st.searchBucket 0 = none := by
    unfold St.searchBucket
    rw [List.find?_eq_none]
    intro q _
    simp
  unfold makeBucketAt
  rw [this]

theorem low_step {E : Env} {st : St} {m : Nat} (hm : m + 1 < 2 ^ 60) (h : LowSt st (m + 1)) :
    (step E st (.storeItem (lowItem (m + 1)))).2 = .bool true ∧ LowSt (step E st (.storeItem (lowItem (m + 1)))).1 m ∧
    liveTop (step E st (.storeItem (lowItem (m + 1)))).1.items = liveTop st.items + 1 := by
  have hi := h.inv
  have ht : (BitVec.ofNat 64 (m + 1)).toNat = m + 1 := by rw [BitVec.toNat_ofNat]; exact Nat.mod_eq_of_lt (by omega)
  generalize htt : BitVec.ofNat 64 (m + 1) = t at ht
  have hkey : (lowItem (m + 1)).key = .u64 (rev64 t) := by unfold lowItem; rw [htt]
  have hk : keyToHash E.H (lowItem (m + 1)).key = some (rev64 t, 0) := by rw [hkey]; rfl
  have hrr : rev64 (rev64 t) = t := rev64_rev64 t
  have hnone : (getWithBucket E st (rev64 t) 0).1 = none := by
    cases hf : (getWithBucket E st (rev64 t) 0).1 with
    | none => rfl
    | some e =>
      exfalso
      have h2 : getWithBucket E st (rev64 t) 0 = (some e, (getWithBucket E st (rev64 t) 0).2) := by rw [← hf]
      have hm2 := getWithBucket_mem h2
      have hr : e.rev = t := by rw [hm2.2.2.1, hrr]
      have := h.big e hm2.1 (by rw [hr, BitVec.lt_def, ht]; show 0 < _; omega)
      rw [hr, ht] at this
      omega
  have hop := opStoreItem_new hk hnone
  rw [hrr] at hop
  generalize hee : newItemEntry st (lowItem (m + 1)) (rev64 t) 0 = e at hop
  have hrev : e.rev = t := by rw [← hee]; simp [newItemEntry, lowItem, hrr]
  have hdum : e.dummy = false := by rw [← hee]; rfl
  have hign : e.ignored = false := by rw [← hee]; rfl
  have href : e.ref = .item st.nextId := by rw [← hee]; rfl
  have hmid : Inv (setMid (storePre st) (rev64 t) (findBucket st.mem t) e) := setMid_inv hi href hdum rfl rfl rfl rfl rfl
  have hits : (setMid (storePre st) (rev64 t) (findBucket st.mem t) e).items = insAt e st.items := by
    obtain ⟨f1, f2, f3⟩ := findBucket_spec hi.bi.ti t
    have := setInsert_eq hi f1 (e := e) (by rw [hrev]; exact f3) (by
      have hmx : maxU64.toNat = 2 ^ 64 - 1 := by decide
      rw [hrev, BitVec.lt_def, hmx, ht]; omega)
    rw [hrev] at this
    show setInsert (storePre st) (findBucket st.mem t) (rev64 (rev64 t)) e = _
    rw [hrr]
    exact this
  have hE := setMid_eqL (storePre st) (rev64 t) (findBucket st.mem t) e
  have hbl : (setMid (storePre st) (rev64 t) (findBucket st.mem t) e).blist = st.blist := rfl
  have hf : e.ref ∉ refs st.items := by
    rw [href]
    intro hc
    obtain ⟨y, hy, hr⟩ := List.mem_map.1 hc
    have := (hi.ii.itm y hy _ hr).2
    omega
  have hset : setNew (storePre st) (rev64 t) (findBucket st.mem t) e = .ok (setMid (storePre st) (rev64 t) (findBucket st.mem t) e) := by
    rw [setNew_eq]
    split
    · unfold makeBucket
      have hany : (setMid (storePre st) (rev64 t) (findBucket st.mem t) e).items.any (fun y => decide (y.ref = e.ref)) = true := by
        rw [List.any_eq_true]
        exact ⟨e, by rw [hits]; exact mem_insAt.2 (Or.inl rfl), by simp⟩
      rw [if_pos hany]
      cases hp : (beforeRef e.ref (setMid (storePre st) (rev64 t) (findBucket st.mem t) e).items).getLast? with
      | none => rfl
      | some pe =>
        simp only
        rw [hits] at hp
        have q1 := (pred_ge hi.ii.sorted hf hp).1
        have hpm : pe ∈ st.items := by
          rw [pred_insAt hf] at hp
          exact (List.takeWhile_sublist _).subset (List.mem_of_getLast? hp)
        have hz : pe.rev = 0 := by
          by_contra hc
          have := h.big pe hpm (by bv_omega)
          rw [hrev, BitVec.le_def, ht] at q1
          omega
        rw [hz]
        exact makeBucketAt_zero _
    · rfl
  rw [hset] at hop
  simp only [step]
  rw [hop]
  refine ⟨rfl, ⟨hmid, h.mem.trans hE, hbl.trans h.bl, ?_⟩, ?_⟩
  · intro d hd hdp
    simp only [hits] at hd
    rcases mem_insAt.1 hd with rfl | hd
    · rw [hrev, ht]; omega
    · have := h.big d hd hdp; omega
  · simp only [hits]
    rw [liveTop_insAt]
    have : e.rev.toNat < 2 ^ 60 := by rw [hrev, ht]; exact hm
    simp [hign]
    omega

theorem low_run {E : Env} {N : Nat} (hN : N < 2 ^ 60) {st : St} (h : LowSt st N) :
    (run E st (descending N)).2 = List.replicate N (.bool true) ∧ (run E st (descending N)).1.blist.length = 17 ∧
    liveTop (run E st (descending N)).1.items = liveTop st.items + N ∧ Inv (run E st (descending N)).1 := by
  induction N generalizing st with
  | zero => exact ⟨rfl, by show st.blist.length = 17; rw [h.bl, initSt_blist]; simp, rfl, h.inv⟩
  | succ N ih =>
    obtain ⟨h1, h2, h3⟩ := low_step (E := E) hN h
    obtain ⟨i1, i2, i3, i4⟩ := ih (by omega) h2
    simp only [descending]
    rw [run_cons]
    refine ⟨?_, i2, ?_, i4⟩
    · simp only [h1, i1, List.replicate_succ]
    · simp only [i3, h3]; omega

theorem low_init (cfg : Cfg) {N : Nat} (hN : N < 2 ^ 60) : LowSt (initSt cfg) N := by
  refine ⟨inv_init cfg, by rw [initSt_mem]; intro p; rfl, by rw [initSt_blist, initSt_blist], ?_⟩
  intro d hd hp
  rw [initSt_items] at hd
  have hlow : (2 : Nat) ^ 60 ≤ d.rev.toNat := by
    rcases List.mem_append.1 hd with hd | hd
    · obtain ⟨i, hi, rfl⟩ := List.mem_map.1 hd
      have hi := List.mem_range.1 hi
      have e : (dummyEntry [i] (BitVec.ofNat 64 (i * 2 ^ 60))).rev.toNat = i * 2 ^ 60 := by
        show (BitVec.ofNat 64 (i * 2 ^ 60)).toNat = _
        rw [BitVec.toNat_ofNat]
        exact Nat.mod_eq_of_lt (by omega)
      rw [BitVec.lt_def, e] at hp
      rw [e]
      have : (0 : U64).toNat = 0 := rfl
      omega
    · have : d = dummyEntry [] maxU64 := by simpa using hd
      subst this
      show _ ≤ maxU64.toNat
      decide
  omega

/-- C99 fails: with any MaxPefBucket and any number `N` of keys, there are `N` stores of different keys, all acknowledged, after which no bucket has been divided and
the lowest of the sixteen holds all `N` keys. -/
theorem C99_refuted (E : Env) (M : Int) (N : Nat) (hN : N < 2 ^ 60) :
    (run E (initSt { maxPer := M }) (descending N)).2 = List.replicate N (.bool true) ∧
    (run E (initSt { maxPer := M }) (descending N)).1.blist.length = 17 ∧
    ∃ A n c, (run E (initSt { maxPer := M }) (descending N)).1.blist = A ++ [n, c] ∧ N ≤ fill (run E (initSt { maxPer := M }) (descending N)).1 c n := by
  obtain ⟨h1, h2, h3, h4⟩ := low_run (E := E) hN (low_init { maxPer := M } hN)
  refine ⟨h1, h2, ?_⟩
  have hbl : (run E (initSt { maxPer := M }) (descending N)).1.blist = (initSt {}).blist := by
    have key : ∀ (N : Nat) (st : St), N < 2 ^ 60 → LowSt st N → (run E st (descending N)).1.blist = (initSt {}).blist := by
      intro N
      induction N with
      | zero => intro st _ h; exact h.bl
      | succ N ih =>
        intro st hN h
        simp only [descending]
        rw [run_cons]
        exact ih _ (by omega) (low_step (E := E) hN h).2.1
    exact key N _ hN (low_init _ hN)
  generalize (run E (initSt { maxPer := M }) (descending N)).1 = st at h2 h3 h4 hbl
  have hs : (initSt {}).blist = (initSt {}).blist.take 15 ++ [[1], [0]] := by decide +kernel
  refine ⟨(initSt {}).blist.take 15, [1], [0], hbl.trans hs, ?_⟩
  have e0 : (st.mem [0]).rev = 0 := by rw [h4.bi.rev_eq (h4.bi.top_mem (by omega))]; decide
  have e1 : (st.mem [1]).rev.toNat = 2 ^ 60 := by rw [h4.bi.rev_toNat (h4.bi.top_mem (by omega)) (by simp)]; decide
  have : fill st [0] [1] = liveTop st.items := by
    unfold fill liveTop
    congr 1
    funext e
    rw [e0]
    have hz : (0#64) ≤ e.rev := by bv_omega
    simp [BitVec.lt_def, e1, hz]
  rw [this, h3]
  omega

/-- Nor do the counters stay right when buckets are divided: the count of the lower half is given to the new bucket, which is the upper half.  Here a bucket that
holds three keys has the counter -5. -/
def fillOps : List Op := (List.range 12).map (fun i => .set (sk (BitVec.ofNat 8 (16 * i + 1))) (exV i))

theorem C99_counter_refuted : ∃ (A B : List Path) (n c : Path), (run exE (initSt { maxPer := 3 }) fillOps).1.blist = A ++ n :: c :: B ∧
    stored (run exE (initSt { maxPer := 3 }) fillOps).1 c n = 3 ∧ ((run exE (initSt { maxPer := 3 }) fillOps).1.mem c).len = -5 := by
  refine ⟨(run exE (initSt { maxPer := 3 }) fillOps).1.blist.take 8, (run exE (initSt { maxPer := 3 }) fillOps).1.blist.drop 10, [4, 11], [11], ?_, ?_, ?_⟩ <;>
    decide +kernel

/-- The conditions of C99_partial and C99_counter_partial are met with full buckets. -/
example : (run exE (initSt { maxPer := 3 }) (fillOps.take 3)).1.blist.length = 17 ∧
    (run exE (initSt { maxPer := 3 }) (fillOps.take 3)).1.blist = (initSt {}).blist.take 4 ++ [12] :: [11] :: (initSt {}).blist.drop 6 ∧
    fill (run exE (initSt { maxPer := 3 }) (fillOps.take 3)).1 [11] [12] = 3 ∧
    (fillOps.take 3).all (fun op => match storeHash exH op with | some kc => decide (kc.1 ≠ maxU64) | none => true) = true := by
  refine ⟨?_, ?_, ?_, ?_⟩ <;> decide +kernel

/-- The conditions of C99_grows_partial are met by the fourth store. -/
example : (step exE (run exE (initSt { maxPer := 3 }) (fillOps.take 3)).1 (.set (sk 49) (exV 3))).2 = .bool true ∧
    (run exE (initSt { maxPer := 3 }) (fillOps.take 3)).1.maxPer ≤
      ((run exE (initSt { maxPer := 3 }) (fillOps.take 3)).1.mem (findBucket (run exE (initSt { maxPer := 3 }) (fillOps.take 3)).1.mem (rev64 (exH.mem [49])))).len ∧
    (step exE (run exE (initSt { maxPer := 3 }) (fillOps.take 3)).1 (.set (sk 49) (exV 3))).1.blist.length = 18 := by
  refine ⟨?_, ?_, ?_⟩ <;> decide +kernel

end SLM
