import Verif.Proofs.Find
import Mathlib.Tactic.NormNum
/-! The invariant holds initially and is kept by every operation. -/
set_option maxRecDepth 20000
set_option autoImplicit false
namespace SLM

/-! ### initial state -/

/-- Memory right after construction. -/
def initMem : Path → Bkt
  | [] => { level := 16, rev := maxU64, state := 2 }
  | [i] => if i < 16 then { level := 1, rev := BitVec.ofNat 64 (i * 2 ^ 60), state := 2 } else {}
  | _ => {}

theorem topReverses_eq : topReverses = (List.range 16).map (fun i => BitVec.ofNat 64 (i * 2 ^ 60)) := by decide +kernel

theorem init_fold_mem (is : List (Nat × U64)) (items : List Entry) (bl : List Path) (m : Path → Bkt) :
    (is.foldl initRound (items, bl, m)).2.2 =
      is.foldl (fun m ir => upd m [ir.1] { level := 1, rev := ir.2, state := 2 }) m := by
  induction is generalizing items bl m with
  | nil => rfl
  | cons x xs ih => simp only [List.foldl_cons, initRound, ih]

theorem upd_fold_mem (is : List (Nat × U64)) (m : Path → Bkt) (p : Path) (h : ∀ ir ∈ is, p ≠ [ir.1]) :
    is.foldl (fun m ir => upd m [ir.1] { level := 1, rev := ir.2, state := 2 }) m p = m p := by
  induction is generalizing m with
  | nil => rfl
  | cons x xs ih =>
    rw [List.foldl_cons, ih _ (fun ir hir => h ir (by simp [hir]))]
    simp [upd, h x (by simp)]

theorem upd_fold_map (is : List Nat) (hn : is.Nodup) (f : Nat → U64) (m : Path → Bkt) (i : Nat) :
    (is.map (fun j => (j, f j))).foldl (fun m ir => upd m [ir.1] { level := 1, rev := ir.2, state := 2 }) m [i] =
      if i ∈ is then { level := 1, rev := f i, state := 2 } else m [i] := by
  induction is generalizing m with
  | nil => simp
  | cons x xs ih =>
    rw [List.map_cons, List.foldl_cons, ih (List.nodup_cons.1 hn).2]
    by_cases h1 : i ∈ xs
    · simp [h1]
    · by_cases h2 : i = x
      · subst h2; simp [upd, h1]
      · simp [h1, h2, upd]

theorem zip_range : (List.range 16).zip topReverses = (List.range 16).map (fun i => (i, BitVec.ofNat 64 (i * 2 ^ 60))) := by
  decide +kernel

theorem initSt_mem (c : Cfg) : (initSt c).mem = initMem := by
  have h : (initSt c).mem = (((List.range 16).zip topReverses).foldl initRound
      ([dummyEntry [] maxU64], [[]], upd (fun _ => {}) [] { level := 16, rev := maxU64, state := 2 })).2.2 := rfl
  rw [h, init_fold_mem, zip_range]
  funext p
  match p with
  | [] =>
    rw [upd_fold_mem _ _ _ (by intro ir hir; simp)]
    rfl
  | [i] =>
    rw [upd_fold_map _ List.nodup_range]
    simp [initMem, upd]
  | i :: j :: p =>
    rw [upd_fold_mem _ _ _ (by intro ir hir; simp)]
    rfl

theorem initSt_blist (c : Cfg) : (initSt c).blist = [] :: ((List.range 16).map (fun i => [15 - i])) := by
  have h : (initSt c).blist = (((List.range 16).zip topReverses).foldl initRound
      ([dummyEntry [] maxU64], [[]], upd (fun _ => {}) [] { level := 16, rev := maxU64, state := 2 })).2.1 := rfl
  rw [h]; decide +kernel

theorem initSt_items (c : Cfg) : (initSt c).items =
    (List.range 16).map (fun i => dummyEntry [i] (BitVec.ofNat 64 (i * 2 ^ 60))) ++ [dummyEntry [] maxU64] := by
  have h : (initSt c).items = (((List.range 16).zip topReverses).foldl initRound
      ([dummyEntry [] maxU64], [[]], upd (fun _ => {}) [] { level := 16, rev := maxU64, state := 2 })).1 := rfl
  rw [h]; decide +kernel

theorem initMem_V (p : Path) : V initMem p ↔ p = [] ∨ ∃ i, i < 16 ∧ p = [i] := by
  match p with
  | [] => simp [V, initMem]
  | [i] =>
    by_cases h : i < 16
    · simp [V, initMem, h]
    · simp [V, initMem, h]
  | i :: j :: p => simp [V, initMem]

theorem initMem_TI : TI initMem := by
  constructor
  · exact ⟨rfl, by decide⟩
  · intro i hi; rw [initMem_V]; exact Or.inr ⟨i, hi, rfl⟩
  · intro p hp
    rw [initMem_V] at hp
    match p with
    | [] => simp at hp
    | [i] =>
      have : ¬ i < 16 := fun h => hp (Or.inr ⟨i, h, rfl⟩)
      simp [initMem, this]
    | i :: j :: p => simp [initMem]
  · intro p hp hv
    rw [initMem_V] at hv
    rcases hv with h | ⟨i, hi, rfl⟩
    · exact absurd h hp
    · simp only [initMem, hi, if_true]
      refine ⟨?_, rfl, by simp, by simp, by intro d hd; simp at hd; omega⟩
      rw [BitVec.toNat_ofNat, Nat.mod_eq_of_lt (by omega)]; simp [pathVal]
  · intro i p hp hv
    rw [initMem_V] at hv
    rcases hv with h | ⟨j, hj, h⟩
    · simp at h
    · injection h with _ h; exact absurd h hp
  · intro p hp hv
    rw [initMem_V] at hv
    rcases hv with h | ⟨i, hi, rfl⟩
    · exact absurd h hp
    · simp [initMem, hi]
  · intro i p hv
    rw [initMem_V] at hv
    rcases hv with h | ⟨j, hj, h⟩
    · simp at h
    · injection h with h1 h2; subst h1 h2; simp [initMem, hj]

theorem inv_init (c : Cfg) : Inv (initSt c) := by
  have hmem : ∀ p, p ∈ (initSt c).blist ↔ p = [] ∨ ∃ i, i < 16 ∧ p = [i] := by
    intro p
    rw [initSt_blist]
    simp only [List.mem_cons, List.mem_map, List.mem_range]
    constructor
    · rintro (h | ⟨i, hi, rfl⟩)
      · exact Or.inl h
      · exact Or.inr ⟨15 - i, by omega, rfl⟩
    · rintro (h | ⟨i, hi, rfl⟩)
      · exact Or.inl h
      · exact Or.inr ⟨15 - i, by omega, by congr 1; omega⟩
  constructor
  · rw [initSt_mem]
    constructor
    · exact initMem_TI
    · exact ⟨_, initSt_blist c⟩
    · rw [initSt_blist]; decide +kernel
    · intro p hp
      rw [hmem, initMem_V]
      constructor
      · rintro (h | ⟨i, hi, rfl⟩)
        · exact absurd h hp
        · exact ⟨Or.inr ⟨i, hi, rfl⟩, by simp [initMem, hi]⟩
      · rintro ⟨h, _⟩; exact h
    · intro p hp hne
      rcases (hmem p).1 hp with h | ⟨i, hi, rfl⟩
      · exact absurd h hne
      · rw [bval_top]; omega
    · rw [initSt_blist]
      have hR : ∀ n i, i < 16 → bval [i] + 2 ^ 60 = bval n → DyR initMem n [i] := by
        intro n i hi h
        refine ⟨60, h, by rw [bval_top]; exact Dvd.intro_left _ rfl, ?_⟩
        intro l h1 h2
        have : l = 1 := by omega
        subst this
        rw [initMem_V]
        exact Or.inr ⟨_, nib_lt _ _, rfl⟩
      have : (List.range 16).map (fun i => [15 - i]) =
        [[15], [14], [13], [12], [11], [10], [9], [8], [7], [6], [5], [4], [3], [2], [1], [0]] := by decide
      rw [this]
      have hcc : ∀ i j, j < 16 → i = j + 1 → DyR initMem [i] [j] := by
        intro i j hj hij
        exact hR _ _ hj (by rw [bval_top, bval_top]; omega)
      simp only [List.isChain_cons_cons, List.isChain_singleton, and_true]
      refine ⟨hR _ _ (by omega) (by rw [bval_top, bval_nil]; norm_num), ?_⟩
      exact ⟨hcc _ _ (by omega) rfl, hcc _ _ (by omega) rfl, hcc _ _ (by omega) rfl, hcc _ _ (by omega) rfl,
        hcc _ _ (by omega) rfl, hcc _ _ (by omega) rfl, hcc _ _ (by omega) rfl, hcc _ _ (by omega) rfl,
        hcc _ _ (by omega) rfl, hcc _ _ (by omega) rfl, hcc _ _ (by omega) rfl, hcc _ _ (by omega) rfl,
        hcc _ _ (by omega) rfl, hcc _ _ (by omega) rfl, hcc _ _ (by omega) rfl⟩
  · have hbv : ∀ i, bvRev [i] = BitVec.ofNat 64 (i * 2 ^ 60) := by
      intro i; simp [bvRev, pathVal]
    have him : ∀ e, e ∈ (initSt c).items ↔ (∃ i, i < 16 ∧ e = dummyEntry [i] (bvRev [i])) ∨ e = dummyEntry [] maxU64 := by
      intro e
      rw [initSt_items]
      simp only [List.mem_append, List.mem_map, List.mem_range, List.mem_singleton, hbv]
      constructor
      · rintro (⟨i, hi, rfl⟩ | h)
        · exact Or.inl ⟨i, hi, rfl⟩
        · exact Or.inr h
      · rintro (⟨i, hi, rfl⟩ | h)
        · exact Or.inl ⟨i, hi, rfl⟩
        · exact Or.inr h
    constructor
    · rw [initSt_items]; unfold Sorted; decide +kernel
    · rw [initSt_items]; unfold refs; decide +kernel
    · intro e he p hp
      rcases (him e).1 he with ⟨i, hi, rfl⟩ | rfl
      · have : [i] = p := by simpa [dummyEntry] using hp
        subst this; exact ⟨(hmem _).2 (Or.inr ⟨i, hi, rfl⟩), rfl⟩
      · have : [] = p := by simpa [dummyEntry] using hp
        subst this; exact ⟨(hmem _).2 (Or.inl rfl), by simp [bvRev]⟩
    · intro e he n hn
      rcases (him e).1 he with ⟨i, hi, rfl⟩ | rfl <;> simp [dummyEntry] at hn
    · intro p hp
      rcases (hmem p).1 hp with rfl | ⟨i, hi, rfl⟩
      · exact (him _).2 (Or.inr (by simp [bvRev]))
      · exact (him _).2 (Or.inl ⟨i, hi, rfl⟩)
  · rw [initSt_mem]
    have h1 : ∀ p, p ∈ (List.range 16).foldl (fun l i => [i] :: l) ([] : List Path) ↔ ∃ i, i < 16 ∧ p = [i] := by
      intro p
      have : (List.range 16).foldl (fun l i => [i] :: l) ([] : List Path) = (List.range 16).map (fun i => [15 - i]) := by decide
      rw [this]
      simp only [List.mem_map, List.mem_range]
      constructor
      · rintro ⟨i, hi, rfl⟩; exact ⟨15 - i, by omega, rfl⟩
      · rintro ⟨i, hi, rfl⟩; exact ⟨15 - i, by omega, by congr 1; omega⟩
    have h2 : (initSt c).lv = initLv := rfl
    rw [h2]
    constructor
    · intro l p hp
      rw [initMem_V]
      unfold initLv setLv at hp
      split at hp
      · exact Or.inr ((h1 p).1 hp)
      · split at hp
        · left; simpa using hp
        · simp at hp
    · intro p hp
      rw [initMem_V] at hp
      rcases hp with h | ⟨i, hi, h⟩
      · simp at h
      · injection h with ha hb; subst ha hb
        unfold initLv setLv
        rw [if_pos (by simp)]
        exact (h1 _).2 ⟨0, hi, rfl⟩

/-! ### membership of search results -/

theorem fwdSearch_mem {t : U64} {l : List Entry} {e : Entry} (h : fwdSearch t true l = some e) :
    e ∈ l ∧ e.ignored = false ∧ e.rev = t := by
  induction l with
  | nil => simp [fwdSearch] at h
  | cons x xs ih =>
    simp only [fwdSearch, Bool.true_and] at h
    split at h
    · have := ih h; exact ⟨by simp [this.1], this.2⟩
    · rename_i hi
      split at h
      · have := ih h; exact ⟨by simp [this.1], this.2⟩
      · split at h
        · injection h with h; subst h; exact ⟨by simp, by simpa using hi, by assumption⟩
        · cases h

theorem bwdSearch_mem {t : U64} {l : List Entry} {e : Entry} (h : bwdSearch t true l = some e) :
    e ∈ l ∧ e.ignored = false ∧ e.rev = t := by
  induction l with
  | nil => simp [bwdSearch] at h
  | cons x xs ih =>
    simp only [bwdSearch, Bool.true_and] at h
    split at h
    · have := ih h; exact ⟨by simp [this.1], this.2⟩
    · rename_i hi
      split at h
      · have := ih h; exact ⟨by simp [this.1], this.2⟩
      · split at h
        · injection h with h; subst h; exact ⟨by simp, by simpa using hi, by assumption⟩
        · cases h

theorem backFrom_mem {r : Ref} {l : List Entry} {e : Entry} (h : e ∈ backFrom r l) : e ∈ l := by
  unfold backFrom at h
  split at h
  · simp at h
  · rename_i d post hd
    simp only [List.mem_cons, List.mem_reverse] at h
    rcases h with rfl | h
    · have : e ∈ fromRef r l := by rw [hd]; simp
      exact (List.dropWhile_sublist _).subset this
    · exact (List.takeWhile_sublist _).subset h

theorem searchByBucket_mem {E : Env} {st : St} {b : Path} {t : U64} {e : Entry}
    (h : searchByBucket E st b t true = some e) : e ∈ st.items ∧ e.ignored = false ∧ e.rev = t := by
  unfold searchByBucket at h
  generalize (if st.mode = modeCombine2 ∧ (st.mem b).rev > t then st.nextOnLevel b else b) = n at h
  simp only at h
  split at h
  · have := fwdSearch_mem h; exact ⟨(List.dropWhile_sublist _).subset this.1, this.2⟩
  · have := bwdSearch_mem h; exact ⟨backFrom_mem this.1, this.2⟩

theorem getWithBucket_mem {E : Env} {st : St} {k c : U64} {e : Entry} {b : Path}
    (h : getWithBucket E st k c = (some e, b)) :
    e ∈ st.items ∧ e.ignored = false ∧ e.rev = rev64 k ∧ e.conflict = c := by
  unfold getWithBucket at h
  simp only at h
  split at h
  · cases h
  · rename_i x hx
    have := searchByBucket_mem hx
    split at h
    · cases h
    · split at h
      · cases h
      · rename_i hc
        injection h with h1 h2
        injection h1 with h1
        subst h1
        exact ⟨this.1, this.2.1, this.2.2, by simpa using hc⟩

theorem getWithBucket_bucket (E : Env) (st : St) (k c : U64) :
    (getWithBucket E st k c).2 = findBucket st.mem (rev64 k) := by
  unfold getWithBucket
  simp only
  split
  · rfl
  · split
    · rfl
    · split <;> rfl

theorem getEntry_mem {E : Env} {st : St} {k c : U64} {e : Entry} (h : getEntry E st k c = some e) :
    e ∈ st.items ∧ e.ignored = false ∧ e.rev = rev64 k ∧ e.conflict = c := by
  unfold getEntry at h
  split at h
  · cases h
  · rename_i x hx
    have := searchByBucket_mem hx
    split at h
    · cases h
    · rename_i hc
      injection h with h1
      subst h1
      simp only [not_or, ne_eq, not_not] at hc
      exact ⟨this.1, this.2.1, this.2.2, hc.2⟩

/-! ### steps -/

/-- Changing key, value or the deleted mark of one item keeps the invariant. -/
theorem II.mapItem {items : List Entry} {nextId : Nat} {bl : List Path} (h : II items nextId bl) (r : Ref)
    (hr : ∀ p, r ≠ .dummy p) (g : Entry → Entry)
    (hg : ∀ x, (g x).ref = x.ref ∧ (g x).rev = x.rev ∧ (g x).dummy = x.dummy) :
    II (items.map (fun x => if x.ref = r then g x else x)) nextId bl := by
  have hf : ∀ x, (if x.ref = r then g x else x).ref = x.ref ∧ (if x.ref = r then g x else x).rev = x.rev ∧
      (if x.ref = r then g x else x).dummy = x.dummy := by
    intro x; split
    · exact hg x
    · exact ⟨rfl, rfl, rfl⟩
  constructor
  · rw [Sorted, List.pairwise_map]
    refine h.sorted.imp ?_
    intro a b hab
    rw [(hf a).2.1, (hf b).2.1]; exact hab
  · rw [refs, List.map_map]
    have : ((fun x : Entry => x.ref) ∘ fun x => if x.ref = r then g x else x) = (fun x => x.ref) := by
      funext x; exact (hf x).1
    rw [this]; exact h.nodup
  · intro e he p hp
    obtain ⟨x, hx, rfl⟩ := List.mem_map.1 he
    rw [(hf x).1] at hp
    have hne : ¬ x.ref = r := by rw [hp]; exact fun hc => hr p hc.symm
    rw [if_neg hne]
    exact h.dum x hx p hp
  · intro e he n hn
    obtain ⟨x, hx, rfl⟩ := List.mem_map.1 he
    rw [(hf x).1] at hn
    rw [(hf x).2.2]
    exact h.itm x hx n hn
  · intro p hp
    refine List.mem_map.2 ⟨_, h.has p hp, ?_⟩
    rw [if_neg]
    exact fun hc => hr p hc.symm

theorem II.live_ref {items : List Entry} {nextId : Nat} {bl : List Path} (h : II items nextId bl) {e : Entry} (he : e ∈ items)
    (hi : e.ignored = false) : ∀ p, e.ref ≠ .dummy p := by
  intro p hp
  have := (h.dum e he p hp).2
  rw [this] at hi
  simp [Entry.ignored, dummyEntry] at hi

theorem II.insItem {items items' : List Entry} {nextId : Nat} {bl : List Path} (h : II items nextId bl) {e : Entry}
    (hr : e.ref = .item nextId) (hd : e.dummy = false) (hs : Sorted items') (hi : Ins e items items') :
    II items' (nextId + 1) bl := by
  have hmem : ∀ x, x ∈ items' → x = e ∨ x ∈ items := by
    intro x hx
    rcases hi.perm with rfl | hp
    · exact Or.inr hx
    · simpa using hp.mem_iff.1 hx
  constructor
  · exact hs
  · rcases hi.perm with rfl | hp
    · exact h.nodup
    · rw [refs, (hp.map _).nodup_iff, List.map_cons, List.nodup_cons]
      refine ⟨?_, h.nodup⟩
      intro hc
      obtain ⟨x, hx, hxr⟩ := List.mem_map.1 hc
      have := (h.itm x hx nextId (hxr.trans hr)).2
      omega
  · intro x hx p hp
    rcases hmem x hx with rfl | hx
    · rw [hr] at hp; cases hp
    · exact h.dum x hx p hp
  · intro x hx n hn
    rcases hmem x hx with rfl | hx
    · rw [hr] at hn; injection hn with hn; exact ⟨hd, by omega⟩
    · have := h.itm x hx n hn; exact ⟨this.1, by omega⟩
  · intro p hp
    have := h.has p hp
    rcases hi.perm with rfl | hpm
    · exact this
    · exact hpm.mem_iff.2 (by simp [this])

/-- State before a possible split in `_set`. -/
def setMid (st : St) (k : U64) (b : Path) (e : Entry) : St :=
  { st with
    items := setInsert st b (rev64 k) e, len := st.len + 1,
    mem := if (st.mem b).level > 0 then upd st.mem b { st.mem b with len := (st.mem b).len + 1 } else st.mem }

theorem setMid_eqL (st : St) (k : U64) (b : Path) (e : Entry) : EqL st.mem (setMid st k b e).mem := by
  unfold setMid
  simp only
  split
  · exact EqL.len _ _ _
  · exact EqL.refl _

theorem setNew_eq (st : St) (k : U64) (b : Path) (e : Entry) :
    setNew st k b e = if ((setMid st k b e).mem b).len > st.maxPer then makeBucket (setMid st k b e) e
      else .ok (setMid st k b e) := rfl

theorem setMid_inv {st st2 : St} {k : U64} {b : Path} {e : Entry} (h : Inv st) (hr : e.ref = .item st.nextId)
    (hd : e.dummy = false) (hm : st2.mem = st.mem) (hb : st2.blist = st.blist) (hi : st2.items = st.items)
    (hn : st2.nextId = st.nextId + 1) (hlv : st2.lv = st.lv) : Inv (setMid st2 k b e) := by
  constructor
  · have h1 : BI st2.mem st2.blist := by rw [hm, hb]; exact h.bi
    exact h1.congr (setMid_eqL st2 k b e)
  · show II (setInsert st2 b (rev64 k) e) st2.nextId st2.blist
    rw [hn, hb]
    exact h.ii.insItem hr hd (setInsert_sorted (hi ▸ h.ii.sorted)) (hi ▸ setInsert_ins)
  · have h1 : LvOk st2.mem st2.lv := by rw [hm, hlv]; exact h.lv
    have hV : ∀ p, V (setMid st2 k b e).mem p ↔ V st2.mem p := fun p => by
      unfold V; rw [((setMid_eqL st2 k b e).fields p).1]
    exact h1.mono (fun p hp => (hV p).2 hp) (fun p hp => (hV _).1 hp)

theorem makeBucket_spec {st : St} (h : Inv st) (e : Entry) :
    (∃ st', makeBucket st e = .ok st' ∧ Inv st' ∧ Grow st st') ∨
    (makeBucket st e = .error .bucketHeadEmpty ∧ ∃ p ∈ st.blist, (st.mem p).rev = maxU64 - 1) := by
  unfold makeBucket
  split
  · split
    · exact makeBucketAt_spec h _
    · exact Or.inl ⟨st, rfl, h, Or.inl rfl⟩
  · exact makeBucketAt_spec h _

/-- `_set`: the item is handed to `setInsert`, then at most one bucket is made. -/
theorem setNew_spec {st : St} {k : U64} {b : Path} {e : Entry}
    (hinv : Inv (setMid st k b e)) :
    (∃ st', setNew st k b e = .ok st' ∧ Inv st' ∧ Grow (setMid st k b e) st') ∨
    (setNew st k b e = .error .bucketHeadEmpty ∧ ∃ p ∈ st.blist, (st.mem p).rev = maxU64 - 1) := by
  rw [setNew_eq]
  split
  · rcases makeBucket_spec hinv e with ⟨st', h1, h2, h3⟩ | ⟨h1, p, hp, h2⟩
    · exact Or.inl ⟨st', h1, h2, h3⟩
    · refine Or.inr ⟨h1, p, hp, ?_⟩
      rw [((setMid_eqL st k b e).fields p).2.1] at h2
      exact h2
  · exact Or.inl ⟨_, rfl, hinv, Or.inl rfl⟩

/-- The record `opSet` hands to `_set`. -/
def newSetEntry (st : St) (key : Key) (v : IVal) (k c : U64) : Entry :=
  { ref := .item st.nextId, kind := .sample, key := key, val := v, rev := rev64 k, conflict := c, dummy := false, deleted := false }

/-- The record `opStoreItem` hands to `_set`. -/
def newItemEntry (st : St) (it : NewItem) (k c : U64) : Entry :=
  { ref := .item st.nextId, kind := it.kind, key := it.key, val := it.val,
    rev := if it.rev0 = 0 then rev64 k else it.rev0,
    conflict := if it.conflict0 = 0 then c else it.conflict0, dummy := false, deleted := false }

/-- State in which `opSet` calls `_set`. -/
def setPre (st : St) : St :=
  { st with pool := if st.pool = false ∧ st.mode = modeCombine4 then true else st.pool, itemFn := .sample, nextId := st.nextId + 1 }

def storePre (st : St) : St := { st with nextId := st.nextId + 1 }

theorem opSet_new {E : Env} {st : St} {s : List (BitVec 8)} {v : IVal} {k c : U64}
    (hk : keyToHash E.H (.str s) = some (k, c)) (hf : (getWithBucket E st k c).1 = none) :
    (opSet E st (.str s) v) =
      match setNew (setPre st) k (findBucket st.mem (rev64 k)) (newSetEntry st (.str s) v k c) with
      | .ok st' => (st', .bool true)
      | .error p => ({ st with pool := if st.pool = false ∧ st.mode = modeCombine4 then true else st.pool }, .panic p) := by
  have hb := getWithBucket_bucket E st k c
  have h2 : getWithBucket E st k c = (none, findBucket st.mem (rev64 k)) := by
    rw [← hb, ← hf]
  unfold opSet
  simp only [hk, h2]
  have : (if st.pool = false ∧ st.mode = modeCombine4 then { st with pool := true } else st) =
      { st with pool := if st.pool = false ∧ st.mode = modeCombine4 then true else st.pool } := by
    split <;> rfl
  rw [this]
  unfold finish setPre newSetEntry
  rfl

theorem opStoreItem_new {E : Env} {st : St} {it : NewItem} {k c : U64}
    (hk : keyToHash E.H it.key = some (k, c)) (hf : (getWithBucket E st k c).1 = none) :
    (opStoreItem E st it) =
      match setNew (storePre st) k (findBucket st.mem (rev64 k)) (newItemEntry st it k c) with
      | .ok st' => (st', .bool true)
      | .error p => (st, .panic p) := by
  have hb := getWithBucket_bucket E st k c
  have h2 : getWithBucket E st k c = (none, findBucket st.mem (rev64 k)) := by
    rw [← hb, ← hf]
  unfold opStoreItem NewItem.keyHash
  simp only [hk, h2]
  unfold finish storePre newItemEntry
  rfl

theorem update_inv {st : St} (h : Inv st) {e : Entry} (he : e ∈ st.items) (hi : e.ignored = false) (v : IVal) :
    Inv (update st e v).1 := by
  unfold update
  split
  · exact h
  · refine ⟨h.bi, ?_, h.lv⟩
    exact h.ii.mapItem e.ref (h.ii.live_ref he hi) _ (fun x => ⟨rfl, rfl, rfl⟩)

theorem Inv.pool {st : St} (h : Inv st) (b : Bool) : Inv { st with pool := b } := ⟨h.bi, h.ii, h.lv⟩

/-- Every operation keeps the invariant, whatever its arguments. -/
theorem step_inv (E : Env) {st : St} (h : Inv st) (op : Op) : Inv (step E st op).1 := by
  cases op with
  | set key v =>
    simp only [step]
    cases hk : keyToHash E.H key with
    | none => unfold opSet; simp only [hk]; exact h
    | some kc =>
      obtain ⟨k, c⟩ := kc
      cases hf : (getWithBucket E st k c).1 with
      | some e =>
        have h2 : getWithBucket E st k c = (some e, (getWithBucket E st k c).2) := by rw [← hf]
        have hm := getWithBucket_mem h2
        unfold opSet
        simp only [hk]
        rw [h2]
        exact update_inv h hm.1 hm.2.1 v
      | none =>
        by_cases hs : ∃ s, key = .str s
        · obtain ⟨s, rfl⟩ := hs
          rw [opSet_new hk hf]
          have hmid : Inv (setMid (setPre st) k (findBucket st.mem (rev64 k)) (newSetEntry st (.str s) v k c)) :=
            setMid_inv h rfl rfl rfl rfl rfl rfl rfl
          rcases setNew_spec hmid with ⟨st', h1, h2, _⟩ | ⟨h1, _⟩
          · rw [h1]; exact h2
          · rw [h1]; exact h.pool _
        · have h2 : getWithBucket E st k c = (none, (getWithBucket E st k c).2) := by rw [← hf]
          unfold opSet
          simp only [hk]
          rw [h2]
          cases key with
          | str s => exact absurd ⟨s, rfl⟩ hs
          | _ =>
            simp only
            split
            · exact h.pool _
            · exact h
  | storeItem it =>
    simp only [step]
    cases hk : keyToHash E.H it.key with
    | none => unfold opStoreItem NewItem.keyHash; simp only [hk]; exact h
    | some kc =>
      obtain ⟨k, c⟩ := kc
      cases hf : (getWithBucket E st k c).1 with
      | some e =>
        have h2 : getWithBucket E st k c = (some e, (getWithBucket E st k c).2) := by rw [← hf]
        have hm := getWithBucket_mem h2
        unfold opStoreItem NewItem.keyHash
        simp only [hk]
        rw [h2]
        exact update_inv h hm.1 hm.2.1 it.val
      | none =>
        rw [opStoreItem_new hk hf]
        have hmid : Inv (setMid (storePre st) k (findBucket st.mem (rev64 k)) (newItemEntry st it k c)) :=
          setMid_inv h rfl rfl rfl rfl rfl rfl rfl
        rcases setNew_spec hmid with ⟨st', h1, h2, _⟩ | ⟨h1, _⟩
        · rw [h1]; exact h2
        · rw [h1]; exact h
  | get key => exact h
  | getByHash k c => exact h
  | loadItem key => exact h
  | loadItemByHash k c => exact h
  | delete key =>
    simp only [step]
    unfold opDelete
    cases hk : keyToHash E.H key with
    | none => exact h
    | some kc =>
      obtain ⟨k, c⟩ := kc
      simp only
      cases hf : (getWithBucket E st k c).1 with
      | none => exact h
      | some e =>
        have h2 : getWithBucket E st k c = (some e, (getWithBucket E st k c).2) := by rw [← hf]
        have hm := getWithBucket_mem h2
        refine ⟨h.bi, ?_, h.lv⟩
        exact h.ii.mapItem e.ref (h.ii.live_ref hm.1 hm.2.1) _ (fun x => ⟨rfl, rfl, rfl⟩)
  | len => exact h
  | range => exact h

theorem run_inv (E : Env) {st : St} (h : Inv st) (ops : List Op) : Inv (run E st ops).1 := by
  induction ops generalizing st with
  | nil => exact h
  | cons op ops ih => simp only [run]; exact ih (step_inv E h op)

/-- A state some history leads to. -/
def Reachable (E : Env) (st : St) : Prop := ∃ (c : Cfg) (ops : List Op), st = (run E (initSt c) ops).1

theorem Reachable.inv {E : Env} {st : St} (h : Reachable E st) : Inv st := by
  obtain ⟨c, ops, rfl⟩ := h; exact run_inv E (inv_init c) ops

end SLM
