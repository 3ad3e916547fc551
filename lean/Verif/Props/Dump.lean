import Verif.Model.Dump
import Verif.Props.Structure
import Verif.Proofs.Held
/-!
C100: what DumpEntry and DumpBucket print.
-/
set_option autoImplicit false
set_option maxRecDepth 20000
namespace SLM
open History

/-- Only SampleItems are handed to StoreItem (their key is a string, sample_hmap_entry.go:18-22). -/
def Samples (ops : List Op) : Prop := ∀ it, Op.storeItem it ∈ ops → it.kind = .sample ∧ ∃ s, it.key = .str s

/-- C100, DumpBucket: in every reachable map it prints the boundaries from the largest, 2^64-1, strictly downwards to 0; BackBucket is the bucket printed last. -/
theorem C100_buckets {E : Env} {st : St} (h : Reachable E st) :
    (st.dumpBucket.map (·.reverse)).Pairwise (fun a b => b < a) ∧ (st.dumpBucket.map (·.reverse)).head? = some maxU64 ∧
    (st.dumpBucket.map (·.reverse)).getLast? = some 0 ∧ ∃ b, st.backBucket = some b ∧ (st.mem b).rev = 0 := by
  have hb : st.dumpBucket.map (·.reverse) = boundaries st := by simp [St.dumpBucket, boundaries]
  obtain ⟨h1, h2, h3, _⟩ := C10_buckets h
  rw [hb]
  refine ⟨h1, h2, h3, ?_⟩
  unfold boundaries at h3
  rw [List.getLast?_map] at h3
  unfold St.backBucket
  cases hl : st.blist.getLast? with
  | none => rw [hl] at h3; simp at h3
  | some b => rw [hl] at h3; exact ⟨b, rfl, by simpa using h3⟩

/-- C100, DumpEntry: in every reachable map it prints all lines in order of reversed hash, `k` and `reverse` being each other's reversal. -/
theorem C100_order {E : Env} {st : St} (h : Reachable E st) :
    st.dumpEntry.Pairwise (fun a b => a.reverse ≤ b.reverse) ∧ ∀ l ∈ st.dumpEntry, l.reverse = rev64 l.k := by
  refine ⟨?_, ?_⟩
  · unfold St.dumpEntry
    rw [List.pairwise_map]
    exact C09_item_order h
  · intro l hl
    obtain ⟨e, _, rfl⟩ := List.mem_map.1 hl
    exact (rev64_rev64 e.rev).symm

/-- What the items look like in a map that holds SampleItems only. -/
structure AllSample (H : HashFns) (st : St) : Prop where
  fn : st.itemFn = .sample
  itm : ∀ e ∈ st.items, e.dummy = false → e.kind = .sample ∧ ∃ s, e.key = .str s ∧ keyToHash H (.str s) = some (rev64 e.rev, e.conflict)

theorem grow_fn {mid st' : St} (h : Grow mid st') : st'.itemFn = mid.itemFn := by
  rcases h with rfl | ⟨A, B, n, b, c, hb⟩
  · rfl
  · exact hb.same.2.2.1

theorem step_sample {E : Env} {st : St} (hi : Inv st) (h : AllSample E.H st) {op : Op}
    (ho : ∀ it, op = .storeItem it → (it.kind = .sample ∧ ∃ s, it.key = .str s) ∧ it.rev0 = 0 ∧ it.conflict0 = 0) : AllSample E.H (step E st op).1 := by
  rcases step_eff E hi op with x | ⟨e1, nv, b, x⟩ | ⟨key, e1, x⟩ | ⟨st2, k, c, e1, x⟩
  · obtain ⟨b, hb⟩ := x.same
    rw [hb]
    exact ⟨h.fn, h.itm⟩
  · rw [x.res]
    refine ⟨h.fn, ?_⟩
    intro e he hd
    obtain ⟨e0, h0, rfl⟩ := List.mem_map.1 he
    split at hd <;> rename_i hr
    · rw [if_pos hr]; exact h.itm e0 h0 hd
    · rw [if_neg hr]; exact h.itm e0 h0 hd
  · rw [x.res]
    refine ⟨h.fn, ?_⟩
    intro e he hd
    obtain ⟨e0, h0, rfl⟩ := List.mem_map.1 he
    rw [h.fn] at hd ⊢
    split at hd <;> rename_i hr
    · rw [if_pos hr]; exact h.itm e0 h0 hd
    · rw [if_neg hr]; exact h.itm e0 h0 hd
  · refine ⟨?_, ?_⟩
    · rw [grow_fn x.grow]
      rcases x.pre with ⟨s, v, _, rfl, _⟩ | ⟨it, _, rfl, _⟩
      · rfl
      · exact h.fn
    · intro e he hd
      rcases (x.mem_items hd).2 he with rfl | he
      · have hh := x.hash
        rcases x.pre with ⟨s, v, rfl, _, rfl⟩ | ⟨it, rfl, _, rfl⟩
        · simp only [storeHash] at hh
          exact ⟨rfl, s, rfl, by rw [hh]; simp [newSetEntry, rev64_rev64]⟩
        · obtain ⟨⟨h1, s, h2⟩, h3, h4⟩ := ho it rfl
          simp only [storeHash] at hh
          refine ⟨h1, s, h2, ?_⟩
          rw [← h2, hh]
          simp [newItemEntry, h3, h4, rev64_rev64]
      · exact h.itm e he hd

theorem run_sample {E : Env} {ops : List Op} {st : St} (hi : Inv st) (h : AllSample E.H st) (hs : Samples ops) (hf : FreshItems ops) :
    AllSample E.H (run E st ops).1 := by
  induction ops generalizing st with
  | nil => exact h
  | cons op ops ih =>
    rw [run_cons]
    refine ih (step_inv E hi op) (step_sample hi h ?_) (fun it hit => hs it (List.mem_cons_of_mem _ hit)) (fun it hit => hf it (List.mem_cons_of_mem _ hit))
    intro it he
    exact ⟨hs it (by rw [he]; simp), hf it (by rw [he]; simp)⟩

theorem init_sample (H : HashFns) (cfg : Cfg) (hc : cfg.itemFn = .sample) : AllSample H (initSt cfg) := by
  refine ⟨?_, ?_⟩
  · have : (initSt cfg).itemFn = cfg.itemFn := rfl
    rw [this, hc]
  · intro e he hd
    rw [initSt_dummy cfg e he] at hd
    cases hd

theorem dummy_key {st : St} (h : Inv st) {e : Entry} (he : e ∈ st.items) (hd : e.dummy = true) : e.key = .nil := by
  cases hr : e.ref with
  | item n => rw [(h.ii.itm e he n hr).1] at hd; cases hd
  | dummy p => rw [(h.ii.dum e he p hr).2]; rfl

theorem line_nil {H : HashFns} {st : St} (hi : Inv st) (h : AllSample H st) {e : Entry} (he : e ∈ st.items) :
    decide ((entryLine e).key = some .nil) = e.dummy := by
  cases hd : e.dummy with
  | true => simp [entryLine, hd, dummy_key hi he hd]
  | false =>
    obtain ⟨h1, s, h2, _⟩ := h.itm e he hd
    simp [entryLine, hd, viewKey, h1, h2]

/-- The lines of DumpEntry without a key. -/
def sentinelLines (st : St) : List EntryLine := st.dumpEntry.filter (fun l => decide (l.key = some .nil))

/-- The lines of DumpEntry with a key. -/
def keyLines (st : St) : List EntryLine := st.dumpEntry.filter (fun l => !decide (l.key = some .nil))

/-- The keys Range shows. -/
def rangeKeys (st : St) : List (Option Key) := (st.rangeItem (fun _ _ => true)).map (viewKey st.itemFn)

theorem sentinels_eq {H : HashFns} {st : St} (hi : Inv st) (h : AllSample H st) :
    sentinelLines st = (st.items.filter (·.dummy)).map entryLine := by
  unfold sentinelLines St.dumpEntry
  rw [List.filter_map]
  congr 1
  apply List.filter_congr
  intro e he
  exact line_nil hi h he

theorem keyLines_eq {H : HashFns} {st : St} (hi : Inv st) (h : AllSample H st) :
    keyLines st = (st.items.filter (fun e => !e.dummy)).map entryLine := by
  unfold keyLines St.dumpEntry
  rw [List.filter_map]
  congr 1
  apply List.filter_congr
  intro e he
  show (!decide ((entryLine e).key = some .nil)) = !e.dummy
  rw [line_nil hi h he]

/-- C100, in a map with SampleItems only: the lines of DumpEntry without key are the buckets of DumpBucket from the last to the first. -/
theorem C100_sentinels_partial {E : Env} {cfg : Cfg} {ops : List Op} (hc : cfg.itemFn = .sample) (hs : Samples ops) (hf : FreshItems ops) :
    (sentinelLines (run E (initSt cfg) ops).1).map (·.reverse) = ((run E (initSt cfg) ops).1.dumpBucket.map (·.reverse)).reverse := by
  have hR : Reachable E (run E (initSt cfg) ops).1 := ⟨cfg, ops, rfl⟩
  have hi := hR.inv
  have ha := run_sample (E := E) (inv_init cfg) (init_sample E.H cfg hc) hs hf
  rw [sentinels_eq hi ha]
  generalize (run E (initSt cfg) ops).1 = st at *
  obtain ⟨d1, _, _, d4, d5, d6⟩ := C10_buckets hR
  have hb : st.dumpBucket.map (·.reverse) = boundaries st := by simp [St.dumpBucket, boundaries]
  rw [hb, List.map_map]
  have e1 : ((·.reverse) ∘ entryLine : Entry → U64) = (·.rev) := rfl
  rw [e1]
  -- both are strictly ascending and have the same members
  have s2 : (boundaries st).reverse.Pairwise (fun a b => a < b) := by rw [List.pairwise_reverse]; exact d1
  have s1 : ((st.items.filter (·.dummy)).map (·.rev)).Pairwise (fun a b => a < b) := by
    rw [List.pairwise_map]
    have hso : (st.items.filter (·.dummy)).Pairwise (fun a b => a.rev ≤ b.rev) := (C09_item_order hR).filter _
    have hnd : (st.items.filter (·.dummy)).Pairwise (fun a b => a.ref ≠ b.ref) := by
      have : (st.items).Pairwise (fun a b => a.ref ≠ b.ref) := by
        have := d6
        unfold List.Nodup at this
        rwa [List.pairwise_map] at this
      exact this.filter _
    refine List.Pairwise.imp_of_mem ?_ (hso.and hnd)
    intro a b ham hbm hab
    obtain ⟨ha1, ha2⟩ := List.mem_filter.1 ham
    obtain ⟨hb1, hb2⟩ := List.mem_filter.1 hbm
    obtain ⟨p, hp, hpr, hpv⟩ := d5 a ha1 (by simpa using ha2)
    obtain ⟨q, hq, hqr, hqv⟩ := d5 b hb1 (by simpa using hb2)
    rcases Nat.lt_or_eq_of_le (BitVec.le_def.1 hab.1) with hlt | heq
    · exact BitVec.lt_def.2 hlt
    · exfalso
      apply hab.2
      rw [hpr, hqr]
      have : (st.mem p).rev = (st.mem q).rev := by rw [← hpv, ← hqv]; exact BitVec.eq_of_toNat_eq heq
      congr 1
      by_contra hne
      have hdesc := hi.bi.desc
      rcases Nat.lt_trichotomy (bval p) (bval q) with h | h | h
      · have := (hi.bi.rev_lt_iff hp hq).2 h; bv_omega
      · obtain ⟨A, B, hAB⟩ := List.append_of_mem hp
        rw [hAB] at hdesc hq
        rw [List.pairwise_append] at hdesc
        rcases List.mem_append.1 hq with hq | hq
        · have := hdesc.2.2 q hq p (by simp); omega
        · rcases List.mem_cons.1 hq with hq | hq
          · exact hne hq.symm
          · have := (List.pairwise_cons.1 hdesc.2.1).1 q hq; omega
      · have := (hi.bi.rev_lt_iff hq hp).2 h; bv_omega
  have hmem : ∀ x, x ∈ (st.items.filter (·.dummy)).map (·.rev) ↔ x ∈ (boundaries st).reverse := by
    intro x
    simp only [List.mem_map, List.mem_filter, List.mem_reverse, boundaries]
    constructor
    · rintro ⟨d, ⟨hd, hdd⟩, rfl⟩
      obtain ⟨p, hp, _, hv⟩ := d5 d hd hdd
      exact ⟨p, hp, hv.symm⟩
    · rintro ⟨p, hp, rfl⟩
      obtain ⟨d, hd, _, hdd, hv⟩ := d4 p hp
      exact ⟨d, ⟨hd, hdd⟩, hv⟩
  have irr : ∀ a : U64, ¬ a < a := fun a => by bv_omega
  have n1 : ((st.items.filter (·.dummy)).map (·.rev)).Nodup := by
    unfold List.Nodup
    refine s1.imp ?_
    intro a b h e
    rw [e] at h
    exact irr b h
  have n2 : (boundaries st).reverse.Nodup := by
    unfold List.Nodup
    refine s2.imp ?_
    intro a b h e
    rw [e] at h
    exact irr b h
  exact List.Perm.eq_of_pairwise (fun a b _ _ h1 h2 => by exfalso; bv_omega) s1 s2 ((List.perm_ext_iff_of_nodup n1 n2).2 hmem)

/-- C100, in a map with SampleItems only: every other line shows a string key and the two hashes of that key, and the keys Range shows are among the keys shown,
in the same order. -/
theorem C100_keys_partial {E : Env} {cfg : Cfg} {ops : List Op} (hc : cfg.itemFn = .sample) (hs : Samples ops) (hf : FreshItems ops) :
    (∀ l ∈ keyLines (run E (initSt cfg) ops).1, ∃ s, l.key = some (.str s) ∧ keyToHash E.H (.str s) = some (l.k, l.conflict)) ∧
    (rangeKeys (run E (initSt cfg) ops).1).Sublist ((keyLines (run E (initSt cfg) ops).1).map (·.key)) := by
  have hR : Reachable E (run E (initSt cfg) ops).1 := ⟨cfg, ops, rfl⟩
  have hi := hR.inv
  have ha := run_sample (E := E) (inv_init cfg) (init_sample E.H cfg hc) hs hf
  rw [keyLines_eq hi ha]
  generalize (run E (initSt cfg) ops).1 = st at *
  refine ⟨?_, ?_⟩
  · intro l hl
    obtain ⟨e, he, rfl⟩ := List.mem_map.1 hl
    obtain ⟨he, hd⟩ := List.mem_filter.1 he
    have hd : e.dummy = false := by simpa using hd
    obtain ⟨h1, s, h2, h3⟩ := ha.itm e he hd
    exact ⟨s, by simp [entryLine, hd, viewKey, h1, h2], h3⟩
  · unfold rangeKeys
    rw [C08_range_all hR, ha.fn]
    unfold liveItems
    rw [List.map_map]
    have e1 : st.items.filter (fun e => !e.dummy && !e.deleted) = (st.items.filter (fun e => !e.dummy)).filter (fun e => !e.deleted) := by
      rw [List.filter_filter]; congr 1; funext e; exact Bool.and_comm _ _
    rw [e1]
    have e2 : ((st.items.filter (fun e => !e.dummy)).filter (fun e => !e.deleted)).map (viewKey .sample) =
        ((st.items.filter (fun e => !e.dummy)).filter (fun e => !e.deleted)).map ((·.key) ∘ entryLine) := by
      apply List.map_congr_left
      intro e he
      have hd : e.dummy = false := by simpa using (List.mem_filter.1 (List.mem_filter.1 he).1).2
      simp [entryLine, hd]
    rw [e2]
    exact List.filter_sublist.map _

theorem step_undeleted {E : Env} {st : St} (hi : Inv st) (h : ∀ e ∈ st.items, e.deleted = false) {op : Op} (ho : ∀ key, op ≠ .delete key) :
    ∀ e ∈ (step E st op).1.items, e.deleted = false := by
  rcases step_eff E hi op with x | ⟨e1, nv, b, x⟩ | ⟨key, e1, x⟩ | ⟨st2, k, c, e1, x⟩
  · obtain ⟨b, hb⟩ := x.same
    rw [hb]
    exact h
  · rw [x.res]
    intro e he
    obtain ⟨e0, h0, rfl⟩ := List.mem_map.1 he
    split <;> exact h e0 h0
  · exact absurd x.op (ho key)
  · intro e he
    cases hd : e.dummy with
    | true =>
      cases hr : e.ref with
      | item n => rw [(x.inv.ii.itm e he n hr).1] at hd; cases hd
      | dummy p => rw [(x.inv.ii.dum e he p hr).2]; rfl
    | false =>
      rcases (x.mem_items hd).2 he with rfl | he
      · exact x.nodel
      · exact h e he

/-- C100, as before and without a Delete: the keys shown are the keys Range shows. -/
theorem C100_partial {E : Env} {cfg : Cfg} {ops : List Op} (hc : cfg.itemFn = .sample) (hs : Samples ops) (hf : FreshItems ops)
    (hd : ∀ key, Op.delete key ∉ ops) : (keyLines (run E (initSt cfg) ops).1).map (·.key) = rangeKeys (run E (initSt cfg) ops).1 := by
  have hund : ∀ e ∈ (run E (initSt cfg) ops).1.items, e.deleted = false := by
    have key : ∀ (ops : List Op) (st : St), Inv st → (∀ e ∈ st.items, e.deleted = false) → (∀ key, Op.delete key ∉ ops) →
        ∀ e ∈ (run E st ops).1.items, e.deleted = false := by
      intro ops
      induction ops with
      | nil => intro st _ h _; exact h
      | cons op ops ih =>
        intro st hi h hd
        rw [run_cons]
        refine ih _ (step_inv E hi op) (step_undeleted hi h ?_) (fun k hk => hd k (List.mem_cons_of_mem _ hk))
        intro k hk
        exact hd k (by rw [hk]; simp)
    refine key ops _ (inv_init cfg) ?_ hd
    intro e he
    have hi := inv_init cfg
    have hdm := initSt_dummy cfg e he
    cases hr : e.ref with
    | item n => rw [(hi.ii.itm e he n hr).1] at hdm; cases hdm
    | dummy p => rw [(hi.ii.dum e he p hr).2]; rfl
  obtain ⟨_, h2⟩ := C100_keys_partial (E := E) hc hs hf
  have hR : Reachable E (run E (initSt cfg) ops).1 := ⟨cfg, ops, rfl⟩
  have ha := run_sample (E := E) (inv_init cfg) (init_sample E.H cfg hc) hs hf
  refine (h2.eq_of_length ?_).symm
  unfold rangeKeys
  rw [keyLines_eq hR.inv ha, C08_range_all hR, List.length_map, List.length_map, List.length_map]
  unfold liveItems
  congr 1
  apply List.filter_congr
  intro e he
  simp [hund e he]

/-- The conditions are met with sentinels of new buckets and several keys. -/
def dumpOps : List Op := (List.range 12).map (fun i => .set (sk (BitVec.ofNat 8 (16 * i + 1))) (exV i))

example : Samples dumpOps ∧ FreshItems dumpOps ∧ (∀ key, Op.delete key ∉ dumpOps) ∧
    (keyLines (run exE (initSt { maxPer := 3 }) dumpOps).1).length = 12 ∧ 17 < (sentinelLines (run exE (initSt { maxPer := 3 }) dumpOps).1).length := by
  refine ⟨?_, ?_, ?_, ?_, ?_⟩
  · intro it h; simp [dumpOps] at h
  · intro it h; simp [dumpOps] at h
  · intro k h; simp [dumpOps] at h
  · decide +kernel
  · decide +kernel

/-- C100 fails for keys that were deleted: they are shown for ever. -/
theorem C100_refuted : (run exE (initSt {}) [.set (sk 1) (exV 1), .delete (sk 1), .get (sk 1)]).2 = [.bool true, .bool true, .val none false] ∧
    some (sk 1) ∈ (keyLines (run exE (initSt {}) [.set (sk 1) (exV 1), .delete (sk 1), .get (sk 1)]).1).map (·.key) := by
  refine ⟨?_, ?_⟩ <;> decide +kernel

/-- And for items that are no SampleItems, although Range and LoadItem read them correctly: DumpEntry reads their memory as that of a SampleItem. -/
theorem C100_kind_refuted : (run exE (initSt { itemFn := .entry }) [.storeItem { kind := .entry, key := sk 1, val := exV 1 }, .loadItem (sk 1), .range]).2 =
      [.bool true, .item (some (some (sk 1), exV 1)), .seq [(some (sk 1), exV 1)]] ∧
    (keyLines (run exE (initSt { itemFn := .entry }) [.storeItem { kind := .entry, key := sk 1, val := exV 1 }, .loadItem (sk 1), .range]).1).map (·.key) = [none] := by
  refine ⟨?_, ?_⟩ <;> decide +kernel

end SLM
