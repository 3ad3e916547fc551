import Verif.Model.TestSet
import Verif.Props.Lost
/-!
C116: TestSet, a store with a bucket chosen by the caller.
-/
set_option autoImplicit false
set_option maxRecDepth 100000
namespace SLM
open History

/-- A map after any calls, TestSet with any bucket the map has among them. -/
inductive Told (E : Env) : St → Prop
  | init (cfg : Cfg) : Told E (initSt cfg)
  | call {st : St} (h : Told E st) (op : Op) : Told E (step E st op).1
  | test {st : St} (h : Told E st) (k c : U64) (b : Path) (hb : V st.mem b) (it : NewItem) : Told E (opTestSetAt st k c b it).1

theorem setMid_told {st : St} (h : Inv st) (k c : U64) (b : Path) (it : NewItem) :
    Inv (setMid (storePre st) k b (testItem st k c it)) := setMid_inv h rfl rfl rfl rfl rfl rfl rfl

/-- What a TestSet does. -/
theorem told_cases {st : St} (h : Inv st) (k c : U64) (b : Path) (it : NewItem) :
    (∃ st', opTestSetAt st k c b it = (st', .bool true) ∧ Inv st' ∧ Grow (setMid (storePre st) k (basePath st.mem b) (testItem st k c it)) st') ∨
    opTestSetAt st k c b it = (st, .panic .bucketHeadEmpty) := by
  have hm := setMid_told h k c (basePath st.mem b) it
  unfold opTestSetAt
  rcases setNew_spec hm with ⟨st', h1, h2, h3⟩ | ⟨h1, _⟩
  · left
    refine ⟨st', ?_, h2, h3⟩
    change finish st (setNew (storePre st) _ _ _) = _
    rw [h1]; rfl
  · right
    change finish st (setNew (storePre st) _ _ _) = _
    rw [h1]; rfl

theorem Told.inv {E : Env} {st : St} (h : Told E st) : Inv st := by
  induction h with
  | init cfg => exact inv_init cfg
  | call h op ih => exact step_inv E ih op
  | test h k c b hb it ih =>
    rcases told_cases ih k c b it with ⟨st', h1, h2, _⟩ | h1
    · rw [h1]; exact h2
    · rw [h1]; exact ih

theorem Told.of_reachable {E : Env} {st : St} (h : Reachable E st) : Told E st := by
  obtain ⟨cfg, ops, rfl⟩ := h
  have : ∀ (ops : List Op) {st : St}, Told E st → Told E (run E st ops).1 := by
    intro ops
    induction ops with
    | nil => intro st h; exact h
    | cons op ops ih => intro st h; exact ih (h.call op)
  exact this ops (.init cfg)

theorem told_all (l seen : List Entry) : rangeItems (fun _ _ => true) seen l = seen ++ l.filter (fun e => !e.ignored) := by
  induction l generalizing seen with
  | nil => simp [rangeItems]
  | cons e l ih => cases h : e.ignored <;> simp [rangeItems, h, ih]

theorem told_range (st : St) : st.rangeItem (fun _ _ => true) = st.items.filter (fun e => !e.ignored) := by
  unfold St.rangeItem; rw [told_all, List.nil_append]

/-- Whatever buckets the caller tells: Range shows the items in hash order, no item twice, and the buckets stay in strictly descending order. -/
theorem C116_order {E : Env} {st : St} (h : Told E st) :
    (st.rangeItem (fun _ _ => true)).Pairwise (fun x y => x.rev ≤ y.rev ∧ x.ref ≠ y.ref) ∧ (boundaries st).Pairwise (fun x y => y < x) := by
  have hi := h.inv
  refine ⟨?_, ?_⟩
  · rw [told_range]
    refine List.Pairwise.sublist List.filter_sublist ?_
    have h1 : st.items.Pairwise (fun x y => x.ref ≠ y.ref) := List.pairwise_map.1 hi.ii.nodup
    exact List.Pairwise.and hi.ii.sorted h1
  · rw [boundaries, List.pairwise_map]
    refine hi.bi.desc.imp_of_mem ?_
    intro p q hp hq hlt
    exact (hi.bi.rev_lt_iff hq hp).2 hlt

theorem insAt_after {e : Entry} : ∀ {l : List Entry}, Sorted l → ∀ x ∈ l.dropWhile (fun x => decide (x.rev ≤ e.rev)), e.rev < x.rev
  | [], _, x, hx => by simp at hx
  | a :: l, hs, x, hx => by
    rw [List.dropWhile_cons] at hx
    have hs' := List.pairwise_cons.1 hs
    split at hx
    · exact insAt_after hs'.2 x hx
    · rename_i ha
      simp only [decide_eq_true_eq] at ha
      rcases List.mem_cons.1 hx with rfl | hx
      · bv_omega
      · have := hs'.1 x hx
        bv_omega

/-- What Range shows after an item is put into the list. -/
theorem insAt_range {e : Entry} {l : List Entry} (hs : Sorted l) (he : e.ignored = false) :
    ∃ A B, l.filter (fun e => !e.ignored) = A ++ B ∧ (insAt e l).filter (fun e => !e.ignored) = A ++ e :: B ∧
      (∀ x ∈ A, x.rev ≤ e.rev) ∧ (∀ x ∈ B, e.rev < x.rev) := by
  refine ⟨(l.takeWhile (fun x => decide (x.rev ≤ e.rev))).filter (fun e => !e.ignored),
    (l.dropWhile (fun x => decide (x.rev ≤ e.rev))).filter (fun e => !e.ignored), ?_, ?_, ?_, ?_⟩
  · rw [← List.filter_append, List.takeWhile_append_dropWhile]
  · unfold insAt; rw [List.filter_append, List.filter_cons, if_pos (by rw [he]; rfl)]
  · intro x hx
    have := List.mem_takeWhile_imp (List.mem_filter.1 hx).1
    simpa using this
  · intro x hx
    exact insAt_after hs x (List.mem_filter.1 hx).1

theorem insAt_range_dummy {d : Entry} {l : List Entry} (hd : d.ignored = true) :
    (insAt d l).filter (fun e => !e.ignored) = l.filter (fun e => !e.ignored) := by
  unfold insAt
  rw [List.filter_append, List.filter_cons, if_neg (by rw [hd]; simp), ← List.filter_append, List.takeWhile_append_dropWhile]

theorem grow_range {st st' : St} (h : Grow st st') : st'.items.filter (fun e => !e.ignored) = st.items.filter (fun e => !e.ignored) := by
  rcases h with rfl | ⟨A, B, n, b, c, hb⟩
  · rfl
  · rw [hb.items]; exact insAt_range_dummy rfl

/-- The list after the insertion, for a bucket at or below the hash. -/
theorem told_items {st : St} (h : Inv st) {k c : U64} {b : Path} (hb : V st.mem b) {it : NewItem} (h0 : it.rev0 = 0)
    (hle : (st.mem b).rev ≤ rev64 k) (hlt : rev64 k < maxU64) :
    (setMid (storePre st) k (basePath st.mem b) (testItem st k c it)).items = insAt (testItem st k c it) st.items := by
  obtain ⟨h1, h2⟩ := basePath_spec h.bi b hb
  have hr : (testItem st k c it).rev = rev64 k := by simp [testItem, h0]
  have hv : V st.mem (basePath st.mem b) ∧ (st.mem (basePath st.mem b)).rev ≤ rev64 k := by
    refine ⟨?_, by rw [h.bi.rev_eq h1, h2]; exact hle⟩
    by_cases hn : basePath st.mem b = []
    · rw [hn]; simp [V, h.bi.ti.root.2]
    · exact ((h.bi.mem_iff _ hn).1 h1).1
  have hinv2 : Inv { storePre st with nextId := st.nextId } := ⟨h.bi, h.ii, h.lv⟩
  have := setInsert_eq (st := { storePre st with nextId := st.nextId }) hinv2 (b := basePath st.mem b) (e := testItem st k c it) hv.1
    (by rw [hr]; exact hv.2) (by rw [hr]; exact hlt)
  rw [hr] at this
  exact this

/-- The reversed hash of a key that is no boundary is below 2^64 - 1. -/
theorem lt_max_of_off {st : St} (h : Inv st) {t : U64} (hb : t ∉ boundaries st) : t < maxU64 := by
  have h1 : t ≠ maxU64 := by
    intro hc
    exact hb (List.mem_map.2 ⟨[], h.bi.nil_mem, by rw [h.bi.ti.root.1, hc]⟩)
  have hmx : maxU64 = 18446744073709551615#64 := by decide
  rw [hmx] at h1 ⊢
  bv_omega

/-- A TestSet with any bucket at or below the hash puts the item where hash order wants it, behind the items with the same hash; so all such buckets have the same effect. -/
theorem C116_place {E : Env} {st : St} (h : Told E st) {k c : U64} {b : Path} (hb : V st.mem b) {it : NewItem} (h0 : it.rev0 = 0)
    (hle : (st.mem b).rev ≤ rev64 k) (hoff : rev64 k ∉ boundaries st) (hp : (opTestSetAt st k c b it).2 ≠ .panic .bucketHeadEmpty) :
    (opTestSetAt st k c b it).2 = .bool true ∧ ∃ A B, st.rangeItem (fun _ _ => true) = A ++ B ∧
      (opTestSetAt st k c b it).1.rangeItem (fun _ _ => true) = A ++ testItem st k c it :: B ∧
      (∀ x ∈ A, x.rev ≤ rev64 k) ∧ (∀ x ∈ B, rev64 k < x.rev) := by
  rcases told_cases h.inv k c b it with ⟨st', h1, h2, h3⟩ | h1
  · rw [h1]
    refine ⟨rfl, ?_⟩
    have hr : (testItem st k c it).rev = rev64 k := by simp [testItem, h0]
    obtain ⟨A, B, g1, g2, g3, g4⟩ := insAt_range (e := testItem st k c it) h.inv.ii.sorted rfl
    rw [hr] at g3 g4
    refine ⟨A, B, by rw [told_range, g1], ?_, g3, g4⟩
    rw [told_range, grow_range h3, told_items h.inv hb h0 hle (lt_max_of_off h.inv hoff), g2]
  · rw [h1] at hp; exact absurd rfl hp

/-- The full property: a TestSet that comes back answers true and the item is found under its hashes. -/
def C116_statement (E : Env) (st : St) : Prop :=
  ∀ (k c q : U64) (it : NewItem), it.rev0 = 0 → it.conflict0 = 0 → (opTestSet st k c q it).2 ≠ .panic .bucketHeadEmpty →
    (opTestSet st k c q it).2 = .bool true ∧ opGetByHash E (opTestSet st k c q it).1 k c = .val it.val true

/-- It holds, whatever buckets were told before, for a bucket at or below the hash, a hash that is no boundary and under which nothing is found. -/
theorem C116_partial {E : Env} {st : St} (h : Told E st) {k c q : U64} {it : NewItem} (h0 : it.rev0 = 0) (h0' : it.conflict0 = 0)
    (hle : (st.mem (findBucket st.mem q)).rev ≤ rev64 k) (hoff : rev64 k ∉ boundaries st)
    (hl : ∀ c', opGetByHash E st k c' = .val none false) (hp : (opTestSet st k c q it).2 ≠ .panic .bucketHeadEmpty) :
    (opTestSet st k c q it).2 = .bool true ∧ opGetByHash E (opTestSet st k c q it).1 k c = .val it.val true := by
  have hi := h.inv
  have hb := (findBucket_spec hi.bi.ti q).1
  unfold opTestSet at hp ⊢
  generalize findBucket st.mem q = b at hb hle hp ⊢
  have hfree : ∀ x, Live st.items x → x.rev ≠ rev64 k := by
    intro x hx hr
    have hn : searchByBucket E st (bucketForKey st (rev64 k)) (rev64 k) true = none := by
      cases hs : searchByBucket E st (bucketForKey st (rev64 k)) (rev64 k) true with
      | none => rfl
      | some e =>
        exfalso
        have h1 := hl e.conflict
        unfold opGetByHash getEntry at h1
        rw [hs] at h1
        have hr : e.rev = rev64 k := by
          rw [search_last] at hs
          unfold lastHit at hs
          have := (Option.filter_eq_some_iff.1 hs).2
          simp only [Bool.and_eq_true, decide_eq_true_eq] at this
          exact this.2
        simp [hr] at h1
    exact Walk.search_off hi (bucketForKey_valid hi.bi _) (fun p hp hc => hoff (List.mem_map.2 ⟨p, hp, hc⟩)) hn x hx.1 hx.2 hr
  rcases told_cases hi k c b it with ⟨st', h1, h2, h3⟩ | h1
  swap
  · rw [h1] at hp; exact absurd rfl hp
  rw [h1]
  refine ⟨rfl, ?_⟩
  have hit := told_items hi (c := c) hb h0 hle (lt_max_of_off hi hoff)
  have hr : (testItem st k c it).rev = rev64 k := by simp [testItem, h0]
  have hc : (testItem st k c it).conflict = c := by simp [testItem, h0']
  have hl' : ∀ y, Live (setMid (storePre st) k (basePath st.mem b) (testItem st k c it)).items y ↔ (y = testItem st k c it ∨ Live st.items y) := by
    intro y
    rw [hit]
    constructor
    · intro hy; exact (live_insAt hy.2).1 hy
    · rintro (rfl | hy)
      · exact (live_insAt rfl).2 (Or.inl rfl)
      · exact (live_insAt hy.2).2 (Or.inr hy)
  have hmid : KGood (setMid (storePre st) k (basePath st.mem b) (testItem st k c it)) k c := by
    refine ⟨setMid_told hi k c _ it, ?_, ?_, ?_⟩
    · intro a ha b hb h1 h2
      rcases (hl' a).1 ha with ha' | ha' <;> rcases (hl' b).1 hb with hb' | hb'
      · rw [ha', hb']
      · exact absurd h2 (hfree b hb')
      · exact absurd h1 (hfree a ha')
      · exact absurd h1 (hfree a ha')
    · intro a ha h1
      rcases (hl' a).1 ha with rfl | ha
      · exact hc
      · exact absurd h1 (hfree a ha)
    · intro a ha h1 p hp hpr
      exact absurd (List.mem_map.2 ⟨p, hp, by rw [hi.bi.rev_eq hp]; exact hpr⟩) hoff
  obtain ⟨g1, g2, _⟩ := hmid.grow h3 h2
  have hlk := (lookup_key g1.uniq).2 ⟨(g2 _).2 ((hl' _).2 (Or.inl rfl)), hr, hc⟩
  unfold opGetByHash
  rw [getEntry_key g1, hlk]
  rfl

/-- The bucket FindBucket names for the reversed hash of the key always fits. -/
theorem C116_fits {E : Env} {st : St} (h : Told E st) (k : U64) : (st.mem (findBucket st.mem (rev64 k))).rev ≤ rev64 k :=
  (findBucket_spec h.inv.bi.ti (rev64 k)).2.2

/-- In every map, with a bucket above the hash and another bucket between them, the item is lost: TestSet answers true, Len counts it, Range shows what it showed before. -/
theorem C116_lost_refuted {E : Env} {st : St} (h : Told E st) {k c : U64} {b p : Path} (hb : V st.mem b) {it : NewItem} (h0 : it.rev0 = 0)
    (hpm : p ∈ st.blist) (hlo : rev64 k < (st.mem p).rev) (hhi : (st.mem p).rev < (st.mem b).rev)
    (hp : (opTestSetAt st k c b it).2 ≠ .panic .bucketHeadEmpty) :
    (opTestSetAt st k c b it).2 = .bool true ∧ (opTestSetAt st k c b it).1.len = st.len + 1 ∧
      (opTestSetAt st k c b it).1.rangeItem (fun _ _ => true) = st.rangeItem (fun _ _ => true) := by
  have hi := h.inv
  rcases told_cases hi k c b it with ⟨st', h1, h2, h3⟩ | h1
  swap
  · rw [h1] at hp; exact absurd rfl hp
  rw [h1]
  refine ⟨rfl, (grow_len h3).1, ?_⟩
  rw [told_range, told_range, grow_range h3]
  have hr : (testItem st k c it).rev = rev64 k := by simp [testItem, h0]
  obtain ⟨b1, b2⟩ := basePath_spec hi.bi b hb
  have hd := hi.ii.has _ b1
  have hd' := hi.ii.has _ hpm
  congr 1
  show setInsert (storePre st) (basePath st.mem b) (rev64 k) (testItem st k c it) = st.items
  have hbase : (storePre st).head (basePath st.mem b) = .dummy (basePath st.mem b) := by
    show Ref.dummy (basePath st.mem (basePath st.mem b)) = _
    rw [basePath_self hi.bi b1]
  obtain ⟨d, post, e1, e2, e3⟩ := split_at (.dummy (basePath st.mem b)) st.items (List.mem_map.2 ⟨_, hd, rfl⟩)
  have hdr : d = dummyEntry (basePath st.mem b) (bvRev (basePath st.mem b)) :=
    (hi.ii.dum d (by rw [e3]; simp) _ e1).2
  have hdrev : d.rev = (st.mem b).rev := by rw [hdr, ← b2]; rfl
  have hlt : rev64 k < d.rev := by rw [hdrev]; bv_omega
  obtain ⟨pe, hpe, hpl⟩ : ∃ pe, (beforeRef (.dummy (basePath st.mem b)) st.items).getLast? = some pe ∧ rev64 k < pe.rev := by
    have hs := hi.ii.sorted
    have hin : dummyEntry p (bvRev p) ∈ beforeRef (.dummy (basePath st.mem b)) st.items := by
      rw [e3] at hd' hs
      have hrp : (dummyEntry p (bvRev p)).rev = (st.mem p).rev := (hi.bi.rev_eq hpm).symm
      rcases List.mem_append.1 hd' with hm | hm
      · exact hm
      · exfalso
        have hs2 := (List.pairwise_append.1 hs).2.1
        rcases List.mem_cons.1 hm with hm | hm
        · rw [← hm, hrp] at hdrev; bv_omega
        · have := (List.pairwise_cons.1 hs2).1 _ hm
          rw [hrp, hdrev] at this; bv_omega
    cases hg : (beforeRef (.dummy (basePath st.mem b)) st.items).getLast? with
    | none => rw [List.getLast?_eq_none_iff] at hg; rw [hg] at hin; cases hin
    | some pe =>
      refine ⟨pe, rfl, ?_⟩
      have hrp : (dummyEntry p (bvRev p)).rev = (st.mem p).rev := (hi.bi.rev_eq hpm).symm
      obtain ⟨ini, hini⟩ : ∃ ini, beforeRef (.dummy (basePath st.mem b)) st.items = ini ++ [pe] := by
        refine ⟨_, (List.dropLast_append_getLast? pe hg).symm⟩
      rw [e3, hini] at hs
      rw [hini] at hin
      have hs2 := (List.pairwise_append.1 hs).1
      rcases List.mem_append.1 hin with hm | hm
      · have := (List.pairwise_append.1 hs2).2.2 _ hm pe (by simp)
        rw [hrp] at this; bv_omega
      · rw [List.mem_singleton] at hm
        rw [← hm, hrp]; exact hlo
  have hle' : decide (rev64 k ≤ d.rev) = true := by simp only [decide_eq_true_eq]; bv_omega
  have hlt' : decide ((testItem st k c it).rev < d.rev) = true := by rw [hr]; simpa using hlt
  unfold setInsert
  simp only [hbase]
  show add2 st.items _ _ _ = _
  have hts : (match (fromRef (.dummy (basePath st.mem b)) st.items).find? (fun x => decide (rev64 k ≤ x.rev)) with
    | none => Ref.dummy (basePath st.mem b)
    | some en =>
      if en.rev < rev64 k then en.ref
      else
        match (beforeRef en.ref st.items).getLast? with
        | some pe => if pe.rev < rev64 k then pe.ref else Ref.dummy (basePath st.mem b)
        | none => Ref.dummy (basePath st.mem b)) = Ref.dummy (basePath st.mem b) := by
    rw [e2, List.find?_cons, hle']
    simp only
    rw [if_neg (by bv_omega), e1, hpe]
    simp only
    rw [if_neg (by bv_omega)]
  change add2 st.items (match (fromRef (.dummy (basePath st.mem b)) st.items).find? (fun x => decide (rev64 k ≤ x.rev)) with
    | none => Ref.dummy (basePath st.mem b)
    | some en =>
      if en.rev < rev64 k then en.ref
      else
        match (beforeRef en.ref st.items).getLast? with
        | some pe => if pe.rev < rev64 k then pe.ref else Ref.dummy (basePath st.mem b)
        | none => Ref.dummy (basePath st.mem b)) _ _ = _
  rw [hts]
  unfold add2
  rw [e2, List.find?_cons, hlt']
  simp only
  unfold insertCheck
  rw [e1, e2]
  simp only
  rw [if_neg (by rw [hr]; bv_omega), hpe]
  simp only
  rw [if_pos (by rw [hr]; exact hpl)]
  rfl

/-- A store under the hash 16 (reversed 2^59) with the bucket FindBucket names for 2^64 - 1. -/
def toldItem : NewItem := { kind := .sample, key := .str [], val := exV 7 }

theorem C116_refuted : ¬ ∀ (E : Env) (st : St), Reachable E st → C116_statement E st := by
  intro h
  have h1 := (h exE (initSt {}) ⟨{}, [], rfl⟩ 16 5 maxU64 toldItem rfl rfl (by decide +kernel)).2
  revert h1
  decide +kernel

/-- The hypotheses of `C116_lost_refuted` are met by it. -/
theorem C116_lost_applies : [7] ∈ (initSt {}).blist ∧ rev64 16 < ((initSt {}).mem [7]).rev ∧
    ((initSt {}).mem [7]).rev < ((initSt {}).mem (findBucket (initSt {}).mem maxU64)).rev ∧
    (opTestSet (initSt {}) 16 5 maxU64 toldItem).2 ≠ .panic .bucketHeadEmpty ∧
    (opTestSet (initSt {}) 16 5 maxU64 toldItem).1.len = 1 ∧
    (opTestSet (initSt {}) 16 5 maxU64 toldItem).1.rangeItem (fun _ _ => true) = [] := by
  decide +kernel

/-- TestSet does not look for the key: of a key that is in the map there are two items afterwards.  Get answers the new one if it comes from above. -/
theorem C116_twice_applies :
    let st := (run exE (initSt {}) [.set (sk 1) (exV 1)]).1
    let kc := (keyToHash exE.H (sk 1)).getD (0, 0)
    let st' := (opTestSet st kc.1 kc.2 (rev64 kc.1) toldItem).1
    (st'.rangeItem (fun _ _ => true)).map (fun e => (e.rev, e.conflict, e.val)) = [(rev64 kc.1, kc.2, exV 1), (rev64 kc.1, kc.2, exV 7)] ∧
    opGet exE st' (sk 1) = .val (exV 7) true := by
  decide +kernel

/-- ... and the old one if it comes from below: TestSet answers true and has no effect on what Get answers. -/
theorem C116_twice_refuted :
    let st := (run exE (initSt {}) [.set (sk 4) (exV 1)]).1
    let kc := (keyToHash exE.H (sk 4)).getD (0, 0)
    let r := opTestSet st kc.1 kc.2 (rev64 kc.1) toldItem
    r.2 = .bool true ∧ rev64 kc.1 ∉ boundaries st ∧
    (r.1.rangeItem (fun _ _ => true)).map (fun e => (e.rev, e.conflict, e.val)) = [(rev64 kc.1, kc.2, exV 1), (rev64 kc.1, kc.2, exV 7)] ∧
    opGet exE r.1 (sk 4) = .val (exV 1) true := by
  decide +kernel

/-- The map of the examples: two buckets have been divided, and one TestSet was told a wrong bucket. -/
def toldSt : St := (opTestSet (run exE (initSt { maxPer := 1 }) [.set (sk 1) (exV 1), .set (sk 2) (exV 2), .set (sk 17) (exV 3), .set (sk 33) (exV 4)]).1
  16 5 maxU64 toldItem).1

theorem toldSt_told : Told exE toldSt :=
  .test (Told.of_reachable ⟨_, _, rfl⟩) _ _ _ (findBucket_spec (Reachable.inv (E := exE) ⟨_, _, rfl⟩).bi.ti _).1 _

/-- The hypotheses of `C116_partial` and `C116_place` are met in it, with a bucket that is not the nearest. -/
theorem C116_applies : (toldSt.mem (findBucket toldSt.mem (rev64 2))).rev ≤ rev64 65 ∧ findBucket toldSt.mem (rev64 2) ≠ findBucket toldSt.mem (rev64 65) ∧
    rev64 65 ∉ boundaries toldSt ∧ searchByBucket exE toldSt (bucketForKey toldSt (rev64 65)) (rev64 65) true = none ∧
    (opTestSet toldSt 65 5 (rev64 2) toldItem).2 ≠ .panic .bucketHeadEmpty := by
  decide +kernel

example : (opTestSet toldSt 65 5 (rev64 2) toldItem).2 = .bool true ∧
    opGetByHash exE (opTestSet toldSt 65 5 (rev64 2) toldItem).1 65 5 = .val (exV 7) true :=
  C116_partial toldSt_told rfl rfl C116_applies.1 C116_applies.2.2.1
    (by intro c; unfold opGetByHash getEntry; rw [C116_applies.2.2.2.1]) C116_applies.2.2.2.2

/-- A TestSet with a bucket at or below the hash leaves alone what Get answers for every other hash: for a hash that was no boundary before, shared by no two
items with different conflict hashes and stored at most once.  A bucket the TestSet divides on the way does not change that either. -/
theorem C116_frame {E : Env} {st : St} (h : Told E st) {k c k' c' : U64} {b : Path} (hb : V st.mem b) {it : NewItem} (h0 : it.rev0 = 0)
    (hle : (st.mem b).rev ≤ rev64 k) (hoff : rev64 k ∉ boundaries st) (hne : k' ≠ k) (hoff' : rev64 k' ∉ boundaries st)
    (hone : ∀ x ∈ st.rangeItem (fun _ _ => true), ∀ y ∈ st.rangeItem (fun _ _ => true), x.rev = rev64 k' → y.rev = rev64 k' → x = y)
    (hconf : ∀ x ∈ st.rangeItem (fun _ _ => true), x.rev = rev64 k' → x.conflict = c')
    (hp : (opTestSetAt st k c b it).2 ≠ .panic .bucketHeadEmpty) :
    opGetByHash E (opTestSetAt st k c b it).1 k' c' = opGetByHash E st k' c' := by
  have hi := h.inv
  have hlive : ∀ x, x ∈ st.rangeItem (fun _ _ => true) ↔ Live st.items x := by
    intro x
    rw [told_range, List.mem_filter]
    simp [Live]
  have hrn : rev64 k ≠ rev64 k' := by
    intro hc
    apply hne
    rw [← rev64_rev64 k', ← hc, rev64_rev64]
  rcases told_cases hi k c b it with ⟨st', h1, h2, h3⟩ | h1
  swap
  · rw [h1] at hp; exact absurd rfl hp
  rw [h1]
  have hit := told_items hi (c := c) hb h0 hle (lt_max_of_off hi hoff)
  have hr : (testItem st k c it).rev = rev64 k := by simp [testItem, h0]
  have hl' : ∀ y, Live (setMid (storePre st) k (basePath st.mem b) (testItem st k c it)).items y ↔ (y = testItem st k c it ∨ Live st.items y) := by
    intro y
    rw [hit]
    constructor
    · intro hy; exact (live_insAt hy.2).1 hy
    · rintro (rfl | hy)
      · exact (live_insAt rfl).2 (Or.inl rfl)
      · exact (live_insAt hy.2).2 (Or.inr hy)
  have h0g : KGood st k' c' := by
    refine ⟨hi, fun a ha b hb h1 h2 => hone a ((hlive a).2 ha) b ((hlive b).2 hb) h1 h2, fun a ha h1 => hconf a ((hlive a).2 ha) h1, ?_⟩
    intro a ha h1 p hp hpr
    exact absurd (List.mem_map.2 ⟨p, hp, by rw [hi.bi.rev_eq hp]; exact hpr⟩) hoff'
  have hmid : KGood (setMid (storePre st) k (basePath st.mem b) (testItem st k c it)) k' c' := by
    refine ⟨setMid_told hi k c _ it, ?_, ?_, ?_⟩
    · intro a ha b hb h1 h2
      rcases (hl' a).1 ha with ha' | ha'
      · rw [ha', hr] at h1; exact absurd h1 hrn
      · rcases (hl' b).1 hb with hb' | hb'
        · rw [hb', hr] at h2; exact absurd h2 hrn
        · exact h0g.uniq a ha' b hb' h1 h2
    · intro a ha h1
      rcases (hl' a).1 ha with ha' | ha'
      · rw [ha', hr] at h1; exact absurd h1 hrn
      · exact h0g.conf a ha' h1
    · intro a ha h1 p hp hpr
      exact absurd (List.mem_map.2 ⟨p, hp, by rw [hi.bi.rev_eq hp]; exact hpr⟩) hoff'
  obtain ⟨g1, g2, _⟩ := hmid.grow h3 h2
  unfold opGetByHash
  rw [getEntry_key g1, getEntry_key h0g]
  have : lookup st'.items k' c' = lookup st.items k' c' := by
    apply Option.ext
    intro e
    rw [lookup_key g1.uniq, lookup_key h0g.uniq, g2, hl']
    constructor
    · rintro ⟨rfl | h1, h2, h3⟩
      · rw [hr] at h2; exact absurd h2 hrn
      · exact ⟨h1, h2, h3⟩
    · rintro ⟨h1, h2, h3⟩; exact ⟨Or.inr h1, h2, h3⟩
  rw [this]

/-- The conditions of `C116_frame` are met: a TestSet with a bucket that is not the nearest, which divides a bucket, and another key of the map. -/
theorem C116_frame_applies :
    (toldSt.mem (findBucket toldSt.mem (rev64 906252357051721886))).rev ≤ rev64 906252357051722157 ∧
    findBucket toldSt.mem (rev64 906252357051721886) ≠ findBucket toldSt.mem (rev64 906252357051722157) ∧
    rev64 906252357051722157 ∉ boundaries toldSt ∧ rev64 906252357051721917 ∉ boundaries toldSt ∧
    (∀ x ∈ toldSt.rangeItem (fun _ _ => true), ∀ y ∈ toldSt.rangeItem (fun _ _ => true),
      x.rev = rev64 906252357051721917 → y.rev = rev64 906252357051721917 → x = y) ∧
    (∀ x ∈ toldSt.rangeItem (fun _ _ => true), x.rev = rev64 906252357051721917 → x.conflict = 195) ∧
    (opTestSetAt toldSt 906252357051722157 5 (findBucket toldSt.mem (rev64 906252357051721886)) toldItem).2 ≠ .panic .bucketHeadEmpty ∧
    opGetByHash exE toldSt 906252357051721917 195 = .val (exV 4) true ∧
    (opTestSetAt toldSt 906252357051722157 5 (findBucket toldSt.mem (rev64 906252357051721886)) toldItem).1.blist.length = toldSt.blist.length + 1 := by
  refine ⟨?_, ?_, ?_, ?_, ?_, ?_, ?_, ?_, ?_⟩ <;> decide +kernel

example : opGetByHash exE (opTestSetAt toldSt 906252357051722157 5 (findBucket toldSt.mem (rev64 906252357051721886)) toldItem).1 906252357051721917 195 =
    .val (exV 4) true := by
  obtain ⟨h1, _, h2, h3, h4, h5, h6, h7, _⟩ := C116_frame_applies
  rw [C116_frame toldSt_told (findBucket_spec toldSt_told.inv.bi.ti _).1 rfl h1 h2 (by decide) h3 h4 h5 h6, h7]

end SLM
