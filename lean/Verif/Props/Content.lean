import Verif.Props.Lost
import Verif.Props.EmbList
/-!
C113: what Range shows depends on what the map holds, not on how it came to hold it.
-/
set_option autoImplicit false
set_option maxRecDepth 100000
namespace SLM
open History

/-- The calls of a Range whose callback never stops: primary hash, secondary hash and value of each item shown, in this order. -/
def shown (st : St) : List (U64 × U64 × IVal) := (st.rangeItem (fun _ _ => true)).map (fun e => (rev64 e.rev, e.conflict, e.val))

/-- The same in a map with embedded pools (`none`: the model does not follow the list). -/
def shownE (H : HashFns) (s : EList.LSt) : Option (List (U64 × U64 × IVal)) :=
  (EList.range s (fun _ _ => true)).map (fun l => l.map (fun x => (H.mem x.1, H.xx x.1, x.2)))

/-- The full property. -/
def C113_statement (E : Env) (st st' : St) : Prop := (∀ k c, opGetByHash E st k c = opGetByHash E st' k c) → shown st = shown st'

/-- A list in ascending order of the reversed hash, each hash once, is given by its members. -/
theorem eq_of_members {L L' : List (U64 × U64 × IVal)} (h : L.Pairwise (fun a b => rev64 a.1 < rev64 b.1)) (h' : L'.Pairwise (fun a b => rev64 a.1 < rev64 b.1))
    (hm : ∀ x, x ∈ L ↔ x ∈ L') : L = L' := by
  have nd : ∀ {M : List (U64 × U64 × IVal)}, M.Pairwise (fun a b => rev64 a.1 < rev64 b.1) → M.Nodup := by
    intro M hM
    refine hM.imp ?_
    rintro a b hab rfl
    bv_omega
  have hp : L.Perm L' := (List.perm_ext_iff_of_nodup (nd h) (nd h')).2 hm
  refine List.Perm.eq_of_pairwise ?_ h h' hp
  intro a b _ _ h1 h2
  exfalso; bv_omega

theorem shown_spec {E : Env} {cfg : Cfg} {ops : List Op} (h : Clean E cfg ops) :
    (shown (run E (initSt cfg) ops).1).Pairwise (fun a b => rev64 a.1 < rev64 b.1) ∧
    ∀ k c v, (k, c, v) ∈ shown (run E (initSt cfg) ops).1 ↔ opGetByHash E (run E (initSt cfg) ops).1 k c = .val v true := by
  have hR : Reachable E (run E (initSt cfg) ops).1 := ⟨cfg, ops, rfl⟩
  have g := h.good
  constructor
  · unfold shown
    rw [C08_range_all hR, List.pairwise_map]
    have hs := (C08_range hR (fun _ _ => true)).2.1
    have hn := (C08_range hR (fun _ _ => true)).1
    refine (hs.and hn).imp_of_mem ?_
    intro a b ha hb hab
    rw [rev64_rev64, rev64_rev64]
    have hne : a.rev ≠ b.rev := by
      intro he
      unfold liveItems at ha hb
      rw [List.mem_filter] at ha hb
      refine hab.2 (g.uniq a ha.1 b hb.1 ?_ ?_ he)
      · simpa [Entry.ignored] using ha.2
      · simpa [Entry.ignored] using hb.2
    have := hab.1
    bv_omega
  · intro k c v
    rw [← (C08_range_get_partial h).2 k c v]
    unfold shown
    simp only [List.mem_map, Prod.mk.injEq]

/-- Two clean histories, also with different configurations, after which Get answers alike: Range shows the same, in the same order. -/
theorem C113_partial {E : Env} {cfg cfg' : Cfg} {ops ops' : List Op} (h : Clean E cfg ops) (h' : Clean E cfg' ops') :
    C113_statement E (run E (initSt cfg) ops).1 (run E (initSt cfg') ops').1 := by
  intro he
  refine eq_of_members (shown_spec h).1 (shown_spec h').1 ?_
  rintro ⟨k, c, v⟩
  rw [(shown_spec h).2, (shown_spec h').2, he]


theorem shownE_spec {H : HashFns} {mp : Nat} {ops : List Emb.Op} (h : Emb.CleanD H mp ops) (hc : Emb.NoCrash H mp ops) (ho : EList.OffGrid H mp ops) :
    ∃ L, shownE H (EList.run H (EList.initL mp) ops) = some L ∧ L.Pairwise (fun a b => rev64 a.1 < rev64 b.1) ∧
      ∀ k c v, (k, c, v) ∈ L ↔ ((Spec.PMap.empty .sample).run H (ops.map Emb.toOp)).1.m (k, c) = some v := by
  obtain ⟨L, h1, h2, h3⟩ := EList.C75_range_partial h hc ho
  obtain ⟨calls, rest, r1, r2, _, r4⟩ := h3 (fun _ _ => true)
  have hrest : rest = [] := by
    by_contra hne
    obtain ⟨p, x, _, hf⟩ := r4 hne
    cases hf
  rw [hrest, List.append_nil] at r2
  subst r2
  refine ⟨L.map (fun x => (H.mem x.1, H.xx x.1, x.2)), ?_, ?_, ?_⟩
  · unfold shownE; rw [r1]; rfl
  · rw [List.pairwise_map]; exact h1
  · intro k c v
    rw [h2]
    simp only [List.mem_map, Prod.mk.injEq]

/-- The same for maps with embedded pools: two histories (gentle, without the harmful hashes: the conditions of C75) that leave a plain map with the same content. -/
theorem C113_embedded_partial {H : HashFns} {mp mp' : Nat} {ops ops' : List Emb.Op} (h : Emb.CleanD H mp ops) (hc : Emb.NoCrash H mp ops) (ho : EList.OffGrid H mp ops)
    (h' : Emb.CleanD H mp' ops') (hc' : Emb.NoCrash H mp' ops') (ho' : EList.OffGrid H mp' ops')
    (he : ((Spec.PMap.empty .sample).run H (ops.map Emb.toOp)).1.m = ((Spec.PMap.empty .sample).run H (ops'.map Emb.toOp)).1.m) :
    shownE H (EList.run H (EList.initL mp) ops) = shownE H (EList.run H (EList.initL mp') ops') := by
  obtain ⟨L, a1, a2, a3⟩ := shownE_spec h hc ho
  obtain ⟨L', b1, b2, b3⟩ := shownE_spec h' hc' ho'
  rw [a1, b1, eq_of_members a2 b2]
  rintro ⟨k, c, v⟩
  rw [a3, b3, he]

/-- And between the two kinds of maps: Range shows the same in the same order. -/
theorem C113_across_partial {E : Env} {mp : Nat} {ops : List Emb.Op} (h : Emb.CleanD E.H mp ops) (hc : Emb.NoCrash E.H mp ops) (ho : EList.OffGrid E.H mp ops)
    {cfg : Cfg} {ops' : List Op} (h' : Clean E cfg ops')
    (he : ((Spec.PMap.empty .sample).run E.H (ops.map Emb.toOp)).1.m = ((Spec.PMap.empty cfg.itemFn).run E.H ops').1.m) :
    shownE E.H (EList.run E.H (EList.initL mp) ops) = some (shown (run E (initSt cfg) ops').1) := by
  obtain ⟨L, a1, a2, a3⟩ := shownE_spec h hc ho
  rw [a1, eq_of_members a2 (shown_spec h').1]
  rintro ⟨k, c, v⟩
  rw [a3, (shown_spec h').2, he, getByHash_absM h'.good]
  have hm : absM (run E (initSt cfg) ops').1 = ((Spec.PMap.empty cfg.itemFn).run E.H ops').1 := congrArg Prod.fst h'.refines.2.2
  rw [hm]
  cases ((Spec.PMap.empty cfg.itemFn).run E.H ops').1.m (k, c) <;> simp

theorem getEntry_live {E : Env} {st : St} (h : Reachable E st) {k c : U64} {e : Entry} (hg : getEntry E st k c = some e) : Live st.items e ∧ e.rev = rev64 k := by
  unfold getEntry at hg
  cases hs : searchByBucket E st (bucketForKey st (rev64 k)) (rev64 k) true with
  | none => rw [hs] at hg; cases hg
  | some x =>
    rw [hs] at hg
    simp only at hg
    split at hg
    · cases hg
    · cases hg
      obtain ⟨h1, h2⟩ := Walk.C83_sound_partial (k := k) h hs
      exact ⟨Walk.live_iff.1 h1, by rw [← h2, rev64_rev64]⟩

/-- False without the conditions: a map in which the integer 3 was stored answers every Get like an empty one, and Range shows it. -/
theorem C113_refuted : ∃ (E : Env) (st st' : St), Reachable E st ∧ Reachable E st' ∧ ¬ C113_statement E st st' := by
  refine ⟨exE, (run exE (initSt {}) [.storeItem { kind := .entry, key := .int 3, val := exV 1 }]).1, (run exE (initSt {}) []).1, ⟨_, _, rfl⟩, ⟨_, _, rfl⟩, ?_⟩
  generalize hst : (run exE (initSt {}) [.storeItem { kind := .entry, key := .int 3, val := exV 1 }]).1 = st
  have hR : Reachable exE st := ⟨_, _, hst.symm⟩
  have hR0 : Reachable exE (run exE (initSt {}) []).1 := ⟨_, _, rfl⟩
  have hl : ∀ e, Live st.items e → e.rev = rev64 3 := by
    have : st.items.all (fun e => e.ignored || decide (e.rev = rev64 3)) = true := by rw [← hst]; decide +kernel
    intro e he
    have := List.all_eq_true.1 this e he.1
    rw [he.2] at this
    simpa using this
  have hl0 : ∀ e, ¬ Live (run exE (initSt {}) []).1.items e := by
    have : (run exE (initSt {}) []).1.items.all (fun e => e.ignored) = true := by decide +kernel
    intro e he
    have := List.all_eq_true.1 this e he.1
    rw [he.2] at this; cases this
  intro hc
  have h1 : shown st = shown (run exE (initSt {}) []).1 := by
    apply hc
    intro k c
    have a : opGetByHash exE (run exE (initSt {}) []).1 k c = .val none false := by
      unfold opGetByHash
      cases hg : getEntry exE (run exE (initSt {}) []).1 k c with
      | none => rfl
      | some e => exact absurd (getEntry_live hR0 hg).1 (hl0 e)
    rw [a]
    by_cases hk : k = 3
    · subst hk; exact (C112_small_refuted hR (by decide)).getByHash c
    · unfold opGetByHash
      cases hg : getEntry exE st k c with
      | none => rfl
      | some e =>
        obtain ⟨x1, x2⟩ := getEntry_live hR hg
        exact absurd (rev64_inj (x2.symm.trans (hl e x1))) hk
  have h2 : (shown (run exE (initSt {}) [.storeItem { kind := .entry, key := .int 3, val := exV 1 }]).1).length = 1 ∧ (shown (run exE (initSt {}) []).1).length = 0 := by
    decide +kernel
  rw [hst, h1] at h2
  omega

/-! The hypotheses are met by two histories that differ in order, overwritten values, deleted keys and bucket size, one of them with splits. -/

def contA : List Op := [.set (sk 1) (exV 1), .set (sk 17) (exV 2), .set (sk 33) (exV 3), .set (sk 49) (exV 4), .set (sk 65) (exV 5)]
def contB : List Op := [.set (sk 65) (exV 9), .set (sk 49) (exV 4), .set (sk 77) (exV 7), .set (sk 17) (exV 2), .delete (sk 77), .set (sk 33) (exV 3), .delete (sk 65),
  .set (sk 1) (exV 1), .set (sk 65) (exV 5), .get (sk 33)]

theorem contA_clean : Clean exE { maxPer := 1 } contA := cleanB_sound (by decide +kernel)
theorem contB_clean : Clean exE { maxPer := 40 } contB := cleanB_sound (by decide +kernel)

theorem C113_applies : (∀ k c, opGetByHash exE (run exE (initSt { maxPer := 1 }) contA).1 k c = opGetByHash exE (run exE (initSt { maxPer := 40 }) contB).1 k c) ∧
    (shown (run exE (initSt { maxPer := 1 }) contA).1).length = 5 ∧
    (run exE (initSt { maxPer := 1 }) contA).1.blist.length ≠ (run exE (initSt { maxPer := 40 }) contB).1.blist.length := by
  refine ⟨?_, by decide +kernel, by decide +kernel⟩
  have hs : shown (run exE (initSt { maxPer := 1 }) contA).1 = shown (run exE (initSt { maxPer := 40 }) contB).1 := by decide +kernel
  intro k c
  have form : ∀ st, Good st → ∃ o : Option IVal, opGetByHash exE st k c = match o with | some v => .val v true | none => .val none false :=
    fun st g => ⟨(absM st).m (k, c), getByHash_absM g k c⟩
  have key : ∀ v, opGetByHash exE (run exE (initSt { maxPer := 1 }) contA).1 k c = .val v true ↔ opGetByHash exE (run exE (initSt { maxPer := 40 }) contB).1 k c = .val v true := by
    intro v
    rw [← (shown_spec contA_clean).2, ← (shown_spec contB_clean).2, hs]
  obtain ⟨a, ha⟩ := form _ contA_clean.good
  obtain ⟨b, hb⟩ := form _ contB_clean.good
  rw [ha, hb] at key ⊢
  cases a with
  | some v => have := (key v).1 rfl; exact this.symm
  | none =>
    cases b with
    | none => rfl
    | some v => have := (key v).2 rfl; cases this

/-- Both kinds of maps, with the same calls: the conditions of C113_across_partial hold together. -/
theorem C113_across_applies : Emb.CleanD Emb.hR 4 EList.exList ∧ Emb.NoCrash Emb.hR 4 EList.exList ∧ EList.OffGrid Emb.hR 4 EList.exList ∧
    Clean { H := Emb.hR } { maxPer := 40, itemFn := .sample } (EList.exList.map Emb.toOp) ∧
    ((Spec.PMap.empty .sample).run Emb.hR (EList.exList.map Emb.toOp)).1.m = ((Spec.PMap.empty .sample).run Emb.hR (EList.exList.map Emb.toOp)).1.m := by
  refine ⟨EList.exList_clean, EList.exList_nocrash, EList.exList_off, ?_, rfl⟩
  refine static_clean (collB_sound (by decide +kernel)) (freshB_sound (by decide +kernel)) (by decide +kernel) ?_
  have : (EList.exList.map Emb.toOp).all (fun op => match storeHash Emb.hR op with | none => true | some (k, _) => decide (16 ≤ k.toNat) && decide (k ≠ maxU64)) = true := by
    decide +kernel
  intro op ho k c hk
  have h1 := List.all_eq_true.1 this op ho
  rw [hk] at h1
  simp only [Bool.and_eq_true, decide_eq_true_eq] at h1
  have h0 : maxSplits Emb.hR { maxPer := 40, itemFn := .sample } (EList.exList.map Emb.toOp) = 0 := by decide +kernel
  show 2 ^ (4 + maxSplits Emb.hR { maxPer := 40, itemFn := .sample } (EList.exList.map Emb.toOp)) ≤ _ ∧ _
  rw [h0]
  exact h1

end SLM
