import Verif.Proofs.Walk2
import Verif.Props.Counting
/-!
C83: SearchKey.  C84: Range with a callback that changes the map.  C85: walking with Next and Prev.  C86: Range shows a key once.
-/
set_option maxRecDepth 20000
set_option autoImplicit false
namespace SLM.Walk
open History

/-! ### C83 -/

/-- C83, soundness: what SearchKey(k) hands out is a present item with primary hash `k`.  Every history, mode and configuration. -/
theorem C83_sound_partial {E : Env} {st : St} (_h : Reachable E st) {k : U64} {e : Entry} (hs : opSearchKey E st k true = some e) :
    e ∈ liveItems st ∧ rev64 e.rev = k := by
  obtain ⟨h1, h2, h3⟩ := searchByBucket_mem hs
  refine ⟨?_, by rw [h3, rev64_rev64]⟩
  unfold Entry.ignored at h2
  simp only [Bool.or_eq_false_iff] at h2
  exact List.mem_filter.2 ⟨h1, by simp [h2]⟩

theorem search_off {E : Env} {st : St} (h : Inv st) {b : Path} (hv : V st.mem b) {t : U64} (ht : ∀ p ∈ st.blist, (st.mem p).rev ≠ t)
    (hnone : searchByBucket E st b t true = none) : ∀ e ∈ st.items, e.ignored = false → e.rev ≠ t := by
  have key : ∀ n, V st.mem n →
      (if (st.mem n).rev < t then fwdSearch t true (fromRef (st.head n) st.items)
        else bwdSearch t true (backFrom (st.head n) st.items)) = none → ∀ e ∈ st.items, e.ignored = false → e.rev ≠ t := by
    intro n hn hno
    obtain ⟨p, hp, hh, hr, hm⟩ := head_spec h hn
    rw [hh] at hno
    obtain ⟨d, post, hd, hf, hl⟩ := split_at (.dummy p) st.items (List.mem_map.2 ⟨_, hm, rfl⟩)
    have hdm : d ∈ st.items := by rw [hl]; simp
    have hde : d = dummyEntry p (bvRev p) := (h.ii.dum d hdm p hd).2
    have hdi : d.ignored = true := by rw [hde]; rfl
    have hdr : d.rev = (st.mem n).rev := by rw [hde]; exact hr
    have hs := h.ii.sorted
    have hne : (st.mem n).rev ≠ t := by
      rw [← hr]
      intro hc
      exact ht p hp (by rw [h.bi.rev_eq hp]; exact hc)
    generalize hpre : beforeRef (.dummy p) st.items = pre at *
    have hs2 := hs
    rw [hl, Sorted, List.pairwise_append] at hs2
    obtain ⟨s1, s2, s3⟩ := hs2
    intro e he hei hc
    rw [hl] at he
    split at hno
    · rename_i hlt
      rw [hf, fwdSearch_find s2] at hno
      rcases List.mem_append.1 he with h1 | h1
      · have := s3 e h1 d (by simp)
        bv_omega
      · exact liveAt_none.1 hno e h1 hei hc
    · rename_i hge
      have hb : backFrom (.dummy p) st.items = d :: pre.reverse := by
        unfold backFrom; rw [hf, hpre]
      have hsd : (d :: pre.reverse).Pairwise (fun a b => b.rev ≤ a.rev) := by
        rw [List.pairwise_cons]
        refine ⟨fun x hx => s3 x (by simpa using hx) d (by simp), ?_⟩
        rw [List.pairwise_reverse]; exact s1
      rw [hb, bwdSearch_find hsd] at hno
      rcases List.mem_append.1 he with h1 | h1
      · exact liveAt_none.1 hno e (by simp [h1]) hei hc
      · rcases List.mem_cons.1 h1 with rfl | h1
        · rw [hdi] at hei; cases hei
        · have := (List.pairwise_cons.1 s2).1 e h1
          bv_omega
  unfold searchByBucket at hnone
  simp only at hnone
  by_cases hm : st.mode = modeCombine2 ∧ (st.mem b).rev > t
  · simp only [if_pos hm] at hnone; exact key _ (h.lv.next hv) hnone
  · simp only [if_neg hm] at hnone; exact key _ hv hnone

/-- C83: SearchKey(k) answers nil exactly when no present item has primary hash `k`, and otherwise such an item. -/
def C83_statement (E : Env) (st : St) (k : U64) : Prop :=
  (opSearchKey E st k true = none ↔ ∀ e ∈ liveItems st, rev64 e.rev ≠ k) ∧
  ∀ e, opSearchKey E st k true = some e → e ∈ liveItems st ∧ rev64 e.rev = k

theorem live_iff {st : St} {e : Entry} : e ∈ liveItems st ↔ e ∈ st.items ∧ e.ignored = false := by
  unfold liveItems Entry.ignored
  rw [List.mem_filter]
  simp

/-- C83 in every reachable map, for hashes that are not the boundary of a bucket. -/
theorem C83_partial {E : Env} {st : St} (h : Reachable E st) {k : U64} (hk : rev64 k ∉ boundaries st) : C83_statement E st k := by
  refine ⟨⟨fun hn e he hr => ?_, fun hn => ?_⟩, fun e he => C83_sound_partial h he⟩
  · obtain ⟨h1, h2⟩ := live_iff.1 he
    refine search_off h.inv (bucketForKey_valid h.inv.bi _) (fun p hp hc => hk (List.mem_map.2 ⟨p, hp, hc⟩)) hn e h1 h2 ?_
    rw [← hr, rev64_rev64]
  · cases hs : opSearchKey E st k true with
    | none => rfl
    | some e =>
      obtain ⟨h1, h2⟩ := C83_sound_partial h hs
      exact absurd h2 (hn e h1)

/-- C83 after clean histories, for all hashes, and with the content of the plain map. -/
theorem C83_clean_partial {E : Env} {cfg : Cfg} {ops : List Op} (h : Clean E cfg ops) (k : U64) :
    C83_statement E (run E (initSt cfg) ops).1 k ∧
    ∀ c v, ((Spec.PMap.empty cfg.itemFn).run E.H ops).1.m (k, c) = some v ↔
      ∃ e, opSearchKey E (run E (initSt cfg) ops).1 k true = some e ∧ e.conflict = c ∧ e.val = v := by
  have g := h.good
  have hR : Reachable E (run E (initSt cfg) ops).1 := ⟨cfg, ops, rfl⟩
  have hs : opSearchKey E (run E (initSt cfg) ops).1 k true = liveAt (run E (initSt cfg) ops).1.items (rev64 k) :=
    search_correct g (bucketForKey_valid g.inv.bi _) _
  refine ⟨⟨⟨fun hn e he hr => ?_, fun hn => ?_⟩, fun e he => C83_sound_partial hR he⟩, ?_⟩
  · rw [hs] at hn
    obtain ⟨h1, h2⟩ := live_iff.1 he
    exact liveAt_none.1 hn e h1 h2 (by rw [← hr, rev64_rev64])
  · cases hx : opSearchKey E (run E (initSt cfg) ops).1 k true with
    | none => rfl
    | some e =>
      obtain ⟨h1, h2⟩ := C83_sound_partial hR hx
      exact absurd h2 (hn e h1)
  · intro c v
    have hm : absM (run E (initSt cfg) ops).1 = ((Spec.PMap.empty cfg.itemFn).run E.H ops).1 := congrArg Prod.fst h.refines.2.2
    rw [← hm, absM_m, hs]
    unfold lookup
    cases hl : liveAt (run E (initSt cfg) ops).1.items (rev64 k) with
    | none => simp
    | some e =>
      simp only [Option.some.injEq, exists_eq_left']
      by_cases hc : e.conflict = c
      · simp [Option.filter, hc]
      · simp [Option.filter, hc]

/-- Non-vacuity: a key of the example history, and a hash that is not there. -/
example : (opSearchKey exE (run exE (initSt exCfg) exOps).1 (exH.mem [4]) true).map (fun e => (e.key, e.val)) = some (sk 4, exV 50) ∧
    opSearchKey exE (run exE (initSt exCfg) exOps).1 (exH.mem [6]) true = none ∧
    rev64 (exH.mem [4]) ∉ boundaries (run exE (initSt exCfg) exOps).1 := by
  decide +kernel

/-- C83 fails for the hash of a bucket boundary: the integer key 3 is in the map (Range shows it), SearchKey does not find it. -/
theorem C83_refuted : ∃ ops, ¬ C83_statement exE (run exE (initSt {}) ops).1 3 := by
  refine ⟨[.storeItem { kind := .entry, key := .int 3, val := exV 1 }], fun h => ?_⟩
  have h1 := h.1.1 (by decide +kernel)
  revert h1
  decide +kernel

/-! ### C84 -/

/-- C84: what a Range whose callback changes the map has done so far (`R.trace`: the calls the callback made, in order). -/
structure Consistent (E : Env) (st : St) (R : Run) : Prop where
  /-- the map is what the calls made of it -/
  map : R.st = (run E st R.trace).1
  /-- no item is shown twice -/
  once : (R.seen.map (·.ref)).Nodup
  /-- in the order of the reversed hash -/
  order : R.seen.Pairwise (fun a b => a.rev ≤ b.rev)
  /-- every item is shown as it was in the map at some point of the calls -/
  shown : ∀ e ∈ R.seen, ∃ p s, R.trace = p ++ s ∧ e ∈ liveItems (run E st p).1
  /-- at the end, every item present before and after was shown, with its key -/
  all : R.status = .atEnd → ∀ x ∈ liveItems st, (∃ y ∈ liveItems R.st, y.ref = x.ref) →
    ∃ e ∈ R.seen, e.ref = x.ref ∧ e.key = x.key ∧ e.rev = x.rev ∧ e.conflict = x.conflict
  /-- at most as many calls as there were items and were added -/
  calls : (R.seen.length : Int) ≤ (liveItems st).length + (R.st.len - st.len)

theorem liveN_items (st : St) : (liveItems st).length = liveN st.items := by
  unfold liveItems liveN
  rw [List.countP_eq_length_filter]
  congr 2
  funext e
  unfold Entry.ignored
  simp

theorem C84_range {E : Env} {st : St} (h : Reachable E st) (f : List Entry → Entry → List Op × Bool) (n : Nat) :
    Consistent E st (range E f n st) ∧
    ((range E f n st).status = .running → (n : Int) < (liveItems st).length + ((range E f n st).st.len - st.len)) := by
  obtain ⟨c', g1, g2, g3⟩ := loop E f n st none [] [] (winv_start E h.inv)
  change WInv E st (range E f n st).st c' (range E f n st).seen (range E f n st).trace at g1
  have hc := g1.cnt
  refine ⟨⟨g1.run, g1.sorted.1, g1.sorted.2, ?_, ?_, ?_⟩, ?_⟩
  · intro e he
    obtain ⟨h1, p, s, h2, h3⟩ := g1.was e he
    exact ⟨p, s, h2, live_iff.2 ⟨h3, h1⟩⟩
  · intro hs x hx ⟨y, hy, hr⟩
    have hz := g2 hs
    obtain ⟨x1, x2⟩ := live_iff.1 hx
    obtain ⟨y1, y2⟩ := live_iff.1 hy
    rcases g1.all x x1 y y1 hr y2 with h1 | h1
    · obtain ⟨e, he, her⟩ := List.mem_map.1 h1
      have hk := g1.key x1 he her
      have hd : e.deleted = false := by
        have := (g1.was e he).1
        unfold Entry.ignored at this
        simp only [Bool.or_eq_false_iff] at this
        exact this.2
      exact ⟨e, he, her, hk.2.2.2.2.2.2 hd, hk.2.1, hk.2.2.1⟩
    · obtain ⟨w, hw, hwr⟩ := List.mem_map.1 h1
      have hwm : w ∈ (range E f n st).st.items := by
        rw [← upto_after c' (range E f n st).st.items]; exact List.mem_append_right _ hw
      have : w = y := ref_inj g1.inv.ii.nodup hwm y1 (hwr.trans hr.symm)
      have h0 := List.countP_eq_zero.1 hz w hw
      rw [this, y2] at h0
      simp at h0
  · rw [liveN_items]; omega
  · intro hr
    obtain ⟨h1, h2⟩ := g3 hr
    change (range E f n st).seen.length = 0 + n at h1
    change 0 < liveN (after c' (range E f n st).st.items) at h2
    rw [liveN_items]
    omega

/-- C84, keys nobody deletes: they are all shown. -/
theorem C84_kept {E : Env} {st : St} (h : Reachable E st) (f : List Entry → Entry → List Op × Bool) (n : Nat)
    (hs : (range E f n st).status = .atEnd) {x : Entry} (hx : x ∈ liveItems st)
    (hd : ∀ key, Op.delete key ∈ (range E f n st).trace → keyToHash E.H key ≠ some (rev64 x.rev, x.conflict)) :
    ∃ e ∈ (range E f n st).seen, e.ref = x.ref ∧ e.key = x.key ∧ e.rev = x.rev ∧ e.conflict = x.conflict := by
  have hc := (C84_range h f n).1
  obtain ⟨x1, x2⟩ := live_iff.1 hx
  obtain ⟨y, h1, h2, h3, _⟩ := run_held E (ops := (range E f n st).trace) h.inv x1 x2 hd
  rw [← hc.map] at h1
  exact hc.all hs x hx ⟨y, live_iff.2 ⟨h1, h3⟩, h2⟩

/-- C86, callbacks that add nothing (Len is the same at the end): the Range ends after at most as many calls as there were
items, and, after a clean history, no key is shown twice. -/
theorem C86_once_partial {E : Env} {cfg : Cfg} {ops : List Op} (h : Clean E cfg ops) (f : List Entry → Entry → List Op × Bool) (n : Nat)
    (hl : (range E f n (run E (initSt cfg) ops).1).st.len = (run E (initSt cfg) ops).1.len) :
    (range E f n (run E (initSt cfg) ops).1).seen.Pairwise (fun a b => (a.rev, a.conflict) ≠ (b.rev, b.conflict)) ∧
    ((liveItems (run E (initSt cfg) ops).1).length ≤ n → (range E f n (run E (initSt cfg) ops).1).status ≠ .running) := by
  have hR : Reachable E (run E (initSt cfg) ops).1 := ⟨cfg, ops, rfl⟩
  obtain ⟨hc, hrun⟩ := C84_range hR f n
  have g := h.good
  generalize run E (initSt cfg) ops = so at *
  have hold : ∀ e ∈ (range E f n so.1).seen, ∃ x ∈ so.1.items, Same x e ∧ x.ignored = false := by
    intro e he
    obtain ⟨p, s, h1, h2⟩ := hc.shown e he
    obtain ⟨h3, h4⟩ := live_iff.1 h2
    have hev := run_evo E (ops := p) hR.inv
    have hm2 := run_len_mono E (ops := s) (run_inv E hR.inv p)
    rw [← run_app, ← h1, ← hc.map, hl] at hm2
    obtain ⟨x, hx, hs⟩ := hev.old (by omega) h3 h4
    exact ⟨x, hx, hs, hs.live h4⟩
  refine ⟨?_, fun hn hr => ?_⟩
  · have ho := hc.once
    rw [List.Nodup, List.pairwise_map] at ho
    refine ho.imp_of_mem ?_
    intro a b ha hb hab he
    obtain ⟨x, hx, hs, hxl⟩ := hold a ha
    obtain ⟨y, hy, hs', hyl⟩ := hold b hb
    have : x = y := g.uniq x hx y hy hxl hyl (by rw [← hs.2.1, ← hs'.2.1]; exact (Prod.mk.inj he).1)
    exact hab (by rw [hs.1, hs'.1, this])
  · have := hrun hr
    rw [hl] at this
    omega

/-- C86, clearing a map: `m.Range(func(k, v) bool { m.Delete(k); return true })` after a clean history ends and leaves no key. -/
theorem C86_clear_partial {E : Env} {cfg : Cfg} {ops : List Op} (h : Clean E cfg ops) {n : Nat}
    (hn : (liveItems (run E (initSt cfg) ops).1).length ≤ n) :
    let R := range E (fun _ e => ([.delete e.key], true)) n (run E (initSt cfg) ops).1
    R.status = .atEnd ∧ liveItems R.st = [] := by
  intro R
  rw [liveN_items] at hn
  obtain ⟨h1, h2⟩ := clear_loop E (fun _ e => ([.delete e.key], true)) (fun _ _ => rfl) n (run E (initSt cfg) ops).1 none [] [] h.good
    (clean_keyHash h) (fun y hy => hy.1) hn
  refine ⟨h1, List.filter_eq_nil_iff.2 ?_⟩
  intro e he
  have := h2 e he
  unfold Entry.ignored at this
  cases hd : e.dummy <;> cases hx : e.deleted <;> simp_all

/-- Non-vacuity: the example history leaves keys, and clearing takes them all away. -/
example : Clean exE exCfg exOps ∧ liveItems (run exE (initSt exCfg) exOps).1 ≠ [] :=
  ⟨exClean, by decide +kernel⟩

/-- Non-vacuity: a callback that deletes every key but two and changes the values of those; nothing is added. -/
def exCb : List Entry → Entry → List Op × Bool := fun _ e =>
  if e.key = sk 1 ∨ e.key = sk 4 then ([.set e.key (exV 99)], true) else ([.delete e.key], true)

example : (range exE exCb 10 (run exE (initSt exCfg) exOps).1).status = .atEnd ∧
    (range exE exCb 10 (run exE (initSt exCfg) exOps).1).st.len = (run exE (initSt exCfg) exOps).1.len ∧
    (range exE exCb 10 (run exE (initSt exCfg) exOps).1).seen.length = 6 ∧
    ((liveItems (range exE exCb 10 (run exE (initSt exCfg) exOps).1).st).map (fun e => e.val)) = [exV 99, exV 99] := by
  decide +kernel

/-- C86 fails: a callback that deletes the key it is shown and sets it again is shown the same key again and
again (here it gives up after five times), although the map never has another key. -/
theorem C86_refuted :
    let f : List Entry → Entry → List Op × Bool := fun seen e => ([.delete e.key, .set e.key e.val], decide (seen.length < 4))
    ((range exE f 10 (run exE (initSt {}) [.set (sk 1) (exV 1)]).1).seen.map (·.key)) = [sk 1, sk 1, sk 1, sk 1, sk 1] := by
  decide +kernel

/-! ### C85 -/

/-- C85: Next and Prev are inverse, keep the order, and lead from First through all nodes to Last. -/
theorem C85_neighbours {E : Env} {st : St} (h : Reachable E st) {A B : List Entry} {a b : Entry} (hl : st.items = A ++ a :: b :: B) :
    next st a.ref = some b ∧ prev st b.ref = some a ∧ a.rev ≤ b.rev := by
  have hn := h.inv.ii.nodup
  have hs := h.inv.ii.sorted
  rw [hl] at hn hs
  have n1 := nodup_split hn
  have n2 : b.ref ∉ refs (A ++ [a]) := by
    have := nodup_split (pre := A ++ [a]) (d := b) (post := B) (by simpa using hn)
    exact this.1
  have hA : ∀ x ∈ A, x.ref ≠ a.ref := fun x hx hc => n1.1 (by rw [← hc]; exact List.mem_map.2 ⟨x, hx, rfl⟩)
  have hB : ∀ x ∈ A ++ [a], x.ref ≠ b.ref := fun x hx hc => n2 (by rw [← hc]; exact List.mem_map.2 ⟨x, hx, rfl⟩)
  refine ⟨?_, ?_, ?_⟩
  · simp only [next, after, fromRef, hl]
    rw [List.dropWhile_append_of_pos (fun x hx => by simpa using hA x hx), List.dropWhile_cons]
    simp
  · simp only [prev, beforeRef, hl]
    rw [show A ++ a :: b :: B = (A ++ [a]) ++ b :: B by simp,
      List.takeWhile_append_of_pos (fun x hx => by simpa using hB x hx), List.takeWhile_cons]
    simp
  · exact (List.pairwise_cons.1 (List.pairwise_append.1 hs).2.1).1 b (by simp)

/-- C85: an item (or sentinel) the caller holds stays a place to go on from.  After any further calls it is still in the list,
with the same hash; what was ahead of it is ahead of it (Next comes to it), what was behind is behind; only the value and the
deletion mark of these may have changed. -/
theorem C85_held {E : Env} {st : St} (h : Reachable E st) {A B : List Entry} {a : Entry} (hl : st.items = A ++ a :: B) (ops : List Op) :
    ∃ A' a' B', (run E st ops).1.items = A' ++ a' :: B' ∧ a'.ref = a.ref ∧ a'.rev = a.rev ∧
      (∃ f : Entry → Entry, (∀ x, (f x).ref = x.ref ∧ (f x).rev = x.rev ∧ (f x).conflict = x.conflict) ∧ (A.map f).Sublist A' ∧ (B.map f).Sublist B') := by
  obtain ⟨f, hf, h1, _⟩ := (run_evo E (ops := ops) h.inv).ex
  rw [hl, List.map_append, List.map_cons] at h1
  obtain ⟨r1, r2, hr12, s1, s2⟩ := List.append_sublist_iff.1 h1
  obtain ⟨t1, t2, ht12, m1, s3⟩ := List.cons_sublist_iff.1 s2
  obtain ⟨u, v, huv⟩ := List.append_of_mem m1
  refine ⟨r1 ++ u, f a, v ++ t2, by rw [hr12, ht12, huv]; simp, (hf a).1, (hf a).2.1, f, fun x => ⟨(hf x).1, (hf x).2.1, (hf x).2.2.1⟩,
    s1.trans (List.sublist_append_left _ _), s3.trans (List.sublist_append_right _ _)⟩

/-- Non-vacuity: the place of a key of the example history. -/
example : ∃ A a B, (run exE (initSt exCfg) exOps).1.items = A ++ a :: B ∧ a.key = sk 4 := by
  have h : (opSearchKey exE (run exE (initSt exCfg) exOps).1 (exH.mem [4]) true).map (·.key) = some (sk 4) := by decide +kernel
  obtain ⟨e, h1, h2⟩ := Option.map_eq_some_iff.1 h
  obtain ⟨A, B, hAB⟩ := List.append_of_mem (searchByBucket_mem h1).1
  exact ⟨A, e, B, hAB, h2⟩

end SLM.Walk
