import Verif.Proofs.Ends
import Verif.Props.Locate
import Verif.Props.PerKey
import Verif.Proofs.Pick
import Verif.Props.Walk
import Verif.Props.Cost
/-!
C112: can every key be stored?  A key whose bit-reversed hash is the boundary of a bucket is linked behind the bucket's sentinel and looked for in front of it.
Nothing a caller does later changes that.
-/
set_option autoImplicit false
namespace SLM
open History

/-- Every node of hash `d.rev` in front of the sentinel `d` is deleted or a sentinel. -/
def Blind (d : Entry) (items : List Entry) : Prop := ∃ A B, items = A ++ d :: B ∧ ∀ x ∈ A, x.rev = d.rev → x.ignored = true

theorem Blind.ins {d e : Entry} {pre post : List Entry} (h : Blind d (pre ++ post)) (hp : (∀ x ∈ post, e.rev < x.rev) ∨ e.rev ≠ d.rev) :
    Blind d (pre ++ e :: post) := by
  obtain ⟨A, B, h1, h2⟩ := h
  rcases List.append_eq_append_iff.1 h1 with ⟨A', rfl, rfl⟩ | ⟨C, rfl, hC⟩
  · refine ⟨pre ++ e :: A', B, by simp, ?_⟩
    intro x hx hr
    simp only [List.mem_append, List.mem_cons] at hx
    rcases hx with hx | rfl | hx
    · exact h2 x (by simp [hx]) hr
    · rcases hp with hp | hp
      · have := hp d (by simp)
        rw [hr] at this
        bv_omega
      · exact absurd hr hp
    · exact h2 x (by simp [hx]) hr
  · cases C with
    | nil =>
      simp only [List.nil_append] at hC
      subst hC
      rw [List.append_nil]
      refine ⟨A ++ [e], B, by simp, ?_⟩
      intro x hx hr
      simp only [List.mem_append, List.mem_singleton] at hx
      rcases hx with hx | rfl
      · exact h2 x hx hr
      · rcases hp with hp | hp
        · have := hp d (by simp)
          rw [hr] at this
          bv_omega
        · exact absurd hr hp
    | cons y C =>
      simp only [List.cons_append, List.cons.injEq] at hC
      obtain ⟨rfl, rfl⟩ := hC
      exact ⟨A, C ++ e :: post, by simp, h2⟩

theorem Blind.map {p : Path} {v : U64} {l : List Entry} (h : Blind (dummyEntry p v) l) (r : Ref) (hr : ∀ p, r ≠ .dummy p) (g : Entry → Entry)
    (h1 : ∀ x, (g x).rev = x.rev) (h2 : ∀ x, x.ignored = true → (g x).ignored = true) :
    Blind (dummyEntry p v) (l.map (fun x => if x.ref = r then g x else x)) := by
  obtain ⟨A, B, rfl, h3⟩ := h
  refine ⟨A.map (fun x => if x.ref = r then g x else x), B.map (fun x => if x.ref = r then g x else x), ?_, ?_⟩
  · have hx : (if (dummyEntry p v).ref = r then g (dummyEntry p v) else dummyEntry p v) = dummyEntry p v := by
      rw [if_neg (fun hc => hr p hc.symm)]
    simp [hx]
  · intro x hx hxr
    obtain ⟨y, hy, rfl⟩ := List.mem_map.1 hx
    by_cases hc : y.ref = r
    · simp only [hc, if_true] at hxr ⊢
      rw [h1] at hxr
      exact h2 _ (h3 y hy hxr)
    · simp only [hc, if_false] at hxr ⊢
      exact h3 y hy hxr

theorem insertCheck_blind {d e : Entry} {l : List Entry} (hs : Sorted l) (right : Ref) (h : Blind d l)
    (hp : (∀ x ∈ l, x.ref = right → e.rev < x.rev) ∨ e.rev ≠ d.rev) : Blind d ((insertCheck right e l).getD l) := by
  rcases insertCheck_getD_cases right e l with h1 | ⟨pre, y, post, h1, h2, h3, h4⟩
  · rw [h1]; exact h
  · rw [h2]
    rw [h1] at h hs
    refine h.ins ?_
    rcases hp with hp | hp
    · left
      have hy : e.rev < y.rev := hp y (by rw [h1]; simp) h4
      intro x hx
      rcases List.mem_cons.1 hx with rfl | hx
      · exact hy
      · have h5 : Sorted (y :: post) := by
          unfold Sorted at hs ⊢
          exact (List.pairwise_append.1 hs).2.1
        have := List.rel_of_pairwise_cons h5 hx
        bv_omega
    · exact .inr hp

theorem add2_blind {l : List Entry} (hs : Sorted l) (hn : (refs l).Nodup) (he : Ends l) {start : Ref} (hstart : start ∈ refs l) (e : Entry)
    (opt : Option (Ref × Ref)) {d : Entry} (hd : d.rev ≠ maxU64) (hb : Blind d l) : Blind d (add2 l start e opt) := by
  unfold add2
  cases hf : (fromRef start l).find? (fun x => decide (e.rev < x.rev)) with
  | some pos =>
    simp only
    have hp : e.rev < pos.rev := by simpa using List.find?_some hf
    have hpm : pos ∈ l := (List.dropWhile_sublist _).subset (List.mem_of_find?_eq_some hf)
    refine insertCheck_blind hs _ hb (.inl ?_)
    intro x hx hr
    rw [ref_inj hn hx hpm hr]; exact hp
  | none =>
    have hmax : e.rev = maxU64 := by
      obtain ⟨y, post, _, hfr, hl⟩ := split_at start l hstart
      have hm := he.2
      have hmem : dummyEntry [] maxU64 ∈ fromRef start l := by
        rw [hl, List.getLast?_append] at hm
        rw [hfr]
        have : (y :: post).getLast? = some (dummyEntry [] maxU64) := by
          cases hx : (y :: post).getLast? with
          | none => simp at hx
          | some y => rw [hx] at hm; simpa using hm
        exact List.mem_of_getLast? this
      have := List.find?_eq_none.1 hf _ hmem
      simp only [decide_eq_true_eq] at this
      apply le_max_eq
      have h2 : (dummyEntry [] maxU64).rev = maxU64 := rfl
      rw [h2] at this
      bv_omega
    have hne : e.rev ≠ d.rev := by rw [hmax]; exact fun hc => hd hc.symm
    simp only
    split
    · split
      · exact hb
      · exact insertCheck_blind hs _ hb (.inr hne)
    · split
      · exact insertCheck_blind hs _ hb (.inr hne)
      · exact hb

theorem setInsert_blind {st : St} (h : Inv st) (he : Ends st.items) {b : Path} (hv : V st.mem b) (rk : U64) (e : Entry) {d : Entry}
    (hd : d.rev ≠ maxU64) (hb : Blind d st.items) : Blind d (setInsert st b rk e) := by
  unfold setInsert
  refine add2_blind h.ii.sorted h.ii.nodup he ?_ e _ hd hb
  obtain ⟨p, _, hh, _, hm⟩ := head_spec h hv
  have hhd : st.head b ∈ refs st.items := List.mem_map.2 ⟨_, hm, by rw [hh]; rfl⟩
  split
  · exact hhd
  · rename_i en hen
    have henm : en ∈ st.items := (List.dropWhile_sublist _).subset (List.mem_of_find?_eq_some hen)
    split
    · exact List.mem_map.2 ⟨_, henm, rfl⟩
    · split
      · rename_i pe hpe
        split
        · have : pe ∈ st.items := (List.takeWhile_sublist _).subset (List.mem_of_getLast? hpe)
          exact List.mem_map.2 ⟨_, this, rfl⟩
        · exact hhd
      · exact hhd

theorem insAt_blind {d e : Entry} {l : List Entry} (hs : Sorted l) (h : Blind d l) : Blind d (insAt e l) := by
  have hl := List.takeWhile_append_dropWhile (p := fun x : Entry => decide (x.rev ≤ e.rev)) (l := l)
  unfold insAt
  refine Blind.ins (by rw [hl]; exact h) (.inl ?_)
  have hs' : Sorted (l.dropWhile (fun x => decide (x.rev ≤ e.rev))) := by
    unfold Sorted at hs ⊢
    exact hs.sublist (List.dropWhile_sublist _)
  intro x hx
  cases hdw : l.dropWhile (fun x => decide (x.rev ≤ e.rev)) with
  | nil => rw [hdw] at hx; cases hx
  | cons y ys =>
    have hy : e.rev < y.rev := by
      have := List.head_dropWhile_not (fun x : Entry => decide (x.rev ≤ e.rev)) (l := l) (by rw [hdw]; simp)
      simp only [hdw, List.head_cons, decide_eq_false_iff_not] at this
      bv_omega
    rw [hdw] at hx hs'
    rcases List.mem_cons.1 hx with rfl | hx
    · exact hy
    · have := List.rel_of_pairwise_cons hs' hx
      bv_omega

theorem step_blind (E : Env) {st : St} (h : Inv st) (he : Ends st.items) {p : Path} {v : U64} (hd : v ≠ maxU64) (hb : Blind (dummyEntry p v) st.items) (op : Op) :
    Blind (dummyEntry p v) (step E st op).1.items := by
  rcases step_eff E h op with x | ⟨e, nv, b, x⟩ | ⟨key, e, x⟩ | ⟨st2, k, c, e, x⟩
  · obtain ⟨b, hb'⟩ := x.same; rw [hb']; exact hb
  · rw [x.res]
    exact hb.map _ (h.ii.live_ref x.mem x.live) _ (fun _ => rfl) (fun _ h => h)
  · rw [x.res]
    refine hb.map _ (h.ii.live_ref x.mem x.live) _ (fun y => ?_) (fun y hy => ?_)
    · rfl
    · simp [Entry.ignored]
  · have hfb := (findBucket_spec h.bi.ti (rev64 k)).1
    have hmid : Blind (dummyEntry p v) (setMid st2 k (findBucket st.mem (rev64 k)) e).items := by
      have hinv2 : Inv { st2 with nextId := st.nextId } := ⟨by rw [x.mem, x.blist]; exact h.bi, by simp only [x.items, x.blist]; exact h.ii,
        by simp only [x.mem, x.lv]; exact h.lv⟩
      exact setInsert_blind (st := { st2 with nextId := st.nextId }) hinv2 (by simp only [x.items]; exact he)
        (by simp only [x.mem]; exact hfb) (rev64 k) e hd (by simp only [x.items]; exact hb)
    rcases x.grow with hg | ⟨A, B, n, b, c', hb'⟩
    · rw [hg]; exact hmid
    · rw [hb'.items]
      exact insAt_blind x.midinv.ii.sorted hmid

theorem step_keeps_bucket (E : Env) {st : St} (h : Inv st) {p : Path} (hp : p ∈ st.blist) (op : Op) : p ∈ (step E st op).1.blist := by
  rcases step_eff E h op with x | ⟨e, nv, b, x⟩ | ⟨key, e, x⟩ | ⟨st2, k, c, e, x⟩
  · obtain ⟨b, hb'⟩ := x.same; rw [hb']; exact hp
  · rw [x.res]; exact hp
  · rw [x.res]; exact hp
  · have hm : p ∈ (setMid st2 k (findBucket st.mem (rev64 k)) e).blist := by
      show p ∈ st2.blist
      rw [x.blist]; exact hp
    rcases x.grow with hg | ⟨A, B, n, b, c', hb'⟩
    · rw [hg]; exact hm
    · rw [hb'.new]
      rw [hb'.old] at hm
      simp only [List.mem_append, List.mem_cons] at hm ⊢
      tauto

/-- Walking back from the sentinel `d` finds nothing exactly if it is blind. -/
theorem bwd_blind {A : List Entry} {t : U64} (hle : ∀ x ∈ A, x.rev ≤ t) (hs : Sorted A) :
    bwdSearch t true A.reverse = none ↔ ∀ x ∈ A, x.rev = t → x.ignored = true := by
  have key : ∀ L : List Entry, (∀ x ∈ L, x.rev ≤ t) → L.Pairwise (fun a b => b.rev ≤ a.rev) →
      (bwdSearch t true L = none ↔ ∀ x ∈ L, x.rev = t → x.ignored = true) := by
    intro L
    induction L with
    | nil => intro _ _; simp [bwdSearch]
    | cons x xs ih =>
      intro h1 h2
      have h3 := ih (fun y hy => h1 y (by simp [hy])) (List.pairwise_cons.1 h2).2
      simp only [bwdSearch]
      by_cases hi : x.ignored = true
      · simp only [hi, Bool.and_self, if_true, List.mem_cons, forall_eq_or_imp]
        rw [h3]; simp
      · have hle' := h1 x (by simp)
        simp only [hi, Bool.and_false, Bool.false_eq_true, if_false]
        rw [if_neg (by bv_omega)]
        by_cases hr : x.rev = t
        · rw [if_pos hr]
          simp only [reduceCtorEq, false_iff]
          intro hc
          exact hi (hc x (by simp) hr)
        · rw [if_neg hr]
          simp only [true_iff]
          intro y hy hyr
          rcases List.mem_cons.1 hy with rfl | hy
          · exact absurd hyr hr
          · have := (List.pairwise_cons.1 h2).1 y hy
            rw [hyr] at this
            exfalso; apply hr; bv_omega
  rw [key A.reverse (by simpa using hle) (by rw [List.pairwise_reverse]; exact hs)]
  simp

theorem split_unique {A B : List Entry} {d : Entry} (h : (refs (A ++ d :: B)).Nodup) :
    beforeRef d.ref (A ++ d :: B) = A ∧ fromRef d.ref (A ++ d :: B) = d :: B := by
  have hA : ∀ x ∈ A, decide (x.ref ≠ d.ref) = true := by
    intro x hx
    simp only [refs, List.map_append, List.map_cons] at h
    have := (List.nodup_append.1 h).2.2 x.ref (List.mem_map_of_mem hx) d.ref (by simp)
    simpa using this
  unfold beforeRef fromRef
  constructor
  · rw [List.takeWhile_append_of_pos hA]; simp
  · rw [List.dropWhile_append_of_pos hA]; simp

/-- A hash on the boundary of a bucket is looked for in front of the bucket's sentinel. -/
theorem boundary_search {E : Env} {st : St} (h : Reachable E st) {p : Path} (hp : p ∈ st.blist) (hpn : p ≠ []) {t : U64} (ht : (st.mem p).rev = t) (h16 : t.toNat % 16 = 0)
    {b : Path} (hb : b = bucketForKey st t ∨ b = findBucket st.mem t) :
    searchByBucket E st b t true = none ↔ Blind (dummyEntry p t) st.items := by
  have hi := h.inv
  have hn : Nearest st t (findBucket st.mem t) := by
    rw [C97_iff h]
    rintro ⟨q, _, _, h1, h2⟩
    rw [BitVec.le_def] at h2
    omega
  have hrev : (st.mem (findBucket st.mem t)).rev = t := by
    have h1 := hn.1
    have h2 := hn.2 p hp hpn (by rw [ht]; bv_omega)
    rw [ht] at h2
    bv_omega
  have hbk : bucketForKey st t = findBucket st.mem t := by
    unfold bucketForKey
    simp only
    split
    · rw [hrev]
      split
      · rename_i hne
        exfalso; apply hne
        unfold near
        split
        · rfl
        · rename_i h1
          have h2 : absDiff t t = 0 := by unfold absDiff; split <;> simp
          rw [h2] at h1
          have h3 : absDiff (st.mem (st.prevAsB (findBucket st.mem t))).rev t = 0 := by bv_omega
          unfold absDiff at h3
          split at h3 <;> bv_omega
      · rfl
    · rfl
  have hb' : b = findBucket st.mem t := by rcases hb with h | h <;> simp [h, hbk]
  obtain ⟨hv, _, _⟩ := findBucket_spec hi.bi.ti t
  obtain ⟨q, hq, hh, hqr, hm⟩ := head_spec hi hv
  have hqp : q = p := by
    refine Conc.bvRev_inj hi hq hp ?_
    rw [hqr, hrev, ← ht]; exact hi.bi.rev_eq hp
  subst hqp
  rw [hrev] at hqr
  rw [hqr] at hm
  obtain ⟨A, B, hAB⟩ := List.append_of_mem hm
  have hnod : (refs st.items).Nodup := hi.ii.nodup
  have hsort := hi.ii.sorted
  have hsp : fromRef (.dummy q) st.items = dummyEntry q t :: B ∧ beforeRef (.dummy q) st.items = A := by
    rw [hAB] at hnod ⊢
    have := split_unique hnod
    exact ⟨this.2, this.1⟩
  unfold searchByBucket
  rw [hb', hrev]
  simp only [show ¬ (t > t) by bv_omega, and_false, if_false, hrev]
  unfold backFrom
  rw [hh, hsp.1, hsp.2]
  simp only
  have hA : (∀ x ∈ A, x.rev ≤ t) ∧ Sorted A := by
    rw [hAB] at hsort
    unfold Sorted at hsort ⊢
    obtain ⟨s1, s2, s3⟩ := List.pairwise_append.1 hsort
    exact ⟨fun x hx => s3 x hx (dummyEntry q t) (by simp), s1⟩
  have hd : (dummyEntry q t).ignored = true := rfl
  simp only [bwdSearch, hd, Bool.and_self, if_true]
  rw [bwd_blind hA.1 hA.2]
  constructor
  · intro hx; exact ⟨A, B, hAB, hx⟩
  · rintro ⟨A', B', hAB', hx⟩
    have : A' = A := by
      rw [hAB'] at hnod
      have h1 := (split_unique hnod).1
      rw [← hAB'] at h1
      rw [← h1, ← hsp.2]; rfl
    rw [← this]; exact hx


theorem boundary_get {E : Env} {st : St} (h : Reachable E st) {p : Path} (hp : p ∈ st.blist) (hpn : p ≠ []) {k : U64} (ht : (st.mem p).rev = rev64 k)
    (h16 : (rev64 k).toNat % 16 = 0) : (∀ c, opGetByHash E st k c = .val none false) ↔ Blind (dummyEntry p (rev64 k)) st.items := by
  rw [← boundary_search h hp hpn ht h16 (.inl rfl)]
  unfold opGetByHash getEntry
  constructor
  · intro hc
    cases hs : searchByBucket E st (bucketForKey st (rev64 k)) (rev64 k) true with
    | none => rfl
    | some e =>
      exfalso
      have := hc e.conflict
      rw [hs] at this
      have hr : e.rev = rev64 k := by
        rw [search_last] at hs
        unfold lastHit at hs
        have := (Option.filter_eq_some_iff.1 hs).2
        simp only [Bool.and_eq_true, decide_eq_true_eq] at this
        exact this.2
      simp [hr] at this
  · intro hs c
    rw [hs]

/-- The full property: any key can be stored.  In the state `st`, for the key with primary hash `k` and secondary hash `c`, some calls make Get find it. -/
def C112_statement (E : Env) (st : St) (k c : U64) : Prop := ∃ ops v, opGetByHash E (run E st ops).1 k c = .val v true

theorem blind_forever {E : Env} {p : Path} {t : U64} (ht : t ≠ maxU64) (ops : List Op) : ∀ st, Inv st → Ends st.items → p ∈ st.blist → Blind (dummyEntry p t) st.items →
    p ∈ (run E st ops).1.blist ∧ Blind (dummyEntry p t) (run E st ops).1.items := by
  induction ops with
  | nil => intro st _ _ h1 h2; exact ⟨h1, h2⟩
  | cons op ops ih =>
    intro st hi he h1 h2
    exact ih _ (step_inv E hi op) (step_ends E hi he op) (step_keeps_bucket E hi h1 op) (step_blind E hi he ht h2 op)

theorem Reachable.run {E : Env} {st : St} (h : Reachable E st) (ops : List Op) : Reachable E (run E st ops).1 := by
  obtain ⟨cfg, a, rfl⟩ := h
  exact ⟨cfg, a ++ ops, by rw [run_append]⟩

/-- The key cannot be found: not by Get, LoadItem or the lookups by hash, and Delete answers false. -/
structure NotFound (E : Env) (st : St) (k : U64) : Prop where
  getByHash : ∀ c, opGetByHash E st k c = .val none false
  loadItemByHash : ∀ c, opLoadItemByHash E st k c = .item none
  get : ∀ key c, keyToHash E.H key = some (k, c) → opGet E st key = .val none false
  loadItem : ∀ key c, keyToHash E.H key = some (k, c) → opLoadItem E st key = .item none
  delete : ∀ key c, keyToHash E.H key = some (k, c) → (opDelete E st key).2 = .bool false

theorem boundary_notFound {E : Env} {st : St} (h : Reachable E st) {p : Path} (hp : p ∈ st.blist) (hpn : p ≠ []) {k : U64} (ht : (st.mem p).rev = rev64 k)
    (h16 : (rev64 k).toNat % 16 = 0) (hb : Blind (dummyEntry p (rev64 k)) st.items) : NotFound E st k := by
  have h1 := (boundary_get h hp hpn ht h16).2 hb
  have h2 := (boundary_search (E := E) h hp hpn ht h16 (.inr rfl)).2 hb
  have h3 := (boundary_search (E := E) h hp hpn ht h16 (.inl rfl)).2 hb
  refine ⟨h1, fun c => ?_, fun key c hk => ?_, fun key c hk => ?_, fun key c hk => ?_⟩
  · unfold opLoadItemByHash getEntry; rw [h3]; rfl
  · unfold opGet; rw [hk]; exact h1 c
  · unfold opLoadItem getWithBucket; rw [hk]; simp only [h2]; rfl
  · unfold opDelete getWithBucket; rw [hk]; simp only [h2]

theorem low_bits_ne {t : U64} (h : t.toNat % 16 = 0) : t ≠ maxU64 := by
  rintro rfl; revert h; decide

theorem boundary_path {E : Env} {st : St} (h : Reachable E st) {t : U64} (hb : t ∈ boundaries st) (h16 : t.toNat % 16 = 0) :
    ∃ p ∈ st.blist, p ≠ [] ∧ (st.mem p).rev = t := by
  obtain ⟨p, hp, hpr⟩ := List.mem_map.1 hb
  refine ⟨p, hp, ?_, hpr⟩
  rintro rfl
  rw [h.inv.bi.ti.root.1] at hpr
  exact low_bits_ne h16 hpr.symm

/-- Once lost, lost for ever: in any reachable map, if the bit-reversed hash is the boundary of a bucket (and its four lowest bits are 0, that is `k < 2^60`) and
Get finds no key with it, then after no calls whatever Get, LoadItem or Delete find one. -/
theorem C112_lost_refuted {E : Env} {st : St} (h : Reachable E st) {k : U64} (hb : rev64 k ∈ boundaries st) (h16 : (rev64 k).toNat % 16 = 0)
    (hl : ∀ c, opGetByHash E st k c = .val none false) (ops : List Op) : NotFound E (run E st ops).1 k := by
  obtain ⟨p, hp, hpn, hpr⟩ := boundary_path h hb h16
  obtain ⟨h1, h2⟩ := blind_forever (E := E) (low_bits_ne h16) ops st h.inv h.ends hp ((boundary_get h hp hpn hpr h16).1 hl)
  have h' := h.run ops
  refine boundary_notFound h' h1 hpn ?_ h16 h2
  rw [h'.inv.bi.rev_eq h1, ← h.inv.bi.rev_eq hp]; exact hpr

/-- Sixteen hashes are never found, in no map at no time: those below 16, so every integer key from 0 to 15. -/
theorem C112_small_refuted {E : Env} {st : St} (h : Reachable E st) {k : U64} (hk : k.toNat < 16) : NotFound E st k := by
  obtain ⟨cfg, ops, rfl⟩ := h
  have hr : ∃ i < 16, k = BitVec.ofNat 64 i := ⟨k.toNat, hk, by simp⟩
  obtain ⟨i, hi, rfl⟩ := hr
  have hrv : rev64 (BitVec.ofNat 64 i) ∈ boundaries (initSt cfg) ∧ (rev64 (BitVec.ofNat 64 i)).toNat % 16 = 0 := by
    unfold boundaries
    rw [initSt_blist, initSt_mem]
    revert i
    decide +kernel
  have hR : Reachable E (initSt cfg) := ⟨cfg, [], rfl⟩
  obtain ⟨p, hp, hpn, hpr⟩ := boundary_path hR hrv.1 hrv.2
  refine C112_lost_refuted hR hrv.1 hrv.2 ((boundary_get hR hp hpn hpr hrv.2).2 ?_) ops
  have hm := hR.inv.ii.has p hp
  rw [← hR.inv.bi.rev_eq hp, hpr] at hm
  obtain ⟨A, B, hAB⟩ := List.append_of_mem hm
  refine ⟨A, B, hAB, fun x hx _ => ?_⟩
  have : x ∈ (initSt cfg).items := by rw [hAB]; simp [hx]
  rw [initSt_items] at this
  simp only [List.mem_append, List.mem_map, List.mem_singleton] at this
  rcases this with ⟨_, _, rfl⟩ | rfl <;> rfl

theorem C112_refuted {E : Env} {st : St} (h : Reachable E st) {k : U64} (hk : k.toNat < 16) (c : U64) : ¬ C112_statement E st k c := by
  rintro ⟨ops, v, hv⟩
  rw [(C112_small_refuted (h.run ops) hk).getByHash c] at hv
  cases hv

/-- The part that holds: in any reachable map, whatever went wrong before, a string key whose hash is no boundary at that moment and is not that of a key Get finds is found
by Get, with its value, after a Set that comes back. -/
theorem C112_partial {E : Env} {st : St} (h : Reachable E st) {s : List (BitVec 8)} {v : IVal} (hb : rev64 (E.H.mem s) ∉ boundaries st)
    (hl : ∀ c, opGetByHash E st (E.H.mem s) c = .val none false) (hp : (step E st (.set (.str s) v)).2 ≠ .panic .bucketHeadEmpty) :
    (step E st (.set (.str s) v)).2 = .bool true ∧ opGet E (step E st (.set (.str s) v)).1 (.str s) = .val v true := by
  have hnl : ∀ x, Live st.items x → x.rev ≠ rev64 (E.H.mem s) := by
    intro x hx hr
    have hn : searchByBucket E st (bucketForKey st (rev64 (E.H.mem s))) (rev64 (E.H.mem s)) true = none := by
      cases hs : searchByBucket E st (bucketForKey st (rev64 (E.H.mem s))) (rev64 (E.H.mem s)) true with
      | none => rfl
      | some e =>
        exfalso
        have h1 := hl e.conflict
        unfold opGetByHash getEntry at h1
        rw [hs] at h1
        have hr : e.rev = rev64 (E.H.mem s) := by
          rw [search_last] at hs
          unfold lastHit at hs
          have := (Option.filter_eq_some_iff.1 hs).2
          simp only [Bool.and_eq_true, decide_eq_true_eq] at this
          exact this.2
        simp [hr] at h1
    exact Walk.search_off h.inv (bucketForKey_valid h.inv.bi _) (fun p hp hc => hb (List.mem_map.2 ⟨p, hp, hc⟩)) hn x hx.1 hx.2 hr
  have g : KGood st (E.H.mem s) (E.H.xx s) :=
    ⟨h.inv, fun a ha _ _ hr => absurd hr (hnl a ha), fun a ha hr => absurd hr (hnl a ha), fun a ha hr => absurd hr (hnl a ha)⟩
  have hno : lookup st.items (E.H.mem s) (E.H.xx s) = none := by
    cases hk : lookup st.items (E.H.mem s) (E.H.xx s) with
    | none => rfl
    | some e =>
      obtain ⟨h1, h2, _⟩ := (lookup_key g.uniq).1 hk
      exact absurd h2 (hnl e h1)
  obtain ⟨g', he⟩ := step_self_key (op := .set (.str s) v) g ⟨fun c' hc => by simpa [storeHash, keyToHash] using hc.symm, fun it hit => (by cases hit), fun it hit => (by cases hit)⟩ rfl
    (fun _ _ p hp hc => hb (List.mem_map.2 ⟨p, hp, by rw [h.inv.bi.rev_eq hp]; exact hc⟩)) hp
  simp only [Prod.mk.injEq] at he
  obtain ⟨h1, _, h2⟩ := he
  have hs : (absM st).step E.H (.set (.str s) v) = ({ (absM st).put (E.H.mem s, E.H.xx s) v with fn := .sample }, .bool true) := by
    have : (absM st).m (E.H.mem s, E.H.xx s) = none := by rw [absM_m, hno]; rfl
    simp only [Spec.PMap.step, keyToHash, this]
  rw [hs] at h1 h2
  have hm : (absM (step E st (.set (.str s) v)).1).m (E.H.mem s, E.H.xx s) = some v := by rw [h1]; simp [Spec.PMap.put]
  refine ⟨ans_true h2, ?_⟩
  rw [absM_m] at hm
  obtain ⟨e, he, hv⟩ := Option.map_eq_some_iff.1 hm
  unfold opGet
  simp only [keyToHash, opGetByHash, getEntry_key g', he, hv]

/-! The hypotheses are met. -/

/-- Integer keys with the lowest hexadecimal digit 5, at most one per bucket. -/
def lostOps : List Op :=
  [ .storeItem { kind := .entry, key := .u64 0x105, val := exV 1 }, .storeItem { kind := .entry, key := .u64 0x215, val := exV 2 },
    .storeItem { kind := .entry, key := .u64 0x325, val := exV 3 }, .storeItem { kind := .entry, key := .u64 0x435, val := exV 4 } ]

def lostSt : St := (run exE (initSt { maxPer := 1, itemFn := .entry }) lostOps).1

example : Reachable exE lostSt := ⟨_, _, rfl⟩
set_option maxRecDepth 100000 in
/-- The bucket with the boundary of the hash 21 was made by a split; the key 21 is not in the map, is stored with success, and is not there. -/
theorem C112_lost_applies : rev64 21 ∈ boundaries lostSt ∧ (rev64 21).toNat % 16 = 0 ∧ rev64 21 ∉ boundaries (initSt {}) ∧
    (step exE lostSt (.storeItem { kind := .entry, key := .u64 21, val := exV 9 })).2 = .bool true ∧
    opGet exE (step exE lostSt (.storeItem { kind := .entry, key := .u64 21, val := exV 9 })).1 (.u64 21) = .val none false ∧
    searchByBucket exE lostSt (bucketForKey lostSt (rev64 21)) (rev64 21) true = none := by
  decide +kernel

example : ∀ c, opGetByHash exE lostSt 21 c = .val none false := by
  intro c
  unfold opGetByHash getEntry
  rw [C112_lost_applies.2.2.2.2.2]

set_option maxRecDepth 100000 in
example : Reachable exE (run exE (initSt exCfg) exOps).1 ∧ rev64 (exE.H.mem [77#8]) ∉ boundaries (run exE (initSt exCfg) exOps).1 ∧
    searchByBucket exE (run exE (initSt exCfg) exOps).1 (bucketForKey (run exE (initSt exCfg) exOps).1 (rev64 (exE.H.mem [77#8]))) (rev64 (exE.H.mem [77#8])) true = none ∧
    (step exE (run exE (initSt exCfg) exOps).1 (.set (.str [77#8]) (exV 5))).2 = .bool true :=
  ⟨⟨_, _, rfl⟩, by decide +kernel⟩

end SLM
