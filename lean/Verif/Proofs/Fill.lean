import Verif.Proofs.Crowd
/-! When a store divides a bucket, and how full the buckets are before the first division. -/
set_option autoImplicit false
namespace SLM
open History

theorem searchBucket_some {st : St} (h : BI st.mem st.blist) {er : U64} (her : 0 < er) : st.searchBucket er ≠ none := by
  unfold St.searchBucket
  intro hc
  rw [List.find?_eq_none] at hc
  have hm : [0] ∈ st.blist.dropWhile (fun q => decide (q ≠ [nib er 1])) := by
    have h0 : [0] ∈ st.blist := h.top_mem (by omega)
    have hn : [nib er 1] ∈ st.blist := h.top_mem (nib_lt er 1)
    obtain ⟨P, Q, hPQ⟩ := List.append_of_mem hn
    have hP : ∀ x ∈ P, x ≠ [nib er 1] := by
      intro x hx he
      have hd := h.desc
      rw [hPQ, List.pairwise_append] at hd
      have := hd.2.2 x hx [nib er 1] (by simp)
      rw [he] at this
      omega
    have e : st.blist.dropWhile (fun q => decide (q ≠ [nib er 1])) = [nib er 1] :: Q := by
      rw [hPQ, List.dropWhile_append_of_pos (fun x hx => by simpa using hP x hx)]
      simp
    rw [e]
    rw [hPQ] at h0
    rcases List.mem_append.1 h0 with h0 | h0
    · have hd := h.desc
      rw [hPQ, List.pairwise_append] at hd
      have := hd.2.2 [0] h0 [nib er 1] (by simp)
      have z : bval [0] = 0 := by decide
      omega
    · exact h0
  have := hc [0] hm
  have hz : (st.mem [0]).rev = 0 := by
    rw [h.rev_eq (h.top_mem (by omega))]; decide
  rw [hz] at this
  exact this (by simpa using her)

/-- The last entry before a new one is at least every sentinel at or below it. -/
theorem pred_ge {l : List Entry} (hs : Sorted l) {e pe : Entry} (hf : e.ref ∉ refs l) (hp : (beforeRef e.ref (insAt e l)).getLast? = some pe) :
    pe.rev ≤ e.rev ∧ ∀ d ∈ l, d.rev ≤ e.rev → d.rev ≤ pe.rev := by
  rw [pred_insAt hf] at hp
  have hm : pe ∈ l.takeWhile (fun x => decide (x.rev ≤ e.rev)) := List.mem_of_getLast? hp
  refine ⟨by simpa using List.mem_takeWhile_imp hm, fun d hd hle => ?_⟩
  have hd2 : d ∈ l.takeWhile (fun x => decide (x.rev ≤ e.rev)) := by
    by_contra hc
    have hsp := List.takeWhile_append_dropWhile (p := fun x : Entry => decide (x.rev ≤ e.rev)) (l := l)
    rw [← hsp] at hd
    rcases List.mem_append.1 hd with h | h
    · exact hc h
    · have hs2 := hs
      cases hdw : l.dropWhile (fun x => decide (x.rev ≤ e.rev)) with
      | nil => rw [hdw] at h; cases h
      | cons y ys =>
        have hne : l.dropWhile (fun x => decide (x.rev ≤ e.rev)) ≠ [] := by rw [hdw]; simp
        have hy := List.head_dropWhile_not (p := fun x : Entry => decide (x.rev ≤ e.rev)) (l := l) hne
        simp only [hdw, List.head_cons] at hy
        have hy : ¬ y.rev ≤ e.rev := by simpa using hy
        rw [← hsp, Sorted, List.pairwise_append, hdw] at hs2
        rw [hdw] at h
        rcases List.mem_cons.1 h with rfl | h
        · exact hy hle
        · have := (List.pairwise_cons.1 hs2.2.1).1 d h
          bv_omega
  have hs3 : (l.takeWhile (fun x => decide (x.rev ≤ e.rev))).Pairwise (fun a b => a.rev ≤ b.rev) := hs.sublist (List.takeWhile_sublist _)
  obtain ⟨A, hA⟩ : ∃ A, l.takeWhile (fun x => decide (x.rev ≤ e.rev)) = A ++ [pe] := by
    rw [List.getLast?_eq_some_iff] at hp
    exact hp
  rw [hA] at hd2 hs3
  rw [List.pairwise_append] at hs3
  rcases List.mem_append.1 hd2 with h | h
  · exact hs3.2.2 d h pe (by simp)
  · have : d = pe := by simpa using h
    rw [this]; simp

/-- A store of a new key that brings its bucket's counter above the limit divides the interval the key lies in, unless no entry lies between the boundary 0 and the
key, or the interval has size one. -/
theorem new_grows {E : Env} {st st2 : St} {op : Op} {r : St × Out} {k c : U64} {e : Entry} (h : Inv st) (x : EffNew E st op r st2 k c e)
    (hrev : e.rev = rev64 k) (hmax : rev64 k ≠ maxU64)
    (hlen : ((setMid st2 k (findBucket st.mem (rev64 k)) e).mem (findBucket st.mem (rev64 k))).len > st.maxPer) :
    (∃ A B n b c', NewBucket (setMid st2 k (findBucket st.mem (rev64 k)) e) r.1 A B n b c' ∧ (st.mem c').rev ≤ rev64 k ∧ (rev64 k < (st.mem n).rev ∨ n = [])) ∨
    (∀ d ∈ st.items, 0 < d.rev → rev64 k < d.rev) ∨
    (∃ A B n c', st.blist = A ++ n :: c' :: B ∧ bval n = bval c' + 1 ∧ (st.mem c').rev ≤ rev64 k ∧ (rev64 k < (st.mem n).rev ∨ n = [])) := by
  have hmid := x.midinv
  have hsn := x.setNew
  obtain ⟨f1, f2, f3⟩ := findBucket_spec h.bi.ti (rev64 k)
  have hf : e.ref ∉ refs st.items := by
    rw [x.ref]
    intro hc
    obtain ⟨y, hy, hr⟩ := List.mem_map.1 hc
    have := (h.ii.itm y hy _ hr).2
    omega
  have hlt : rev64 k < maxU64 := by
    have hm : maxU64.toNat = 2 ^ 64 - 1 := by decide
    rw [BitVec.lt_def, hm]
    have := (rev64 k).isLt
    have : (rev64 k).toNat ≠ 2 ^ 64 - 1 := fun hc => hmax (BitVec.eq_of_toNat_eq (by rw [hc, hm]))
    omega
  have hits : (setMid st2 k (findBucket st.mem (rev64 k)) e).items = insAt e st.items := by
    have hinv2 : Inv { st2 with nextId := st.nextId } := ⟨by rw [x.mem, x.blist]; exact h.bi, by simp only [x.items, x.blist]; exact h.ii,
      by simp only [x.mem, x.lv]; exact h.lv⟩
    have := setInsert_eq (st := { st2 with nextId := st.nextId }) hinv2 (b := findBucket st.mem (rev64 k)) (e := e)
      (by simp only [x.mem]; exact f1) (by simp only [x.mem]; rw [hrev]; exact f3) (by rw [hrev]; exact hlt)
    rw [hrev] at this
    rw [← x.items]
    exact this
  have hE := setMid_eqL st2 k (findBucket st.mem (rev64 k)) e
  rw [x.mem] at hE
  have hbl : (setMid st2 k (findBucket st.mem (rev64 k)) e).blist = st.blist := x.blist
  have hmr : ∀ p, ((setMid st2 k (findBucket st.mem (rev64 k)) e).mem p).rev = (st.mem p).rev := fun p => (hE.fields p).2.1
  rw [setNew_eq, if_pos (by rw [x.maxPer]; exact hlen)] at hsn
  generalize setMid st2 k (findBucket st.mem (rev64 k)) e = mid at *
  unfold makeBucket at hsn
  have hany : mid.items.any (fun y => decide (y.ref = e.ref)) = true := by
    rw [List.any_eq_true]
    exact ⟨e, by rw [hits]; exact mem_insAt.2 (Or.inl rfl), by simp⟩
  rw [if_pos hany] at hsn
  have hd0 : dummyEntry [0] (bvRev [0]) ∈ st.items := h.ii.has [0] (h.bi.top_mem (by omega))
  have hz : (dummyEntry [0] (bvRev [0])).rev = 0 := by decide
  cases hp : (beforeRef e.ref mid.items).getLast? with
  | none =>
    exfalso
    rw [hits, List.getLast?_eq_none_iff, pred_insAt hf] at hp
    cases hi : st.items with
    | nil => rw [hi] at hd0; cases hd0
    | cons y ys =>
      rw [hi] at hp
      have hy : y.rev = 0 := by
        have hs := h.ii.sorted
        rw [hi] at hd0 hs
        rcases List.mem_cons.1 hd0 with h1 | h1
        · rw [← h1]; exact hz
        · have := (List.pairwise_cons.1 hs).1 _ h1
          rw [hz] at this
          bv_omega
      rw [List.takeWhile_cons_of_pos (by rw [hy, decide_eq_true_eq]; bv_omega)] at hp
      cases hp
  | some pe =>
    rw [hp] at hsn
    simp only at hsn
    rw [hits] at hp
    obtain ⟨q1, q2⟩ := pred_ge h.ii.sorted hf hp
    rw [hrev] at q1 q2
    -- the interval of the entry before is the interval of the new one
    have same : ∀ {n c' : Path} {A B : List Path}, st.blist = A ++ n :: c' :: B → (st.mem c').rev ≤ pe.rev → (pe.rev < (st.mem n).rev ∨ n = []) →
        (st.mem c').rev ≤ rev64 k ∧ (rev64 k < (st.mem n).rev ∨ n = []) := by
      intro n c' A B hb h1 h2
      refine ⟨by bv_omega, ?_⟩
      rcases h2 with h2 | h2
      · left
        by_contra hc
        have hn : n ∈ st.blist := by rw [hb]; simp
        have := q2 _ (h.ii.has n hn) (by show bvRev n ≤ _; rw [← h.bi.rev_eq hn]; bv_omega)
        have e2 : (dummyEntry n (bvRev n)).rev = (st.mem n).rev := (h.bi.rev_eq hn).symm
        rw [e2] at this
        bv_omega
      · exact Or.inr h2
    by_cases hpe : pe.rev = 0
    · right; left
      intro d hd hdp
      by_contra hc
      have := q2 d hd (by bv_omega)
      rw [hpe] at this
      bv_omega
    · rcases makeBucketAt_how hmid pe.rev with ⟨st', g1, _, g3⟩ | ⟨g1, _⟩
      · rw [g1] at hsn
        injection hsn with hsn
        subst hsn
        rcases g3 with ⟨_, g3⟩ | ⟨A, B, n, b, c', g3, g4, g5⟩
        · rcases g3 with g3 | ⟨A, B, n, c', g3, g4, g5, g6⟩
          · exact absurd g3 (searchBucket_some hmid.bi (by bv_omega))
          · right; right
            rw [hmr] at g5 g6
            rw [hbl] at g3
            exact ⟨A, B, n, c', g3, g4, same g3 g5 g6⟩
        · left
          rw [hmr] at g4 g5
          have := g3.old
          rw [hbl] at this
          exact ⟨A, B, n, b, c', g3, same this g4 g5⟩
      · rw [g1] at hsn; cases hsn

end SLM

namespace SLM
open History

/-! ### Before the first division -/

/-- Items, deleted ones included, in the `i`-th sixteenth of the hash space. -/
def inTop (i : Nat) (items : List Entry) : Nat := items.countP (fun e => !e.dummy && decide (nib e.rev 1 = i))

theorem inTop_insAt (i : Nat) (e : Entry) (l : List Entry) : inTop i (insAt e l) = inTop i l + (if !e.dummy && decide (nib e.rev 1 = i) then 1 else 0) := by
  unfold inTop insAt
  conv => rhs; rw [← List.takeWhile_append_dropWhile (p := fun x => decide (x.rev ≤ e.rev)) (l := l)]
  simp only [List.countP_append, List.countP_cons]
  omega

theorem inTop_mapAt (i : Nat) (r : Ref) (g : Entry → Entry) (l : List Entry) (h1 : ∀ e, (g e).dummy = e.dummy) (h2 : ∀ e, (g e).rev = e.rev) :
    inTop i (mapAt r g l) = inTop i l := by
  unfold inTop mapAt
  rw [List.countP_map]
  congr 1
  funext e
  simp only [Function.comp]
  split
  · rw [h1, h2]
  · rfl

/-- No bucket has been divided, the counters are right, and only the lowest is above the limit. -/
structure Young (st : St) : Prop where
  mem : EqL initMem st.mem
  bl : st.blist = (initSt {}).blist
  cnt : ∀ i, i < 16 → (inTop i st.items : Int) = (st.mem [i]).len
  lim : ∀ i, 0 < i → i < 16 → (st.mem [i]).len ≤ st.maxPer

theorem young_find {m : Path → Bkt} (h : EqL initMem m) (r : U64) : findBucket m r = [nib r 1] := by
  unfold findBucket descend
  rw [if_pos]
  rw [(h.fields [nib r 1]).2.2.2.2.1]
  have := nib_lt r 1
  simp [initMem, this]

theorem young_init {cfg : Cfg} (h : 0 ≤ cfg.maxPer) : Young (initSt cfg) := by
  have hl : ∀ i, i < 16 → (initMem [i]).len = 0 := by
    intro i hi; simp [initMem, hi]
  have hz : ∀ i, inTop i (initSt cfg).items = 0 := by
    intro i
    unfold inTop
    rw [List.countP_eq_zero]
    intro e he
    simp [initSt_dummy cfg e he]
  refine ⟨?_, ?_, ?_, ?_⟩
  · rw [initSt_mem]; intro p; rfl
  · rw [initSt_blist, initSt_blist]
  · intro i hi; rw [initSt_mem, hl i hi, hz]; rfl
  · intro i _ hi; rw [initSt_mem, hl i hi, initSt_maxPer]; exact h

theorem init_gap {A B : List Path} {n c : Path} (h : (initSt {}).blist = A ++ n :: c :: B) : ∃ i, i < 16 ∧ c = [i] ∧ bval c = i * 2 ^ 60 ∧ bval n = (i + 1) * 2 ^ 60 := by
  have hch : (initSt {}).blist.IsChain (fun n c => ∃ i, i < 16 ∧ c = [i] ∧ bval c = i * 2 ^ 60 ∧ bval n = (i + 1) * 2 ^ 60) := by
    have : ∀ l : List Nat, (∀ i ∈ l, i < 16) → l.IsChain (fun a b => a = b + 1) →
        (l.map (fun i => [i])).IsChain (fun n c : Path => ∃ i, i < 16 ∧ c = [i] ∧ bval c = i * 2 ^ 60 ∧ bval n = (i + 1) * 2 ^ 60) := by
      intro l hl hc
      rw [List.isChain_map]
      refine List.IsChain.imp_of_mem_imp ?_ hc
      rintro a b ha hb rfl
      refine ⟨b, hl b hb, rfl, ?_, ?_⟩
      · have : ∀ i, i < 16 → bval [i] = i * 2 ^ 60 := by decide +kernel
        exact this b (hl b hb)
      · have : ∀ i, i < 16 → bval [i] = i * 2 ^ 60 := by decide +kernel
        exact this (b + 1) (hl (b + 1) ha)
    rw [initSt_blist]
    have h2 : (List.range 16).map (fun i => [15 - i]) = ((List.range 16).map (fun i => 15 - i)).map (fun i => [i]) := by
      rw [List.map_map]; rfl
    rw [h2, List.isChain_cons]
    refine ⟨?_, this _ (by intro i hi; simp at hi; omega) (by decide)⟩
    intro y hy
    have : y = [15] := by
      have e : (List.map (fun i => [i]) (List.map (fun i => 15 - i) (List.range 16))).head? = some [15] := by decide
      rw [e] at hy
      simpa using hy.symm
    subst this
    exact ⟨15, by omega, rfl, by decide, by decide⟩
  rw [h] at hch
  exact (List.isChain_cons_cons.1 (List.isChain_append.1 hch).2.1).1

theorem grow_blist {mid st' : St} (h : Grow mid st') : st'.blist.length = mid.blist.length ∨ st'.blist.length = mid.blist.length + 1 := by
  rcases h with rfl | ⟨A, B, n, b, c, hb⟩
  · exact Or.inl rfl
  · right; rw [hb.new, hb.old]; simp; omega

theorem step_young {E : Env} {st : St} (h : Inv st) (y : Young st) {op : Op} (hf : ∀ it, op = .storeItem it → it.rev0 = 0)
    (hk : ∀ k c, storeHash E.H op = some (k, c) → k ≠ maxU64) : Young (step E st op).1 ∨ 17 < (step E st op).1.blist.length := by
  rcases step_eff E h op with x | ⟨e, nv, b, x⟩ | ⟨key, e, x⟩ | ⟨st2, k, c, e, x⟩
  · obtain ⟨b, hb⟩ := x.same
    rw [hb]
    exact Or.inl ⟨y.mem, y.bl, y.cnt, y.lim⟩
  · rw [x.res]
    refine Or.inl ⟨y.mem, y.bl, fun i hi => ?_, y.lim⟩
    rw [← y.cnt i hi]
    congr 1
    exact inTop_mapAt i e.ref (fun x => { x with val := nv }) st.items (fun _ => rfl) (fun _ => rfl)
  · rw [x.res]
    refine Or.inl ⟨y.mem, y.bl, fun i hi => ?_, y.lim⟩
    rw [← y.cnt i hi]
    congr 1
    exact inTop_mapAt i e.ref (fun x => { x with deleted := true, key := match st.itemFn with | .entry => .nil | .sample => x.key }) st.items
      (fun _ => rfl) (fun _ => rfl)
  · have hrev : e.rev = rev64 k := by
      rcases x.pre with ⟨s, v, _, _, he⟩ | ⟨it, hop, _, he⟩
      · rw [he]; rfl
      · rw [he]; simp [newItemEntry, hf it hop]
    have hmax : rev64 k ≠ maxU64 := by
      intro hc
      apply hk k c x.hash
      rw [← rev64_rev64 k, hc]
      decide +kernel
    have hgr := new_grows h x hrev hmax
    obtain ⟨hits⟩ : Nonempty ((setMid st2 k (findBucket st.mem (rev64 k)) e).items = insAt e st.items) := ⟨by
      obtain ⟨f1, f2, f3⟩ := findBucket_spec h.bi.ti (rev64 k)
      have hinv2 : Inv { st2 with nextId := st.nextId } := ⟨by rw [x.mem, x.blist]; exact h.bi, by simp only [x.items, x.blist]; exact h.ii,
        by simp only [x.mem, x.lv]; exact h.lv⟩
      have hlt : rev64 k < maxU64 := by
        have hm : maxU64.toNat = 2 ^ 64 - 1 := by decide
        rw [BitVec.lt_def, hm]
        have := (rev64 k).isLt
        have : (rev64 k).toNat ≠ 2 ^ 64 - 1 := fun hc => hmax (BitVec.eq_of_toNat_eq (by rw [hc, hm]))
        omega
      have := setInsert_eq (st := { st2 with nextId := st.nextId }) hinv2 (b := findBucket st.mem (rev64 k)) (e := e)
        (by simp only [x.mem]; exact f1) (by simp only [x.mem]; rw [hrev]; exact f3) (by rw [hrev]; exact hlt)
      rw [hrev] at this
      rw [← x.items]
      exact this⟩
    have hbl0 : (initSt {}).blist.length = 17 := by rw [initSt_blist]; simp
    rcases x.grow with hg | ⟨A, B, n, b, c', hb⟩
    · left
      rw [young_find y.mem] at hg hgr hits
      rw [hg]
      have hE := setMid_eqL st2 k [nib (rev64 k) 1] e
      rw [x.mem] at hE
      have hn := nib_lt (rev64 k) 1
      have hlv : (st.mem [nib (rev64 k) 1]).level > 0 := by
        rw [(y.mem.fields _).1]; simp [initMem, hn]
      have hlen : ∀ i, ((setMid st2 k [nib (rev64 k) 1] e).mem [i]).len = (st.mem [i]).len + (if i = nib (rev64 k) 1 then 1 else 0) := by
        intro i
        simp only [setMid, x.mem, if_pos hlv, upd]
        by_cases hi : i = nib (rev64 k) 1
        · subst hi; simp
        · simp [hi]
      have hmp : (setMid st2 k [nib (rev64 k) 1] e).maxPer = st.maxPer := x.maxPer
      refine ⟨y.mem.trans hE, x.blist.trans y.bl, fun i hi => ?_, fun i h0 hi => ?_⟩
      · rw [hits, inTop_insAt, hlen, ← y.cnt i hi, hrev]
        by_cases hc : i = nib (rev64 k) 1
        · subst hc; simp [x.nodummy]
        · have : ¬ nib (rev64 k) 1 = i := fun hh => hc hh.symm
          simp [hc, this]
      · rw [hmp]
        by_cases hc : i = nib (rev64 k) 1
        · by_contra hgt
          subst hc
          rcases hgr (by omega) with ⟨A, B, n, b, c', hb, _⟩ | hall | ⟨A, B, n, c', hbl, hv, _⟩
          · have h1 := hb.new
            have h2 := hb.old
            rw [hg] at h1
            rw [h1] at h2
            have := congrArg List.length h2
            simp at this
          · have hm : [nib (rev64 k) 1] ∈ st.blist := h.bi.top_mem hn
            have e1 := h.bi.rev_toNat hm (by simp)
            have e2 : bval [nib (rev64 k) 1] = nib (rev64 k) 1 * 2 ^ 60 := by
              have : ∀ i, i < 16 → bval [i] = i * 2 ^ 60 := by decide +kernel
              exact this _ hn
            have := hall _ (h.ii.has _ hm) (by
              show 0 < bvRev _
              rw [← h.bi.rev_eq hm, BitVec.lt_def, e1, e2]
              show 0 < _
              omega)
            have e3 : (dummyEntry [nib (rev64 k) 1] (bvRev [nib (rev64 k) 1])).rev = (st.mem [nib (rev64 k) 1]).rev := (h.bi.rev_eq hm).symm
            rw [e3, BitVec.lt_def, e1, e2, nib_eq] at this
            have hlt := (rev64 k).isLt
            have : (16 : Nat) ^ (16 - 1) = 2 ^ 60 := by decide
            omega
          · rw [y.bl] at hbl
            obtain ⟨i, _, _, h3, h4⟩ := init_gap hbl
            omega
        · rw [hlen, if_neg hc]
          have := y.lim i h0 hi
          omega
    · right
      rw [hb.new]
      have h2 := congrArg List.length hb.old
      have h3 : (setMid st2 k (findBucket st.mem (rev64 k)) e).blist = st.blist := x.blist
      rw [h3, y.bl, hbl0] at h2
      simp at h2 ⊢
      omega

theorem step_blist (E : Env) {st : St} (h : Inv st) (op : Op) : st.blist.length ≤ (step E st op).1.blist.length := by
  rcases step_eff E h op with x | ⟨e, nv, b, x⟩ | ⟨key, e, x⟩ | ⟨st2, k, c, e, x⟩
  · obtain ⟨b, hb⟩ := x.same
    rw [hb]
  · rw [x.res]
  · rw [x.res]
  · have h3 : (setMid st2 k (findBucket st.mem (rev64 k)) e).blist = st.blist := x.blist
    rcases grow_blist x.grow with g | g <;> rw [h3] at g <;> omega

theorem run_young {E : Env} {ops : List Op} {st : St} (h : Inv st) (y : Young st ∨ 17 < st.blist.length) (hf : FreshItems ops)
    (hk : ∀ op ∈ ops, ∀ k c, storeHash E.H op = some (k, c) → k ≠ maxU64) : Young (run E st ops).1 ∨ 17 < (run E st ops).1.blist.length := by
  induction ops generalizing st with
  | nil => exact y
  | cons op ops ih =>
    rw [run_cons]
    refine ih (step_inv E h op) ?_ (fun it hit => hf it (by simp [hit])) (fun o ho => hk o (by simp [ho]))
    rcases y with y | y
    · exact step_young h y (fun it hit => (hf it (by simp [hit])).1) (hk op (by simp))
    · right
      have := step_blist E h op
      omega

end SLM
