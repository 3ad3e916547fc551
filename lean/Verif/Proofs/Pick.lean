import Verif.Proofs.Locate
import Verif.Proofs.Sim3
/-! The bucket the sequential map starts from is the one `pkExact` (Model/Conc.lean) chooses from the item list alone. -/
set_option autoImplicit false
namespace SLM.Conc

theorem bestBelow_max {ok : U64 → Bool} {l : List Entry} {d : Entry} (h : bestBelow ok l = some d) :
    ∀ e ∈ l, e.dummy = true → ok e.rev = true → e.rev ≤ d.rev := by
  induction l generalizing d with
  | nil => cases h
  | cons x xs ih =>
    intro e he h1 h2
    unfold bestBelow at h
    cases hb : bestBelow ok xs with
    | none =>
      rw [hb] at h
      simp only at h
      split at h
      · cases h
        rcases List.mem_cons.1 he with rfl | he
        · simp
        · obtain ⟨z, hz⟩ := bestBelow_isSome ⟨e, he, h1, h2⟩
          rw [hb] at hz; cases hz
      · cases h
    | some d' =>
      rw [hb] at h
      simp only at h
      have hx : ∀ e ∈ xs, e.dummy = true → ok e.rev = true → e.rev ≤ d'.rev := ih hb
      split at h
      · rename_i hc
        cases h
        simp only [Bool.and_eq_true, decide_eq_true_eq] at hc
        rcases List.mem_cons.1 he with rfl | he
        · simp
        · have := hx e he h1 h2
          have := hc.2
          bv_omega
      · rename_i hc
        cases h
        rcases List.mem_cons.1 he with rfl | he
        · simp only [h1, h2, Bool.and_self, Bool.true_and, decide_eq_true_eq] at hc
          bv_omega
        · exact hx e he h1 h2

theorem bestAbove_isSome {r : U64} {l : List Entry} (h : ∃ d ∈ l, d.dummy = true ∧ r < d.rev) : ∃ d, bestAbove r l = some d := by
  induction l with
  | nil => obtain ⟨d, hd, _⟩ := h; cases hd
  | cons e es ih =>
    unfold bestAbove
    cases hb : bestAbove r es with
    | none =>
      obtain ⟨d, hd, h1, h2⟩ := h
      rcases List.mem_cons.1 hd with rfl | hd
      · simp only [h1, h2, decide_true, Bool.and_self, if_true]; exact ⟨_, rfl⟩
      · obtain ⟨z, hz⟩ := ih ⟨d, hd, h1, h2⟩
        rw [hb] at hz; cases hz
    | some d =>
      simp only
      split <;> exact ⟨_, rfl⟩

theorem bestAbove_above {r : U64} {l : List Entry} {d : Entry} (h : bestAbove r l = some d) : r < d.rev := by
  induction l generalizing d with
  | nil => cases h
  | cons e es ih =>
    unfold bestAbove at h
    cases hb : bestAbove r es with
    | none =>
      rw [hb] at h
      simp only at h
      split at h
      · rename_i h1; cases h; simp at h1; exact h1.2
      · cases h
    | some d' =>
      rw [hb] at h
      simp only at h
      have := ih hb
      split at h
      · rename_i h1; cases h; simp at h1; exact h1.1.2
      · cases h; exact this

theorem bestAbove_min {r : U64} {l : List Entry} {d : Entry} (h : bestAbove r l = some d) :
    ∀ e ∈ l, e.dummy = true → r < e.rev → d.rev ≤ e.rev := by
  induction l generalizing d with
  | nil => cases h
  | cons x xs ih =>
    intro e he h1 h2
    unfold bestAbove at h
    cases hb : bestAbove r xs with
    | none =>
      rw [hb] at h
      simp only at h
      split at h
      · cases h
        rcases List.mem_cons.1 he with rfl | he
        · simp
        · obtain ⟨z, hz⟩ := bestAbove_isSome ⟨e, he, h1, h2⟩
          rw [hb] at hz; cases hz
      · cases h
    | some d' =>
      rw [hb] at h
      simp only at h
      have hx : ∀ e ∈ xs, e.dummy = true → r < e.rev → d'.rev ≤ e.rev := ih hb
      split at h
      · rename_i hc
        cases h
        simp only [Bool.and_eq_true, decide_eq_true_eq] at hc
        rcases List.mem_cons.1 he with rfl | he
        · simp
        · have := hx e he h1 h2
          have := hc.2
          bv_omega
      · rename_i hc
        cases h
        rcases List.mem_cons.1 he with rfl | he
        · simp only [h1, h2, decide_true, Bool.and_self, Bool.true_and, decide_eq_true_eq] at hc
          bv_omega
        · exact hx e he h1 h2

theorem bvRev_inj {st : St} (h : Inv st) {p q : Path} (hp : p ∈ st.blist) (hq : q ∈ st.blist) (e : bvRev p = bvRev q) : p = q := by
  rw [← h.bi.rev_eq hp, ← h.bi.rev_eq hq] at e
  have h1 : ¬ bval p < bval q := fun hc => by have := (h.bi.rev_lt_iff hp hq).2 hc; rw [e] at this; bv_omega
  have h2 : ¬ bval q < bval p := fun hc => by have := (h.bi.rev_lt_iff hq hp).2 hc; rw [e] at this; bv_omega
  by_contra hne
  have hd := h.bi.desc
  obtain ⟨A, B, hAB⟩ := List.append_of_mem hp
  rw [hAB] at hd hq
  rw [List.pairwise_append, List.pairwise_cons] at hd
  rcases List.mem_append.1 hq with hq | hq
  · exact h1 (hd.2.2 q hq p (by simp))
  · rcases List.mem_cons.1 hq with hq | hq
    · exact hne hq.symm
    · exact h2 (hd.2.1.1 q hq)

theorem dummy_path {st : St} (h : Inv st) {d : Entry} (hd : d ∈ st.items) (h1 : d.dummy = true) :
    ∃ p ∈ st.blist, d = dummyEntry p (bvRev p) := by
  cases hr : d.ref with
  | item n => have := (h.ii.itm d hd n hr).1; rw [h1] at this; cases this
  | dummy p => exact ⟨p, h.ii.dum d hd p hr⟩

theorem bestBelow_eq {st : St} (h : Inv st) {ok : U64 → Bool} {b : Path} (hb : b ∈ st.blist) (h1 : ok (bvRev b) = true)
    (h2 : ∀ q ∈ st.blist, ok (bvRev q) = true → bvRev q ≤ bvRev b) : bestBelow ok st.items = some (dummyEntry b (bvRev b)) := by
  obtain ⟨d, hd⟩ := bestBelow_isSome (ok := ok) (l := st.items) ⟨_, h.ii.has b hb, rfl, h1⟩
  obtain ⟨m1, m2, m3⟩ := bestBelow_some hd
  obtain ⟨p, hp, rfl⟩ := dummy_path h m1 m2
  have e1 := bestBelow_max hd _ (h.ii.has b hb) rfl h1
  have e2 := h2 p hp m3
  have e3 : bvRev p = bvRev b := by
    simp only [dummyEntry] at e1
    bv_omega
  have := bvRev_inj h hp hb e3
  subst this
  exact hd

theorem bestAbove_eq {st : St} (h : Inv st) {r : U64} {b : Path} (hb : b ∈ st.blist) (h1 : r < bvRev b)
    (h2 : ∀ q ∈ st.blist, r < bvRev q → bvRev b ≤ bvRev q) : bestAbove r st.items = some (dummyEntry b (bvRev b)) := by
  obtain ⟨d, hd⟩ := bestAbove_isSome (r := r) (l := st.items) ⟨_, h.ii.has b hb, rfl, h1⟩
  obtain ⟨m1, m2⟩ := bestAbove_some hd
  have m3 := bestAbove_above hd
  obtain ⟨p, hp, rfl⟩ := dummy_path h m1 m2
  have e1 := bestAbove_min hd _ (h.ii.has b hb) rfl h1
  have e2 := h2 p hp m3
  have e3 : bvRev p = bvRev b := by
    simp only [dummyEntry] at e1
    bv_omega
  have := bvRev_inj h hp hb e3
  subst this
  exact hd

theorem bvRev_toNat {st : St} (h : Inv st) {q : Path} (hq : q ∈ st.blist) (hn : q ≠ []) : (bvRev q).toNat = bval q := by
  rw [← h.bi.rev_eq hq]; exact h.bi.rev_toNat hq hn

theorem owner_rev {st : St} (h : Inv st) (nz : NZ st.mem) {t : U64} (sh : Flat st.mem t) (ht : t ≠ maxU64) :
    basePath st.mem (findBucket st.mem t) ∈ st.blist ∧ basePath st.mem (findBucket st.mem t) ≠ [] ∧
    bvRev (basePath st.mem (findBucket st.mem t)) ≤ t ∧
    ∀ q ∈ st.blist, bvRev q ≤ t → bvRev q ≤ bvRev (basePath st.mem (findBucket st.mem t)) := by
  obtain ⟨h1, h2, h3, h4⟩ := owner_flat h.bi nz sh
  generalize basePath st.mem (findBucket st.mem t) = b at h1 h2 h3 h4
  have e := bvRev_toNat h h1 h2
  refine ⟨h1, h2, by rw [BitVec.le_def, e]; exact h3, ?_⟩
  intro q hq hle
  by_cases hn : q = []
  · subst hn
    exfalso
    simp only [bvRev, if_true] at hle
    have hmx : maxU64 = 18446744073709551615#64 := by decide
    rw [hmx] at ht hle
    bv_omega
  · have e' := bvRev_toNat h hq hn
    rw [BitVec.le_def, e'] at hle
    rw [BitVec.le_def, e, e']
    exact h4 q hq hn hle

theorem below_owner {st : St} (h : Inv st) (nz : NZ st.mem) {t : U64} (sh : Flat st.mem t) (ht : t ≠ maxU64) :
    bestBelow (fun r => decide (r ≤ t)) st.items =
      some (dummyEntry (basePath st.mem (findBucket st.mem t)) (bvRev (basePath st.mem (findBucket st.mem t)))) := by
  obtain ⟨h1, _, h3, h4⟩ := owner_rev h nz sh ht
  exact bestBelow_eq h h1 (by simpa using h3) (fun q hq hle => h4 q hq (by simpa using hle))

/-- The neighbour above a listed bucket. -/
theorem prev_above {st : St} (h : Inv st) {b : Path} (hb : b ∈ st.blist) (hn : b ≠ []) :
    st.prevAsB b ∈ st.blist ∧ bestAbove (bvRev b) st.items = some (dummyEntry (st.prevAsB b) (bvRev (st.prevAsB b))) := by
  obtain ⟨P, Q, hPQ⟩ := List.append_of_mem hb
  have hP : P ≠ [] := by
    rintro rfl
    obtain ⟨r, hr⟩ := h.bi.head
    rw [hr] at hPQ
    simp at hPQ
    exact hn hPQ.1
  obtain ⟨A, n, rfl⟩ : ∃ A n, P = A ++ [n] := ⟨P.dropLast, P.getLast hP, (List.dropLast_append_getLast hP).symm⟩
  have hd := h.bi.desc
  rw [hPQ, List.pairwise_append] at hd
  have hne : ∀ x ∈ A ++ [n], x ≠ b := by
    intro x hx he
    have := hd.2.2 x hx b (by simp)
    rw [he] at this
    omega
  have hp : st.prevAsB b = n := by
    unfold St.prevAsB
    rw [if_pos hb, hPQ]
    have : ((A ++ [n]) ++ b :: Q).takeWhile (fun q => decide (q ≠ b)) = A ++ [n] := by
      rw [List.takeWhile_append_of_pos (by intro x hx; simpa using hne x hx), List.takeWhile_cons_of_neg (by simp)]
      simp
    rw [this]
    simp
  have hnm : n ∈ st.blist := by rw [hPQ]; simp
  rw [hp]
  refine ⟨hnm, bestAbove_eq h hnm ?_ ?_⟩
  · rw [← h.bi.rev_eq hb, ← h.bi.rev_eq hnm, h.bi.rev_lt_iff hb hnm]
    exact hd.2.2 n (by simp) b (by simp)
  · intro q hq hlt
    rw [← h.bi.rev_eq hb, ← h.bi.rev_eq hq, h.bi.rev_lt_iff hb hq] at hlt
    by_contra hc
    have hc : bvRev q < bvRev n := by bv_omega
    rw [← h.bi.rev_eq hnm, ← h.bi.rev_eq hq, h.bi.rev_lt_iff hq hnm] at hc
    have hm := hq
    rw [hPQ] at hm
    simp only [List.append_assoc, List.mem_append, List.mem_cons, List.not_mem_nil, or_false] at hm
    rw [List.pairwise_append] at hd
    rcases hm with hm | rfl | rfl | hm
    · have := hd.1.2.2 q hm n (by simp); omega
    · omega
    · omega
    · have := (List.pairwise_cons.1 hd.2.1).1 q hm; omega

/-- Whether the bucket found for the hash is a child 0, which stands for its parent and is in no list. -/
def standIn (st : St) (t : U64) : Bool := (st.mem (findBucket st.mem t)).isAlias

/-- The calls whose bucket the machine of Model/Conc.lean chooses as the code does. -/
def Usual (st : St) : Call → Prop
  | .get t _ => (Flat st.mem t ∧ t ≠ maxU64) ∧ (st.mode = modeCombine ∨ (st.mode ≠ modeCombine2 ∧ standIn st t = false))
  | .set t _ _ _ => Flat st.mem t ∧ t ≠ maxU64
  | .del t _ => Flat st.mem t ∧ t ≠ maxU64
  | .split t _ => ∀ q ∈ st.blist, bvRev q ≠ t
  | _ => False

theorem bucketOf_exact {st : St} (h : Inv st) (nz : NZ st.mem) {cl : Call} (hu : Usual st cl) :
    bucketOf st cl = pkBucket st.mode st.items cl := by
  cases cl with
  | set t c k v => simp only [bucketOf, pkBucket, below_owner h nz hu.1 hu.2]; rfl
  | del t c => simp only [bucketOf, pkBucket, below_owner h nz hu.1 hu.2]; rfl
  | range => exact hu.elim
  | foreign => exact hu.elim
  | get t c =>
    obtain ⟨ht, hm⟩ := hu
    simp only [bucketOf, pkBucket, below_owner h nz ht.1 ht.2]
    rcases hm with hm | ⟨hm, ha⟩
    · have hl : ∀ b, lower st b t = b := fun b => by
        unfold lower
        rw [if_neg]
        rintro ⟨h1, _⟩
        rw [hm] at h1
        cases h1
      have hk : bucketForKey st t = findBucket st.mem t := by unfold bucketForKey; simp [hm]
      rw [hk, hl]
      cases bestAbove (dummyEntry (basePath st.mem (findBucket st.mem t)) (bvRev (basePath st.mem (findBucket st.mem t)))).rev st.items with
      | none => rfl
      | some p => simp [hm, St.head, dummyEntry]
    · have hl : ∀ b, lower st b t = b := fun b => by
        unfold lower
        rw [if_neg]
        rintro ⟨h1, _⟩
        exact hm h1
      obtain ⟨f1, f2, _⟩ := findBucket_spec h.bi.ti t
      have hbp : basePath st.mem (findBucket st.mem t) = findBucket st.mem t := basePath_of_not_alias ha
      have hb : findBucket st.mem t ∈ st.blist := (h.bi.mem_iff _ f2).2 ⟨f1, ha⟩
      rw [hbp, hl]
      obtain ⟨p1, p2⟩ := prev_above h hb f2
      simp only [dummyEntry] at p2
      simp only [dummyEntry, p2]
      unfold bucketForKey
      simp only [h.bi.rev_eq hb, h.bi.rev_eq p1]
      by_cases hc : st.mode = modeCombine
      · simp [hc, St.head, hbp]
      · by_cases hne : near (bvRev (st.prevAsB (findBucket st.mem t))) (bvRev (findBucket st.mem t)) t = bvRev (findBucket st.mem t)
        · simp [hne, St.head, hbp]
        · simp [hc, hne, St.head, basePath_self h.bi p1]
  | split t p =>
    have hz : [0] ∈ st.blist := h.bi.top_mem (by omega)
    have hz0 : bvRev [0] ≤ t := by
      have : bvRev [0] = 0 := by decide
      rw [this]; bv_omega
    cases hf : st.blist.find? (fun q => decide ((st.mem q).rev ≤ t)) with
    | none =>
      have := List.find?_eq_none.1 hf [0] hz
      rw [h.bi.rev_eq hz] at this
      simp at this
      bv_omega
    | some b =>
      have hb := List.mem_of_find?_eq_some hf
      have hle := List.find?_some hf
      rw [h.bi.rev_eq hb] at hle
      simp only [decide_eq_true_eq] at hle
      have hlt : bvRev b < t := by have := hu b hb; bv_omega
      have := bestBelow_eq h (ok := fun r => decide (r < t)) hb (by simpa using hlt) (by
        intro q hq hlq
        simp only [decide_eq_true_eq] at hlq
        by_contra hc
        have hc : bvRev b < bvRev q := by bv_omega
        obtain ⟨_, P, Q, hPQ, hall⟩ := List.find?_eq_some_iff_append.1 hf
        have hm := hq
        rw [hPQ] at hm
        rw [← h.bi.rev_eq hb, ← h.bi.rev_eq hq, h.bi.rev_lt_iff hb hq] at hc
        have hd := h.bi.desc
        rw [hPQ, List.pairwise_append] at hd
        rcases List.mem_append.1 hm with hm | hm
        · have := hall q hm
          rw [h.bi.rev_eq hq] at this
          simp at this
          bv_omega
        · rcases List.mem_cons.1 hm with rfl | hm
          · omega
          · have := (List.pairwise_cons.1 hd.2.1).1 q hm
            omega)
      simp only [bucketOf, pkBucket, hf, this]
      rfl

variable {Pk Pk' : CSt → Call → Ref → Prop}

theorem Solo.pk_past {g : Tid} {a c : CSt} (h : Solo Pk g a c) (hp : Past (a.pc g)) : Solo Pk' g a c ∧ Past (c.pc g) := by
  induction h with
  | refl => exact ⟨.refl _, hp⟩
  | step _ st ih => exact ⟨.step ih.1 (st.pk ih.2), st.past ih.2⟩

theorem Solo.cons {g : Tid} {a b c : CSt} (st : Step Pk a g b) (h : Solo Pk g b c) : Solo Pk g a c := by
  induction h with
  | refl => exact .step (.refl _) st
  | step _ st' ih => exact .step ih st'

/-- A call that runs alone locates its bucket on the item list it finds. -/
theorem Alone1.swap {s s' : CSt} {cl : Call} {r : Res} (h : Alone1 Pk s cl r s') (hp : ∀ x b, x.items = s.items → Pk x cl b → Pk' x cl b) :
    Alone1 Pk' s cl r s' := by
  obtain ⟨g, s1, h0, h1, h2, h3, h4⟩ := h
  have hs : Step Pk' s g s1 ∧ s1.items = s.items := by
    clear h2 h3
    cases h1 <;> first | (exfalso; rw [h0] at *; contradiction; done) | skip
    case begin h1 h2 => exact ⟨.begin _ _ _ _ _ h1 h2, rfl⟩
    case beginSplit h1 h2 => exact ⟨.beginSplit _ _ _ _ h1 h2, rfl⟩
    case rangeStart h1 h2 => exact ⟨.rangeStart _ _ _ h1 h2, rfl⟩
    case foreignOpt h1 => exact ⟨.foreignOpt _ _ h1, rfl⟩
  refine ⟨g, s1, h0, hs.1, h2, ?_, h4⟩
  rcases h2 with h2 | ⟨_, x, h2⟩
  · rcases h3.inv with rfl | ⟨s2, h5, h6⟩
    · exact .refl _
    have h7 : Step Pk' s1 g s2 ∧ Past (s2.pc g) := by
      cases h5 <;> rw [setPC_same] <;> first | (exfalso; rw [h2] at *; contradiction; done) | skip
      case pickKey k1 k2 k3 k4 =>
        rw [h2] at k1; cases k1
        exact ⟨.pickKey _ _ _ _ _ _ _ h2 k2 (hp _ _ hs.2 k3) k4, trivial⟩
      case pickLost k1 k2 k3 k4 k5 => exact ⟨.pickLost _ _ _ _ _ _ _ k1 k2 k3 k4 k5, trivial⟩
      case pickSplit k1 k2 =>
        rw [h2] at k1; cases k1
        exact ⟨.pickSplit _ _ _ _ _ h2 (hp _ _ hs.2 k2), trivial⟩
    exact Solo.cons h7.1 (h6.pk_past h7.2).1
  · exact (h3.pk_past (by rw [h2]; trivial)).1

/-- On a machine that agrees with the sequential map, choosing the bucket from the item list alone is choosing it as the code does. -/
theorem alone_exact {st : St} {s s' : CSt} {cl : Call} {r : Res} (y : Sync st s) (nz : NZ st.mem)
    (hu : Usual st cl ∨ cl = .range) : Alone1 (pkExact st.mode) s cl r s' ↔ Alone1 (pkOf st) s cl r s' := by
  constructor
  · intro h
    apply h.swap
    intro x b hx hb
    rcases hu with hu | rfl
    · refine ⟨?_, (pkExact_ok st.mode).linked x cl b hb⟩
      rw [bucketOf_exact y.inv nz hu, ← y.items, ← hx]
      exact hb
    · cases hb
  · intro h
    apply h.swap
    intro x b hx hb
    rcases hu with hu | rfl
    · have := hb.1
      rw [bucketOf_exact y.inv nz hu, ← y.items, ← hx] at this
      exact this
    · have := hb.1
      cases this

end SLM.Conc
