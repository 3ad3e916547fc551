import Verif.Proofs.EmbSplit
import Verif.Spec
import Verif.History
import Mathlib.Data.List.Perm.Subperm
/-! Operations of embedded mode without deletions against the plain map. -/
set_option linter.unusedSimpArgs false
set_option autoImplicit false
namespace SLM.Emb
open Spec (PMap Ans)
variable {bl gl : List Path} {n c b : Path} {m : Path → Bkt} {st : St}

/-! ### lookup -/

structure Found (st : St) (r : U64) (b n : Path) (P : Pool) (xs : List Slot) (z : Nat) : Prop where
  adj : Adj st.blist n b
  pool : st.pools b = some P
  okp : OKP P xs z
  inside : ∀ s ∈ xs, bval b ≤ s.rev.toNat ∧ s.rev.toNat < bval n
  lo : bval b ≤ r.toNat
  hi : r.toNat < bval n
  only : ∀ q Q s, st.pools q = some Q → s ∈ Q.used → s.rev = r → q = b

/-- When every known bucket is linked, every lookup comes back. -/
theorem find_total (h : EI st st.blist) (k c : U64) : find st k c ≠ none := by
  unfold find
  simp only
  obtain ⟨o1, o2, _⟩ := owner_spec h.bi h.nz h.sh (rev64 k)
  generalize basePath st.mem (findBucket st.mem (rev64 k)) = b at *
  obtain ⟨n, ha⟩ := adj_next h.desc h.head o1 o2
  obtain ⟨P, xs, z, g1, _⟩ := h.content n b ha
  rw [g1]; simp

theorem find_spec (h : EI st gl) (k cc : U64) :
    (find st k cc = none ∧ gl ≠ st.blist) ∨ ∃ b n P xs z, find st k cc = some (b, P, P.lookup (rev64 k) cc) ∧ Found st (rev64 k) b n P xs z := by
  have htot : find st k cc = none → gl ≠ st.blist := by
    rintro h0 rfl; exact find_total h k cc h0
  unfold find at htot ⊢
  simp only at htot ⊢
  obtain ⟨o1, o2, o3, o4⟩ := owner_spec h.bi h.nz h.sh (rev64 k)
  generalize basePath st.mem (findBucket st.mem (rev64 k)) = b at *
  cases hP : st.pools b with
  | none => left; exact ⟨rfl, htot (by rw [hP])⟩
  | some P =>
    right
    obtain ⟨hb, hbn⟩ := h.pool b (by rw [hP]; rfl)
    obtain ⟨n, ha⟩ := adj_next h.desc h.head hb hbn
    obtain ⟨P', xs, z, g1, g2, g3⟩ := h.content n b ha
    rw [hP] at g1; injection g1 with g1; subst g1
    have hhi : (rev64 k).toNat < bval n := by
      by_cases hn : n = []
      · subst hn; rw [bval_nil]; exact (rev64 k).isLt
      · by_contra hc
        have := o4 n (h.sub n ha.1) hn (by omega)
        have := ha.2.2.1
        omega
    refine ⟨b, n, P, xs, z, rfl, ha, hP, g2, g3, o3, hhi, ?_⟩
    intro q Q s hQ hs hr
    obtain ⟨hq, hqn⟩ := h.pool q (by rw [hQ]; rfl)
    obtain ⟨n', ha'⟩ := adj_next h.desc h.head hq hqn
    obtain ⟨P', xs', z', g1', g2', g3'⟩ := h.content n' q ha'
    rw [hQ] at g1'; injection g1' with g1'; subst g1'
    rw [g2'.used] at hs
    have := g3' s hs
    rw [hr] at this
    exact (adj_le h.desc ha ha' (x := (rev64 k).toNat) o3 hhi this.1 this.2).2

theorem Found.stored_iff {r : U64} {P : Pool} {xs : List Slot} {z : Nat} (f : Found st r b n P xs z) {s : Slot} (hr : s.rev = r) :
    Stored st s ↔ s ∈ xs := by
  constructor
  · rintro ⟨q, Q, hQ, hs⟩
    have := f.only q Q s hQ hs hr
    subst this
    rw [f.pool] at hQ; injection hQ with hQ; subst hQ
    rwa [f.okp.used] at hs
  · intro hs
    exact ⟨b, P, f.pool, by rw [f.okp.used]; exact hs⟩

/-- Replacing the slots of one bucket. -/
theorem EI.replace (h : EI st gl) (ha : Adj st.blist n b) {Q : Pool} {ys : List Slot} {z : Nat} (hQ : OKP Q ys z)
    (hin : ∀ s ∈ ys, bval b ≤ s.rev.toNat ∧ s.rev.toNat < bval n) : EI { st with pools := upool st.pools b Q } gl := by
  refine ⟨h.bi, h.nz, h.sh, h.sub, h.head, h.desc, h.tops, h.width, ?_, ?_⟩
  · intro n' c' ha'
    by_cases hc : c' = b
    · subst hc
      have : n' = n := by
        have k1 := ha.2.2.2 n' ha'.1
        have k2 := ha'.2.2.2 n ha.1
        have := ha.2.2.1
        have := ha'.2.2.1
        exact bval_inj h.desc ha'.1 ha.1 (by omega)
      subst this
      exact ⟨Q, ys, z, by simp [upool], hQ, hin⟩
    · obtain ⟨P', xs', z', g1, g2, g3⟩ := h.content n' c' ha'
      exact ⟨P', xs', z', by simp [upool, hc, g1], g2, g3⟩
  · intro p hp
    simp only [upool] at hp
    by_cases e : p = b
    · subst e; exact ⟨ha.2.1, h.adj_ne ha⟩
    · rw [if_neg e] at hp; exact h.pool p hp

/-- Slots of other buckets. -/
def Other (st : St) (b : Path) (s : Slot) : Prop := ∃ q Q, q ≠ b ∧ st.pools q = some Q ∧ s ∈ Q.used

theorem stored_split {P : Pool} (hP : st.pools b = some P) (s : Slot) : Stored st s ↔ s ∈ P.used ∨ Other st b s := by
  constructor
  · rintro ⟨q, Q, hQ, hs⟩
    by_cases e : q = b
    · subst e; rw [hP] at hQ; injection hQ with hQ; subst hQ; exact Or.inl hs
    · exact Or.inr ⟨q, Q, e, hQ, hs⟩
  · rintro (h | ⟨q, Q, _, hQ, hs⟩)
    · exact ⟨b, P, hP, h⟩
    · exact ⟨q, Q, hQ, hs⟩

theorem stored_replace (Q : Pool) (s : Slot) :
    Stored { st with pools := upool st.pools b Q } s ↔ s ∈ Q.used ∨ Other st b s := by
  rw [stored_split (b := b) (P := Q) (by simp [upool])]
  constructor
  · rintro (h | ⟨q, Q', e, hQ, hs⟩)
    · exact Or.inl h
    · simp [upool, e] at hQ; exact Or.inr ⟨q, Q', e, hQ, hs⟩
  · rintro (h | ⟨q, Q', e, hQ, hs⟩)
    · exact Or.inl h
    · exact Or.inr ⟨q, Q', e, by simp [upool, e, hQ], hs⟩

/-! ### the relation to the plain map -/

/-- The hash pairs the history stores: one conflict hash per primary hash, not crowded, fewer than 2^62. -/
structure KOK (maxPer : Nat) (K : List (U64 × U64)) : Prop where
  one : ∀ k c c', (k, c) ∈ K → (k, c') ∈ K → c = c'
  sparse : ∀ L : List U64, L.Nodup → (∀ r ∈ L, ∃ c, (rev64 r, c) ∈ K) → (∀ r ∈ L, ∀ r' ∈ L, r.toNat / 16 = r'.toNat / 16) →
    L.length ≤ maxPer
  small : (K.length : Int) < 2 ^ 62

/-- At most `maxPer` of the stored keys have the same four lowest hash bits. -/
def Few (maxPer : Nat) (K : List (U64 × U64)) : Prop :=
  ∀ L : List U64, L.Nodup → (∀ r ∈ L, ∃ c, (rev64 r, c) ∈ K) → (∀ r ∈ L, ∀ r' ∈ L, r.toNat / 2 ^ 60 = r'.toNat / 2 ^ 60) →
    L.length ≤ maxPer

structure RelE (H : HashFns) (K : List (U64 × U64)) (st : St) (gl : List Path) (s : PMap) : Prop where
  ei : EI st gl
  fn : s.fn = .sample
  abs : ∀ k c v, s.m (k, c) = some v ↔ ∃ x, Stored st x ∧ x.rev = rev64 k ∧ x.conflict = c ∧ x.val = v
  mem : ∀ x, Stored st x → (rev64 x.rev, x.conflict) ∈ K
  key : ∀ x, Stored st x → H.mem x.key = rev64 x.rev ∧ H.xx x.key = x.conflict
  cnt : ∃ L : List U64, L.Nodup ∧ (∀ r, r ∈ L ↔ ∃ x, Stored st x ∧ x.rev = r) ∧ st.len = L.length

/-- What a caller sees (`Spec.ans`); a crash is no answer. -/
def ansE : Out → Option Ans
  | .bool b => some (.bool b)
  | .val v ok => some (.val v ok)
  | .item r => some (.item (r.map (·.2)))
  | .panic p => some (.panic p)
  | .num _ => some .other
  | .crash _ => none

variable {H : HashFns} {K : List (U64 × U64)} {s : PMap}

/-- A lookup answers what the plain map holds. -/
theorem RelE.find (h : RelE H K st gl s) (k cc : U64) :
    (find st k cc = none ∧ gl ≠ st.blist) ∨
    ∃ b n P xs z, Found st (rev64 k) b n P xs z ∧
      ((∃ i, ∃ hi : i < xs.length, find st k cc = some (b, P, some i) ∧ (xs[i]).rev = rev64 k ∧ (xs[i]).conflict = cc ∧
          s.m (k, cc) = some (xs[i]).val) ∨
       (find st k cc = some (b, P, none) ∧ s.m (k, cc) = none ∧ ∀ x ∈ xs, ¬ (x.rev = rev64 k ∧ x.conflict = cc))) := by
  rcases find_spec h.ei k cc with h0 | ⟨b, n, P, xs, z, h1, f⟩
  · exact Or.inl h0
  right
  refine ⟨b, n, P, xs, z, f, ?_⟩
  rcases f.okp.lookup (rev64 k) cc with ⟨i, hi, e1, e2, e3⟩ | ⟨e1, e2⟩
  · left
    exact ⟨i, hi, by rw [h1, e1], e2, e3, (h.abs _ _ _).2 ⟨xs[i], (f.stored_iff e2).2 (List.getElem_mem hi), e2, e3, rfl⟩⟩
  · right
    refine ⟨by rw [h1, e1], ?_, e2⟩
    cases hm : s.m (k, cc) with
    | none => rfl
    | some v =>
      obtain ⟨x, x1, x2, x3, _⟩ := (h.abs _ _ _).1 hm
      exact absurd ⟨x2, x3⟩ (e2 x ((f.stored_iff x2).1 x1))

theorem RelE.getByHash (h : RelE H K st gl s) (k cc : U64) :
    (opGetByHash st k cc = .crash .stackOverflow ∧ gl ≠ st.blist) ∨
    opGetByHash st k cc = match s.m (k, cc) with | some v => .val v true | none => .val none false := by
  unfold opGetByHash
  rcases h.find k cc with ⟨h0, hg⟩ | ⟨b, n, P, xs, z, f, ⟨i, hi, h1, _, _, h2⟩ | ⟨h1, h2, _⟩⟩
  · left; rw [h0]; exact ⟨rfl, hg⟩
  · right; rw [h1, h2]; simp only; rw [f.okp.slot hi]
  · right; rw [h1, h2]

theorem RelE.loadByHash (h : RelE H K st gl s) (k cc : U64) :
    (opLoadItemByHash st k cc = .crash .stackOverflow ∧ gl ≠ st.blist) ∨
    ∃ r, opLoadItemByHash st k cc = .item r ∧ r.map (·.2) = s.m (k, cc) ∧ ∀ x ∈ r, H.mem x.1 = k ∧ H.xx x.1 = cc := by
  unfold opLoadItemByHash
  rcases h.find k cc with ⟨h0, hg⟩ | ⟨b, n, P, xs, z, f, ⟨i, hi, h1, e1, e2, h2⟩ | ⟨h1, h2, _⟩⟩
  · left; rw [h0]; exact ⟨rfl, hg⟩
  · right; rw [h1, h2]; simp only; rw [f.okp.slot hi]
    refine ⟨_, rfl, rfl, ?_⟩
    intro x hx
    have hx' : x = ((xs[i]).key, (xs[i]).val) := by simpa using hx.symm
    subst hx'
    have := h.key _ ((f.stored_iff e1).2 (List.getElem_mem hi))
    rw [e1, e2, rev64_rev64] at this
    exact this
  · right; rw [h1, h2]; exact ⟨none, rfl, rfl, by simp⟩

/-- `setSlot` with a changed value of a stored slot. -/
theorem RelE.update (h : RelE H K st gl s) {k cc : U64} {P : Pool} {xs : List Slot} {z : Nat} (f : Found st (rev64 k) b n P xs z)
    {i : Nat} (hi : i < xs.length) (e1 : (xs[i]).rev = rev64 k) (e2 : (xs[i]).conflict = cc) (nv : IVal) :
    RelE H K (setSlot st b P i { xs[i] with val := nv }) gl (s.put (k, cc) nv) := by
  obtain ⟨y, hy⟩ : ∃ y, y = ({ xs[i] with val := nv } : Slot) := ⟨_, rfl⟩
  rw [← hy]
  have y1 : y.rev = rev64 k := by rw [hy]; exact e1
  have y2 : y.conflict = cc := by rw [hy]; exact e2
  have hQ : OKP { P with arr := P.arr.set i y } (xs.set i y) z := by
    refine ⟨?_, ?_, ?_, ?_, ?_⟩
    · show P.arr.set i y = _
      rw [f.okp.arr, List.set_append_left _ _ hi]
    · show P.len = _
      rw [f.okp.len, List.length_set]
    · have := f.okp.sorted
      have hm : (xs.set i y).map (·.rev) = xs.map (·.rev) := by
        rw [List.map_set, y1, ← e1]
        apply List.ext_getElem (by simp)
        intro j h1 h2
        rw [List.getElem_set]
        split
        · subst_vars; simp
        · rfl
      have h2 := (List.pairwise_map (f := Slot.rev) (R := fun a b => a < b)).2 this
      rw [← hm] at h2
      exact List.pairwise_map.1 h2
    · intro x hx
      rcases List.mem_or_eq_of_mem_set hx with hx | rfl
      · exact f.okp.live x hx
      · rw [hy]; show (xs[i]).deleted = false; exact f.okp.live _ (List.getElem_mem hi)
    · intro hc
      have := congrArg List.length hc
      simp at this
      rw [this] at hi; simp at hi
  have hmem : ∀ x, x ∈ xs.set i y ↔ x = y ∨ (x ∈ xs ∧ x.rev ≠ rev64 k) := by
    intro x
    constructor
    · intro hx
      obtain ⟨j, hj, rfl⟩ := List.getElem_of_mem hx
      rw [List.length_set] at hj
      rw [List.getElem_set]
      split
      · exact Or.inl rfl
      · rename_i hne
        right
        refine ⟨List.getElem_mem _, ?_⟩
        intro hc
        rcases Nat.lt_or_gt_of_ne hne with hlt | hlt
        · have := f.okp.mono hj hlt; rw [hc, e1] at this; exact BitVec.lt_irrefl _ this
        · have := f.okp.mono hi hlt; rw [hc, e1] at this; exact BitVec.lt_irrefl _ this
    · rintro (rfl | ⟨hx, hr⟩)
      · exact List.mem_set hi _
      · obtain ⟨j, hj, rfl⟩ := List.getElem_of_mem hx
        have hne : i ≠ j := by rintro rfl; exact hr e1
        have : (xs.set i y)[j]'(by rw [List.length_set]; exact hj) = xs[j] := by
          rw [List.getElem_set_ne hne]
        rw [← this]; exact List.getElem_mem _
  have hst : ∀ x, Stored (setSlot st b P i y) x ↔ x = y ∨ (Stored st x ∧ x.rev ≠ rev64 k) := by
    intro x
    unfold setSlot
    rw [stored_replace, hQ.used, hmem, stored_split f.pool, f.okp.used]
    constructor
    · rintro ((h | h) | ho)
      · exact Or.inl h
      · exact Or.inr ⟨Or.inl h.1, h.2⟩
      · refine Or.inr ⟨Or.inr ho, ?_⟩
        obtain ⟨q, Q, g1, g2, g3⟩ := ho
        exact fun hc => g1 (f.only q Q x g2 g3 hc)
    · rintro (h | ⟨h | h, hr⟩)
      · exact Or.inl (Or.inl h)
      · exact Or.inl (Or.inr ⟨h, hr⟩)
      · exact Or.inr h
  have hold := (f.stored_iff e1).2 (List.getElem_mem hi)
  refine ⟨?_, h.fn, ?_, ?_, ?_, ?_⟩
  · apply h.ei.replace f.adj hQ
    intro x hx
    rcases (hmem x).1 hx with rfl | ⟨hx, _⟩
    · rw [y1]; exact ⟨f.lo, f.hi⟩
    · exact f.inside x hx
  · intro k' c' v
    simp only [PMap.put]
    by_cases hkc : (k', c') = (k, cc)
    · rw [if_pos hkc]
      injection hkc with g1 g2; subst g1 g2
      constructor
      · intro hv; injection hv with hv
        exact ⟨y, (hst y).2 (Or.inl rfl), y1, y2, by rw [hy]; exact hv⟩
      · rintro ⟨x, x1, x2, x3, x4⟩
        rcases (hst x).1 x1 with rfl | ⟨_, hc⟩
        · rw [← x4, hy]
        · exact absurd x2 hc
    · rw [if_neg hkc, h.abs]
      constructor
      · rintro ⟨x, x1, x2, x3, x4⟩
        refine ⟨x, (hst x).2 (Or.inr ⟨x1, ?_⟩), x2, x3, x4⟩
        intro hc
        apply hkc
        have hxx := f.okp.inj ((f.stored_iff hc).1 x1) (List.getElem_mem hi) (hc.trans e1.symm)
        rw [rev64_inj (x2.symm.trans hc), ← x3, hxx, e2]
      · rintro ⟨x, x1, x2, x3, x4⟩
        rcases (hst x).1 x1 with rfl | ⟨x1, _⟩
        · exact absurd (by rw [rev64_inj (x2.symm.trans y1), ← x3, y2]) hkc
        · exact ⟨x, x1, x2, x3, x4⟩
  · intro x hx
    rcases (hst x).1 hx with rfl | ⟨hx, _⟩
    · have := h.mem _ hold; rw [hy]; exact this
    · exact h.mem x hx
  · intro x hx
    rcases (hst x).1 hx with rfl | ⟨hx, _⟩
    · have := h.key _ hold; rw [hy]; exact this
    · exact h.key x hx
  · obtain ⟨L, g1, g2, g3⟩ := h.cnt
    refine ⟨L, g1, ?_, g3⟩
    intro r
    rw [g2]
    constructor
    · rintro ⟨x, x1, x2⟩
      by_cases hc : x.rev = rev64 k
      · exact ⟨y, (hst y).2 (Or.inl rfl), by rw [y1, ← hc, x2]⟩
      · exact ⟨x, (hst x).2 (Or.inr ⟨x1, hc⟩), x2⟩
    · rintro ⟨x, x1, x2⟩
      rcases (hst x).1 x1 with rfl | ⟨x1, _⟩
      · exact ⟨_, hold, by rw [e1, ← y1, x2]⟩
      · exact ⟨x, x1, x2⟩

theorem NZ.congr {m m' : Path → Bkt} (hE : EqL m m') (h : NZ m) : NZ m' := by
  intro p hp hv
  rw [hE.V] at hv
  obtain ⟨i, h1, h2⟩ := h p hp hv
  exact ⟨i, h1, (hE.V _).2 h2⟩

theorem Shallow.congr {m m' : Path → Bkt} (hE : EqL m m') (h : Shallow m) : Shallow m' :=
  fun p hp hv => h p hp ((hE.V p).1 hv)

theorem EI.congr (h : EI st gl) {m' : Path → Bkt} (hE : EqL st.mem m') (l : Int) : EI { st with mem := m', len := l } gl :=
  ⟨h.bi.congr hE, NZ.congr hE h.nz, Shallow.congr hE h.sh, h.sub, h.head, h.desc, h.tops, h.width, h.content, h.pool⟩

/-- Counters and split after an insertion. -/
theorem link_ok (h : EI st gl) (ha : Adj st.blist n b) {P : Pool} (hP : st.pools b = some P) (r : U64)
    (hcr : NotCrowded st.maxPer (Stored st)) :
    ∃ st' gl', link st b r false = .ok st' ∧ EI st' gl' ∧ st'.maxPer = st.maxPer ∧ st'.len = st.len + 1 ∧
      (∀ s, Stored st' s ↔ Stored st s) ∧ (P.len ≤ st.maxPer → gl' = gl ∧ st'.blist = st.blist) := by
  have hrest : ∀ st1 : St, ∀ gl1, EI st1 gl1 → st1.maxPer = st.maxPer → st1.len = st.len → (∀ s, Stored st1 s ↔ Stored st s) →
      (P.len ≤ st.maxPer → gl1 = gl ∧ st1.blist = st.blist) → ∃ st' gl', (Except.ok { st1 with
        len := st1.len + 1,
        mem := if (st1.mem b).level > 0 then upd st1.mem b { st1.mem b with len := (st1.mem b).len + 1 } else st1.mem } :
          Except Crash St) = .ok st' ∧ EI st' gl' ∧ st'.maxPer = st.maxPer ∧ st'.len = st.len + 1 ∧
      (∀ s, Stored st' s ↔ Stored st s) ∧ (P.len ≤ st.maxPer → gl' = gl ∧ st'.blist = st.blist) := by
    intro st1 gl1 h1 h2 h3 h4 h5
    refine ⟨_, gl1, rfl, ?_, h2, by show st1.len + 1 = _; rw [h3], h4, h5⟩
    apply h1.congr
    split
    · exact EqL.len _ _ _
    · exact EqL.refl _
  unfold link
  simp only
  by_cases hsp : r < maxU64 ∧ True ∧ blen st.pools st.mem b > st.maxPer
  · rw [if_pos (by simpa using hsp)]
    obtain ⟨k, hw⟩ := h.width n b ha
    have hk := h.width_le ha hw.1
    obtain ⟨st1, gl1, r1, r2, r3, r4, r5, _⟩ := makeBucket2_ok 64 st gl n b k P h ha hw (by omega) hP (by
      have := hsp.2.2; unfold blen at this; rw [hP] at this; exact this) hcr
    rw [r1]
    refine hrest st1 gl1 r2 r3 r4 r5 (fun hle => ?_)
    have := hsp.2.2; unfold blen at this; rw [hP] at this
    simp only at this; omega
  · rw [if_neg (by simpa using hsp)]
    exact hrest st gl h rfl rfl (fun s => Iff.rfl) (fun _ => ⟨rfl, rfl⟩)

theorem block_div {c k x : Nat} (hdv : 2 ^ k ∣ c) (hk : k ≤ 60) (h1 : c ≤ x) (h2 : x < c + 2 ^ k) : x / 2 ^ 60 = c / 2 ^ 60 := by
  obtain ⟨d, hd⟩ : ∃ d, 60 = k + d := ⟨60 - k, by omega⟩
  obtain ⟨y, rfl⟩ := hdv
  have hp := Nat.two_pow_pos k
  rw [hd, pow_add, ← Nat.div_div_eq_div_mul, ← Nat.div_div_eq_div_mul, Nat.mul_div_cancel_left _ hp]
  congr 1
  rw [Nat.div_eq_iff hp]
  rw [Nat.mul_comm y]
  omega

/-- A new slot. -/
theorem RelE.insert (h : RelE H K st gl s) (hK : KOK st.maxPer K) {str : List (BitVec 8)} (hmem : (H.mem str, H.xx str) ∈ K)
    {P : Pool} {xs : List Slot} {z : Nat} (f : Found st (rev64 (H.mem str)) b n P xs z)
    (hno : ∀ x ∈ xs, ¬ (x.rev = rev64 (H.mem str) ∧ x.conflict = H.xx str)) (v : IVal) :
    ∃ q i st' gl', Pool.getSlot 2 P (rev64 (H.mem str)) = .ok (q, i) ∧ q.slot i = {} ∧
      link (setSlot st b q i { rev := rev64 (H.mem str), conflict := H.xx str, key := str, val := v }) b (rev64 (H.mem str)) false = .ok st' ∧
      st'.maxPer = st.maxPer ∧ RelE H K st' gl' { s.put (H.mem str, H.xx str) v with fn := .sample } ∧
      (Few st.maxPer K → gl' = gl ∧ st'.blist = st.blist) := by
  have hnr : ∀ x, Stored st x → x.rev ≠ rev64 (H.mem str) := by
    intro x hx hc
    have h1 := h.mem x hx
    rw [hc, rev64_rev64] at h1
    exact hno x ((f.stored_iff hc).1 hx) ⟨hc, hK.one _ _ _ h1 hmem⟩
  have hnr' : ∀ x ∈ xs, x.rev ≠ rev64 (H.mem str) := fun x hx => hnr x ⟨b, P, f.pool, by rw [f.okp.used]; exact hx⟩
  have hlen : (xs.length : Int) < 2 ^ 62 := by
    have h1 : (xs.map (fun x => (rev64 x.rev, x.conflict))).length ≤ K.length := by
      apply List.Subperm.length_le
      apply List.subperm_of_subset
      · rw [List.Nodup, List.pairwise_map]
        refine f.okp.sorted.imp ?_
        intro a b hlt hc
        injection hc with h1 _
        rw [rev64_inj h1] at hlt; exact BitVec.lt_irrefl _ hlt
      · intro y hy
        obtain ⟨x, hx, rfl⟩ := List.mem_map.1 hy
        exact h.mem x ⟨b, P, f.pool, by rw [f.okp.used]; exact hx⟩
    rw [List.length_map] at h1
    have := hK.small
    omega
  rcases f.okp.getSlot (rev64 (H.mem str)) hnr' with ⟨q, i, g1, g2⟩ | ⟨g1, _⟩
  swap
  · omega
  obtain ⟨y, hy⟩ : ∃ y : Slot, y = { rev := rev64 (H.mem str), conflict := H.xx str, key := str, val := v } := ⟨_, rfl⟩
  rw [← hy]
  have y1 : y.rev = rev64 (H.mem str) := by rw [hy]
  have y2 : y.conflict = H.xx str := by rw [hy]
  have y3 : y.val = v := by rw [hy]
  have y4 : y.key = str := by rw [hy]
  obtain ⟨z', hQ⟩ := g2.okp f.okp y1 (by rw [hy])
  have hm : ∀ x, x ∈ xs.take i ++ y :: xs.drop i ↔ x = y ∨ x ∈ xs := by
    intro x
    conv_rhs => rw [← List.take_append_drop i xs]
    simp only [List.mem_append, List.mem_cons]; exact or_left_comm
  have hst : ∀ x, Stored (setSlot st b q i y) x ↔ x = y ∨ Stored st x := by
    intro x
    unfold setSlot
    rw [stored_replace, hQ.used, hm, stored_split f.pool, f.okp.used]
    exact or_assoc
  have hE : EI (setSlot st b q i y) gl := by
    apply h.ei.replace f.adj hQ
    intro x hx
    rcases (hm x).1 hx with rfl | hx
    · rw [y1]; exact ⟨f.lo, f.hi⟩
    · exact f.inside x hx
  have hmemK : ∀ x, Stored (setSlot st b q i y) x → (rev64 x.rev, x.conflict) ∈ K := by
    intro x hx
    rcases (hst x).1 hx with rfl | hx
    · rw [y1, y2, rev64_rev64]; exact hmem
    · exact h.mem x hx
  obtain ⟨st', gl', r1, r2, r3, r4, r5, r6⟩ := link_ok (b := b) hE f.adj (P := { q with arr := q.arr.set i y })
    (by simp [setSlot, upool]) (rev64 (H.mem str)) (by
      intro L h1 h2 h3
      refine hK.sparse L h1 ?_ h3
      intro r hr
      obtain ⟨x, hx, rfl⟩ := h2 r hr
      exact ⟨_, hmemK x hx⟩)
  have hst' : ∀ x, Stored st' x ↔ x = y ∨ Stored st x := fun x => (r5 x).trans (hst x)
  refine ⟨q, i, st', gl', g1, g2.slot, r1, r3, ⟨r2, rfl, ?_, fun x hx => hmemK x ((r5 x).1 hx), ?_, ?_⟩, ?_⟩
  · intro k' c' v'
    simp only [PMap.put]
    by_cases hkc : (k', c') = (H.mem str, H.xx str)
    · rw [if_pos hkc]
      injection hkc with e1 e2; subst e1 e2
      constructor
      · intro hv; injection hv with hv
        exact ⟨y, (hst' y).2 (Or.inl rfl), y1, y2, by rw [y3, hv]⟩
      · rintro ⟨x, x1, x2, x3, x4⟩
        rcases (hst' x).1 x1 with rfl | hc
        · rw [← x4, y3]
        · exact absurd x2 (hnr x hc)
    · rw [if_neg hkc, h.abs]
      constructor
      · rintro ⟨x, x1, x2⟩
        exact ⟨x, (hst' x).2 (Or.inr x1), x2⟩
      · rintro ⟨x, x1, x2, x3, x4⟩
        rcases (hst' x).1 x1 with rfl | x1
        · exact absurd (by rw [rev64_inj (x2.symm.trans y1), ← x3, y2]) hkc
        · exact ⟨x, x1, x2, x3, x4⟩
  · intro x hx
    rcases (hst' x).1 hx with rfl | hx
    · rw [y1, y2, y4, rev64_rev64]; exact ⟨rfl, rfl⟩
    · exact h.key x hx
  · obtain ⟨L, l1, l2, l3⟩ := h.cnt
    refine ⟨rev64 (H.mem str) :: L, ?_, ?_, ?_⟩
    · rw [List.nodup_cons]
      refine ⟨?_, l1⟩
      rw [l2]
      rintro ⟨x, x1, x2⟩
      exact hnr x x1 x2
    · intro r
      rw [List.mem_cons, l2]
      constructor
      · rintro (rfl | ⟨x, x1, x2⟩)
        · exact ⟨y, (hst' y).2 (Or.inl rfl), y1⟩
        · exact ⟨x, (hst' x).2 (Or.inr x1), x2⟩
      · rintro ⟨x, x1, x2⟩
        rcases (hst' x).1 x1 with rfl | x1
        · left; rw [← x2, y1]
        · exact Or.inr ⟨x, x1, x2⟩
    · rw [r4]
      show st.len + 1 = _
      rw [l3]; simp
  · intro hfew
    apply r6
    show q.len ≤ _
    have hl := hQ.len
    change q.len = _ at hl
    rw [hl]
    obtain ⟨k, hw⟩ := h.ei.width n b f.adj
    have hk := h.ei.width_le f.adj hw.1
    have hx := hfew ((xs.take i ++ y :: xs.drop i).map (·.rev)) (by
        rw [List.Nodup, List.pairwise_map]
        exact hQ.sorted.imp (fun {a b} h hc => by rw [hc] at h; exact BitVec.lt_irrefl _ h)) (by
        intro r hr
        obtain ⟨x, hx, rfl⟩ := List.mem_map.1 hr
        refine ⟨x.conflict, hmemK x ((hst x).2 ?_)⟩
        rcases (hm x).1 hx with hx | hx
        · exact Or.inl hx
        · exact Or.inr ⟨b, P, f.pool, by rw [f.okp.used]; exact hx⟩) (by
        have hin : ∀ x ∈ xs.take i ++ y :: xs.drop i, bval b ≤ x.rev.toNat ∧ x.rev.toNat < bval b + 2 ^ k := by
          intro x hx
          rw [hw.1]
          rcases (hm x).1 hx with rfl | hx
          · rw [y1]; exact ⟨f.lo, f.hi⟩
          · exact f.inside x hx
        intro r hr r' hr'
        obtain ⟨x, hx, rfl⟩ := List.mem_map.1 hr
        obtain ⟨x', hx', rfl⟩ := List.mem_map.1 hr'
        rw [block_div hw.2.1 hk (hin x hx).1 (hin x hx).2, block_div hw.2.1 hk (hin x' hx').1 (hin x' hx').2])
    rw [List.length_map] at hx
    exact_mod_cast hx

/-- `Set` of a string key. -/
theorem RelE.set (h : RelE H K st gl s) (hK : KOK st.maxPer K) {str : List (BitVec 8)} (hmem : (H.mem str, H.xx str) ∈ K) (v : IVal) :
    ((opSet H st (.str str) v).2 = .crash .stackOverflow ∧ gl ≠ st.blist) ∨
    ((∃ gl', RelE H K (opSet H st (.str str) v).1 gl' (s.step H (.set (.str str) v)).1 ∧
        (Few st.maxPer K → gl' = gl ∧ (opSet H st (.str str) v).1.blist = st.blist)) ∧
      (opSet H st (.str str) v).1.maxPer = st.maxPer ∧
      ansE (opSet H st (.str str) v).2 = some (s.step H (.set (.str str) v)).2) := by
  unfold opSet
  simp only [PMap.step, keyToHash]
  rcases h.find (H.mem str) (H.xx str) with ⟨h0, hg⟩ | ⟨b, n, P, xs, z, f, ⟨i, hi, h1, e1, e2, h2⟩ | ⟨h1, h2, hno⟩⟩
  · left; rw [h0]; exact ⟨rfl, hg⟩
  · right
    rw [h1, h2]
    simp only [Emb.update, PMap.overwrite, h.fn, f.okp.slot hi]
    have hu := h.update f hi e1 e2
    have hself : ∀ w, (xs[i]).val = w → RelE H K (setSlot st b P i { xs[i] with val := w }) gl s := by
      intro w hw
      have hslot : setSlot st b P i { xs[i] with val := w } = st := by
        have : ({ xs[i] with val := w } : Slot) = xs[i] := by rw [← hw]
        rw [this]
        unfold setSlot
        have hset : P.arr.set i xs[i] = P.arr := by
          rw [f.okp.arr, List.set_append_left _ _ hi, List.set_getElem_self]
        rw [hset]
        have : upool st.pools b P = st.pools := by
          funext q
          unfold upool
          split
          · subst_vars; exact f.pool.symm
          · rfl
        show ({ st with pools := upool st.pools b P } : St) = st
        rw [this]
      rw [hslot]; exact h
    cases v with
    | none =>
      simp only [setValue]
      refine ⟨⟨gl, hself _ rfl, fun _ => ⟨rfl, rfl⟩⟩, rfl, rfl⟩
    | some v =>
      cases ho : (xs[i]).val with
      | none =>
        simp only [setValue]
        exact ⟨⟨gl, hu _, fun _ => ⟨rfl, rfl⟩⟩, rfl, rfl⟩
      | some o =>
        simp only [setValue]
        by_cases ht : o.ty = v.ty
        · simp only [ht, if_true]
          exact ⟨⟨gl, hu _, fun _ => ⟨rfl, rfl⟩⟩, rfl, rfl⟩
        · simp only [ht, if_false]
          exact ⟨⟨gl, h, fun _ => ⟨by trivial, by trivial⟩⟩, by trivial, by trivial⟩
  · right
    rw [h1, h2]
    obtain ⟨q, i, st', gl', g1, g2, g3, g4, g5, g6⟩ := h.insert hK hmem f hno v
    simp only [g1, g2]
    have hsv : setValue .sample ({} : Slot).val v = .ok (v, v.isSome) := by
      cases v <;> rfl
    have hc : claim {} (rev64 (H.mem str)) (H.xx str) = { rev := rev64 (H.mem str), conflict := H.xx str } := by
      simp [claim]
    simp only [hc, hsv]
    have hsv' : setValue .sample (none : IVal) v = .ok (v, v.isSome) := hsv
    simp only [hsv', g3, finish]
    exact ⟨⟨gl', g5, g6⟩, g4, rfl⟩

end SLM.Emb
