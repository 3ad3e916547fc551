import Verif.Proofs.EmbDel
/-! Histories of embedded mode with deletions against the plain map. -/
set_option linter.unusedSimpArgs false
set_option autoImplicit false
namespace SLM.Emb
open Spec (PMap Ans)
variable {bl gl : List Path} {n c b : Path} {m : Path → Bkt} {st : St}

theorem used_clr (p : Pool) : (clrP p).used = p.used.map clr := by
  unfold Pool.used clrP
  simp only
  by_cases h : p.len.toNat ≤ p.arr.length
  · rw [List.take_append_of_le_length (by simp [h]), List.take_of_length_le (by simp)]
  · have h1 : p.arr.length - p.len.toNat = 0 := by omega
    rw [h1, List.replicate_zero, List.append_nil, List.take_of_length_le (by simp)]

theorem stored_clr {l : Int} (x : Slot) : Stored (clrSt st l) x ↔ ∃ y, Stored st y ∧ clr y = x := by
  constructor
  · rintro ⟨p, Q, hQ, hx⟩
    simp only [clrSt, Option.map_eq_some_iff] at hQ
    obtain ⟨P, hP, rfl⟩ := hQ
    rw [used_clr] at hx
    obtain ⟨y, hy, rfl⟩ := List.mem_map.1 hx
    exact ⟨y, ⟨p, P, hP, hy⟩, rfl⟩
  · rintro ⟨y, ⟨p, P, hP, hy⟩, rfl⟩
    exact ⟨p, clrP P, by simp [clrSt, hP], by rw [used_clr]; exact List.mem_map_of_mem hy⟩

/-- The relation between a state with deletions and a plain map: deleted slots count for nothing. -/
structure RelD (H : HashFns) (K : List (U64 × U64)) (st : St) (gl : List Path) (s : PMap) : Prop where
  ei : EI (clrSt st 0) gl
  head : ∀ p P, st.pools p = some P → 0 < P.len → (P.slot 0).deleted = false
  tail : ∀ p P, st.pools p = some P → ∀ x ∈ P.arr.drop P.len.toNat, x = {} ∨ x.deleted = true
  fn : s.fn = .sample
  abs : ∀ k c v, s.m (k, c) = some v ↔ ∃ x, Stored st x ∧ x.deleted = false ∧ x.rev = rev64 k ∧ x.conflict = c ∧ x.val = v
  mem : ∀ x, Stored st x → (rev64 x.rev, x.conflict) ∈ K
  key : ∀ x, Stored st x → H.mem x.key = rev64 x.rev ∧ H.xx x.key = x.conflict

structure FoundD (st : St) (r : U64) (b n : Path) (P : Pool) (us : List Slot) (z : Nat) : Prop where
  found : Found (clrSt st 0) r b n (clrP P) (us.map clr) z
  pool : st.pools b = some P
  cp : CP P us z

theorem FoundD.only {r : U64} {P : Pool} {us : List Slot} {z : Nat} (f : FoundD st r b n P us z) {q : Path} {Q : Pool} {x : Slot}
    (hQ : st.pools q = some Q) (hx : x ∈ Q.used) (hr : x.rev = r) : q = b :=
  f.found.only q (clrP Q) (clr x) (by simp [clrSt, hQ]) (by rw [used_clr]; exact List.mem_map_of_mem hx) hr

theorem FoundD.stored_iff {r : U64} {P : Pool} {us : List Slot} {z : Nat} (f : FoundD st r b n P us z) {s : Slot} (hr : s.rev = r) :
    Stored st s ↔ s ∈ us := by
  constructor
  · rintro ⟨q, Q, hQ, hs⟩
    have := f.only hQ hs hr
    subst this
    rw [f.pool] at hQ; injection hQ with hQ; subst hQ
    rwa [f.cp.used] at hs
  · intro hs
    exact ⟨b, P, f.pool, by rw [f.cp.used]; exact hs⟩

variable {H : HashFns} {K : List (U64 × U64)} {s : PMap}

theorem RelD.find (h : RelD H K st gl s) (k cc : U64) :
    (find st k cc = none ∧ gl ≠ st.blist) ∨
    ∃ b n P us z, FoundD st (rev64 k) b n P us z ∧
      ((∃ i, ∃ hi : i < us.length, find st k cc = some (b, P, some i) ∧ (us[i]).rev = rev64 k ∧ (us[i]).conflict = cc ∧
          (us[i]).deleted = false ∧ s.m (k, cc) = some (us[i]).val) ∨
       (find st k cc = some (b, P, none) ∧ s.m (k, cc) = none ∧
          ∀ x ∈ us, x.deleted = false → ¬ (x.rev = rev64 k ∧ x.conflict = cc))) := by
  rcases find_spec h.ei k cc with ⟨h0, hg⟩ | ⟨b, n, P', xs, z, h1, f⟩
  · left
    refine ⟨?_, hg⟩
    unfold Emb.find at h0 ⊢
    simp only [clrSt] at h0 ⊢
    cases hp : st.pools (basePath st.mem (findBucket st.mem (rev64 k))) with
    | none => rfl
    | some P => rw [hp] at h0; cases h0
  right
  have hp := f.pool
  simp only [clrSt, Option.map_eq_some_iff] at hp
  obtain ⟨P, hP, rfl⟩ := hp
  obtain ⟨hcp, hus⟩ := f.okp.cp
  have hfd : FoundD st (rev64 k) b n P P.used z := ⟨by rw [hus]; exact f, hP, hcp⟩
  have hfind : Emb.find st k cc = some (b, P, P.lookup (rev64 k) cc) := by
    unfold Emb.find at h1 ⊢
    simp only [clrSt] at h1 ⊢
    cases hp : st.pools (basePath st.mem (findBucket st.mem (rev64 k))) with
    | none => rw [hp] at h1; cases h1
    | some P2 =>
      rw [hp] at h1
      simp only [Option.map_some, Option.some.injEq, Prod.mk.injEq] at h1
      rw [h1.1] at hp
      rw [hP] at hp; injection hp with hp; subst hp
      simp only [h1.1]
  refine ⟨b, n, P, P.used, z, hfd, ?_⟩
  rcases hcp.lookup (h.head b P hP) (rev64 k) cc with ⟨i, hi, e1, e2, e3, e4⟩ | ⟨e1, e2⟩
  · left
    exact ⟨i, hi, by rw [hfind, e1], e2, e3, e4,
      (h.abs _ _ _).2 ⟨P.used[i], (hfd.stored_iff e2).2 (List.getElem_mem hi), e4, e2, e3, rfl⟩⟩
  · right
    refine ⟨by rw [hfind, e1], ?_, e2⟩
    cases hm : s.m (k, cc) with
    | none => rfl
    | some v =>
      obtain ⟨x, x1, x0, x2, x3, _⟩ := (h.abs _ _ _).1 hm
      exact absurd ⟨x2, x3⟩ (e2 x ((hfd.stored_iff x2).1 x1) x0)

theorem RelD.getByHash (h : RelD H K st gl s) (k cc : U64) :
    (opGetByHash st k cc = .crash .stackOverflow ∧ gl ≠ st.blist) ∨
    opGetByHash st k cc = match s.m (k, cc) with | some v => .val v true | none => .val none false := by
  unfold opGetByHash
  rcases h.find k cc with ⟨h0, hg⟩ | ⟨b, n, P, xs, z, f, ⟨i, hi, h1, _, _, _, h2⟩ | ⟨h1, h2, _⟩⟩
  · left; rw [h0]; exact ⟨rfl, hg⟩
  · right; rw [h1, h2]; simp only; rw [f.cp.slot hi]
  · right; rw [h1, h2]

theorem RelD.loadByHash (h : RelD H K st gl s) (k cc : U64) :
    (opLoadItemByHash st k cc = .crash .stackOverflow ∧ gl ≠ st.blist) ∨
    ∃ r, opLoadItemByHash st k cc = .item r ∧ r.map (·.2) = s.m (k, cc) ∧ ∀ x ∈ r, H.mem x.1 = k ∧ H.xx x.1 = cc := by
  unfold opLoadItemByHash
  rcases h.find k cc with ⟨h0, hg⟩ | ⟨b, n, P, xs, z, f, ⟨i, hi, h1, e1, e2, _, h2⟩ | ⟨h1, h2, _⟩⟩
  · left; rw [h0]; exact ⟨rfl, hg⟩
  · right; rw [h1, h2]; simp only; rw [f.cp.slot hi]
    refine ⟨_, rfl, rfl, ?_⟩
    intro x hx
    have hx' : x = ((xs[i]).key, (xs[i]).val) := by simpa using hx.symm
    subst hx'
    have := h.key _ ((f.stored_iff e1).2 (List.getElem_mem hi))
    rw [e1, e2, rev64_rev64] at this
    exact this
  · right; rw [h1, h2]; exact ⟨none, rfl, rfl, by simp⟩

/-! ### one slot replaced -/

theorem CP.set_arr {p : Pool} {us : List Slot} {z : Nat} (h : CP p us z) {i : Nat} (hi : i < us.length) (y : Slot) :
    (p.arr.set i y).take us.length = us.set i y ∧ (p.arr.set i y).drop us.length = p.arr.drop us.length := by
  constructor
  · rw [List.take_set, h.arr]
  · rw [List.drop_set_of_lt hi]

theorem CP.clrP_set {p : Pool} {us : List Slot} {z : Nat} (h : CP p us z) {i : Nat} (hi : i < us.length) (y : Slot) :
    clrP { p with arr := p.arr.set i y } = { arr := (us.set i y).map clr ++ List.replicate z ({} : Slot), len := p.len } := by
  have hl : p.len.toNat = us.length := by rw [h.len]; simp
  unfold clrP
  simp only [hl, (h.set_arr hi y).1, List.length_set]
  rw [show p.arr.length - us.length = z by have := h.cap; omega]

/-- A slot is overwritten, the hash order is kept. -/
theorem CP.set_okp {p : Pool} {us : List Slot} {z : Nat} (h : CP p us z) {i : Nat} (hi : i < us.length) (y : Slot)
    (h1 : ∀ j, (hj : j < i) → (us[j]'(by omega)).rev < y.rev) (h2 : ∀ j, (hj : j < us.length) → i < j → y.rev < (us[j]).rev) :
    OKP (clrP { p with arr := p.arr.set i y }) ((us.set i y).map clr) z := by
  rw [h.clrP_set hi y]
  refine ⟨rfl, by simp only [List.length_map, List.length_set]; exact h.len, ?_, ?_, ?_⟩
  · rw [List.pairwise_map, List.pairwise_iff_getElem]
    intro a b ha hb hab
    rw [List.length_set] at ha hb
    simp only [clr_rev]
    rw [List.getElem_set, List.getElem_set]
    by_cases e1 : i = a
    · rw [if_pos e1, if_neg (by omega)]; exact h2 b hb (by omega)
    · rw [if_neg e1]
      by_cases e2 : i = b
      · rw [if_pos e2]; exact h1 a (by omega)
      · rw [if_neg e2]; exact h.mono hb hab
  · intro x hx
    obtain ⟨y, _, rfl⟩ := List.mem_map.1 hx
    rfl
  · intro hc
    have := congrArg List.length hc
    simp at this
    rw [this] at hi; simp at hi

theorem CP.mem_set {p : Pool} {us : List Slot} {z : Nat} (h : CP p us z) {i : Nat} (hi : i < us.length) (y x : Slot) :
    x ∈ us.set i y ↔ x = y ∨ (x ∈ us ∧ x.rev ≠ (us[i]).rev) := by
  constructor
  · intro hx
    obtain ⟨j, hj, rfl⟩ := List.getElem_of_mem hx
    rw [List.length_set] at hj
    rw [List.getElem_set]
    split
    · exact Or.inl rfl
    · rename_i hne
      right
      refine ⟨List.getElem_mem _, ?_⟩
      intro hc
      rcases Nat.lt_or_gt_of_ne hne with hlt | hlt
      · have := h.mono hj hlt; rw [hc] at this; exact BitVec.lt_irrefl _ this
      · have := h.mono hi hlt; rw [hc] at this; exact BitVec.lt_irrefl _ this
  · rintro (rfl | ⟨hx, hr⟩)
    · exact List.mem_set hi _
    · obtain ⟨j, hj, rfl⟩ := List.getElem_of_mem hx
      have hne : i ≠ j := by rintro rfl; exact hr rfl
      have : (us.set i y)[j]'(by rw [List.length_set]; exact hj) = us[j] := by
        rw [List.getElem_set_ne hne]
      rw [← this]; exact List.getElem_mem _

/-- The pool after a slot was overwritten, inside the state. -/
theorem RelD.setSlot (h : RelD H K st gl s) {r : U64} {P : Pool} {us : List Slot} {z : Nat} (f : FoundD st r b n P us z)
    {i : Nat} (hi : i < us.length) (y : Slot)
    (h1 : ∀ j, (hj : j < i) → (us[j]'(by omega)).rev < y.rev) (h2 : ∀ j, (hj : j < us.length) → i < j → y.rev < (us[j]).rev)
    (h3 : y.rev = (us[i]).rev ∨ y.rev = r) (h0 : y.deleted = true → 0 < i) :
    EI (clrSt (setSlot st b P i y) 0) gl ∧
    (∀ p P', (Emb.setSlot st b P i y).pools p = some P' → 0 < P'.len → (P'.slot 0).deleted = false) ∧
    (∀ p P', (Emb.setSlot st b P i y).pools p = some P' → ∀ x ∈ P'.arr.drop P'.len.toNat, x = {} ∨ x.deleted = true) ∧
    (∀ x, Stored (Emb.setSlot st b P i y) x ↔ x = y ∨ (Stored st x ∧ x.rev ≠ (us[i]).rev)) := by
  have hl : P.len.toNat = us.length := by rw [f.cp.len]; simp
  have hold : Stored st us[i] := ⟨b, P, f.pool, by rw [f.cp.used]; exact List.getElem_mem hi⟩
  have hin : ∀ x ∈ us, bval b ≤ x.rev.toNat ∧ x.rev.toNat < bval n := fun x hx => f.found.inside (clr x) (List.mem_map_of_mem hx)
  have honly : ∀ {q : Path} {Q : Pool} {x : Slot}, st.pools q = some Q → x ∈ Q.used → x.rev = (us[i]).rev → q = b := by
    intro q Q x hQ hx hr
    obtain ⟨hq, hqn⟩ := h.ei.pool q (by simp [clrSt, hQ])
    obtain ⟨n', ha'⟩ := adj_next h.ei.desc h.ei.head hq hqn
    obtain ⟨P', xs', z', g1', g2', g3'⟩ := h.ei.content n' q ha'
    simp only [clrSt, hQ, Option.map_some, Option.some.injEq] at g1'
    subst g1'
    have hx' := g3' (clr x) (by rw [← g2'.used, used_clr]; exact List.mem_map_of_mem hx)
    simp only [clr_rev, hr] at hx'
    have hi' := hin _ (List.getElem_mem hi)
    exact (adj_le h.ei.desc f.found.adj ha' (x := (us[i]).rev.toNat) hi'.1 hi'.2 hx'.1 hx'.2).2
  refine ⟨?_, ?_, ?_, ?_⟩
  · have e : clrSt (Emb.setSlot st b P i y) 0 =
        { clrSt st 0 with pools := upool (clrSt st 0).pools b (clrP { P with arr := P.arr.set i y }) } := by
      unfold Emb.setSlot clrSt
      simp only
      rw [clr_upool]
    rw [e]
    apply h.ei.replace f.found.adj (f.cp.set_okp hi y h1 h2)
    intro x hx
    obtain ⟨x', hx', rfl⟩ := List.mem_map.1 hx
    simp only [clr_rev]
    rcases (f.cp.mem_set hi y x').1 hx' with rfl | ⟨hx', _⟩
    · rcases h3 with h3 | h3
      · rw [h3]; exact hin _ (List.getElem_mem hi)
      · rw [h3]; exact ⟨f.found.lo, f.found.hi⟩
    · exact hin x' hx'
  · intro p P' hP' hlen
    simp only [Emb.setSlot, upool] at hP'
    split at hP'
    · injection hP' with hP'; subst hP'
      have hd := h.head b P f.pool hlen
      unfold Pool.slot at hd ⊢
      simp only
      have hc := f.cp.cap
      by_cases e : i = 0
      · subst e
        have : y.deleted = false := by
          cases hy : y.deleted with
          | false => rfl
          | true => have := h0 hy; omega
        rw [List.getD_eq_getElem?_getD, List.getElem?_set_self (by omega)]
        simpa using this
      · rw [List.getD_eq_getElem?_getD, List.getElem?_set_ne e, ← List.getD_eq_getElem?_getD]
        exact hd
    · exact h.head p P' hP' hlen
  · intro p P' hP' x hx
    simp only [Emb.setSlot, upool] at hP'
    split at hP'
    · injection hP' with hP'; subst hP'
      simp only [hl, (f.cp.set_arr hi y).2] at hx
      exact h.tail b P f.pool x (by rw [hl]; exact hx)
    · exact h.tail p P' hP' x hx
  · intro x
    unfold Emb.setSlot
    rw [stored_replace, stored_split f.pool]
    have hu : ({ P with arr := P.arr.set i y } : Pool).used = us.set i y := by
      unfold Pool.used; simp only [hl]; exact (f.cp.set_arr hi y).1
    rw [hu, f.cp.mem_set hi, f.cp.used]
    constructor
    · rintro ((h | h) | ho)
      · exact Or.inl h
      · exact Or.inr ⟨Or.inl h.1, h.2⟩
      · refine Or.inr ⟨Or.inr ho, ?_⟩
        obtain ⟨q, Q, g1, g2, g3⟩ := ho
        exact fun hc => g1 (honly g2 g3 hc)
    · rintro (h | ⟨h | h, hr⟩)
      · exact Or.inl (Or.inl h)
      · exact Or.inl (Or.inr ⟨h, hr⟩)
      · exact Or.inr h

/-- All stored slots with the found hash are that slot. -/
theorem FoundD.eq {r : U64} {P : Pool} {us : List Slot} {z : Nat} (f : FoundD st r b n P us z) {i : Nat} (hi : i < us.length)
    (e : (us[i]).rev = r) {x : Slot} (hx : Stored st x) (hr : x.rev = r) : x = us[i] :=
  f.cp.inj ((f.stored_iff hr).1 hx) (List.getElem_mem hi) (hr.trans e.symm)

/-- `setSlot` with a changed value of a stored slot. -/
theorem RelD.update (h : RelD H K st gl s) {k cc : U64} {P : Pool} {us : List Slot} {z : Nat} (f : FoundD st (rev64 k) b n P us z)
    {i : Nat} (hi : i < us.length) (e1 : (us[i]).rev = rev64 k) (e2 : (us[i]).conflict = cc) (e3 : (us[i]).deleted = false) (nv : IVal) :
    RelD H K (Emb.setSlot st b P i { us[i] with val := nv }) gl (s.put (k, cc) nv) := by
  obtain ⟨y, hy⟩ : ∃ y, y = ({ us[i] with val := nv } : Slot) := ⟨_, rfl⟩
  rw [← hy]
  have y1 : y.rev = (us[i]).rev := by rw [hy]
  have y2 : y.conflict = (us[i]).conflict := by rw [hy]
  have y3 : y.deleted = (us[i]).deleted := by rw [hy]
  have y4 : y.key = (us[i]).key := by rw [hy]
  have y5 : y.val = nv := by rw [hy]
  obtain ⟨g1, g2, g3, g4⟩ := h.setSlot f hi y (fun j hj => by rw [y1]; exact f.cp.mono hi hj)
    (fun j hj hij => by rw [y1]; exact f.cp.mono hj hij) (Or.inl y1) (by rw [y3, e3]; simp)
  have hold := (f.stored_iff e1).2 (List.getElem_mem hi)
  refine ⟨g1, g2, g3, h.fn, ?_, ?_, ?_⟩
  · intro k' c' v
    simp only [PMap.put]
    by_cases hkc : (k', c') = (k, cc)
    · rw [if_pos hkc]
      injection hkc with a1 a2; subst a1 a2
      constructor
      · intro hv; injection hv with hv
        exact ⟨y, (g4 y).2 (Or.inl rfl), by rw [y3, e3], by rw [y1, e1], by rw [y2, e2], by rw [y5, hv]⟩
      · rintro ⟨x, x1, _, x2, x3, x4⟩
        rcases (g4 x).1 x1 with rfl | ⟨_, hc⟩
        · rw [← x4, y5]
        · exact absurd (x2.trans e1.symm) hc
    · rw [if_neg hkc, h.abs]
      constructor
      · rintro ⟨x, x1, x0, x2, x3, x4⟩
        refine ⟨x, (g4 x).2 (Or.inr ⟨x1, ?_⟩), x0, x2, x3, x4⟩
        intro hc
        apply hkc
        have hxx := f.eq hi e1 x1 (hc.trans e1)
        rw [rev64_inj (x2.symm.trans (hc.trans e1)), ← x3, hxx, e2]
      · rintro ⟨x, x1, x0, x2, x3, x4⟩
        rcases (g4 x).1 x1 with rfl | ⟨x1, _⟩
        · exact absurd (by rw [rev64_inj (x2.symm.trans (y1.trans e1)), ← x3, y2, e2]) hkc
        · exact ⟨x, x1, x0, x2, x3, x4⟩
  · intro x hx
    rcases (g4 x).1 hx with rfl | ⟨hx, _⟩
    · have := h.mem _ hold; rw [y1, y2]; exact this
    · exact h.mem x hx
  · intro x hx
    rcases (g4 x).1 hx with rfl | ⟨hx, _⟩
    · have := h.key _ hold; rw [y1, y2, y4]; exact this
    · exact h.key x hx

/-- Deletion of a slot that is not the bucket's first. -/
theorem RelD.delete (h : RelD H K st gl s) {k cc : U64} {P : Pool} {us : List Slot} {z : Nat} (f : FoundD st (rev64 k) b n P us z)
    {i : Nat} (hi : i < us.length) (e1 : (us[i]).rev = rev64 k) (e2 : (us[i]).conflict = cc) (hi0 : 0 < i) :
    RelD H K (Emb.setSlot st b P i { us[i] with deleted := true }) gl (s.del (k, cc)) := by
  obtain ⟨y, hy⟩ : ∃ y, y = ({ us[i] with deleted := true } : Slot) := ⟨_, rfl⟩
  rw [← hy]
  have y1 : y.rev = (us[i]).rev := by rw [hy]
  have y2 : y.conflict = (us[i]).conflict := by rw [hy]
  have y3 : y.deleted = true := by rw [hy]
  have y4 : y.key = (us[i]).key := by rw [hy]
  obtain ⟨g1, g2, g3, g4⟩ := h.setSlot f hi y (fun j hj => by rw [y1]; exact f.cp.mono hi hj)
    (fun j hj hij => by rw [y1]; exact f.cp.mono hj hij) (Or.inl y1) (fun _ => hi0)
  have hold := (f.stored_iff e1).2 (List.getElem_mem hi)
  refine ⟨g1, g2, g3, h.fn, ?_, ?_, ?_⟩
  · intro k' c' v
    simp only [PMap.del]
    by_cases hkc : (k', c') = (k, cc)
    · rw [if_pos hkc]
      injection hkc with a1 a2; subst a1 a2
      constructor
      · intro hv; cases hv
      · rintro ⟨x, x1, x0, x2, x3, x4⟩
        rcases (g4 x).1 x1 with rfl | ⟨_, hc⟩
        · rw [y3] at x0; cases x0
        · exact absurd (x2.trans e1.symm) hc
    · rw [if_neg hkc, h.abs]
      constructor
      · rintro ⟨x, x1, x0, x2, x3, x4⟩
        refine ⟨x, (g4 x).2 (Or.inr ⟨x1, ?_⟩), x0, x2, x3, x4⟩
        intro hc
        apply hkc
        have hxx := f.eq hi e1 x1 (hc.trans e1)
        rw [rev64_inj (x2.symm.trans (hc.trans e1)), ← x3, hxx, e2]
      · rintro ⟨x, x1, x0, x2, x3, x4⟩
        rcases (g4 x).1 x1 with rfl | ⟨x1, _⟩
        · rw [y3] at x0; cases x0
        · exact ⟨x, x1, x0, x2, x3, x4⟩
  · intro x hx
    rcases (g4 x).1 hx with rfl | ⟨hx, _⟩
    · have := h.mem _ hold; rw [y1, y2]; exact this
    · exact h.mem x hx
  · intro x hx
    rcases (g4 x).1 hx with rfl | ⟨hx, _⟩
    · have := h.key _ hold; rw [y1, y2, y4]; exact this
    · exact h.key x hx

end SLM.Emb
