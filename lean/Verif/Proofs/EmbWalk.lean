import Verif.Props.EmbSearch
import Verif.Props.EmbList
/-! Embedded mode: calls that leave the item list as it is (reads, `Delete`, `Set` of a key that is there). -/
set_option linter.unusedSimpArgs false
set_option autoImplicit false
set_option maxRecDepth 20000
namespace SLM.Emb
open Spec (PMap Ans)
variable {bl gl : List Path} {n c b : Path} {st : St} {H : HashFns} {s : PMap}

/-- A slot that is not deleted is found, whatever else is deleted. -/
theorem CP.bsearch_complete {p : Pool} {us : List Slot} {z : Nat} (h : CP p us z) {j : Nat} (hj : j < us.length)
    (hd : (us[j]).deleted = false) : p.bsearch (us[j]).rev = some j := by
  have hl : p.len.toNat = us.length := by rw [h.len]; simp
  have hsj : skipBack p.arr j = j := by
    cases j with
    | zero => rfl
    | succ j =>
      simp only [skipBack]
      have e := h.slot hj
      unfold Pool.slot at e
      rw [if_neg (by rw [e, hd]; simp)]
  have hsk : ∀ i, skipBack p.arr i ≤ i := by
    intro i
    induction i with
    | zero => exact le_refl _
    | succ i ih => simp only [skipBack]; split <;> omega
  have hge : ∀ i, j ≤ i → j ≤ skipBack p.arr i := by
    intro i
    induction i with
    | zero => intro hi; have : j = 0 := by omega
              subst this; exact Nat.zero_le _
    | succ i ih =>
      intro hi
      by_cases hc : j = i + 1
      · subst hc; rw [hsj]
      · simp only [skipBack]
        split
        · exact ih (by omega)
        · omega
  have hle : ∀ i j, (hj : j < us.length) → (hij : i ≤ j) → (us[i]'(by omega)).rev ≤ (us[j]).rev := by
    intro i j hj hij
    rcases Nat.eq_or_lt_of_le hij with hc | hc
    · subst hc; bv_omega
    · have := h.mono hj hc; bv_omega
  obtain ⟨f, hf⟩ : ∃ f : Nat → Bool, f = fun i => decide ((us[j]).rev ≤ (p.slot (skipBack p.arr i)).rev) := ⟨_, rfl⟩
  have hfi : ∀ i, (hi : i < us.length) → f i = decide (j ≤ i) := by
    intro i hi
    have hlt : skipBack p.arr i < us.length := lt_of_le_of_lt (hsk i) hi
    rw [hf]; simp only; rw [h.slot hlt]
    by_cases hji : j ≤ i
    · have := hle j _ hlt (hge i hji)
      simp [hji, this]
    · have := h.mono hj (lt_of_le_of_lt (hsk i) (by omega : i < j))
      simp only [hji, decide_false, decide_eq_false_iff_not]
      bv_omega
  obtain ⟨_, a2, a3, a4⟩ := goSearch_spec f us.length 0 us.length (by omega) (by omega) (by
    intro x y _ hxy hy hx
    rw [hfi x (by omega)] at hx
    rw [hfi y hy]
    simp only [decide_eq_true_eq] at hx ⊢
    omega)
  unfold Pool.bsearch
  simp only [hl]
  rw [← hf]
  have hidx : goSearch f us.length 0 us.length = j := by
    rcases lt_trichotomy (goSearch f us.length 0 us.length) j with hc | hc | hc
    · have h2 := a4 _ (le_refl _) (by omega)
      rw [hfi _ (by omega)] at h2
      simp only [decide_eq_true_eq] at h2
      omega
    · exact hc
    · have h2 := a3 j (by omega) hc
      rw [hfi j hj] at h2
      simp at h2
  rw [hidx, if_pos ⟨by rw [h.len]; exact_mod_cast hj, by rw [h.slot hj]⟩, hsj]

/-- The relation to a plain map without the condition on first slots: deleted slots count for nothing. -/
structure RelX (H : HashFns) (st : St) (gl : List Path) (s : PMap) : Prop where
  ei : EI (clrSt st 0) gl
  fn : s.fn = .sample
  abs : ∀ k c v, s.m (k, c) = some v ↔ ∃ x, Stored st x ∧ x.deleted = false ∧ x.rev = rev64 k ∧ x.conflict = c ∧ x.val = v
  key : ∀ x, Stored st x → H.mem x.key = rev64 x.rev ∧ H.xx x.key = x.conflict

theorem RelD.x {K : List (U64 × U64)} (h : RelD H K st gl s) : RelX H st gl s := ⟨h.ei, h.fn, h.abs, h.key⟩

theorem RelX.find (h : RelX H st gl s) (k cc : U64) :
    find st k cc = none ∨
    ∃ b n P us z, FoundD st (rev64 k) b n P us z ∧
      ((∃ i, ∃ hi : i < us.length, find st k cc = some (b, P, some i) ∧ (us[i]).rev = rev64 k ∧ (us[i]).conflict = cc ∧
          (s.m (k, cc) = if (us[i]).deleted then none else some (us[i]).val)) ∨
       (find st k cc = some (b, P, none) ∧ s.m (k, cc) = none)) := by
  rcases find_spec h.ei k cc with ⟨h0, hg⟩ | ⟨b, n, P', xs, z, h1, f⟩
  · left
    unfold Emb.find at h0 ⊢
    simp only [clrSt] at h0 ⊢
    cases hp : st.pools (basePath st.mem (findBucket st.mem (rev64 k))) with
    | none => rfl
    | some P => rw [hp] at h0; cases h0
  right
  have hp := f.pool
  simp only [clrSt, Option.map_eq_some_iff] at hp
  obtain ⟨P, hP, rfl⟩ := hp
  obtain ⟨hcp, hus⟩ := f.okp.cp
  have hfd : FoundD st (rev64 k) b n P P.used z := ⟨by rw [hus]; exact f, hP, hcp⟩
  have hfind : Emb.find st k cc = some (b, P, P.lookup (rev64 k) cc) := by
    unfold Emb.find at h1 ⊢
    simp only [clrSt] at h1 ⊢
    cases hp : st.pools (basePath st.mem (findBucket st.mem (rev64 k))) with
    | none => rw [hp] at h1; cases h1
    | some P2 =>
      rw [hp] at h1
      simp only [Option.map_some, Option.some.injEq, Prod.mk.injEq] at h1
      rw [h1.1] at hp
      rw [hP] at hp; injection hp with hp; subst hp
      simp only [h1.1]
  have hlive : ∀ v, s.m (k, cc) = some v → ∃ j, ∃ hj : j < P.used.length, (P.used[j]).rev = rev64 k ∧ (P.used[j]).deleted = false ∧
      (P.used[j]).conflict = cc ∧ (P.used[j]).val = v := by
    intro v hm
    obtain ⟨x, x1, x0, x2, x3, x4⟩ := (h.abs _ _ _).1 hm
    obtain ⟨j, hj, rfl⟩ := List.getElem_of_mem ((hfd.stored_iff x2).1 x1)
    exact ⟨j, hj, x2, x0, x3, x4⟩
  refine ⟨b, n, P, P.used, z, hfd, ?_⟩
  rw [hfind]
  unfold Pool.lookup
  cases hb : P.bsearch (rev64 k) with
  | none =>
    right
    refine ⟨rfl, ?_⟩
    cases hm : s.m (k, cc) with
    | none => rfl
    | some v =>
      obtain ⟨j, hj, j1, j2, _⟩ := hlive v hm
      have := hcp.bsearch_complete hj j2
      rw [j1, hb] at this; cases this
  | some i =>
    have hl : P.len.toNat = P.used.length := by rw [hcp.len]; simp
    have hi : i < P.used.length := by
      have hsk : ∀ i, skipBack P.arr i ≤ i := by
        intro i
        induction i with
        | zero => exact le_refl _
        | succ i ih => simp only [skipBack]; split <;> omega
      unfold Pool.bsearch at hb
      simp only at hb
      split at hb
      · rename_i hc
        injection hb with hb
        have := hsk (goSearch (fun i => decide (rev64 k ≤ (P.slot (skipBack P.arr i)).rev)) P.len.toNat 0 P.len.toNat)
        have hc1 := hc.1
        rw [hcp.len] at hc1
        have : i ≤ goSearch (fun i => decide (rev64 k ≤ (P.slot (skipBack P.arr i)).rev)) P.len.toNat 0 P.len.toNat := by rw [← hb]; exact this
        omega
      · cases hb
    have hrev := (Pool.bsearch_sound hb).1
    rw [hcp.slot hi] at hrev
    simp only [hcp.slot hi]
    by_cases hc : (P.used[i]).conflict = cc
    · left
      refine ⟨i, hi, by rw [if_pos ⟨hrev, hc⟩], hrev, hc, ?_⟩
      split
      · rename_i hd
        cases hm : s.m (k, cc) with
        | none => rfl
        | some v =>
          obtain ⟨j, hj, j1, j2, _⟩ := hlive v hm
          have := hcp.bsearch_complete hj j2
          rw [j1, hb] at this
          injection this with this
          subst this
          rw [j2] at hd; cases hd
      · rename_i hd
        exact (h.abs _ _ _).2 ⟨_, (hfd.stored_iff hrev).2 (List.getElem_mem hi), by simpa using hd, hrev, hc, rfl⟩
    · right
      refine ⟨by rw [if_neg (fun x => hc x.2)], ?_⟩
      cases hm : s.m (k, cc) with
      | none => rfl
      | some v =>
        obtain ⟨j, hj, j1, j2, j3, _⟩ := hlive v hm
        have := hcp.bsearch_complete hj j2
        rw [j1, hb] at this
        injection this with this
        subst this
        exact absurd j3 hc

theorem RelX.setSlot (h : RelX H st gl s) {r : U64} {P : Pool} {us : List Slot} {z : Nat} (f : FoundD st r b n P us z)
    {i : Nat} (hi : i < us.length) (y : Slot) (y1 : y.rev = (us[i]).rev) :
    EI (clrSt (setSlot st b P i y) 0) gl ∧
    (∀ x, Stored (Emb.setSlot st b P i y) x ↔ x = y ∨ (Stored st x ∧ x.rev ≠ (us[i]).rev)) := by
  have hl : P.len.toNat = us.length := by rw [f.cp.len]; simp
  have hin : ∀ x ∈ us, bval b ≤ x.rev.toNat ∧ x.rev.toNat < bval n := fun x hx => f.found.inside (clr x) (List.mem_map_of_mem hx)
  have honly : ∀ {q : Path} {Q : Pool} {x : Slot}, st.pools q = some Q → x ∈ Q.used → x.rev = (us[i]).rev → q = b := by
    intro q Q x hQ hx hr
    obtain ⟨hq, hqn⟩ := h.ei.pool q (by simp [clrSt, hQ])
    obtain ⟨n', ha'⟩ := adj_next h.ei.desc h.ei.head hq hqn
    obtain ⟨P', xs', z', g1', g2', g3'⟩ := h.ei.content n' q ha'
    simp only [clrSt, hQ, Option.map_some, Option.some.injEq] at g1'
    subst g1'
    have hx' := g3' (clr x) (by rw [← g2'.used, used_clr]; exact List.mem_map_of_mem hx)
    simp only [clr_rev, hr] at hx'
    have hi' := hin _ (List.getElem_mem hi)
    exact (adj_le h.ei.desc f.found.adj ha' (x := (us[i]).rev.toNat) hi'.1 hi'.2 hx'.1 hx'.2).2
  refine ⟨?_, ?_⟩
  · have e : clrSt (Emb.setSlot st b P i y) 0 =
        { clrSt st 0 with pools := upool (clrSt st 0).pools b (clrP { P with arr := P.arr.set i y }) } := by
      unfold Emb.setSlot clrSt
      simp only
      rw [clr_upool]
    rw [e]
    apply h.ei.replace f.found.adj (f.cp.set_okp hi y (fun j hj => by rw [y1]; exact f.cp.mono hi hj)
      (fun j hj hij => by rw [y1]; exact f.cp.mono hj hij))
    intro x hx
    obtain ⟨x', hx', rfl⟩ := List.mem_map.1 hx
    simp only [clr_rev]
    rcases (f.cp.mem_set hi y x').1 hx' with rfl | ⟨hx', _⟩
    · rw [y1]; exact hin _ (List.getElem_mem hi)
    · exact hin x' hx'
  · intro x
    unfold Emb.setSlot
    rw [stored_replace, stored_split f.pool]
    have hu : ({ P with arr := P.arr.set i y } : Pool).used = us.set i y := by
      unfold Pool.used; simp only [hl]; exact (f.cp.set_arr hi y).1
    rw [hu, f.cp.mem_set hi, f.cp.used]
    constructor
    · rintro ((h | h) | ho)
      · exact Or.inl h
      · exact Or.inr ⟨Or.inl h.1, h.2⟩
      · refine Or.inr ⟨Or.inr ho, ?_⟩
        obtain ⟨q, Q, g1, g2, g3⟩ := ho
        exact fun hc => g1 (honly g2 g3 hc)
    · rintro (h | ⟨h | h, hr⟩)
      · exact Or.inl (Or.inl h)
      · exact Or.inl (Or.inr ⟨h, hr⟩)
      · exact Or.inr h

theorem RelX.update (h : RelX H st gl s) {k cc : U64} {P : Pool} {us : List Slot} {z : Nat} (f : FoundD st (rev64 k) b n P us z)
    {i : Nat} (hi : i < us.length) (e1 : (us[i]).rev = rev64 k) (e2 : (us[i]).conflict = cc) (e3 : (us[i]).deleted = false) (nv : IVal) :
    RelX H (Emb.setSlot st b P i { us[i] with val := nv }) gl (s.put (k, cc) nv) := by
  obtain ⟨y, hy⟩ : ∃ y, y = ({ us[i] with val := nv } : Slot) := ⟨_, rfl⟩
  rw [← hy]
  have y1 : y.rev = (us[i]).rev := by rw [hy]
  have y2 : y.conflict = (us[i]).conflict := by rw [hy]
  have y3 : y.deleted = (us[i]).deleted := by rw [hy]
  have y4 : y.key = (us[i]).key := by rw [hy]
  have y5 : y.val = nv := by rw [hy]
  obtain ⟨g1, g4⟩ := h.setSlot f hi y y1
  have hold := (f.stored_iff e1).2 (List.getElem_mem hi)
  refine ⟨g1, h.fn, ?_, ?_⟩
  · intro k' c' v
    simp only [PMap.put]
    by_cases hkc : (k', c') = (k, cc)
    · rw [if_pos hkc]
      injection hkc with a1 a2; subst a1 a2
      constructor
      · intro hv; injection hv with hv
        exact ⟨y, (g4 y).2 (Or.inl rfl), by rw [y3, e3], by rw [y1, e1], by rw [y2, e2], by rw [y5, hv]⟩
      · rintro ⟨x, x1, _, x2, x3, x4⟩
        rcases (g4 x).1 x1 with rfl | ⟨_, hc⟩
        · rw [← x4, y5]
        · exact absurd (x2.trans e1.symm) hc
    · rw [if_neg hkc, h.abs]
      constructor
      · rintro ⟨x, x1, x0, x2, x3, x4⟩
        refine ⟨x, (g4 x).2 (Or.inr ⟨x1, ?_⟩), x0, x2, x3, x4⟩
        intro hc
        apply hkc
        have hxx := f.eq hi e1 x1 (hc.trans e1)
        rw [rev64_inj (x2.symm.trans (hc.trans e1)), ← x3, hxx, e2]
      · rintro ⟨x, x1, x0, x2, x3, x4⟩
        rcases (g4 x).1 x1 with rfl | ⟨x1, _⟩
        · exact absurd (by rw [rev64_inj (x2.symm.trans (y1.trans e1)), ← x3, y2, e2]) hkc
        · exact ⟨x, x1, x0, x2, x3, x4⟩
  · intro x hx
    rcases (g4 x).1 hx with rfl | ⟨hx, _⟩
    · have := h.key _ hold; rw [y1, y2, y4]; exact this
    · exact h.key x hx

theorem RelX.delete (h : RelX H st gl s) {k cc : U64} {P : Pool} {us : List Slot} {z : Nat} (f : FoundD st (rev64 k) b n P us z)
    {i : Nat} (hi : i < us.length) (e1 : (us[i]).rev = rev64 k) (e2 : (us[i]).conflict = cc) :
    RelX H (Emb.setSlot st b P i { us[i] with deleted := true }) gl (s.del (k, cc)) := by
  obtain ⟨y, hy⟩ : ∃ y, y = ({ us[i] with deleted := true } : Slot) := ⟨_, rfl⟩
  rw [← hy]
  have y1 : y.rev = (us[i]).rev := by rw [hy]
  have y2 : y.conflict = (us[i]).conflict := by rw [hy]
  have y3 : y.deleted = true := by rw [hy]
  have y4 : y.key = (us[i]).key := by rw [hy]
  obtain ⟨g1, g4⟩ := h.setSlot f hi y y1
  have hold := (f.stored_iff e1).2 (List.getElem_mem hi)
  refine ⟨g1, h.fn, ?_, ?_⟩
  · intro k' c' v
    simp only [PMap.del]
    by_cases hkc : (k', c') = (k, cc)
    · rw [if_pos hkc]
      injection hkc with a1 a2; subst a1 a2
      constructor
      · intro hv; cases hv
      · rintro ⟨x, x1, x0, x2, x3, x4⟩
        rcases (g4 x).1 x1 with rfl | ⟨_, hc⟩
        · rw [y3] at x0; cases x0
        · exact absurd (x2.trans e1.symm) hc
    · rw [if_neg hkc, h.abs]
      constructor
      · rintro ⟨x, x1, x0, x2, x3, x4⟩
        refine ⟨x, (g4 x).2 (Or.inr ⟨x1, ?_⟩), x0, x2, x3, x4⟩
        intro hc
        apply hkc
        have hxx := f.eq hi e1 x1 (hc.trans e1)
        rw [rev64_inj (x2.symm.trans (hc.trans e1)), ← x3, hxx, e2]
      · rintro ⟨x, x1, x0, x2, x3, x4⟩
        rcases (g4 x).1 x1 with rfl | ⟨x1, _⟩
        · rw [y3] at x0; cases x0
        · exact ⟨x, x1, x0, x2, x3, x4⟩
  · intro x hx
    rcases (g4 x).1 hx with rfl | ⟨hx, _⟩
    · have := h.key _ hold; rw [y1, y2, y4]; exact this
    · exact h.key x hx

/-! ### calm calls -/

/-- The calls of this file: reads, `Delete` of any key, `Set` of a key the plain map holds. -/
def calm (H : HashFns) (s : PMap) : Op → Prop
  | .set key _ => ∃ kc, keyToHash H key = some kc ∧ (s.m kc).isSome
  | .storeItem _ _ _ => False
  | .purge _ => False
  | _ => True

def calmRun (H : HashFns) (s : PMap) : List Op → Prop
  | [] => True
  | op :: ops => calm H s op ∧ calmRun H (s.step H (toOp op)).1 ops

/-- What calm calls keep: the buckets, and of every slot all but the value and the mark, which is only ever set. -/
structure Keeps (st st' : St) : Prop where
  mem : st'.mem = st.mem
  blist : st'.blist = st.blist
  pool : ∀ p, (st'.pools p = none ↔ st.pools p = none) ∧ ∀ P P', st.pools p = some P → st'.pools p = some P' →
    P'.len = P.len ∧ P'.arr.length = P.arr.length ∧
    ∀ i, (P'.slot i).rev = (P.slot i).rev ∧ (P'.slot i).conflict = (P.slot i).conflict ∧ (P'.slot i).key = (P.slot i).key ∧
      ((P.slot i).deleted = true → (P'.slot i).deleted = true)

theorem Keeps.refl (st : St) : Keeps st st :=
  ⟨rfl, rfl, fun p => ⟨Iff.rfl, fun P P' h h' => by
    rw [h] at h'; injection h' with h'; subst h'
    exact ⟨rfl, rfl, fun i => ⟨rfl, rfl, rfl, id⟩⟩⟩⟩

theorem Keeps.trans {a b c : St} (h : Keeps a b) (h' : Keeps b c) : Keeps a c := by
  refine ⟨h'.mem.trans h.mem, h'.blist.trans h.blist, fun p => ⟨(h'.pool p).1.trans (h.pool p).1, ?_⟩⟩
  intro P P' hP hP'
  cases hQ : b.pools p with
  | none => rw [(h.pool p).1.1 hQ] at hP; cases hP
  | some Q =>
    obtain ⟨a1, a2, a3⟩ := (h.pool p).2 P Q hP hQ
    obtain ⟨b1, b2, b3⟩ := (h'.pool p).2 Q P' hQ hP'
    refine ⟨b1.trans a1, b2.trans a2, fun i => ?_⟩
    obtain ⟨c1, c2, c3, c4⟩ := a3 i
    obtain ⟨d1, d2, d3, d4⟩ := b3 i
    exact ⟨d1.trans c1, d2.trans c2, d3.trans c3, fun x => d4 (c4 x)⟩

theorem keeps_setSlot {P : Pool} (hP : st.pools b = some P) {i : Nat} {y : Slot} (h1 : y.rev = (P.slot i).rev)
    (h2 : y.conflict = (P.slot i).conflict) (h3 : y.key = (P.slot i).key) (h4 : (P.slot i).deleted = true → y.deleted = true) :
    Keeps st (setSlot st b P i y) := by
  refine ⟨rfl, rfl, fun p => ?_⟩
  unfold Emb.setSlot upool
  simp only
  by_cases hp : p = b
  · subst hp
    rw [if_pos rfl, hP]
    refine ⟨by simp, ?_⟩
    intro Q Q' hQ hQ'
    injection hQ with hQ; injection hQ' with hQ'
    subst hQ hQ'
    refine ⟨rfl, by simp, fun j => ?_⟩
    unfold Pool.slot at *
    simp only
    by_cases hj : i = j
    · subst hj
      by_cases hl : i < P.arr.length
      · rw [List.getD_eq_getElem?_getD (l := P.arr.set i y), List.getElem?_set_self hl]
        exact ⟨h1, h2, h3, h4⟩
      · rw [List.set_eq_of_length_le (by omega)]
        exact ⟨rfl, rfl, rfl, id⟩
    · rw [List.getD_eq_getElem?_getD (l := P.arr.set i y), List.getElem?_set_ne hj, ← List.getD_eq_getElem?_getD]
      exact ⟨rfl, rfl, rfl, id⟩
  · rw [if_neg hp]
    refine ⟨Iff.rfl, ?_⟩
    intro Q Q' hQ hQ'
    rw [hQ] at hQ'; injection hQ' with hQ'; subst hQ'
    exact ⟨rfl, rfl, fun i => ⟨rfl, rfl, rfl, id⟩⟩

/-- One calm call. -/
theorem RelX.step (h : RelX H st gl s) {op : Op} (hc : calm H s op) (hn : ∀ c, (step H st op).2 ≠ .crash c) :
    RelX H (step H st op).1 gl (s.step H (toOp op)).1 ∧ Keeps st (Emb.step H st op).1 := by
  cases op with
  | set key v =>
    obtain ⟨⟨k, c⟩, hk, hs⟩ := hc
    simp only [Emb.step, opSet, hk, toOp, PMap.step] at hn ⊢
    obtain ⟨old, ho⟩ := Option.isSome_iff_exists.1 hs
    rcases h.find k c with h0 | ⟨b, n, P, us, z, f, ⟨i, hi, h1, e1, e2, e3⟩ | ⟨h1, h2⟩⟩
    · rw [h0] at hn; exact absurd rfl (hn .stackOverflow)
    · rw [ho] at e3
      split at e3
      · cases e3
      · rename_i hd
        have hd : (us[i]).deleted = false := by simpa using hd
        injection e3 with e3
        rw [h1, ho]
        simp only [Emb.update, PMap.overwrite, h.fn, f.cp.slot hi]
        have hu := h.update f hi e1 e2 hd
        have hself : us[i].val = old → RelX H (Emb.setSlot st b P i { us[i] with val := old }) gl s := by
          intro hw
          have hslot : Emb.setSlot st b P i { us[i] with val := old } = st := by
            have : ({ us[i] with val := old } : Slot) = us[i] := by rw [← hw]
            rw [this]
            unfold Emb.setSlot
            have hset : P.arr.set i us[i] = P.arr := by
              have hc := f.cp.cap
              have e := f.cp.slot hi
              unfold Pool.slot at e
              rw [List.getD_eq_getElem?_getD, List.getElem?_eq_getElem (by omega)] at e
              simp only [Option.getD_some] at e
              rw [← e, List.set_getElem_self]
            rw [hset]
            have : upool st.pools b P = st.pools := by
              funext q
              unfold upool
              split
              · subst_vars; exact f.pool.symm
              · rfl
            show ({ st with pools := upool st.pools b P } : St) = st
            rw [this]
          rw [hslot]; exact h
        have hkp : ∀ w, Keeps st (Emb.setSlot st b P i { us[i] with val := w }) := by
          intro w
          apply keeps_setSlot f.pool <;> rw [f.cp.slot hi]
          simp
        subst e3
        cases v with
        | none =>
          simp only [setValue]
          exact ⟨hself rfl, hkp _⟩
        | some v =>
          cases hv : (us[i]).val with
          | none => simp only [setValue]; exact ⟨hu _, hkp _⟩
          | some o =>
            simp only [setValue]
            by_cases ht : o.ty = v.ty
            · simp only [ht, ne_eq, not_true, if_false, if_true]
              exact ⟨hu _, hkp _⟩
            · simp only [ht, ne_eq, not_false_iff, if_true, if_false]
              exact ⟨h, Keeps.refl _⟩
    · rw [h2] at ho; cases ho
  | delete key =>
    simp only [Emb.step, opDelete, toOp, PMap.step] at hn ⊢
    cases hk : keyToHash H key with
    | none => exact ⟨h, Keeps.refl _⟩
    | some kc =>
      obtain ⟨k, c⟩ := kc
      rw [hk] at hn
      simp only at hn ⊢
      rcases h.find k c with h0 | ⟨b, n, P, us, z, f, ⟨i, hi, h1, e1, e2, e3⟩ | ⟨h1, h2⟩⟩
      · rw [h0] at hn; exact absurd rfl (hn .stackOverflow)
      · rw [h1]
        simp only [f.cp.slot hi]
        have hkp : Keeps st (Emb.setSlot st b P i { us[i] with deleted := true }) := by
          apply keeps_setSlot f.pool <;> rw [f.cp.slot hi]
          simp
        refine ⟨?_, hkp⟩
        have hd := h.delete f hi e1 e2
        have hdel : s.m (k, c) = none → s.del (k, c) = s := by
          intro hm
          unfold PMap.del
          have : (fun kc => if kc = (k, c) then none else s.m kc) = s.m := by
            funext kc
            split
            · subst_vars; exact hm.symm
            · rfl
          cases s; simp only at this ⊢; rw [this]
        cases hm : s.m (k, c) with
        | none => rw [hdel hm] at hd; exact hd
        | some v => exact hd
      · rw [h1, h2]; exact ⟨h, Keeps.refl _⟩
  | storeItem _ _ _ => exact absurd hc (by simp [calm])
  | purge _ => exact absurd hc (by simp [calm])
  | get key =>
    have : (s.step H (toOp (.get key))).1 = s := by simp only [toOp, PMap.step]; cases keyToHash H key <;> rfl
    rw [this]; exact ⟨h, Keeps.refl _⟩
  | loadItem key =>
    have : (s.step H (toOp (.loadItem key))).1 = s := by simp only [toOp, PMap.step]; cases keyToHash H key <;> rfl
    rw [this]; exact ⟨h, Keeps.refl _⟩
  | getByHash _ _ => exact ⟨h, Keeps.refl _⟩
  | loadItemByHash _ _ => exact ⟨h, Keeps.refl _⟩
  | len => exact ⟨h, Keeps.refl _⟩

theorem RelX.run : ∀ (ops : List Op) (st : St) (s : PMap), RelX H st gl s → calmRun H s ops → (∀ c, Out.crash c ∉ (run H st ops).2) →
    RelX H (run H st ops).1 gl (s.run H (ops.map toOp)).1 ∧ Keeps st (Emb.run H st ops).1 := by
  intro ops
  induction ops with
  | nil => intro st s h _ _; exact ⟨h, Keeps.refl _⟩
  | cons op ops ih =>
    intro st s h hc hn
    simp only [Emb.run, List.mem_cons, not_or, List.map_cons, PMap.run] at hn ⊢
    obtain ⟨h1, h2⟩ := h.step hc.1 (fun c e => (hn c).1 e.symm)
    obtain ⟨h3, h4⟩ := ih _ _ h1 hc.2 (fun c => (hn c).2)
    exact ⟨h3, h2.trans h4⟩

end SLM.Emb
