import Verif.Proofs.EmbDel4
/-! Embedded mode, "load then work": all keys are stored first, then keys that stand between two keys that stay may be
deleted and stored again. -/
set_option linter.unusedSimpArgs false
set_option autoImplicit false
set_option maxRecDepth 20000
namespace SLM.Emb
open Spec (PMap Ans)
variable {gl : List Path} {n b : Path} {st : St} {H : HashFns} {K : List (U64 × U64)} {s : PMap}

theorem lastActive_ge (arr : List Slot) {j : Nat} (hj : (arr.getD j {}).deleted = false) : ∀ n, j < n →
    ∃ t, lastActive arr n = some t ∧ j ≤ t ∧ t < n := by
  intro n
  induction n with
  | zero => intro h; omega
  | succ n ih =>
    intro h
    simp only [lastActive]
    split
    · rename_i hd
      have hne : j ≠ n := by rintro rfl; rw [hj] at hd; cases hd
      obtain ⟨t, h1, h2, h3⟩ := ih (by omega)
      exact ⟨t, h1, h2, by omega⟩
    · exact ⟨n, rfl, by omega, by omega⟩

/-- A deleted slot between two slots, the upper one in use, is found again by its hash. -/
theorem CP.findFree_between {p : Pool} {us : List Slot} {z : Nat} (h : CP p us z) {i j : Nat} (hi0 : 0 < i) (hij : i < j)
    (hj : j < us.length) (hd : (us[i]).deleted = true) (hjd : (us[j]).deleted = false) :
    p.findFree (us[i]).rev (lastActive p.arr p.len.toNat) = some i := by
  have hl : p.len.toNat = us.length := by rw [h.len]; simp
  have hjs : (p.arr.getD j {}).deleted = false := by
    have := h.slot hj
    unfold Pool.slot at this
    rw [this]; exact hjd
  obtain ⟨t, h1, h2, h3⟩ := lastActive_ge p.arr hjs us.length hj
  rw [hl, h1]
  unfold Pool.findFree
  simp only
  obtain ⟨f, hfd⟩ : ∃ f : Nat → Bool, f = fun x => decide ((us[i]).rev < (p.slot x).rev) := ⟨_, rfl⟩
  have hfi : ∀ x, (hx : x < us.length) → f x = decide ((us[i]).rev < (us[x]).rev) := by
    intro x hx; rw [hfd]; simp only; rw [h.slot hx]
  obtain ⟨_, a2, a3, a4⟩ := goSearch_spec f t 0 t (by omega) (by omega) (by
    intro x y _ hxy hy hx
    rw [hfi x (by omega)] at hx
    rw [hfi y (by omega)]
    simp only [decide_eq_true_eq] at hx ⊢
    rcases Nat.eq_or_lt_of_le hxy with hc | hc
    · subst hc; exact hx
    · have := h.mono (j := y) (by omega) hc; bv_omega)
  rw [← hfd]
  generalize goSearch f t 0 t = idx at *
  have hidx : idx = i + 1 := by
    have b1 : ¬ idx ≤ i := by
      intro hc
      have := a4 i hc (by omega)
      rw [hfi i (by omega)] at this
      simp only [decide_eq_true_eq] at this
      exact absurd this (BitVec.lt_irrefl _)
    have b2 : ¬ i + 1 < idx := by
      intro hc
      have := a3 (i + 1) (by omega) hc
      rw [hfi (i + 1) (by omega)] at this
      simp only [decide_eq_false_iff_not] at this
      exact this (h.mono (j := i + 1) (by omega) (by omega))
    omega
  subst hidx
  rw [if_neg (by omega)]
  have : i + 1 - 1 = i := by omega
  rw [this, h.slot (by omega), hd]
  rfl

/-- The sixteen first buckets are the sixteenths of the hash space. -/
theorem init_adj {mp : Nat} (ha : Adj (initSt mp).blist n b) : ∃ t, bval b = t * 2 ^ 60 ∧ bval n = (t + 1) * 2 ^ 60 := by
  obtain ⟨h1, h2, h3, h4⟩ := ha
  have hv : ∀ i, i < 16 → bval [i] = i * 2 ^ 60 := by decide +kernel
  rcases (init_blist_mem mp b).1 h2 with rfl | ⟨i, hi, rfl⟩
  · have : bval ([] : Path) = 2 ^ 64 := rfl
    rcases (init_blist_mem mp n).1 h1 with rfl | ⟨j, hj, rfl⟩
    · omega
    · rw [this, hv j hj] at h3; omega
  · refine ⟨i, hv i hi, ?_⟩
    rw [hv i hi] at h3
    rcases (init_blist_mem mp n).1 h1 with rfl | ⟨j, hj, rfl⟩
    · have e : bval ([] : Path) = 2 ^ 64 := rfl
      by_cases hi15 : i = 15
      · subst hi15; rfl
      · have := h4 [i + 1] ((init_blist_mem mp _).2 (Or.inr ⟨i + 1, by omega, rfl⟩))
        rw [hv _ (by omega), hv i hi, e] at this
        omega
    · rw [hv j hj] at h3 ⊢
      have : i < j := by omega
      have := h4 [i + 1] ((init_blist_mem mp _).2 (Or.inr ⟨i + 1, by omega, rfl⟩))
      rw [hv _ (by omega), hv i hi, hv j hj] at this
      omega

/-- A stored slot whose hash is in a bucket's range is in that bucket's array. -/
theorem RelD.inRange (h : RelD H K st gl s) {r : U64} {P : Pool} {us : List Slot} {z : Nat} (f : FoundD st r b n P us z) {x : Slot}
    (hx : Stored st x) (h1 : bval b ≤ x.rev.toNat) (h2 : x.rev.toNat < bval n) : x ∈ us := by
  obtain ⟨q, Q, hQ, hs⟩ := hx
  have hq : q = b := by
    obtain ⟨hq, hqn⟩ := h.ei.pool q (by simp [clrSt, hQ])
    obtain ⟨n', ha'⟩ := adj_next h.ei.desc h.ei.head hq hqn
    obtain ⟨P', xs', z', g1', g2', g3'⟩ := h.ei.content n' q ha'
    simp only [clrSt, hQ, Option.map_some, Option.some.injEq] at g1'
    subst g1'
    have hx' := g3' (clr x) (by rw [← g2'.used, used_clr]; exact List.mem_map_of_mem hs)
    simp only [clr_rev] at hx'
    exact (adj_le h.ei.desc f.found.adj ha' h1 h2 hx'.1 hx'.2).2
  subst hq
  rw [f.pool] at hQ; injection hQ with hQ; subst hQ
  rwa [f.cp.used] at hs

theorem RelD.sameNibble (h : RelD H K st gl s) {mp : Nat} (hb : st.blist = (initSt mp).blist) {r : U64} {P : Pool} {us : List Slot} {z : Nat}
    (f : FoundD st r b n P us z) {x : Slot} (hx : Stored st x) (hs : x.rev.toNat / 2 ^ 60 = r.toNat / 2 ^ 60) : x ∈ us := by
  have ha := f.found.adj
  have hbl : (clrSt st 0).blist = st.blist := rfl
  rw [hbl, hb] at ha
  obtain ⟨t, e1, e2⟩ := init_adj ha
  have h1 := f.found.lo
  have h2 := f.found.hi
  rw [e1] at h1; rw [e2] at h2
  refine h.inRange f hx ?_ ?_
  · rw [e1]; omega
  · rw [e2]; omega

/-- Few keys: no array holds more than `maxPer` slots. -/
theorem RelD.len_few (h : RelD H K st gl s) {mp : Nat} (hb : st.blist = (initSt mp).blist) (hF : Few st.maxPer K)
    {r : U64} {P : Pool} {us : List Slot} {z : Nat} (f : FoundD st r b n P us z) : P.len ≤ st.maxPer := by
  rw [f.cp.len]
  have hnd : (us.map (·.rev)).Nodup := by
    rw [List.nodup_iff_pairwise_ne, List.pairwise_map, List.pairwise_iff_getElem]
    intro i j hi hj hij
    have := f.cp.mono hj hij
    bv_omega
  have ha := f.found.adj
  have hbl : (clrSt st 0).blist = st.blist := rfl
  rw [hbl, hb] at ha
  obtain ⟨t, e1, e2⟩ := init_adj ha
  have hin : ∀ r ∈ us.map (·.rev), r.toNat / 2 ^ 60 = t := by
    intro r hr
    obtain ⟨x, hx, rfl⟩ := List.mem_map.1 hr
    have := f.found.inside (clr x) (List.mem_map_of_mem hx)
    simp only [clr_rev, e1, e2] at this
    omega
  have := hF _ hnd (by
    intro r hr
    obtain ⟨x, hx, rfl⟩ := List.mem_map.1 hr
    exact ⟨x.conflict, h.mem x ⟨b, P, f.pool, by rw [f.cp.used]; exact hx⟩⟩) (by
    intro r hr r' hr'
    rw [hin r hr, hin r' hr'])
  simpa using this

/-- The state during the second phase: every loaded key has its slot, only keys of `D` are deleted, and all values have
the type `τ`. -/
structure Work (τ : Nat) (D : U64 × U64 → Prop) (K0 : List (U64 × U64)) (st : St) : Prop where
  slots : ∀ kc ∈ K0, ∃ x, Stored st x ∧ x.rev = rev64 kc.1 ∧ x.conflict = kc.2 ∧ (x.deleted = true → D kc)
  vals : ∀ x, Stored st x → ∃ v, x.val = some v ∧ v.ty = τ

variable {τ : Nat} {D : U64 × U64 → Prop} {K0 : List (U64 × U64)}

theorem Work.congr {st' : St} (h : Work τ D K0 st) (hS : ∀ x, Stored st' x ↔ Stored st x) : Work τ D K0 st' := by
  refine ⟨fun kc hk => ?_, fun x hx => h.vals x ((hS x).1 hx)⟩
  obtain ⟨x, h1, h2⟩ := h.slots kc hk
  exact ⟨x, (hS x).2 h1, h2⟩

theorem Work.setSlot (w : Work τ D K0 st) (h : RelD H K st gl s) {k cc : U64} {P : Pool} {us : List Slot} {z : Nat}
    (f : FoundD st (rev64 k) b n P us z) {i : Nat} (hi : i < us.length) (e1 : (us[i]).rev = rev64 k) (e2 : (us[i]).conflict = cc)
    {y : Slot} (y1 : y.rev = rev64 k) (y2 : y.conflict = cc) (y3 : y.deleted = true → 0 < i ∧ D (k, cc))
    (y4 : ∃ v, y.val = some v ∧ v.ty = τ) : Work τ D K0 (Emb.setSlot st b P i y) := by
  obtain ⟨_, _, _, g4⟩ := h.setSlot f hi y
    (fun j hj => by rw [y1, ← e1]; exact f.cp.mono hi hj)
    (fun j hj hij => by rw [y1, ← e1]; exact f.cp.mono hj hij) (Or.inr y1) (fun hd => (y3 hd).1)
  refine ⟨fun kc hk => ?_, fun x hx => ?_⟩
  · obtain ⟨x, h1, h2, h3, h4⟩ := w.slots kc hk
    by_cases hr : x.rev = (us[i]).rev
    · have hx := f.eq hi e1 h1 (hr.trans e1)
      refine ⟨y, (g4 y).2 (Or.inl rfl), ?_, ?_, ?_⟩
      · rw [y1, ← e1, ← hr, h2]
      · rw [y2, ← e2, ← hx, h3]
      · intro hd
        have hkc : kc = (k, cc) := by
          have a1 : rev64 kc.1 = rev64 k := by rw [← h2, hr, e1]
          have a2 : kc.1 = k := by rw [← rev64_rev64 kc.1, a1, rev64_rev64]
          have a3 : kc.2 = cc := by rw [← h3, hx, e2]
          exact Prod.ext a2 a3
        rw [hkc]; exact (y3 hd).2
    · exact ⟨x, (g4 x).2 (Or.inr ⟨h1, hr⟩), h2, h3, h4⟩
  · rcases (g4 x).1 hx with rfl | ⟨h1, _⟩
    · exact y4
    · exact w.vals x h1

/-- What the calls of the second phase are. -/
def workOp (H : HashFns) (τ : Nat) (D : U64 × U64 → Prop) (K0 : List (U64 × U64)) : Op → Prop
  | .set (.str str) v => (H.mem str, H.xx str) ∈ K0 ∧ ∃ x, v = some x ∧ x.ty = τ
  | .set _ _ => False
  | .storeItem _ _ _ => False
  | .purge _ => False
  | .delete key => ∀ kc ∈ K0, keyToHash H key = some kc → D kc
  | _ => True

/-- Every deletable key stands between two keys that stay, in the same sixteenth of the hash space. -/
def GuardedK (D : U64 × U64 → Prop) (K0 : List (U64 × U64)) : Prop :=
  ∀ kc ∈ K0, D kc → ∃ a ∈ K0, ∃ b ∈ K0, ¬ D a ∧ ¬ D b ∧ rev64 a.1 < rev64 kc.1 ∧ rev64 kc.1 < rev64 b.1 ∧
    (rev64 a.1).toNat / 2 ^ 60 = (rev64 kc.1).toNat / 2 ^ 60 ∧ (rev64 b.1).toNat / 2 ^ 60 = (rev64 kc.1).toNat / 2 ^ 60

theorem Work.guards (w : Work τ D K0 st) (hG : GuardedK D K0) (h : RelD H K st gl s) {mp : Nat} (hb : st.blist = (initSt mp).blist)
    {kc : U64 × U64} (hk : kc ∈ K0) (hD : D kc) {P : Pool} {us : List Slot} {z : Nat} (f : FoundD st (rev64 kc.1) b n P us z)
    {i : Nat} (hi : i < us.length) (e1 : (us[i]).rev = rev64 kc.1) : 0 < i ∧ ∃ j, ∃ hj : j < us.length, i < j ∧ (us[j]).deleted = false := by
  obtain ⟨a, ha, a', ha', n1, n2, l1, l2, s1, s2⟩ := hG kc hk hD
  obtain ⟨x, x1, x2, x3, x4⟩ := w.slots a ha
  obtain ⟨y, y1, y2, y3, y4⟩ := w.slots a' ha'
  have hx := h.sameNibble hb f x1 (by rw [x2]; exact s1)
  have hy := h.sameNibble hb f y1 (by rw [y2]; exact s2)
  obtain ⟨p, hp, rfl⟩ := List.getElem_of_mem hx
  obtain ⟨q, hq, rfl⟩ := List.getElem_of_mem hy
  have hpi : p < i := by
    rcases lt_trichotomy p i with hc | hc | hc
    · exact hc
    · subst hc; rw [← x2, e1.symm] at l1; exact absurd l1 (BitVec.lt_irrefl _)
    · have := f.cp.mono hp hc; rw [x2, e1] at this; bv_omega
  have hiq : i < q := by
    rcases lt_trichotomy q i with hc | hc | hc
    · have := f.cp.mono hi hc; rw [y2, e1] at this; bv_omega
    · subst hc; rw [← y2, e1.symm] at l2; exact absurd l2 (BitVec.lt_irrefl _)
    · exact hc
  refine ⟨by omega, q, hq, hiq, ?_⟩
  cases hd : (us[q]).deleted with
  | false => rfl
  | true => exact absurd (y4 hd) n2

/-- One call of the second phase is gentle and keeps the invariant. -/
theorem Work.step (w : Work τ D K0 st) (hG : GuardedK D K0) (h : RelD H K0 st gl s) {mp : Nat} (hb : st.blist = (initSt mp).blist)
    (hF : Few st.maxPer K0) (hK : KOK st.maxPer K0) {op : Op} (ho : workOp H τ D K0 op) :
    gentle H st op = true ∧ Work τ D K0 (step H st op).1 := by
  cases op with
  | get key => exact ⟨rfl, w⟩
  | getByHash k c => exact ⟨rfl, w⟩
  | loadItem key => exact ⟨rfl, w⟩
  | loadItemByHash k c => exact ⟨rfl, w⟩
  | len => exact ⟨rfl, w⟩
  | storeItem str v r => exact absurd ho (by simp [workOp])
  | purge key => exact absurd ho (by simp [workOp])
  | delete key =>
    simp only [workOp] at ho
    simp only [gentle, Emb.step, opDelete]
    cases hh : keyToHash H key with
    | none => exact ⟨rfl, w⟩
    | some kc =>
      obtain ⟨k, c⟩ := kc
      simp only
      rcases h.find k c with ⟨h0, hgl⟩ | ⟨b, n, P, us, z, f, ⟨i, hi, h1, e1, e2, e3, h2⟩ | ⟨h1, h2, hno⟩⟩
      · rw [h0]; exact ⟨rfl, w⟩
      · rw [h1]
        simp only
        have hkc : (k, c) ∈ K0 := by
          have := h.mem us[i] ⟨b, P, f.pool, by rw [f.cp.used]; exact List.getElem_mem hi⟩
          rwa [e1, rev64_rev64, e2] at this
        have hD := ho (k, c) hkc hh
        obtain ⟨g1, _⟩ := w.guards hG h hb hkc hD f hi e1
        refine ⟨by simp [g1], ?_⟩
        rw [f.cp.slot hi]
        exact w.setSlot h f hi e1 e2 (y := { us[i] with deleted := true }) e1 e2 (fun _ => ⟨g1, hD⟩)
          (w.vals us[i] ⟨b, P, f.pool, by rw [f.cp.used]; exact List.getElem_mem hi⟩)
      · rw [h1]; exact ⟨rfl, w⟩
  | set key v =>
    cases key with
    | str str =>
      simp only [workOp] at ho
      obtain ⟨hkc, x, rfl, hx⟩ := ho
      simp only [gentle, Emb.step, opSet, keyToHash]
      rcases h.find (H.mem str) (H.xx str) with ⟨h0, hgl⟩ | ⟨b, n, P, us, z, f, ⟨i, hi, h1, e1, e2, e3, h2⟩ | ⟨h1, h2, hno⟩⟩
      · rw [h0]; exact ⟨rfl, w⟩
      · rw [h1]
        simp only
        refine ⟨trivial, ?_⟩
        obtain ⟨o, o1, o2⟩ := w.vals us[i] ⟨b, P, f.pool, by rw [f.cp.used]; exact List.getElem_mem hi⟩
        simp only [Emb.update, f.cp.slot hi, o1, setValue, o2, hx, if_true]
        exact w.setSlot h f hi e1 e2 (y := { us[i] with val := some x }) e1 e2 (fun hd => by rw [e3] at hd; cases hd) ⟨x, rfl, hx⟩
      · rw [h1]
        simp only
        obtain ⟨y, y1, y2, y3, y4⟩ := w.slots _ hkc
        have hy := (f.stored_iff y2).1 y1
        obtain ⟨i, hi, rfl⟩ := List.getElem_of_mem hy
        have hd : (us[i]).deleted = true := by
          cases hd : (us[i]).deleted with
          | true => rfl
          | false => exact absurd ⟨y2, y3⟩ (hno _ hy hd)
        obtain ⟨g1, j, hj, hij, g2⟩ := w.guards hG h hb hkc (y4 hd) f hi y2
        have hff := f.cp.findFree_between g1 hij hj hd g2
        rw [y2] at hff
        obtain ⟨o, o1, o2⟩ := w.vals us[i] y1
        have hle := h.len_few hb hF f
        have hnext : rev64 (H.mem str) < (us[i + 1]'(by omega)).rev := by
          rw [← y2]; exact f.cp.mono (by omega) (by omega)
        have hsv : setValue .sample (us[i]).val (some x) = .ok (some x, true) := by
          rw [o1]; simp only [setValue, o2, hx, if_true]
        constructor
        · rw [hff]
          simp only [f.cp.slot hi, hsv, Bool.or_eq_true, Bool.and_eq_true, decide_eq_true_eq]
          right
          refine ⟨⟨?_, hle⟩, trivial⟩
          intro _
          rw [f.cp.slot (by omega)]; exact hnext
        · have hne : P.len ≠ 0 := by rw [f.cp.len]; omega
          have hcap := f.cp.cap
          have hgs : Pool.getSlot 2 P (rev64 (H.mem str)) =
              .ok ({ P with arr := P.arr.set i { us[i] with rev := 0, conflict := 0, deleted := false } }, i) := by
            rw [Pool.getSlot]
            simp only
            rw [if_neg hne, hff]
            simp only
            rw [f.cp.slot hi]
          have hsl : ({ P with arr := P.arr.set i { us[i] with rev := 0, conflict := 0, deleted := false } } : Pool).slot i =
              { us[i] with rev := 0, conflict := 0, deleted := false } := by
            unfold Pool.slot
            simp only
            rw [List.getD_eq_getElem?_getD, List.getElem?_set_self (by omega)]
            rfl
          have hc : claim { us[i] with rev := 0, conflict := 0, deleted := false } (rev64 (H.mem str)) (H.xx str) =
              { us[i] with rev := rev64 (H.mem str), conflict := H.xx str, deleted := false } := by simp [claim]
          simp only [hgs, hsl, hc, hsv]
          have hset : ∀ y : Slot, Emb.setSlot st b { P with arr := P.arr.set i { us[i] with rev := 0, conflict := 0, deleted := false } } i y =
              Emb.setSlot st b P i y := by
            intro y; unfold Emb.setSlot; simp only [List.set_set]
          rw [hset]
          have hw := w.setSlot h f hi y2 y3 (y := { rev := rev64 (H.mem str), conflict := H.xx str, key := str, val := some x }) rfl rfl
            (fun hd => by cases hd) ⟨x, rfl, hx⟩
          have hlink : ∀ st1 : St, blen st1.pools st1.mem b ≤ st1.maxPer → link st1 b (rev64 (H.mem str)) false = .ok { st1 with
              len := st1.len + 1,
              mem := if (st1.mem b).level > 0 then upd st1.mem b { st1.mem b with len := (st1.mem b).len + 1 } else st1.mem } := by
            intro st1 hb
            unfold link
            simp only
            rw [if_neg (by rintro ⟨_, _, h3⟩; omega)]
          rw [hlink _ (by unfold blen; simp only [Emb.setSlot, upool, if_true]; exact hle)]
          simp only [finish]
          exact hw.congr (fun x => Iff.rfl)
    | _ => exact absurd ho (by simp [workOp])

/-- The second phase is gentle. -/
theorem Work.gentleRun (hG : GuardedK D K0) {mp : Nat} (hF : Few mp K0) (hK : KOK mp K0) : ∀ (ops : List Op) (st : St) (s : PMap),
    Work τ D K0 st → RelD H K0 st st.blist s → st.blist = (initSt mp).blist → st.maxPer = mp → (∀ op ∈ ops, workOp H τ D K0 op) →
    Emb.gentleRun H st ops = true := by
  intro ops
  induction ops with
  | nil => intros; rfl
  | cons op ops ih =>
    intro st s w h hb hm ho
    obtain ⟨g1, g2⟩ := w.step hG h hb (hm ▸ hF) (hm ▸ hK) (ho op (by simp))
    simp only [Emb.gentleRun, Bool.and_eq_true]
    refine ⟨g1, ?_⟩
    have hk : ∀ kc, setHash H op = some kc → kc ∈ K0 := by
      intro kc hk
      have := ho op (by simp)
      cases op with
      | set key v =>
        cases key with
        | str str => injection hk with hk; rw [← hk]; exact this.1
        | _ => cases hk
      | _ => cases hk
    rcases h.step (hm ▸ hK) g1 hk with ⟨_, h1⟩ | ⟨⟨gl', h1, h4⟩, h2, _⟩
    · exact absurd rfl h1
    · obtain ⟨e1, e2⟩ := h4 (hm ▸ hF)
      rw [e1, ← e2] at h1
      exact ih _ _ g2 h1 (e2.trans hb) (h2.trans hm) (fun o h => ho o (by simp [h]))

end SLM.Emb
