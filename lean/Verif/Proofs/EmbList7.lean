import Verif.Proofs.EmbList6
/-! The item list of embedded mode: one call, and a history. -/
set_option linter.unusedSimpArgs false
set_option autoImplicit false
namespace SLM.EList
open Spec (PMap)
open Emb (Pool Slot EI clrSt clrP Adj OKP CP upool Stored RelD FoundD KOK NotCrowded Placed gentle gentleRun setHash toOp)
variable {st st1 : Emb.St} {gl gl' A B : List Path} {n b c p : Path} {l0 : Int} {D : Node → Bool} {H : HashFns} {K : List (U64 × U64)} {s : PMap}

theorem upool_len {Q P : Pool} (hP : st.pools b = some P) (h : Q.len.toNat = P.len.toNat) (p : Path) :
    plen (upool st.pools b Q) p = plen st.pools p := by
  unfold plen upool
  by_cases hp : p = b
  · subst hp; simp [hP, h]
  · simp [hp]

theorem set_len {P : Pool} (hP : st.pools b = some P) (i : Nat) (y : Slot) (p : Path) :
    plen (Emb.setSlot st b P i y).pools p = plen st.pools p :=
  upool_len (Q := { P with arr := P.arr.set i y }) hP rfl p

theorem lst_set {P : Pool} (hP : st.pools b = some P) (i : Nat) (y : Slot) : lst D (Emb.setSlot st b P i y) = lst D st :=
  lst_congr rfl (fun p => set_len hP i y p)

/-- A slot is overwritten in place. -/
theorem DOk.replace (hD : DOk D st) {P : Pool} (hP : st.pools b = some P) {i : Nat} {y : Slot}
    (hy : D (.item b i) = true → y.deleted = true) (h1 : st1.pools = upool st.pools b { P with arr := P.arr.set i y }) : DOk D st1 := by
  intro x hx
  obtain ⟨b', i', P', q1, q2, q3, q4⟩ := hD x hx
  by_cases hb : b' = b
  · subst hb
    rw [hP] at q2; injection q2 with q2; subst q2
    refine ⟨b', i', { P with arr := P.arr.set i y }, q1, by rw [h1]; simp [upool], q3, ?_⟩
    by_cases hi : i = i'
    · subst hi
      unfold Pool.slot at q4 ⊢
      simp only
      rw [List.getD_eq_getElem?_getD] at q4 ⊢
      by_cases hl : i < P.arr.length
      · rw [List.getElem?_set_self hl]; exact hy (q1 ▸ hx)
      · rw [List.set_eq_of_length_le (by omega)]; exact q4
    · unfold Pool.slot at q4 ⊢
      simp only
      rw [List.getD_eq_getElem?_getD, List.getElem?_set_ne hi, ← List.getD_eq_getElem?_getD]; exact q4
  · exact ⟨b', i', P', q1, by rw [h1]; simp [upool, hb, q2], q3, q4⟩

theorem DOk.congr (hD : DOk D st) (h : st1.pools = st.pools) : DOk D st1 := by
  intro x hx
  obtain ⟨b', i', P', q1, q2, q3⟩ := hD x hx
  exact ⟨b', i', P', q1, by rw [h]; exact q2, q3⟩

/-- A deleted slot is used again. -/
theorem reuse_lst (h : RelD H K st gl s) {str : List (BitVec 8)} (hmem : (H.mem str, H.xx str) ∈ K)
    {P : Pool} {us : List Slot} {z : Nat} (f : FoundD st (rev64 (H.mem str)) b n P us z) {i : Nat} (hi : i < us.length)
    (hlo : ∀ j, (hj : j ≤ i) → (us[j]'(by omega)).rev ≤ rev64 (H.mem str))
    (hhi : (hj : i + 1 < us.length) → rev64 (H.mem str) < (us[i + 1]).rev) {y : Slot} (y1 : y.rev = rev64 (H.mem str)) (y0 : y.deleted = false)
    (hle : P.len ≤ st.maxPer) (hD : DOk D st) (hmax : rev64 (H.mem str) < maxU64) {st' : Emb.St}
    (hl : Emb.link (Emb.setSlot st b P i y) b (rev64 (H.mem str)) false = .ok st') :
    link (Emb.setSlot st b P i y) b (rev64 (H.mem str)) (.item b i) (rev64 (H.mem str)) false
      ((lst D st).filter (fun x => decide (x ≠ .item b i))) = some (lst (fun x => D x && decide (x ≠ .item b i)) st') ∧
    DOk (fun x => D x && decide (x ≠ .item b i)) st' := by
  obtain ⟨g1, _, _, _⟩ := h.setSlot f hi y
    (fun j hj => by
      rw [y1]
      have a1 := f.cp.mono hi hj
      have a2 := hlo i (le_refl _)
      bv_omega)
    (fun j hj hij => by
      rw [y1]
      have a1 := hhi (by omega)
      by_cases e : j = i + 1
      · subst e; exact a1
      · have := f.cp.mono hj (i := i + 1) (by omega); bv_omega) (Or.inr y1) (by rw [y0]; simp)
  obtain ⟨D', hD'⟩ : ∃ D' : Node → Bool, D' = fun x => D x && decide (x ≠ .item b i) := ⟨_, rfl⟩
  have hd0 : D' (.item b i) = false := by rw [hD']; simp
  have hDD : DOk D' st := by
    intro x hx
    rw [hD'] at hx
    simp only [Bool.and_eq_true] at hx
    exact hD x hx.1
  have hcap := f.cp.cap
  have hD1 : DOk D' (Emb.setSlot st b P i y) := hDD.replace f.pool (by rw [hd0]; intro hc; cases hc) rfl
  have hlP : P.len.toNat = us.length := by rw [f.cp.len]; simp
  have hll : lst D' (Emb.setSlot st b P i y) = lst D' st := lst_congr rfl (fun p => set_len f.pool _ _ p)
  have hsl : ({ P with arr := P.arr.set i y } : Pool).slot i = y := by
    unfold Pool.slot
    simp only
    rw [List.getD_eq_getElem?_getD, List.getElem?_set_self (by omega)]; rfl
  have hins := setInsert_lst (st := Emb.setSlot st b P i y) (Q := { P with arr := P.arr.set i y }) (i := i) g1 hD1 f.found.adj
    (by simp [Emb.setSlot, upool]) (by simp only; omega) (by rw [hsl, y1]; exact hmax) (by rw [hsl, y1])
  have hns : ¬ (rev64 (H.mem str) < maxU64 ∧ false = false ∧
      Emb.blen (Emb.setSlot st b P i y).pools (Emb.setSlot st b P i y).mem b > (Emb.setSlot st b P i y).maxPer) := by
    rintro ⟨_, _, h3⟩
    unfold Emb.blen at h3
    simp only [Emb.setSlot, upool, if_true] at h3
    omega
  unfold Emb.link at hl
  simp only at hl
  rw [if_neg (by simpa using hns)] at hl
  simp only at hl
  injection hl with hl
  rw [lst_filter, ← hD', ← hll]
  unfold link
  rw [hins]
  simp only
  rw [if_neg (by simpa using hns), drop_twice hd0]
  exact ⟨by rw [← hl]; rfl, hD1.congr (by rw [← hl])⟩


theorem set_li (h : RelD H K st gl s) (hK : KOK st.maxPer K) {str : List (BitVec 8)} (hmem : (H.mem str, H.xx str) ∈ K) (v : IVal)
    (hg : gentle H st (.set (.str str) v) = true) {l : List Node} (hl : LI st l)
    (hE' : ∃ gl', EI (clrSt (Emb.opSet H st (.str str) v).1 0) gl') (hoff : Off K (Emb.opSet H st (.str str) v).1.blist) :
    ∃ l', opSet H st (.str str) v l = some l' ∧ LI (Emb.opSet H st (.str str) v).1 l' := by
  obtain ⟨D, hD, rfl⟩ := hl
  obtain ⟨gl', hE'⟩ := hE'
  have hlt := hoff.lt (kc := (H.mem str, H.xx str)) hmem
  unfold opSet
  unfold Emb.opSet at hE' hoff ⊢
  simp only [keyToHash] at hE' hoff ⊢
  simp only [gentle] at hg
  rcases h.find (H.mem str) (H.xx str) with ⟨h0, hg⟩ | ⟨b, n, P, us, z, f, ⟨i, hi, h1, e1, e2, e3, h2⟩ | ⟨h1, h2, hno⟩⟩
  · rw [h0]; exact ⟨_, rfl, D, hD, rfl⟩
  · rw [h1]
    simp only [Emb.update, f.cp.slot hi]
    refine ⟨_, rfl, ?_⟩
    cases hsv : setValue .sample (us[i]).val v with
    | error e => exact ⟨D, hD, rfl⟩
    | ok w =>
      refine ⟨D, ?_, ?_⟩
      · exact hD.replace f.pool (by
          intro hc
          obtain ⟨b', i', P', q1, q2, q3, q4⟩ := hD _ hc
          injection q1 with q1 q1'; subst q1 q1'
          rw [f.pool] at q2; injection q2 with q2; subst q2
          rw [f.cp.slot hi] at q4; exact q4) rfl
      · exact (lst_set f.pool _ _).symm
  · rw [h1] at hg hE' hoff ⊢
    simp only [Bool.or_eq_true] at hg
    rcases hg with hg | hg
    · have hlive : ∀ x ∈ P.arr, x.deleted = false := by
        intro x hx
        have := List.all_eq_true.1 hg x hx
        simpa using this
      obtain ⟨q, i, st', _, g1, g2, g3, g4, g5, g6⟩ := h.insert hK hmem f hno hlive v
      simp only [g1, g2] at hE' hoff ⊢
      have hsv : setValue .sample ({} : Slot).val v = .ok (v, v.isSome) := by
        cases v <;> rfl
      have hc : Emb.claim {} (rev64 (H.mem str)) (H.xx str) = { rev := rev64 (H.mem str), conflict := H.xx str } := by
        simp [Emb.claim]
      have hsv' : setValue .sample (none : IVal) v = .ok (v, v.isSome) := hsv
      simp only [hc, hsv', g3, Emb.finish] at hE' hoff ⊢
      obtain ⟨l1, r1, r2, r3⟩ := insert_lst h hK hmem f hno hlive v hD g1 g3 hE' hoff
      rw [r1]
      simp only
      exact ⟨_, r2, D, r3, rfl⟩
    · cases hff : P.findFree (rev64 (H.mem str)) (Emb.lastActive P.arr P.len.toNat) with
      | none => rw [hff] at hg; cases hg
      | some i =>
        rw [hff] at hg
        simp only [Bool.and_eq_true, decide_eq_true_eq] at hg
        obtain ⟨⟨hg1, hg2⟩, hg3⟩ := hg
        obtain ⟨hi, hd, hlo⟩ := f.cp.findFree hff
        have hhi : (hj : i + 1 < us.length) → rev64 (H.mem str) < (us[i + 1]).rev := by
          intro hj
          have := hg1 (by rw [f.cp.len]; omega)
          rwa [f.cp.slot hj] at this
        obtain ⟨st', r1, r2, r3, r4⟩ := h.reuse hK hmem f hno hi hlo hhi hd v hg2
        have hne : P.len ≠ 0 := by rw [f.cp.len]; omega
        have hcap := f.cp.cap
        rw [f.cp.slot hi] at hg3
        have hgs : Pool.getSlot 2 P (rev64 (H.mem str)) =
            .ok ({ P with arr := P.arr.set i { us[i] with rev := 0, conflict := 0, deleted := false } }, i) := by
          rw [Pool.getSlot]
          simp only
          rw [if_neg hne, hff]
          simp only
          rw [f.cp.slot hi]
        have hsl : ({ P with arr := P.arr.set i { us[i] with rev := 0, conflict := 0, deleted := false } } : Pool).slot i =
            { us[i] with rev := 0, conflict := 0, deleted := false } := by
          unfold Pool.slot
          simp only
          rw [List.getD_eq_getElem?_getD, List.getElem?_set_self (by omega)]
          rfl
        have hgl : getSlot b 2 P (rev64 (H.mem str)) (lst D st) = some ((lst D st).filter (fun x => decide (x ≠ .item b i))) := by
          conv_lhs => unfold getSlot
          simp only
          rw [if_neg hne, hff]
        simp only [hgs, hsl] at hE' hoff ⊢
        rw [hgl]
        have hc : Emb.claim { us[i] with rev := 0, conflict := 0, deleted := false } (rev64 (H.mem str)) (H.xx str) =
            { us[i] with rev := rev64 (H.mem str), conflict := H.xx str, deleted := false } := by simp [Emb.claim]
        simp only [hc] at hE' hoff ⊢
        cases hsv : setValue .sample (us[i]).val v with
        | error e => rw [hsv] at hg3; cases hg3
        | ok w =>
          obtain ⟨nv, ok⟩ := w
          rw [hsv] at hg3 hE' hoff
          simp only [decide_eq_true_eq] at hg3
          subst hg3
          simp only at hE' hoff ⊢
          have hset : ∀ y : Slot, Emb.setSlot st b { P with arr := P.arr.set i { us[i] with rev := 0, conflict := 0, deleted := false } } i y =
              Emb.setSlot st b P i y := by
            intro y; unfold Emb.setSlot; simp only [List.set_set]
          rw [hset, r1] at hoff ⊢
          simp only [Emb.finish] at hoff ⊢
          obtain ⟨y, hy⟩ : ∃ y : Slot, y = { rev := rev64 (H.mem str), conflict := H.xx str, key := str, val := nv } := ⟨_, rfl⟩
          rw [← hy] at r1 ⊢
          obtain ⟨t1, t2⟩ := reuse_lst (y := y) h hmem f hi hlo hhi (by rw [hy]) (by rw [hy]) hg2 hD hlt r1
          have hy1 : y.rev = rev64 (H.mem str) := by rw [hy]
          have hy2 : y.deleted = false := by rw [hy]
          refine ⟨_, ?_, _, t2, rfl⟩
          exact t1

theorem item_mem_lst {i : Nat} {P : Pool} (hP : st.pools b = some P) (hi : i < P.len.toNat) (hb : b ∈ st.blist) :
    Node.item b i ∈ canon st := by
  rw [mem_canon]
  exact ⟨b, hb, mem_seg.2 (Or.inr ⟨i, by simp [plen, hP, hi], rfl⟩)⟩

theorem purge_li (h : RelD H K st gl s) {key : Key} (hg : gentle H st (.purge key) = true) {l : List Node} (hl : LI st l) :
    LI (Emb.opPurge H st key).1 (opPurge H st key l) := by
  obtain ⟨D, hD, rfl⟩ := hl
  unfold Emb.opPurge opPurge
  simp only [gentle] at hg
  cases hh : keyToHash H key with
  | none => exact ⟨D, hD, rfl⟩
  | some kc =>
    obtain ⟨k, c⟩ := kc
    rw [hh] at hg
    simp only at hg ⊢
    rcases h.find k c with ⟨h0, hgl⟩ | ⟨b, n, P, us, z, f, ⟨i, hi, h1, e1, e2, e3, h2⟩ | ⟨h1, h2, hno⟩⟩
    · rw [h0]; exact ⟨D, hD, rfl⟩
    · rw [h1] at hg ⊢
      simp only [Bool.and_eq_true, Bool.or_eq_true, decide_eq_true_eq] at hg ⊢
      have hlP : P.len.toNat = us.length := by rw [f.cp.len]; simp
      have hcap := f.cp.cap
      have hdf : D (.item b i) = false := by
        cases hc : D (.item b i) with
        | false => rfl
        | true =>
          obtain ⟨b', i', P', q1, q2, q3, q4⟩ := hD _ hc
          injection q1 with q1 q1'; subst q1 q1'
          rw [f.pool] at q2; injection q2 with q2; subst q2
          rw [f.cp.slot hi, e3] at q4; cases q4
      rw [f.cp.slot hi]
      obtain ⟨y, hy⟩ : ∃ y, y = ({ us[i] with deleted := true } : Slot) := ⟨_, rfl⟩
      rw [← hy]
      by_cases hlast : (i : Int) = P.len - 1
      · have hlen : P.len = (i : Int) + 1 := by omega
        have hnd : ¬ (0 < P.len - 1 ∧ (({ arr := P.arr.set i y, len := P.len - 1 } : Pool).slot (P.len - 1 - 1).toNat).deleted = true) := by
          rintro ⟨q1, q2⟩
          have hi0 : 0 < i := by omega
          have := hg.2 hlast hi0
          unfold Pool.slot at this q2
          simp only at q2
          rw [show (P.len - 1 - 1).toNat = i - 1 by omega, List.getD_eq_getElem?_getD,
            List.getElem?_set_ne (by omega), ← List.getD_eq_getElem?_getD, this] at q2
          cases q2
        have hsh : ({ arr := P.arr.set i y, len := P.len - 1 } : Pool).shrinkLen = { arr := P.arr.set i y, len := i } := by
          unfold Pool.shrinkLen
          simp only
          rw [if_neg hnd, hlast]
        rw [if_pos hlast, if_neg (fun hc => hnd hc.2), hsh]
        obtain ⟨Q, hQ⟩ : ∃ Q : Pool, Q = { arr := P.arr.set i y, len := i } := ⟨_, rfl⟩
        rw [← hQ]
        refine ⟨D, ?_, ?_⟩
        · intro x hx
          obtain ⟨b', i', P', q1, q2, q3, q4⟩ := hD x hx
          by_cases hb : b' = b
          · subst hb
            rw [f.pool] at q2; injection q2 with q2; subst q2
            have hne : i' ≠ i := by rintro rfl; rw [q1, hdf] at hx; cases hx
            refine ⟨b', i', Q, q1, by simp [upool], by rw [hQ]; simp only [Int.toNat_natCast]; omega, ?_⟩
            rw [hQ]
            unfold Pool.slot at q4 ⊢
            simp only
            rw [List.getD_eq_getElem?_getD, List.getElem?_set_ne (by omega), ← List.getD_eq_getElem?_getD]; exact q4
          · exact ⟨b', i', P', q1, by simp [upool, hb, q2], q3, q4⟩
        · obtain ⟨A, B, hbl⟩ := Emb.adj_decomp h.ei.desc f.found.adj
          have hbl : st.blist = A ++ n :: b :: B := hbl
          have hnd0 : st.blist.Nodup := desc_nodup h.ei.desc
          have hb1 : b ∉ B := by
            rw [hbl, List.nodup_append, List.nodup_cons, List.nodup_cons] at hnd0
            exact hnd0.2.1.2.1
          have hb2 : b ∉ n :: A := by
            rw [hbl, List.nodup_append, List.nodup_cons] at hnd0
            intro hc
            rcases List.mem_cons.1 hc with rfl | hc
            · exact hnd0.2.1.1 (by simp)
            · exact hnd0.2.2 b hc b (by simp) rfl
          have ec : canon st = lo st.pools B ++ ((seg (upool st.pools b Q) b ++ [.item b i]) ++ EList.hi st.pools n A) := by
            rw [canon_eq hbl]
            congr 2
            unfold seg
            have p1 : plen st.pools b = i + 1 := by simp only [plen, f.pool]; omega
            have p2 : plen (upool st.pools b Q) b = i := by simp only [plen, upool, if_true]; rw [hQ]; simp
            rw [p1, p2, List.range_succ]
            simp
          have ec' : canon { st with pools := upool st.pools b Q } = lo st.pools B ++ (seg (upool st.pools b Q) b ++ EList.hi st.pools n A) := by
            rw [canon_eq (st := { st with pools := upool st.pools b Q }) hbl]
            simp only
            rw [lo_congr (g := st.pools) (by
                intro p hp; unfold plen upool; rw [if_neg (by rintro rfl; exact hb1 hp)]),
              hi_congr (g := st.pools) (by
                intro p hp; unfold plen upool; rw [if_neg (by rintro rfl; exact hb2 hp)])]
          have hn := canon_nodup h.ei
          have e1 : (canon st).filter (fun x => decide (x ≠ .item b i)) = canon { st with pools := upool st.pools b Q } := by
            rw [ec'] 
            rw [ec] at hn ⊢
            have e2 : lo st.pools B ++ ((seg (upool st.pools b Q) b ++ [Node.item b i]) ++ EList.hi st.pools n A) =
                (lo st.pools B ++ seg (upool st.pools b Q) b) ++ Node.item b i :: EList.hi st.pools n A := by simp
            rw [e2] at hn ⊢
            rw [filter_ne hn]
            simp
          unfold lst
          rw [← e1, List.filter_filter, List.filter_filter]
          apply List.filter_congr
          intro x _
          rw [Bool.and_comm]
      · rw [if_neg hlast, if_neg (fun hc => hlast hc.1)]
        refine ⟨fun x => D x || decide (x = .item b i), ?_, ?_⟩
        · intro x hx
          simp only [Bool.or_eq_true, decide_eq_true_eq] at hx
          rcases hx with hx | hx
          · exact (hD.replace f.pool (i := i) (y := y) (by rw [hdf]; intro hc; cases hc) rfl) x hx
          · refine ⟨b, i, { P with arr := P.arr.set i y }, hx, by simp [Emb.setSlot, upool], by simp only; omega, ?_⟩
            unfold Pool.slot
            simp only
            rw [List.getD_eq_getElem?_getD, List.getElem?_set_self (by omega), hy]; rfl
        · have : lst (fun x => D x || decide (x = .item b i)) (Emb.setSlot st b P i y) = lst (fun x => D x || decide (x = .item b i)) st :=
            lst_congr rfl (fun p => set_len f.pool _ _ p)
          have e0 : (({ st with pools := upool st.pools b { P with arr := P.arr.set i y } } : Emb.St)) = Emb.setSlot st b P i y := rfl
          first
            | rw [this]
            | (rw [e0, this])
          unfold lst
          rw [List.filter_filter]
          apply List.filter_congr
          intro x _
          by_cases hx : x = .item b i <;> simp [hx]
    · rw [h1]; exact ⟨D, hD, rfl⟩

theorem step_li (h : RelD H K st gl s) (hK : KOK st.maxPer K) {op : Emb.Op} (hg : gentle H st op = true)
    (hk : ∀ kc, setHash H op = some kc → kc ∈ K) {l : List Node} (hl : LI st l)
    (hE' : ∃ gl', EI (clrSt (Emb.step H st op).1 0) gl') (hoff : Off K (Emb.step H st op).1.blist) :
    ∃ l', stepL H st l op = some l' ∧ LI (Emb.step H st op).1 l' := by
  cases op with
  | set key v =>
    cases key with
    | str str => exact set_li h hK (hk _ rfl) v hg hl hE' hoff
    | _ => exact absurd hg (by simp [gentle])
  | get key => exact ⟨l, rfl, hl⟩
  | getByHash k c => exact ⟨l, rfl, hl⟩
  | loadItem key => exact ⟨l, rfl, hl⟩
  | loadItemByHash k c => exact ⟨l, rfl, hl⟩
  | storeItem str v r => exact absurd hg (by simp [gentle])
  | purge key => exact ⟨_, rfl, purge_li h hg hl⟩
  | len => exact ⟨l, rfl, hl⟩
  | delete key =>
    refine ⟨l, rfl, ?_⟩
    obtain ⟨D, hD, rfl⟩ := hl
    simp only [Emb.step, Emb.opDelete]
    cases hh : keyToHash H key with
    | none => exact ⟨D, hD, rfl⟩
    | some kc =>
      obtain ⟨k, c⟩ := kc
      simp only
      rcases h.find k c with ⟨h0, hgl⟩ | ⟨b, n, P, us, z, f, ⟨i, hi, h1, e1, e2, e3, h2⟩ | ⟨h1, h2, hno⟩⟩
      · rw [h0]; exact ⟨D, hD, rfl⟩
      · rw [h1]
        simp only
        exact ⟨D, hD.replace f.pool (fun _ => rfl) rfl, (lst_set f.pool _ _).symm⟩
      · rw [h1]; exact ⟨D, hD, rfl⟩

end SLM.EList
