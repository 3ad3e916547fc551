import Verif.Props.Embedded
/-! C29, C50–C53: slots of embedded buckets, Len, stale slots. -/
set_option maxRecDepth 100000
set_option autoImplicit false
namespace SLM.Emb
open Spec (PMap Ans)

/-- The few-keys theorem is not about empty histories. -/
example : NoCrash hR 4 [.set (sk 1) (exV 1), .set (sk 2) (exV 2), .get (sk 1), .set (sk 3) none, .get (sk 200)] := by
  refine (C26_partial_few (by omega) ?_ ?_ ?_ (by decide)).1
  · intro op ho; simp at ho; rcases ho with rfl | rfl | rfl | rfl | rfl <;> trivial
  · exact (cleanB_sound (mp := 4) (by decide +kernel)).coll
  · intro L hL hin _
    have : L.length ≤ [hR.mem [1], hR.mem [2], hR.mem [3]].length := by
      apply List.Subperm.length_le
      apply List.subperm_of_subset hL
      intro k hk
      obtain ⟨op, ho, c, hc⟩ := hin k hk
      simp at ho
      rcases ho with rfl | rfl | rfl | rfl | rfl <;> simp [setHash, sk] at hc <;> simp [hc]
    simpa using le_trans this (by decide : 3 ≤ 4)

/-! ### C29 -/

/-- C29: in every bucket the slots in use lie inside the array, are strictly increasing in the reversed hash, not below the
bucket's boundary and below every larger boundary (the list's end mark `[]` is none), and the binary search finds exactly
them. -/
def SlotsOK (st : St) : Prop :=
  ∀ b P, st.pools b = some P →
    b ∈ st.blist ∧ 0 ≤ P.len ∧ P.len ≤ P.cap ∧ P.used.Pairwise (fun s t => s.rev < t.rev) ∧
    (∀ s ∈ P.used, (st.mem b).rev ≤ s.rev) ∧
    (∀ n ∈ st.blist, n ≠ [] → (st.mem b).rev < (st.mem n).rev → ∀ s ∈ P.used, s.rev < (st.mem n).rev) ∧
    (∀ r c i, P.lookup r c = some i ↔ (i : Int) < P.len ∧ (P.slot i).rev = r ∧ (P.slot i).conflict = c)

theorem EI.slotsOK {st : St} {gl : List Path} (h : EI st gl) : SlotsOK st := by
  intro b P hP
  obtain ⟨hb, hbn⟩ := h.pool b (by rw [hP]; rfl)
  obtain ⟨n, ha⟩ := adj_next h.desc h.head hb hbn
  obtain ⟨P', xs, z, g1, g2, g3⟩ := h.content n b ha
  rw [hP] at g1; injection g1 with g1; subst g1
  have hbr := h.bi.rev_toNat (h.sub b hb) hbn
  rw [g2.used]
  refine ⟨hb, by rw [g2.len]; omega, ?_, g2.sorted, ?_, ?_, ?_⟩
  · rw [g2.len]; unfold Pool.cap; rw [g2.arr]; simp
  · intro s hs
    rw [BitVec.le_def, hbr]; exact (g3 s hs).1
  · intro n' hn' hne hlt s hs
    have hnr := h.bi.rev_toNat (h.sub n' hn') hne
    rw [BitVec.lt_def] at hlt ⊢
    rw [hbr, hnr] at hlt
    rw [hnr]
    have := ha.2.2.2 n' hn'
    have := (g3 s hs).2
    omega
  · intro r c i
    rcases g2.lookup r c with ⟨j, hj, e1, e2, e3⟩ | ⟨e1, e2⟩
    · rw [e1]
      constructor
      · intro hi; injection hi with hi; subst hi
        exact ⟨by rw [g2.len]; exact_mod_cast hj, by rw [g2.slot hj]; exact ⟨e2, e3⟩⟩
      · rintro ⟨h1, h2, h3⟩
        have hi : i < xs.length := by rw [g2.len] at h1; exact_mod_cast h1
        rw [g2.slot hi] at h2
        congr 1
        rcases lt_trichotomy i j with hij | hij | hij
        · have := g2.mono hj hij; rw [h2, e2] at this; exact absurd this (BitVec.lt_irrefl _)
        · exact hij.symm
        · have := g2.mono hi hij; rw [h2, e2] at this; exact absurd this (BitVec.lt_irrefl _)
    · rw [e1]
      constructor
      · intro hi; cases hi
      · rintro ⟨h1, h2, h3⟩
        have hi : i < xs.length := by rw [g2.len] at h1; exact_mod_cast h1
        rw [g2.slot hi] at h2 h3
        exact absurd ⟨h2, h3⟩ (e2 _ (List.getElem_mem hi))

/-- C29 for clean histories without a crash. -/
theorem C29_partial {H : HashFns} {mp : Nat} {ops : List Op} (h : Clean H mp ops) (hc : NoCrash H mp ops) :
    SlotsOK (run H (initSt mp) ops).1 := by
  obtain ⟨⟨gl, g⟩, _⟩ := h.rel hc
  exact g.ei.slotsOK

/-- And every key that was Set is in a slot. -/
theorem C29_complete_partial {H : HashFns} {mp : Nat} {ops : List Op} (h : Clean H mp ops) (hc : NoCrash H mp ops)
    {k c : U64} (hk : (((PMap.empty .sample).run H (ops.map toOp)).1.m (k, c)).isSome) :
    ∃ b P i, (run H (initSt mp) ops).1.pools b = some P ∧ P.lookup (rev64 k) c = some i := by
  obtain ⟨⟨gl, g⟩, _⟩ := h.rel hc
  obtain ⟨v, hv⟩ := Option.isSome_iff_exists.1 hk
  obtain ⟨x, ⟨b, P, hP, hx⟩, x2, x3, x4⟩ := (g.abs _ _ _).1 hv
  refine ⟨b, P, ?_⟩
  obtain ⟨_, _, _, _, _, _, hl⟩ := g.ei.slotsOK b P hP
  obtain ⟨i, hi, hxi⟩ := List.getElem_of_mem hx
  refine ⟨i, hP, ?_⟩
  rw [hl]
  simp only [Pool.used, List.length_take] at hi
  simp only [Pool.used, List.getElem_take] at hxi
  have hs : P.slot i = x := by
    unfold Pool.slot
    rw [List.getD_eq_getElem?_getD, List.getElem?_eq_getElem (by omega), hxi]; rfl
  rw [hs]
  exact ⟨by omega, x2, x3⟩

/-- C29 fails for two keys with the same primary hash: the order is not strict. -/
theorem C29_refuted : ∃ H ops, (∀ op ∈ ops, SetGet op) ∧ NoCrash H 4 ops ∧ ¬ SlotsOK (run H (initSt 4) ops).1 := by
  let H : HashFns := { hR with mem := fun s => rev64 (BitVec.ofNat 64 s.length) }
  let ops : List Op := [.set (sk 1) (exV 1), .set (sk 2) (exV 2)]
  have hout : (run H (initSt 4) ops).2 = [.bool true, .bool true] := by decide +kernel
  refine ⟨H, ops, by decide +kernel, ?_, ?_⟩
  · unfold NoCrash; rw [hout]; intro c; simp
  · intro h
    have hp : ∃ P, (run H (initSt 4) ops).1.pools [0] = some P ∧ ¬ P.used.Pairwise (fun s t => s.rev < t.rev) := by
      cases hP : (run H (initSt 4) ops).1.pools [0] with
      | none => exact absurd hP (by decide +kernel)
      | some P =>
        refine ⟨P, rfl, ?_⟩
        have : ((run H (initSt 4) ops).1.pools [0]).all (fun P => ¬ decide (P.used.Pairwise (fun s t => s.rev < t.rev))) = true := by
          decide +kernel
        rw [hP] at this
        simpa using this
    obtain ⟨P, h1, h2⟩ := hp
    exact h2 (h [0] P h1).2.2.2.1

/-! ### C50: Len -/

theorem plain_keys {H : HashFns} : ∀ (ops : List Op) (s : PMap), (∀ op ∈ ops, Plain op) → ∀ kc,
    ((s.run H (ops.map toOp)).1.m kc).isSome ↔ (s.m kc).isSome ∨ kc ∈ hashes H ops := by
  intro ops
  induction ops with
  | nil => intro s _ kc; simp [PMap.run, hashes]
  | cons op ops ih =>
    intro s hp kc
    simp only [List.map_cons, PMap.run]
    rw [ih _ (fun o ho => hp o (by simp [ho]))]
    have hstep : ((s.step H (toOp op)).1.m kc).isSome ↔ (s.m kc).isSome ∨ setHash H op = some kc := by
      have hpo := hp op (by simp)
      cases op with
      | set key v =>
        cases key with
        | str str =>
          simp only [toOp, PMap.step, keyToHash, setHash]
          cases hm : s.m (H.mem str, H.xx str) with
          | none =>
            simp only [PMap.put]
            by_cases he : kc = (H.mem str, H.xx str)
            · subst he; simp
            · simp [he, Ne.symm he]
          | some old =>
            have hput : ∀ v, ((s.put (H.mem str, H.xx str) v).m kc).isSome ↔ (s.m kc).isSome ∨ some (H.mem str, H.xx str) = some kc := by
              intro v
              simp only [PMap.put]
              by_cases he : kc = (H.mem str, H.xx str)
              · subst he; simp
              · simp [he, Ne.symm he]
            have hsame : (s.m kc).isSome ↔ (s.m kc).isSome ∨ some (H.mem str, H.xx str) = some kc := by
              constructor
              · exact Or.inl
              · rintro (h | h)
                · exact h
                · injection h with h; rw [← h, hm]; rfl
            simp only [PMap.overwrite]
            split <;> first | exact hput _ | exact hsame | (split <;> first | exact hput _ | exact hsame)
        | _ => exact absurd hpo (by simp [Plain])
      | get key => simp only [toOp, PMap.step, setHash]; cases keyToHash H key <;> simp
      | getByHash k c => simp [toOp, PMap.step, setHash]
      | loadItem key => simp only [toOp, PMap.step, setHash]; cases keyToHash H key <;> simp
      | loadItemByHash k c => simp [toOp, PMap.step, setHash]
      | len => simp [toOp, PMap.step, setHash]
      | _ => exact absurd hpo (by simp [Plain])
    rw [hstep]
    simp only [hashes, List.filterMap_cons]
    cases hs : setHash H op with
    | none => simp
    | some y => simp only [List.mem_cons, Option.some.injEq]; tauto

/-- C50: Len of an embedded map is the number of different primary hashes Set so far. -/
theorem C50_len_partial {H : HashFns} {mp : Nat} {ops : List Op} (h : Clean H mp ops) (hc : NoCrash H mp ops) :
    (step H (run H (initSt mp) ops).1 .len).2 = .num ((hashes H ops).map (·.1)).dedup.length := by
  obtain ⟨⟨gl, g⟩, _⟩ := h.rel hc
  obtain ⟨L, l1, l2, l3⟩ := g.cnt
  show Out.num (run H (initSt mp) ops).1.len = _
  congr 1
  rw [l3]
  have hperm : (L.map rev64).Perm ((hashes H ops).map (·.1)).dedup := by
    rw [List.perm_ext_iff_of_nodup (nodup_rev l1) (List.nodup_dedup _)]
    intro k
    rw [List.mem_dedup, List.mem_map, List.mem_map]
    have hm : ∀ c, (k, c) ∈ hashes H ops ↔ ∃ x, Stored (run H (initSt mp) ops).1 x ∧ x.rev = rev64 k ∧ x.conflict = c := by
      intro c
      have := plain_keys (H := H) ops (PMap.empty .sample) h.plain (k, c)
      simp only [PMap.empty, Option.isSome_none, Bool.false_eq_true, false_or] at this
      rw [← this]
      rw [Option.isSome_iff_exists]
      constructor
      · rintro ⟨v, hv⟩
        obtain ⟨x, x1, x2, x3, _⟩ := (g.abs _ _ _).1 hv
        exact ⟨x, x1, x2, x3⟩
      · rintro ⟨x, x1, x2, x3⟩
        exact ⟨x.val, (g.abs _ _ _).2 ⟨x, x1, x2, x3, rfl⟩⟩
    constructor
    · rintro ⟨r, hr, rfl⟩
      obtain ⟨x, x1, x2⟩ := (l2 r).1 hr
      exact ⟨(rev64 r, x.conflict), (hm _).2 ⟨x, x1, by rw [x2, rev64_rev64], rfl⟩, rfl⟩
    · rintro ⟨⟨k', c⟩, hk, rfl⟩
      obtain ⟨x, x1, x2, _⟩ := (hm c).1 hk
      exact ⟨rev64 k', (l2 _).2 ⟨x, x1, x2⟩, rev64_rev64 k'⟩
  have := hperm.length_eq
  rw [List.length_map] at this
  exact_mod_cast this

example : (step hR (run hR (initSt 3) exOps).1 .len).2 = .num 5 := by
  rw [C50_len_partial exClean exNoCrash]; decide +kernel

/-- C50 fails with deletions: Len keeps counting. -/
theorem C50_refuted : ∃ ops, NoCrash hR 4 ops ∧ (step hR (run hR (initSt 4) ops).1 (.get (sk 20))).2 = .val none false ∧
    (step hR (run hR (initSt 4) ops).1 .len).2 = .num 2 := by
  have hout : (run hR (initSt 4) [.set (sk 10) (exV 1), .set (sk 20) (exV 2), .delete (sk 20)]).2 = [.bool true, .bool true, .bool true] := by
    decide +kernel
  refine ⟨[.set (sk 10) (exV 1), .set (sk 20) (exV 2), .delete (sk 20)], ?_, by decide +kernel, by decide +kernel⟩
  unfold NoCrash; rw [hout]; intro c; simp

/-! ### C51: a new key after a Purge -/

/-- C51: a Set of a new key that answers true makes the key retrievable. -/
def C51_statement (H : HashFns) (mp : Nat) (ops : List Op) : Prop :=
  ∀ str v, (step H (run H (initSt mp) ops).1 (.set (.str str) v)).2 = .bool true →
    (step H (step H (run H (initSt mp) ops).1 (.set (.str str) v)).1 (.get (.str str))).2 = .val v true

/-- After Purge of a bucket's last key the slot is handed out again with the old hash in it: the new key is lost. -/
theorem C51_refuted_stale : ∃ ops, NoCrash hR 4 ops ∧ ¬ C51_statement hR 4 ops := by
  let ops : List Op := [.set (sk 1) (exV 1), .set (sk 5) (exV 2), .purge (sk 5)]
  have hout : (run hR (initSt 4) ops).2 = [.bool true, .bool true, .bool true] := by decide +kernel
  refine ⟨ops, ?_, ?_⟩
  · unfold NoCrash; rw [hout]; intro c; simp
  · intro h
    exact absurd (h [7] (exV 3) (by decide +kernel)) (by decide +kernel)

/-- A reused slot keeps its old value: Set(6, nil) answers true, Get(6) answers the value deleted with key 5. -/
theorem C51_refuted_oldvalue : ∃ ops, NoCrash hR 4 ops ∧ ¬ C51_statement hR 4 ops := by
  let ops : List Op := [.set (sk 1) (exV 1), .set (sk 5) (exV 2), .set (sk 9) (exV 3), .delete (sk 5)]
  have hout : (run hR (initSt 4) ops).2 = [.bool true, .bool true, .bool true, .bool true] := by decide +kernel
  refine ⟨ops, ?_, ?_⟩
  · unfold NoCrash; rw [hout]; intro c; simp
  · intro h
    exact absurd (h [6] none (by decide +kernel)) (by decide +kernel)

/-- C51 for clean histories: a Set that answers true is seen by the next Get, or that Get exhausts the stack.
(`v ≠ none`: Set of nil to a present key answers false.) -/
theorem C51_partial {H : HashFns} {mp : Nat} {ops : List Op} {str : List (BitVec 8)} {v : IVal}
    (h : Clean H mp (ops ++ [.set (.str str) v])) (hc : NoCrash H mp ops)
    (ht : (step H (run H (initSt mp) ops).1 (.set (.str str) v)).2 = .bool true) :
    (step H (step H (run H (initSt mp) ops).1 (.set (.str str) v)).1 (.get (.str str))).2 = .val v true ∨
    (step H (step H (run H (initSt mp) ops).1 (.set (.str str) v)).1 (.get (.str str))).2 = .crash .stackOverflow := by
  obtain ⟨⟨gl, s, g1⟩, g2⟩ := h.last hc
  rcases g1.step (op := .set (.str str) v) (by rw [g2]; exact h.kok) trivial (fun kc hk => mem_hashes.2 ⟨.set (.str str) v, by simp, hk⟩)
    with ⟨hcr, _⟩ | ⟨⟨gl', g4, _⟩, _, g3⟩
  · rw [hcr] at ht; cases ht
  · rw [ht] at g3
    have hm : (s.step H (toOp (.set (.str str) v))).1.m (H.mem str, H.xx str) = some v := by
      simp only [toOp, PMap.step, keyToHash, ansE, Option.some.injEq] at g3 ⊢
      cases hm : s.m (H.mem str, H.xx str) with
      | none => simp [PMap.put]
      | some old =>
        rw [hm] at g3
        simp only [PMap.overwrite, g1.fn] at g3 ⊢
        cases v with
        | none => simp at g3
        | some v =>
          cases old with
          | none => simp [PMap.put]
          | some o =>
            simp only at g3 ⊢
            by_cases hty : o.ty = v.ty
            · simp [hty, PMap.put]
            · simp [hty] at g3
    rcases g4.getByHash (H.mem str) (H.xx str) with ⟨h1, _⟩ | h1
    · right
      exact h1
    · left
      rw [hm] at h1
      exact h1

/-! ### C52: keys of loaded items -/

/-- C52: the item that LoadItem answers for a string carries a key with the hashes of that string. -/
theorem C52_key_partial {H : HashFns} {mp : Nat} {ops : List Op} (h : Clean H mp ops) (hc : NoCrash H mp ops)
    {str str' : List (BitVec 8)} {v : IVal}
    (hl : (step H (run H (initSt mp) ops).1 (.loadItem (.str str))).2 = .item (some (str', v))) :
    H.mem str' = H.mem str ∧ H.xx str' = H.xx str := by
  obtain ⟨⟨gl, g⟩, _⟩ := h.rel hc
  simp only [step, opLoadItem, keyToHash] at hl
  rcases g.loadByHash (H.mem str) (H.xx str) with ⟨h1, _⟩ | ⟨r, h1, _, h3⟩
  · rw [h1] at hl; cases hl
  · rw [h1] at hl
    injection hl with hl
    exact h3 (str', v) (by rw [hl]; rfl)

example : (step hR (run hR (initSt 3) exOps).1 (.loadItem (sk 10))).2 = .item (some ([10], exV 4)) := by
  decide +kernel

end SLM.Emb
