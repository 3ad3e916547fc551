import Verif.Proofs.EmbProv
import Verif.Props.Embedded2
/-!
C28, C52, C62, C63, C64: maps with `UseEmbeddedPool(true)`, whatever history led to the state: collisions, deletions in any place,
purges, reused slots, splits, StoreItem, crashed calls.
-/
set_option maxRecDepth 100000
set_option autoImplicit false
namespace SLM.Emb

variable {H : HashFns}

theorem run_append' (st : St) (a b : List Op) : (run H st (a ++ b)).1 = (run H (run H st a).1 b).1 := by
  induction a generalizing st with
  | nil => rfl
  | cons op a ih => simp only [List.cons_append, run]; exact ih _

/-! ### C62: no value out of thin air -/

/-- At some point of the history an operation with property `P` was called and answered true. -/
def Acked (H : HashFns) (mp : Nat) (ops : List Op) (P : Op → Prop) : Prop :=
  ∃ a op b, ops = a ++ op :: b ∧ P op ∧ (step H (run H (initSt mp) a).1 op).2 = .bool true

theorem Acked.snoc {mp : Nat} {ops : List Op} {P : Op → Prop} (h : Acked H mp ops P) (op : Op) : Acked H mp (ops ++ [op]) P := by
  obtain ⟨a, o, b, h1, h2, h3⟩ := h
  exact ⟨a, o, b ++ [op], by rw [h1]; simp, h2, h3⟩

theorem Acked.last {mp : Nat} {ops : List Op} {P : Op → Prop} {op : Op} (hp : P op)
    (ho : (step H (run H (initSt mp) ops).1 op).2 = .bool true) : Acked H mp (ops ++ [op]) P := ⟨ops, op, [], rfl, hp, ho⟩

theorem run_v {mp : Nat} (ops : List Op) : VInv (fun v => Acked H mp ops (fun op => opVal op = some v)) (run H (initSt mp) ops).1 := by
  induction ops using List.reverseRecOn with
  | nil => exact init_v mp
  | append_singleton ops op ih =>
    rw [run_append']
    simp only [run]
    exact step_v (ih.mono fun v h => h.snoc op) op (fun v h1 _ h3 => Acked.last h1 h3)

/-- A read's answer: the value shown. -/
def shown : Out → Option IVal
  | .val v true => some v
  | .item (some x) => some x.2
  | _ => none

/-- C62: every non-nil value that Get, GetByHash, LoadItem or LoadItemByHash shows was handed to an acknowledged Set or StoreItem.
No side condition. -/
theorem C62_value {mp : Nat} {ops : List Op} {op : Op} {v : IVal} (hv : v ≠ none)
    (h : shown (step H (run H (initSt mp) ops).1 op).2 = some v) : Acked H mp ops (fun o => opVal o = some v) := by
  have hget : ∀ k c, shown (opGetByHash (run H (initSt mp) ops).1 k c) = some v → Acked H mp ops (fun o => opVal o = some v) := by
    intro k c h
    unfold opGetByHash at h
    split at h
    · cases h
    · cases h
    · rename_i b P i hf
      injection h with h
      subst h
      exact (vok_slot (run_v ops _ _ (find_pool hf).1) i).resolve_left hv
  have hload : ∀ k c, shown (opLoadItemByHash (run H (initSt mp) ops).1 k c) = some v → Acked H mp ops (fun o => opVal o = some v) := by
    intro k c h
    unfold opLoadItemByHash at h
    split at h
    · cases h
    · cases h
    · rename_i b P i hf
      injection h with h
      subst h
      exact (vok_slot (run_v ops _ _ (find_pool hf).1) i).resolve_left hv
  cases op with
  | get key =>
    simp only [step, opGet] at h
    split at h
    · cases h
    · exact hget _ _ h
  | getByHash k c => exact hget _ _ h
  | loadItem key =>
    simp only [step, opLoadItem] at h
    split at h
    · cases h
    · exact hload _ _ h
  | loadItemByHash k c => exact hload _ _ h
  | len => cases h
  | _ => exact absurd h (by
      simp only [step, opSet, opStoreItem, opDelete, opPurge, update, finish]
      repeat' split
      all_goals intro hc; cases hc)

/-- Not vacuous: the value of key 10 after deletions, a reused slot and a split. -/
def provOps : List Op :=
  [.set (sk 10) (exV 1), .set (sk 20) (exV 2), .set (sk 30) (exV 3), .delete (sk 20), .set (sk 25) (exV 7), .purge (sk 10), .set (sk 11) (exV 8),
   .storeItem [25] (exV 9) 0]
example : shown (step hR (run hR (initSt 4) provOps).1 (.get (sk 25))).2 = some (exV 9) := by decide +kernel

/-! ### C63: values belong to their key -/

/-- The operation stores `v` for the pair of hashes. -/
def Supplies (H : HashFns) (k c : U64) (v : IVal) (op : Op) : Prop :=
  match op with
  | .set key w => w = v ∧ keyToHash H key = some (k, c)
  | .storeItem str w _ => w = v ∧ (H.mem str, H.xx str) = (k, c)
  | _ => False

/-- C63: a value shown for a pair of hashes was handed to an acknowledged store for that pair. -/
def C63_statement (H : HashFns) (mp : Nat) (ops : List Op) : Prop :=
  ∀ k c v, (step H (run H (initSt mp) ops).1 (.getByHash k c)).2 = .val v true → Acked H mp ops (Supplies H k c v)

/-- After Purge of the bucket's only key the next new key's value is answered for the purged key. -/
def staleOps : List Op := [.set (sk 1) (exV 1), .purge (sk 1), .set (sk 5) (exV 2)]

theorem split_three {a b : List Op} {x y z o : Op} (h : [x, y, z] = a ++ o :: b) :
    (a = [] ∧ o = x) ∨ (a = [x] ∧ o = y) ∨ (a = [x, y] ∧ o = z) := by
  match a, h with
  | [], h => injection h with h1 h2; exact Or.inl ⟨rfl, h1.symm⟩
  | [_], h => injection h with h1 h2; injection h2 with h2 h3; subst h1; exact Or.inr (Or.inl ⟨rfl, h2.symm⟩)
  | [_, _], h =>
    injection h with h1 h2; injection h2 with h2 h3; injection h3 with h3 h4; subst h1 h2
    exact Or.inr (Or.inr ⟨rfl, h3.symm⟩)
  | _ :: _ :: _ :: _, h =>
    injection h with h1 h2; injection h2 with h2 h3; injection h3 with h3 h4
    exact absurd h4 (by simp)

theorem C63_refuted_purge : ¬ C63_statement hR 4 staleOps := by
  intro h
  obtain ⟨a, o, b, h1, h2, _⟩ := h (hR.mem [1]) (hR.xx [1]) (exV 2) (by decide +kernel)
  rcases split_three h1 with ⟨_, rfl⟩ | ⟨_, rfl⟩ | ⟨_, rfl⟩
  · exact absurd h2.1 (by decide)
  · exact h2
  · exact absurd h2.2 (by decide +kernel)

theorem allows_typed {τ : Nat} {V : U64 → U64 → IVal → Prop} (hV : ∀ k c v, V k c v → ∃ w, v = some w ∧ w.ty = τ) {k c : U64} {w : Val}
    (hw : w.ty = τ) (h : V k c (some w)) : Allows V k c (some w) := by
  intro old ho
  rcases ho with rfl | ⟨k', c', ho⟩
  · exact h
  · obtain ⟨o, rfl, ho2⟩ := hV _ _ _ ho
    have : setValue .sample (some o) (some w) = .ok (some w, true) := by simp [setValue, ho2, hw]
    rw [this]
    exact h

/-- What the histories of the positive theorem use: no Purge, string keys for Set, non-nil values of one type. -/
def OneType (τ : Nat) : Op → Prop
  | .purge _ => False
  | .set key v => (∃ s, key = .str s) ∧ ∃ w, v = some w ∧ w.ty = τ
  | .storeItem _ v _ => ∃ w, v = some w ∧ w.ty = τ
  | _ => True

/-- A store of a one-type history is acknowledged or changes nothing. -/
theorem ack_or_same {τ : Nat} {V : U64 → U64 → IVal → Prop} (hV : ∀ k c v, V k c v → ∃ w, v = some w ∧ w.ty = τ) {st : St}
    (h : KeyInv H V st) {op : Op} (ho : OneType τ op) (hs : (opVal op).isSome) :
    (step H st op).2 = .bool true ∨ (step H st op).1 = st := by
  have hup : ∀ {k c : U64} {b : Path} {P : Pool} {i : Nat} {w : Val}, find st k c = some (b, P, some i) → w.ty = τ →
      (update st b P i (some w)).2 = .bool true := by
    intro k c b P i w hf hw
    obtain ⟨h1, h2⟩ := find_pool hf
    obtain ⟨us, z, hk⟩ := h _ _ h1
    have hl := (lookup_lt h2).1
    obtain ⟨o, ho1, ho2⟩ := hV _ _ _ (hk.ok _ (hk.slot_mem (i := i) (by rw [hk.len] at hl; omega))).val
    unfold update
    rw [ho1]
    simp [setValue, ho2, hw]
  have hfin : ∀ x, (finish st x).2 = .bool true ∨ (finish st x).1 = st := by
    intro x; cases x
    · exact Or.inr rfl
    · exact Or.inl rfl
  cases op with
  | set key v =>
    obtain ⟨⟨str, rfl⟩, w, rfl, hw⟩ := ho
    simp only [step, opSet, keyToHash]
    split
    · exact Or.inr rfl
    · rename_i b P i hf; exact Or.inl (hup hf hw)
    · rename_i b P hf
      obtain ⟨h1, h2⟩ := find_pool hf
      obtain ⟨us, z, hk⟩ := h _ _ h1
      split
      · exact Or.inr rfl
      · rename_i q i hg
        have hroom := hk.getSlot 2 hg
        have hval : (claim (q.slot i) (rev64 (H.mem str)) (H.xx str)).val = (q.slot i).val := rfl
        have : ∃ nv, setValue .sample (q.slot i).val (some w) = .ok (nv, true) := by
          rcases hroom.val with hv | ⟨s, hs, hv⟩
          · exact ⟨some w, by rw [hv]; rfl⟩
          · obtain ⟨o, ho1, ho2⟩ := hV _ _ _ (hk.ok s hs).val
            exact ⟨some w, by rw [hv, ho1]; simp [setValue, ho2, hw]⟩
        obtain ⟨nv, hnv⟩ := this
        simp only [hval, hnv]
        cases hx : link _ b _ _ with
        | error c => exact Or.inr rfl
        | ok st' => exact Or.inl rfl
  | storeItem str v r =>
    obtain ⟨w, rfl, hw⟩ := ho
    simp only [step, opStoreItem]
    split
    · exact Or.inr rfl
    · rename_i b P i hf; exact Or.inl (hup hf hw)
    · exact hfin _
  | _ => simp [opVal] at hs

theorem supplies_typed {τ : Nat} {mp : Nat} {ops : List Op} (ho : ∀ op ∈ ops, OneType τ op) {k c : U64} {v : IVal}
    (h : Acked H mp ops (Supplies H k c v)) : ∃ w, v = some w ∧ w.ty = τ := by
  obtain ⟨a, op, b, rfl, h2, _⟩ := h
  have := ho op (by simp)
  cases op with
  | set key w => obtain ⟨_, hw⟩ := this; rw [← h2.1]; exact hw
  | storeItem str w r => rw [← h2.1]; exact this
  | _ => exact h2.elim

theorem run_prov {τ : Nat} {mp : Nat} (ops : List Op) (ho : ∀ op ∈ ops, OneType τ op) :
    KeyInv H (fun k c v => Acked H mp ops (Supplies H k c v)) (run H (initSt mp) ops).1 := by
  induction ops using List.reverseRecOn with
  | nil => exact init_key mp
  | append_singleton ops op ih =>
    have ho1 : ∀ o ∈ ops, OneType τ o := fun o hm => ho o (by simp [hm])
    have hop := ho op (by simp)
    have ih := ih ho1
    rw [run_append']
    simp only [run]
    have hty : ∀ k c v, Acked H mp (ops ++ [op]) (Supplies H k c v) → ∃ w, v = some w ∧ w.ty = τ := fun k c v h => supplies_typed ho h
    have hmono := ih.mono (V' := fun k c v => Acked H mp (ops ++ [op]) (Supplies H k c v)) (fun k c v h => h.snoc op)
    by_cases hs : (opVal op).isSome
    · rcases ack_or_same (fun k c v h => supplies_typed ho1 h) ih hop hs with hack | hsame
      · refine step_key hmono op ?_
        cases op with
        | set key v =>
          obtain ⟨⟨str, rfl⟩, w, rfl, hw⟩ := hop
          exact allows_typed hty hw (Acked.last ⟨rfl, rfl⟩ hack)
        | storeItem str v r =>
          obtain ⟨w, rfl, hw⟩ := hop
          exact allows_typed hty hw (Acked.last ⟨rfl, rfl⟩ hack)
        | _ => simp [opVal] at hs
      · rw [hsame]; exact hmono
    · refine step_key hmono op ?_
      cases op <;> first | exact trivial | exact hop.elim | (simp [opVal] at hs)

/-- C63 for histories without Purge whose stores hand over non-nil values of one type under string keys; deletions anywhere, reuse
of slots, collisions, splits and crashed calls are all allowed. -/
theorem C63_partial {τ : Nat} {mp : Nat} {ops : List Op} (ho : ∀ op ∈ ops, OneType τ op) : C63_statement H mp ops := by
  intro k c v h
  simp only [step, opGetByHash] at h
  split at h
  · cases h
  · cases h
  · rename_i b P i hf
    injection h with h
    subst h
    obtain ⟨h1, h2⟩ := find_pool hf
    obtain ⟨us, z, hk⟩ := run_prov (H := H) (mp := mp) ops ho _ _ h1
    obtain ⟨hl, hr, hc⟩ := lookup_lt h2
    have hs := hk.ok _ (hk.slot_mem (i := i) (by rw [hk.len] at hl; omega))
    have hv := hs.val
    have ek : H.mem (P.slot i).key = k := by have := hs.mem; rw [hr] at this; exact rev64_inj this
    rw [ek, hs.xx, hc] at hv
    exact hv

/-- Not vacuous: deletions (also of first slots), a reused slot, StoreItem. -/
def typeOps : List Op :=
  [.set (sk 10) (exV 1), .set (sk 20) (exV 2), .set (sk 30) (exV 3), .delete (sk 20), .set (sk 25) (exV 7), .delete (sk 10), .set (sk 11) (exV 8),
   .storeItem [25] (exV 9) 0]
example : ∀ op ∈ typeOps, OneType 0 op := by
  intro op hop
  simp only [typeOps, List.mem_cons, List.not_mem_nil, or_false] at hop
  rcases hop with rfl | rfl | rfl | rfl | rfl | rfl | rfl | rfl
  all_goals first | exact trivial | exact ⟨⟨_, rfl⟩, _, rfl, rfl⟩ | exact ⟨_, rfl, rfl⟩
example : (step hR (run hR (initSt 4) typeOps).1 (.getByHash (hR.mem [25]) (hR.xx [25]))).2 = .val (exV 9) true := by decide +kernel

/-- A nil value lets an old one show through: Set(6, nil) answers true, and Get(6) answers what was stored for 5. -/
def nilOps : List Op := [.set (sk 1) (exV 1), .set (sk 5) (exV 2), .set (sk 9) (exV 3), .delete (sk 5), .set (sk 6) none]
theorem C63_refuted_nil : ¬ C63_statement hR 4 nilOps := by
  intro h
  obtain ⟨a, o, b, h1, h2, _⟩ := h (hR.mem [6]) (hR.xx [6]) (exV 2) (by decide +kernel)
  have hm : o ∈ nilOps := by rw [h1]; simp
  simp only [nilOps, List.mem_cons, List.not_mem_nil, or_false] at hm
  rcases hm with rfl | rfl | rfl | rfl | rfl
  · exact absurd h2.1 (by decide)
  · exact absurd h2.2 (by decide +kernel)
  · exact absurd h2.1 (by decide)
  · exact h2
  · exact absurd h2.1 (by decide)

/-! ### C52 -/

/-- C52: the item that LoadItem answers for a key carries a key with the same hashes. -/
def C52_statement (H : HashFns) (mp : Nat) (ops : List Op) : Prop :=
  ∀ key str' v, (step H (run H (initSt mp) ops).1 (.loadItem key)).2 = .item (some (str', v)) →
    keyToHash H key = some (H.mem str', H.xx str')

/-- After Purge of a bucket's only key and a Set of another one, LoadItem of the purged key answers an item with the other's key. -/
theorem C52_refuted : ¬ C52_statement hR 4 staleOps := by
  intro h
  exact absurd (h (sk 1) [5] (exV 2) (by decide +kernel)) (by decide +kernel)

/-- C52 for all histories without Purge whose Sets have string keys: deletions, reuse, collisions, panics and crashes included. -/
theorem C52_nopurge_partial {mp : Nat} {ops : List Op} (ho : ∀ op ∈ ops, match op with
      | .purge _ => False
      | .set key _ => ∃ s, key = .str s
      | _ => True) : C52_statement H mp ops := by
  intro key str' v h
  simp only [step, opLoadItem] at h
  split at h
  · cases h
  · rename_i k c hkc
    unfold opLoadItemByHash at h
    split at h
    · cases h
    · cases h
    · rename_i b P i hf
      injection h with h
      injection h with h
      injection h with h1' h2'
      subst h1'
      obtain ⟨h1, h2⟩ := find_pool hf
      have hinv : KeyInv H (fun _ _ _ => True) (run H (initSt mp) ops).1 := by
        refine run_key (init_key mp) ops ?_
        intro op hop
        have := ho op hop
        have hA : ∀ k c v, Allows (fun _ _ _ => True) k c v := by
          intro k c v old _; split <;> trivial
        cases op with
        | set key v => obtain ⟨s, rfl⟩ := this; exact hA (H.mem s) (H.xx s) v
        | storeItem s v r => exact hA (H.mem s) (H.xx s) v
        | purge key => exact this.elim
        | _ => trivial
      obtain ⟨us, z, hk⟩ := hinv _ _ h1
      obtain ⟨hl, hr, hc⟩ := lookup_lt h2
      have hs := hk.ok _ (hk.slot_mem (i := i) (by rw [hk.len] at hl; omega))
      have ek : H.mem (P.slot i).key = k := by have := hs.mem; rw [hr] at this; exact rev64_inj this
      rw [hkc, ek, hs.xx, hc]

example : (step hR (run hR (initSt 4) typeOps).1 (.loadItem (sk 25))).2 = .item (some ([25], exV 9)) := by decide +kernel

/-! ### C64: updates, in every reachable state -/

/-- Before and after an update of the key with hashes `(k, c)`: only its value changes. -/
structure Updated (H : HashFns) (st st' : St) (k c : U64) (v : IVal) : Prop where
  get : (step H st' (.getByHash k c)).2 = .val v true
  load : ∀ str old, (step H st (.loadItemByHash k c)).2 = .item (some (str, old)) →
    (step H st' (.loadItemByHash k c)).2 = .item (some (str, v))
  otherGet : ∀ k' c', (k', c') ≠ (k, c) → (step H st' (.getByHash k' c')).2 = (step H st (.getByHash k' c')).2
  otherLoad : ∀ k' c', (k', c') ≠ (k, c) → (step H st' (.loadItemByHash k' c')).2 = (step H st (.loadItemByHash k' c')).2
  len : (step H st' .len).2 = (step H st .len).2

theorem setSlot_slot {P : Pool} {i : Nat} (hi : i < P.arr.length) (s : Slot) (j : Nat) :
    ({ P with arr := P.arr.set i s } : Pool).slot j = if j = i then s else P.slot j := by
  unfold Pool.slot
  simp only [List.getD_eq_getElem?_getD]
  by_cases h : j = i
  · subst h; rw [List.getElem?_set_self hi]; simp
  · rw [List.getElem?_set_ne (Ne.symm h)]; simp [h]

theorem updated_of {st : St} (hb : BdInv st) {k c : U64} {b : Path} {P : Pool} {i : Nat} (hf : find st k c = some (b, P, some i)) (v : IVal) :
    Updated H st (setSlot st b P i { P.slot i with val := v }) k c v := by
  obtain ⟨h1, h2⟩ := find_pool hf
  obtain ⟨hl, hr, hc⟩ := lookup_lt h2
  have hi : i < P.arr.length := by have := hb _ _ h1; unfold Bd at this; omega
  have hslot := setSlot_slot (P := P) hi { P.slot i with val := v }
  have hbase : basePath st.mem (findBucket st.mem (rev64 k)) = b := by
    unfold find at hf
    simp only at hf
    split at hf
    · cases hf
    · injection hf with hf; injection hf
  have hlk : ∀ r c, ({ P with arr := P.arr.set i { P.slot i with val := v } } : Pool).lookup r c = P.lookup r c := by
    intro r c
    apply lookup_congr
    · rfl
    · intro j
      rw [hslot]
      by_cases hj : j = i
      · subst hj; simp
      · simp [hj]
  have hfind : ∀ k' c', find (setSlot st b P i { P.slot i with val := v }) k' c' =
      match find st k' c' with
      | none => none
      | some (b', P', x) => if b' = b then some (b, { P with arr := P.arr.set i { P.slot i with val := v } }, x) else some (b', P', x) := by
    intro k' c'
    unfold find
    simp only [setSlot, upool]
    by_cases he : basePath st.mem (findBucket st.mem (rev64 k')) = b
    · rw [he]; simp only [if_true, h1, hlk]
    · simp only [he, if_false]
      cases st.pools (basePath st.mem (findBucket st.mem (rev64 k'))) with
      | none => rfl
      | some p => simp [he]
  have hfk : find (setSlot st b P i { P.slot i with val := v }) k c =
      some (b, { P with arr := P.arr.set i { P.slot i with val := v } }, some i) := by rw [hfind, hf]; simp
  have hother : ∀ k' c', (k', c') ≠ (k, c) → ∀ b' P' x, find st k' c' = some (b', P', x) →
      find (setSlot st b P i { P.slot i with val := v }) k' c' = some (b', P', x) ∨
      (b' = b ∧ P' = P ∧ x ≠ some i ∧
        find (setSlot st b P i { P.slot i with val := v }) k' c' = some (b, { P with arr := P.arr.set i { P.slot i with val := v } }, x)) := by
    intro k' c' hne b' P' x hf'
    rw [hfind, hf']
    by_cases he : b' = b
    · right
      obtain ⟨g1, g2⟩ := find_pool hf'
      subst he
      rw [h1] at g1
      injection g1 with g1
      subst g1
      refine ⟨rfl, rfl, ?_, by simp⟩
      rintro rfl
      obtain ⟨_, e1, e2⟩ := lookup_lt g2
      apply hne
      rw [hr] at e1
      rw [hc] at e2
      rw [rev64_inj e1.symm, ← e2]
    · left; simp [he]
  refine ⟨?_, ?_, ?_, ?_, rfl⟩
  · simp only [step, opGetByHash, hfk, hslot]; simp
  · intro str old ho
    simp only [step, opLoadItemByHash, hf] at ho
    injection ho with ho
    injection ho with ho
    injection ho with ho1 ho2
    simp only [step, opLoadItemByHash, hfk, hslot]
    simp [ho1]
  · intro k' c' hne
    simp only [step, opGetByHash]
    cases hf' : find st k' c' with
    | none =>
      have : find (setSlot st b P i { P.slot i with val := v }) k' c' = none := by rw [hfind, hf']
      rw [this]
    | some x =>
      obtain ⟨b', P', x⟩ := x
      rcases hother k' c' hne b' P' x hf' with g | ⟨rfl, rfl, hx, g⟩
      · rw [g]
      · rw [g]
        cases x with
        | none => rfl
        | some j =>
          have : j ≠ i := fun h => hx (by rw [h])
          simp only [hslot, this, if_false]
  · intro k' c' hne
    simp only [step, opLoadItemByHash]
    cases hf' : find st k' c' with
    | none =>
      have : find (setSlot st b P i { P.slot i with val := v }) k' c' = none := by rw [hfind, hf']
      rw [this]
    | some x =>
      obtain ⟨b', P', x⟩ := x
      rcases hother k' c' hne b' P' x hf' with g | ⟨rfl, rfl, hx, g⟩
      · rw [g]
      · rw [g]
        cases x with
        | none => rfl
        | some j =>
          have : j ≠ i := fun h => hx (by rw [h])
          simp only [hslot, this, if_false]

/-- The two stores that can meet a present key. -/
def StoreOf (H : HashFns) (op : Op) (k c : U64) (v : IVal) : Prop :=
  (∃ key, op = .set key v ∧ keyToHash H key = some (k, c)) ∨ (∃ str r, op = .storeItem str v r ∧ (H.mem str, H.xx str) = (k, c))

theorem store_present {st : St} {op : Op} {k c : U64} {v : IVal} (ho : StoreOf H op k c v) {b : Path} {P : Pool} {i : Nat}
    (hf : find st k c = some (b, P, some i)) : step H st op = update st b P i v := by
  rcases ho with ⟨key, rfl, hk⟩ | ⟨str, r, rfl, hk⟩
  · simp only [step, opSet, hk, hf]
  · injection hk with h1 h2
    simp only [step, opStoreItem, h1, h2, hf]

theorem load_find {st : St} {k c : U64} {str : List (BitVec 8)} {old : IVal}
    (hp : (step H st (.loadItemByHash k c)).2 = .item (some (str, old))) :
    ∃ b P i, find st k c = some (b, P, some i) ∧ (P.slot i).val = old := by
  simp only [step, opLoadItemByHash] at hp
  split at hp
  · cases hp
  · cases hp
  · rename_i b P i hf
    injection hp with hp
    injection hp with hp
    injection hp with h1 h2
    exact ⟨b, P, i, hf, h2⟩

/-- C64: in every reachable state, a store (Set or StoreItem) of a non-nil value for a present key whose value is nil or of the same
type answers true, and afterwards exactly this key's value has changed: Get and LoadItem of every other pair of hashes and Len
answer as before. -/
theorem C64_update {mp : Nat} {ops : List Op} {op : Op} {k c : U64} {w : Val} {str : List (BitVec 8)} {old : IVal}
    (ho : StoreOf H op k c (some w)) (hp : (step H (run H (initSt mp) ops).1 (.loadItemByHash k c)).2 = .item (some (str, old)))
    (ht : ∀ o, old = some o → o.ty = w.ty) :
    (step H (run H (initSt mp) ops).1 op).2 = .bool true ∧
      Updated H (run H (initSt mp) ops).1 (step H (run H (initSt mp) ops).1 op).1 k c (some w) := by
  obtain ⟨b, P, i, hf, hv⟩ := load_find hp
  have hs : setValue .sample (P.slot i).val (some w) = .ok (some w, true) := by
    rw [hv]
    cases old with
    | none => rfl
    | some o => simp [setValue, ht o rfl]
  rw [store_present ho hf]
  unfold update
  rw [hs]
  exact ⟨rfl, updated_of (run_bd (init_bd mp) ops) hf _⟩

/-- C64, the other two cases: nil answers false, a value of another type panics; either way nothing changes. -/
theorem C64_rejected {mp : Nat} {ops : List Op} {op : Op} {k c : U64} {v : IVal} {str : List (BitVec 8)} {old : IVal}
    (ho : StoreOf H op k c v) (hp : (step H (run H (initSt mp) ops).1 (.loadItemByHash k c)).2 = .item (some (str, old)))
    (hv : v = none ∨ ∃ o w, old = some o ∧ v = some w ∧ o.ty ≠ w.ty) :
    (step H (run H (initSt mp) ops).1 op).2 = (if v = none then .bool false else .panic .valueType) ∧
      Updated H (run H (initSt mp) ops).1 (step H (run H (initSt mp) ops).1 op).1 k c old := by
  obtain ⟨b, P, i, hf, hval⟩ := load_find hp
  have hb := run_bd (H := H) (init_bd mp) ops
  have hself : Updated H (run H (initSt mp) ops).1 (setSlot (run H (initSt mp) ops).1 b P i { P.slot i with val := old }) k c old := updated_of hb hf _
  have hsame : setSlot (run H (initSt mp) ops).1 b P i { P.slot i with val := old } = (run H (initSt mp) ops).1 := by
    have h1 := (find_pool hf).1
    have hi : i < P.arr.length := by
      have := hb _ _ h1
      have hl := (lookup_lt (find_pool hf).2).1
      unfold Bd at this; omega
    have he : ({ P.slot i with val := old } : Slot) = P.arr[i] := by
      rw [← hval]
      show P.slot i = _
      unfold Pool.slot
      rw [List.getD_eq_getElem?_getD, List.getElem?_eq_getElem hi]; rfl
    rw [he]
    unfold setSlot
    rw [List.set_getElem_self]
    have : upool (run H (initSt mp) ops).1.pools b P = (run H (initSt mp) ops).1.pools := by
      funext q
      unfold upool
      split
      · rename_i hq; rw [hq, h1]
      · rfl
    show { (run H (initSt mp) ops).1 with pools := upool (run H (initSt mp) ops).1.pools b P } = _
    rw [this]
  rw [store_present ho hf]
  unfold update
  rcases hv with rfl | ⟨o, w, rfl, rfl, hne⟩
  · simp only [setValue, hval, if_true]
    exact ⟨trivial, hself⟩
  · simp only [hval, setValue, hne, if_false]
    refine ⟨by simp, ?_⟩
    rw [hsame] at hself
    exact hself

/-- Not vacuous, in a state where deletion has already broken other properties: key 1 stays visible after its Delete (C23_refuted). -/
example : (step hR (run hR (initSt 4) provOps).1 (.loadItemByHash (hR.mem [25]) (hR.xx [25]))).2 = .item (some ([25], exV 9)) := by
  decide +kernel

/-- C28, what holds of it: StoreItem of a key that is present, in every reachable state, makes the value retrievable. -/
theorem C28_present_partial {mp : Nat} {ops : List Op} {str str0 : List (BitVec 8)} {r : U64} {w : Val} {old : IVal}
    (hp : (step H (run H (initSt mp) ops).1 (.loadItem (.str str))).2 = .item (some (str0, old)))
    (ht : ∀ o, old = some o → o.ty = w.ty) :
    (step H (run H (initSt mp) ops).1 (.storeItem str (some w) r)).2 = .bool true ∧
    (step H (step H (run H (initSt mp) ops).1 (.storeItem str (some w) r)).1 (.loadItem (.str str))).2 = .item (some (str0, some w)) := by
  obtain ⟨h1, h2⟩ := C64_update (H := H) (mp := mp) (ops := ops) (op := .storeItem str (some w) r) (Or.inr ⟨str, r, rfl, rfl⟩) hp ht
  exact ⟨h1, h2.load _ _ hp⟩

end SLM.Emb
