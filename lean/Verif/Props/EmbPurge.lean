import Verif.Props.EmbDel
import Verif.Proofs.EmbProv
/-! C24, what is left in every state: Purge touches one array, and takes at most one more key away. -/
set_option autoImplicit false
namespace SLM.Emb

/-- How many keys the array of a bucket holds. -/
def held (p : Pool) : Nat := (p.arr.take p.len.toNat).countP (fun x => !x.deleted)

theorem countP_take_le (l : List Slot) (f : Slot → Bool) (n : Nat) : (l.take (n + 1)).countP f ≤ (l.take n).countP f + 1 := by
  rw [List.take_add_one, List.countP_append]
  cases l[n]? <;> simp [List.countP_cons] <;> split <;> omega

theorem countP_take_skip (l : List Slot) (f : Slot → Bool) (n : Nat) (h : f (l.getD n {}) = false) :
    (l.take (n + 1)).countP f = (l.take n).countP f := by
  rw [List.take_add_one, List.countP_append]
  cases hl : l[n]? with
  | none => simp
  | some x => rw [List.getD_eq_getElem?_getD, hl] at h; simp at h; simp [h]

theorem countP_set_ge (l : List Slot) (f : Slot → Bool) (i n : Nat) (x : Slot) : ((l.take n).countP f) ≤ (((l.set i x).take n).countP f) + 1 := by
  induction l generalizing i n with
  | nil => simp
  | cons a l ih =>
    cases n with
    | zero => simp
    | succ n =>
      cases i with
      | zero => simp only [List.set_cons_zero, List.take_succ_cons, List.countP_cons]; split <;> split <;> omega
      | succ i =>
        simp only [List.set_cons_succ, List.take_succ_cons, List.countP_cons]
        have := ih i n
        omega

theorem take_set_of_le (l : List Slot) (i n : Nat) (x : Slot) (h : n ≤ i) : (l.set i x).take n = l.take n := by
  rw [List.take_set_of_le h]

/-- C24, in every state whatsoever: a Purge leaves all arrays but one alone; that one has at most two keys less (the purged one and one more), it
does not grow, and every other slot it still has is what it was. -/
theorem C24_bounded_partial (H : HashFns) (st : St) (key : Key) : ∃ b, (∀ q, q ≠ b → (step H st (.purge key)).1.pools q = st.pools q) ∧
    (∀ p, st.pools b = some p → ∃ p', (step H st (.purge key)).1.pools b = some p' ∧ held p ≤ held p' + 2 ∧ p'.len ≤ p.len ∧
      ∃ i, ∀ j, j ≠ i → p'.slot j = p.slot j) := by
  show ∃ b, (∀ q, q ≠ b → (opPurge H st key).1.pools q = st.pools q) ∧
    (∀ p, st.pools b = some p → ∃ p', (opPurge H st key).1.pools b = some p' ∧ held p ≤ held p' + 2 ∧ p'.len ≤ p.len ∧
      ∃ i, ∀ j, j ≠ i → p'.slot j = p.slot j)
  have idle : ∀ o : Out, opPurge H st key = (st, o) → _ := fun o ho =>
    (⟨[], fun q _ => by rw [ho], fun p hp => ⟨p, by rw [ho]; exact hp, by omega, by omega, 0, fun _ _ => rfl⟩⟩ :
      ∃ b, (∀ q, q ≠ b → (opPurge H st key).1.pools q = st.pools q) ∧
        (∀ p, st.pools b = some p → ∃ p', (opPurge H st key).1.pools b = some p' ∧ held p ≤ held p' + 2 ∧ p'.len ≤ p.len ∧
          ∃ i, ∀ j, j ≠ i → p'.slot j = p.slot j))
  cases hk : keyToHash H key with
  | none => exact idle (.panic .unsupportedKey) (by simp only [opPurge, hk])
  | some kc =>
    obtain ⟨k, c⟩ := kc
    cases hf : find st k c with
    | none => exact idle (.crash .stackOverflow) (by simp only [opPurge, hk, hf])
    | some x =>
      obtain ⟨b, P, o⟩ := x
      have hP := find_pool hf
      cases o with
      | none => exact idle (.bool false) (by simp only [opPurge, hk, hf])
      | some i =>
        have hset : ∀ (L : Int) j, j ≠ i → ({ arr := P.arr.set i { P.slot i with deleted := true }, len := L } : Pool).slot j = P.slot j := by
          intro L j hj
          simp only [Pool.slot, List.getD_eq_getElem?_getD, List.getElem?_set, if_neg (Ne.symm hj)]
        by_cases hi : (i : Int) = P.len - 1
        · have he : (opPurge H st key).1.pools = upool st.pools b
              ({ arr := P.arr.set i { P.slot i with deleted := true }, len := P.len - 1 } : Pool).shrinkLen := by
            simp only [opPurge, hk, hf, if_pos hi]
          refine ⟨b, fun q hq => by rw [he]; simp [upool, hq], fun p hp => ?_⟩
          have hpP : p = P := by rw [hP.1] at hp; exact (Option.some.inj hp).symm
          subst hpP
          refine ⟨_, by rw [he]; exact if_pos rfl, ?_⟩
          have hlen : p.len = i + 1 := by omega
          unfold Pool.shrinkLen
          split
          · rename_i hc
            simp only [hlen] at hc ⊢
            obtain ⟨hc1, hc2⟩ := hc
            obtain ⟨n, rfl⟩ : ∃ n, i = n + 1 := ⟨i - 1, by omega⟩
            have e1 : (((n + 1 : Nat) : Int) + 1 - 1 - 1).toNat = n := by omega
            rw [e1, hset _ _ (by omega)] at hc2
            refine ⟨?_, by omega, n + 1, hset _⟩
            unfold held
            simp only [hlen]
            have e2 : (((n + 1 : Nat) : Int) + 1).toNat = n + 1 + 1 := by omega
            rw [e2]
            have a1 := countP_take_le p.arr (fun x => !x.deleted) (n + 1)
            have a2 := countP_take_skip p.arr (fun x => !x.deleted) n (by simpa [Pool.slot] using hc2)
            cases n with
            | zero => rw [List.take_zero, List.countP_nil] at a2; exact Nat.le_trans (a2 ▸ a1) (by omega)
            | succ m =>
              have e3 : (((m + 1 + 1 : Nat) : Int) + 1 - 1 - 2).toNat = m := by omega
              rw [e3, take_set_of_le _ _ _ _ (by omega)]
              have a3 := countP_take_le p.arr (fun x => !x.deleted) m
              omega
          · refine ⟨?_, by simp only [hlen]; omega, i, hset _⟩
            unfold held
            simp only [hlen]
            have e2 : ((i : Int) + 1).toNat = i + 1 := by omega
            have e3 : ((i : Int) + 1 - 1).toNat = i := by omega
            rw [e2, e3, take_set_of_le _ _ _ _ (by omega)]
            have a1 := countP_take_le p.arr (fun x => !x.deleted) i
            omega
        · have he : (opPurge H st key).1.pools = upool st.pools b { P with arr := P.arr.set i { P.slot i with deleted := true } } := by
            simp only [opPurge, hk, hf, if_neg hi]
          refine ⟨b, fun q hq => by rw [he]; simp [upool, hq], fun p hp => ?_⟩
          have hpP : p = P := by rw [hP.1] at hp; exact (Option.some.inj hp).symm
          subst hpP
          refine ⟨_, by rw [he]; exact if_pos rfl, ?_, by simp, i, hset _⟩
          unfold held
          have := countP_set_ge p.arr (fun x => !x.deleted) i p.len.toNat { p.slot i with deleted := true }
          exact Nat.le_trans this (Nat.add_le_add_left (by omega) _)

/-- The bound is reached: three keys, the middle one deleted, Purge of the last one. -/
example : (((run hR (initSt 4) [.set (sk 10) (exV 1), .set (sk 20) (exV 2), .set (sk 30) (exV 3), .delete (sk 20)]).1.blist.filterMap
      (run hR (initSt 4) [.set (sk 10) (exV 1), .set (sk 20) (exV 2), .set (sk 30) (exV 3), .delete (sk 20)]).1.pools).map held).sum = 2 ∧
    (((run hR (initSt 4) [.set (sk 10) (exV 1), .set (sk 20) (exV 2), .set (sk 30) (exV 3), .delete (sk 20), .purge (sk 30)]).1.blist.filterMap
      (run hR (initSt 4) [.set (sk 10) (exV 1), .set (sk 20) (exV 2), .set (sk 30) (exV 3), .delete (sk 20), .purge (sk 30)]).1.pools).map held).sum = 0 := by
  decide +kernel

end SLM.Emb
