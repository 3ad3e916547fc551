import Verif.Model.EmbSearch
import Verif.Props.EmbDel
/-!
C88: SearchKey of a map with `UseEmbeddedPool(true)`.
-/
set_option maxRecDepth 100000
set_option autoImplicit false
namespace SLM.Emb
open Spec (PMap Ans)

/-- `sort.Search` ends at the upper bound or where `f` holds, and just behind the lower bound or where `f` does not hold. -/
theorem goSearch_edge (f : Nat → Bool) : ∀ (fuel i j : Nat), i ≤ j → j - i ≤ fuel →
    i ≤ goSearch f fuel i j ∧ goSearch f fuel i j ≤ j ∧ (goSearch f fuel i j = j ∨ f (goSearch f fuel i j) = true) ∧
    (goSearch f fuel i j = i ∨ f (goSearch f fuel i j - 1) = false) := by
  intro fuel
  induction fuel with
  | zero =>
    intro i j h1 h2
    have : i = j := by omega
    subst this
    simp [goSearch]
  | succ fuel ih =>
    intro i j h1 h2
    unfold goSearch
    by_cases hij : i < j
    · rw [if_pos hij]
      simp only
      by_cases hf : f ((i + j) / 2) = true
      · rw [if_pos hf]
        obtain ⟨a1, a2, a3, a4⟩ := ih i ((i + j) / 2) (by omega) (by omega)
        refine ⟨a1, by omega, ?_, a4⟩
        rcases a3 with a3 | a3
        · right; rw [a3]; exact hf
        · exact Or.inr a3
      · rw [if_neg hf]
        obtain ⟨a1, a2, a3, a4⟩ := ih ((i + j) / 2 + 1) j (by omega) (by omega)
        refine ⟨by omega, a2, a3, ?_⟩
        rcases a4 with a4 | a4
        · right; rw [a4]; simpa using hf
        · exact Or.inr a4
    · rw [if_neg hij]
      refine ⟨le_refl _, h1, Or.inl (by omega), Or.inl rfl⟩

/-- The slot the binary search hands out carries the hash asked for and, unless it is the first of its array, is not deleted.
Every array, sorted or not. -/
theorem Pool.bsearch_sound {p : Pool} {r : U64} {i : Nat} (h : p.bsearch r = some i) :
    (p.slot i).rev = r ∧ ((p.slot i).deleted = false ∨ i = 0) := by
  unfold Pool.bsearch at h
  simp only at h
  split at h
  case isFalse => cases h
  case isTrue hc =>
    injection h with h
    obtain ⟨h1, h2, h3, h4⟩ := goSearch_edge (fun i => decide (r ≤ (p.slot (skipBack p.arr i)).rev)) p.len.toNat 0 p.len.toNat
      (by omega) (by omega)
    generalize goSearch (fun i => decide (r ≤ (p.slot (skipBack p.arr i)).rev)) p.len.toNat 0 p.len.toNat = x at *
    obtain ⟨hx, hr⟩ := hc
    have h3' : r ≤ (p.slot (skipBack p.arr x)).rev := by
      rcases h3 with h3 | h3
      · omega
      · simpa using h3
    cases x with
    | zero => simp only [skipBack] at h; subst h; exact ⟨hr, Or.inr rfl⟩
    | succ x =>
      rcases h4 with h4 | h4
      · omega
      simp only [Nat.add_sub_cancel, decide_eq_false_iff_not] at h4
      by_cases hd : (p.arr.getD (x + 1) {}).deleted = true
      · simp only [skipBack, hd, if_true] at h3'
        exact absurd h3' h4
      · simp only [skipBack, if_neg hd] at h
        subst h
        exact ⟨hr, Or.inl (by simpa [Pool.slot] using hd)⟩

/-! ### C88 -/

/-- C88: after a history, SearchKey(k) answers nil exactly when the map holds no key with primary hash `k`; otherwise the item it
hands out has that hash and is the one the map holds, with the current value. -/
def C88_statement (H : HashFns) (mp : Nat) (ops : List Op) (k : U64) : Prop :=
  (opSearchKey (run H (initSt mp) ops).1 k = some none ↔ ∀ c, ((PMap.empty .sample).run H (ops.map toOp)).1.m (k, c) = none) ∧
  ∀ x, opSearchKey (run H (initSt mp) ops).1 k = some (some x) →
    H.mem x.key = k ∧ ((PMap.empty .sample).run H (ops.map toOp)).1.m (k, H.xx x.key) = some x.val

/-- C88, part, in every state whatsoever: the item SearchKey(k) hands out carries the primary hash `k` (although SearchKey does
not compare it), and a deleted item can only be one that stands first in its bucket's array. -/
theorem C88_hash_partial {st : St} {k : U64} {x : Slot} (h : opSearchKey st k = some (some x)) :
    x.rev = rev64 k ∧ (x.deleted = false ∨ ∃ b P, st.pools b = some P ∧ P.slot 0 = x) := by
  unfold opSearchKey at h
  cases hp : st.pools (basePath st.mem (findBucket st.mem (rev64 k))) with
  | none => rw [hp] at h; cases h
  | some P =>
    rw [hp] at h
    simp only [Option.some.injEq, Option.map_eq_some_iff] at h
    obtain ⟨i, hi, rfl⟩ := h
    obtain ⟨h1, h2⟩ := Pool.bsearch_sound hi
    refine ⟨h1, ?_⟩
    rcases h2 with h2 | rfl
    · exact Or.inl h2
    · exact Or.inr ⟨_, P, hp, rfl⟩

/-- C88, part, in every state whatsoever: GetByHash(k, c) answers what SearchKey(k) finds if that has the conflict hash `c`, and
otherwise that there is nothing.  So the two agree, and one primary hash is answered for with one conflict hash only. -/
theorem C88_get_partial (st : St) (k c : U64) :
    opGetByHash st k c = match opSearchKey st k with
      | none => .crash .stackOverflow
      | some none => .val none false
      | some (some x) => if x.conflict = c then .val x.val true else .val none false := by
  unfold opGetByHash find opSearchKey
  simp only
  cases hp : st.pools (basePath st.mem (findBucket st.mem (rev64 k))) with
  | none => rfl
  | some P =>
    simp only
    unfold Pool.lookup
    cases hb : P.bsearch (rev64 k) with
    | none => rfl
    | some i =>
      simp only [Option.map_some]
      have := (Pool.bsearch_sound hb).1
      by_cases hc : (P.slot i).conflict = c
      · rw [if_pos ⟨this, hc⟩, if_pos hc]
      · rw [if_neg (fun x => hc x.2), if_neg hc]

theorem opSearchKey_none_iff (st : St) (k : U64) : opSearchKey st k = none ↔ ∀ c, opGetByHash st k c = .crash .stackOverflow := by
  constructor
  · intro h c; rw [C88_get_partial, h]
  · intro h
    have := h 0
    rw [C88_get_partial] at this
    cases hs : opSearchKey st k with
    | none => rfl
    | some o =>
      rw [hs] at this
      cases o with
      | none => cases this
      | some x => simp only at this; split at this <;> cases this

/-- C88 after gentle histories (Proofs/EmbDel4.lean: deletions, purges, reused slots, splits), unless the stack is exhausted. -/
theorem C88_partial {H : HashFns} {mp : Nat} {ops : List Op} (h : CleanD H mp ops) (hc : NoCrash H mp ops) {k : U64}
    (hn : opSearchKey (run H (initSt mp) ops).1 k ≠ none) : C88_statement H mp ops k := by
  have h' : CleanD H mp (ops ++ []) := by simpa using h
  obtain ⟨⟨gl, g⟩, -, -, -⟩ := h'.at hc
  unfold C88_statement
  generalize ((PMap.empty .sample).run H (ops.map toOp)).1 = s at *
  generalize (run H (initSt mp) ops).1 = st at *
  have hget : ∀ c, opGetByHash st k c = match s.m (k, c) with | some v => .val v true | none => .val none false := by
    intro c
    rcases g.getByHash k c with ⟨h1, _⟩ | h1
    · exfalso
      rw [C88_get_partial] at h1
      cases hs : opSearchKey st k with
      | none => exact hn hs
      | some o =>
        rw [hs] at h1
        cases o with
        | none => cases h1
        | some x => simp only at h1; split at h1 <;> cases h1
    · exact h1
  have hsnd : ∀ x, opSearchKey st k = some (some x) → H.mem x.key = k ∧ s.m (k, H.xx x.key) = some x.val := by
    intro x hx
    have h1 := hget x.conflict
    rw [C88_get_partial, hx] at h1
    simp only [if_true] at h1
    have hm : s.m (k, x.conflict) = some x.val := by
      cases hm : s.m (k, x.conflict) with
      | none => rw [hm] at h1; injection h1 with _ h1; cases h1
      | some v => rw [hm] at h1; injection h1 with h1 _; rw [h1]
    -- the key of the slot
    rcases g.loadByHash k x.conflict with ⟨h2, _⟩ | ⟨r, h2, h3, h4⟩
    · exfalso
      unfold opLoadItemByHash find at h2
      unfold opSearchKey at hx
      cases hp : st.pools (basePath st.mem (findBucket st.mem (rev64 k))) with
      | none => rw [hp] at hx; cases hx
      | some P =>
        simp only [hp] at h2
        cases hl : P.lookup (rev64 k) x.conflict with
        | none => rw [hl] at h2; cases h2
        | some i => rw [hl] at h2; cases h2
    · have hk : H.mem x.key = k ∧ H.xx x.key = x.conflict := by
        apply h4 (x.key, x.val)
        unfold opLoadItemByHash find at h2
        have hx' := hx
        unfold opSearchKey at hx'
        cases hp : st.pools (basePath st.mem (findBucket st.mem (rev64 k))) with
        | none => rw [hp] at hx'; cases hx'
        | some P =>
          rw [hp] at hx'
          simp only [hp] at h2
          simp only [Option.some.injEq, Option.map_eq_some_iff] at hx'
          obtain ⟨i, hi, rfl⟩ := hx'
          have hl : P.lookup (rev64 k) (P.slot i).conflict = some i := by
            unfold Pool.lookup
            rw [hi]
            simp only
            rw [if_pos ⟨(Pool.bsearch_sound hi).1, by trivial⟩]
          rw [hl] at h2
          injection h2 with h2
          exact h2.symm
      exact ⟨hk.1, by rw [hk.2]; exact hm⟩
  refine ⟨⟨fun h0 c => ?_, fun h0 => ?_⟩, hsnd⟩
  · have := hget c
    rw [C88_get_partial, h0] at this
    cases hm : s.m (k, c) with
    | none => rfl
    | some v => rw [hm] at this; cases this
  · cases hs : opSearchKey st k with
    | none => exact absurd hs hn
    | some o =>
      cases o with
      | none => rfl
      | some x => have := (hsnd x hs).2; rw [h0] at this; cases this

/-- Non-vacuity: a history with deletions, purges, a reused slot and splits; a key that is there, one deleted, one purged. -/
example : CleanD hR 4 exDel ∧ NoCrash hR 4 exDel ∧
    opSearchKey (run hR (initSt 4) exDel).1 (hR.mem (key8 0x2200000000000000)) =
      some (some ⟨rev64 (hR.mem (key8 0x2200000000000000)), hR.xx (key8 0x2200000000000000), false, key8 0x2200000000000000, exV 7⟩) ∧
    opSearchKey (run hR (initSt 4) exDel).1 (hR.mem (key8 0x2900000000000000)) = some none :=
  ⟨exDel_clean, exDel_nocrash, by decide +kernel, by decide +kernel⟩

/-- C88 fails in general: Set(k), Delete(k), and SearchKey still hands out the item (it stands first in its array). -/
theorem C88_refuted : ∃ ops k, NoCrash hR 4 ops ∧ opSearchKey (run hR (initSt 4) ops).1 k ≠ none ∧ ¬ C88_statement hR 4 ops k := by
  refine ⟨[.set (sk 10) (exV 1), .delete (sk 10)], hR.mem [10], ?_, ?_, ?_⟩
  · intro c
    have : (run hR (initSt 4) [.set (sk 10) (exV 1), .delete (sk 10)]).2 = [.bool true, .bool true] := by decide +kernel
    rw [this]; simp
  · decide +kernel
  · intro h
    have := h.1.2 (fun c => by simp [toOp, PMap.run, PMap.step, sk, keyToHash, PMap.empty, PMap.put, PMap.del])
    revert this
    decide +kernel

end SLM.Emb
