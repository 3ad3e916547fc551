import Verif.Proofs.EmbCost
import Verif.Props.EmbFill
import Verif.Props.EmbDel
/-!
C110: how many slots a lookup of an embedded map reads (the counterpart of C98).  `lookReads st k` (Model/EmbCost.lean) lists the slots of the bucket's
array which a lookup of the primary hash `k` reads, `none` when the lookup does not come back (C26).
-/
set_option maxRecDepth 100000
set_option autoImplicit false
namespace SLM.Emb
open Spec (PMap Ans)

/-- The full property: a lookup that comes back reads at most `log2 n + 3` slots, `n` the number of operations of the history. -/
def C110_statement (H : HashFns) (mp : Nat) (ops : List Op) : Prop :=
  ∀ k L, lookReads (run H (initSt mp) ops).1 k = some L → L.length ≤ Nat.log2 ops.length + 3

theorem log2_mono {a b : Nat} (h : a ≤ b) : Nat.log2 a ≤ Nat.log2 b := by
  by_cases ha : a = 0
  · subst ha; simp [Nat.log2_zero]
  · rw [Nat.le_log2 (by omega)]
    exact le_trans (Nat.log2_self_le ha) h

/-- C110 for clean histories (without Delete, Purge and StoreItem): at most `log2 n + 3`, `n` being what Len answers. -/
theorem C110_partial {H : HashFns} {mp : Nat} {ops : List Op} (h : Clean H mp ops) (hc : NoCrash H mp ops) {k : U64} {L : List Nat}
    (hl : lookReads (run H (initSt mp) ops).1 k = some L) : L.length ≤ Nat.log2 (run H (initSt mp) ops).1.len.toNat + 3 := by
  obtain ⟨⟨gl, g⟩, _, _⟩ := h.rel hc
  generalize (run H (initSt mp) ops).1 = st at g hl ⊢
  unfold lookReads at hl
  obtain ⟨P, hP, rfl⟩ := Option.map_eq_some_iff.1 hl
  generalize basePath st.mem (findBucket st.mem (rev64 k)) = b at hP
  obtain ⟨hb, hbn⟩ := g.ei.pool b (by rw [hP]; rfl)
  obtain ⟨n, ha⟩ := adj_next g.ei.desc g.ei.head hb hbn
  obtain ⟨P', xs, z, g1, g2, g3⟩ := g.ei.content n b ha
  rw [hP] at g1
  injection g1 with g1
  subst g1
  have hlen : P.len.toNat = xs.length := by rw [g2.len]; simp
  have hdead : deadIn P.arr P.len.toNat = 0 := by
    have : P.arr.take P.len.toNat = xs := g2.used
    rw [deadIn, this, List.countP_eq_zero]
    intro x hx
    simp [g2.live x hx]
  have hle : xs.length ≤ st.len.toNat := by
    obtain ⟨L, l1, l2, l3⟩ := g.cnt
    rw [l3, Int.toNat_natCast, ← List.length_map (f := fun x : Slot => x.rev)]
    refine List.Subperm.length_le (List.subperm_of_subset ?_ ?_)
    · rw [List.Nodup, List.pairwise_map]
      exact g2.sorted.imp (fun {a b} h hc => by rw [hc] at h; exact BitVec.lt_irrefl _ h)
    · intro r hr
      obtain ⟨x, hx, rfl⟩ := List.mem_map.1 hr
      exact (l2 _).2 ⟨x, ⟨b, P, hP, by rw [g2.used]; exact hx⟩, rfl⟩
  have h1 := P.reads_length (rev64 k)
  rw [hdead, hlen] at h1
  have h2 : Nat.log2 xs.length ≤ Nat.log2 st.len.toNat := log2_mono hle
  omega

/-- Every history whatsoever, crashes and deletions included: with `n` slots in use in the bucket's array and `d` of them marked deleted, at most
`(log2 n + 2) * (1 + d) + 1`. -/
theorem C110_any_partial (H : HashFns) (mp : Nat) (ops : List Op) {k : U64} {L : List Nat} (hl : lookReads (run H (initSt mp) ops).1 k = some L) :
    ∃ c P, (run H (initSt mp) ops).1.pools c = some P ∧
      L.length ≤ (Nat.log2 P.len.toNat + 2) * (1 + (P.used.filter (·.deleted)).length) + 1 := by
  unfold lookReads at hl
  obtain ⟨P, hP, rfl⟩ := Option.map_eq_some_iff.1 hl
  refine ⟨_, P, hP, ?_⟩
  have := P.reads_length (rev64 k)
  unfold deadIn at this
  rw [List.countP_eq_length_filter] at this
  exact this

/-- The count is one of what the lookup really does: it comes back exactly if there is a list, every slot of the list is in use, and the
slot whose value a Get answers is in it. -/
theorem C110_reads {st : St} {k c : U64} : (find st k c = none ↔ lookReads st k = none) ∧
    (∀ L, lookReads st k = some L → ∀ i ∈ L, ∃ b P, st.pools b = some P ∧ i < P.len.toNat) ∧
    ∀ b P i, find st k c = some (b, P, some i) → ∃ L, lookReads st k = some L ∧ i ∈ L := by
  unfold Emb.find lookReads
  simp only
  cases hp : st.pools (basePath st.mem (findBucket st.mem (rev64 k))) with
  | none => simp
  | some p =>
    refine ⟨by simp, ?_, ?_⟩
    · intro L hL i hi
      simp only [Option.map_some, Option.some.injEq] at hL
      subst hL
      exact ⟨_, p, hp, p.reads_lt hi⟩
    · intro b P i h
      simp only [Option.some.injEq, Prod.mk.injEq] at h
      obtain ⟨_, rfl, h⟩ := h
      refine ⟨_, rfl, ?_⟩
      unfold Pool.lookup at h
      split at h
      · cases h
      · rename_i j hj
        split at h
        · injection h with h
          subst h
          exact Pool.reads_hit hj
        · cases h

/-- The reads counted are those of the search whose answer the model uses: a binary search answers the last index probed at which the predicate held (or the
upper end), and the walk back over deleted slots the last slot it read. -/
theorem C110_trace (f : Nat → Bool) (n : Nat) (arr : List Slot) (i : Nat) :
    goSearch f n 0 n = ((probes f n 0 n).filter f).getLast?.getD n ∧ (backRead arr i).getLast? = some (skipBack arr i) :=
  ⟨goSearch_probes f n 0 n (by omega) (by omega), skipBack_last arr i⟩

/-- Why the bound fails: where all slots but the first are marked deleted, every lookup in that bucket reads more than half of them. -/
theorem C110_linear_refuted (H : HashFns) (mp : Nat) (ops : List Op) {k : U64} {P : Pool}
    (hP : (run H (initSt mp) ops).1.pools (basePath (run H (initSt mp) ops).1.mem (findBucket (run H (initSt mp) ops).1.mem (rev64 k))) = some P)
    (hd : ∀ x ∈ P.used.tail, x.deleted = true) (hcap : P.len ≤ P.cap) (hn : 0 < P.len) :
    ∃ L, lookReads (run H (initSt mp) ops).1 k = some L ∧ P.len.toNat / 2 < L.length := by
  refine ⟨P.reads (rev64 k), by unfold lookReads; rw [hP]; rfl, ?_⟩
  refine Pool.reads_linear ?_ (by omega)
  intro i h0 hi
  have hc : P.len.toNat ≤ P.arr.length := by unfold Pool.cap at hcap; omega
  apply hd
  unfold Pool.used Pool.slot
  obtain ⟨j, rfl⟩ : ∃ j, i = j + 1 := ⟨i - 1, by omega⟩
  rw [List.mem_iff_getElem]
  refine ⟨j, by simp; omega, ?_⟩
  simp [List.getD, show j + 1 < P.arr.length by omega]

/-- Sixteen keys of one bucket, fifteen of them deleted again. -/
def deadOps : List Op :=
  (List.range 16).map (fun i => .set (.str (key8 (BitVec.ofNat 64 (i * 2 ^ 40)))) (exV i)) ++
  (List.range 15).map (fun i => .delete (.str (key8 (BitVec.ofNat 64 ((i + 1) * 2 ^ 40)))))

/-- The lookup of a hash that was never stored reads 53 slots after these 31 operations. -/
theorem C110_refuted_run : ((run hR (initSt 16) deadOps).2.all (fun o => decide (o = .bool true)) &&
    decide ((lookReads (run hR (initSt 16) deadOps).1 (rev64 (2 ^ 59))).map List.length = some 53)) = true := by
  decide +kernel

theorem C110_refuted : ¬ C110_statement hR 16 deadOps := by
  intro h
  have h1 := C110_refuted_run
  simp only [Bool.and_eq_true, decide_eq_true_eq] at h1
  obtain ⟨L, h2, h3⟩ := Option.map_eq_some_iff.1 h1.2
  have h4 := h _ _ h2
  have h5 : Nat.log2 deadOps.length = 4 := by decide +kernel
  omega

/-- The history meets the conditions of `C110_linear_refuted`: sixteen slots in the bucket, all but the first marked. -/
theorem C110_linear_applies : (match (run hR (initSt 16) deadOps).1.pools
      (basePath (run hR (initSt 16) deadOps).1.mem (findBucket (run hR (initSt 16) deadOps).1.mem (rev64 (rev64 (2 ^ 59))))) with
    | some P => decide (P.len = 16) && decide (P.len ≤ P.cap) && P.used.tail.all (·.deleted)
    | none => false) = true := by
  decide +kernel

/-- `C110_partial` on a history that divides a bucket: by the number of its keys. -/
example {k : U64} {L : List Nat} (hl : lookReads (run hR (initSt 3) exOps).1 k = some L) :
    L.length ≤ Nat.log2 (run hR (initSt 3) exOps).1.len.toNat + 3 := C110_partial exClean exNoCrash hl

/-- A lookup of that map comes back and reads something. -/
example : ((lookReads (run hR (initSt 3) exOps).1 (rev64 0x0900000000000000)).isSome && ((lookReads (run hR (initSt 3) exOps).1 (rev64 0x0900000000000000)).map List.length != some 0)) = true := by
  decide +kernel

end SLM.Emb
