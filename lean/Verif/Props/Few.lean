import Verif.Props.Quiet
import Verif.Props.EmbFill
import Verif.Proofs.EmbRoom
import Verif.Props.Embedded
import Verif.Proofs.Depth
/-!
C115: buckets are made for stored keys only, one at a time.
-/
set_option autoImplicit false
set_option maxRecDepth 100000
namespace SLM
open History

/-- A call makes no bucket, or one and then it answered true. -/
def OneMore (bl bl' : List Path) (o : Out) : Prop := bl' = bl ∨ (o = .bool true ∧ ∃ A B b, bl = A ++ B ∧ bl' = A ++ b :: B ∧ b ∉ bl)

/-- The full property, for a history: the calls make buckets one at a time and never more than one for each key stored beyond MaxPefBucket. -/
def C115_statement (E : Env) (cfg : Cfg) (ops : List Op) : Prop :=
  (∀ op, OneMore (run E (initSt cfg) ops).1.blist (step E (run E (initSt cfg) ops).1 op).1.blist (step E (run E (initSt cfg) ops).1 op).2) ∧
  ((run E (initSt cfg) ops).1.blist.length : Int) ≤ 17 + max 0 ((run E (initSt cfg) ops).1.len - cfg.maxPer)

/-- No bucket counts more than the whole map, and the splits do not exceed the keys stored beyond the limit. -/
structure FewInv (st : St) : Prop where
  len : 17 ≤ st.blist.length
  nneg : 0 ≤ st.len
  few : (splits st = 0 ∧ ∀ p, (st.mem p).len ≤ st.len) ∨ (splits st : Int) ≤ st.len - st.maxPer

theorem step_few (E : Env) {st : St} (h : Inv st) (hd : FewInv st) (op : Op) : FewInv (step E st op).1 ∧ (step E st op).1.maxPer = st.maxPer := by
  have weak : ∀ st' : St, st'.blist = st.blist → st'.mem = st.mem → st'.maxPer = st.maxPer → st'.len = st.len → FewInv st' ∧ st'.maxPer = st.maxPer := by
    intro st' h1 h2 h3 h4
    have hs : splits st' = splits st := by unfold splits; rw [h1]
    refine ⟨⟨by rw [h1]; exact hd.len, by rw [h4]; exact hd.nneg, ?_⟩, h3⟩
    rw [hs, h2, h3, h4]; exact hd.few
  rcases step_eff E h op with x | ⟨e, nv, b, x⟩ | ⟨key, e, x⟩ | ⟨st2, k, c, e, x⟩
  · obtain ⟨b, hb⟩ := x.same
    rw [hb]; exact weak { st with pool := b } rfl rfl rfl rfl
  · rw [x.res]; exact weak { st with items := setVal e.ref nv st.items } rfl rfl rfl rfl
  · rw [x.res]; exact weak { st with items := markDeleted st.itemFn e.ref st.items } rfl rfl rfl rfl
  · have hmax : (step E st op).1.maxPer = st.maxPer := by rw [(grow_len x.grow).2]; exact x.maxPer
    have hlen : (step E st op).1.len = st.len + 1 := by
      rw [(grow_len x.grow).1]; show st2.len + 1 = _; rw [x.len]
    refine ⟨?_, hmax⟩
    have hn := hd.nneg
    have hlen2 : ∀ p, ((setMid st2 k (findBucket st.mem (rev64 k)) e).mem p).len ≤ (st.mem p).len + 1 := by
      intro p
      unfold setMid
      simp only [x.mem]
      split
      · rw [EqL_refl_len]; split
        · subst_vars; omega
        · omega
      · omega
    have hsn := x.setNew
    rw [setNew_eq] at hsn
    split at hsn
    · rename_i hgt
      have hgt' : st.maxPer < ((setMid st2 k (findBucket st.mem (rev64 k)) e).mem (findBucket st.mem (rev64 k))).len := by
        rw [← x.maxPer]; exact hgt
      have hfew2 : (splits st : Int) + 1 ≤ st.len + 1 - st.maxPer := by
        rcases hd.few with ⟨ha, hb⟩ | ha
        · have h1 := hlen2 (findBucket st.mem (rev64 k))
          have h2 := hb (findBucket st.mem (rev64 k))
          rw [ha]; push_cast; omega
        · omega
      rcases x.grow with hg | ⟨A, B, nn, b, c', hb⟩
      · have hbl : (step E st op).1.blist = st.blist := by rw [hg]; exact x.blist
        have hs : splits (step E st op).1 = splits st := by unfold splits; rw [hbl]
        refine ⟨by rw [hbl]; exact hd.len, by omega, ?_⟩
        right; rw [hs, hmax, hlen]; omega
      · have hblm : (setMid st2 k (findBucket st.mem (rev64 k)) e).blist = st.blist := x.blist
        have hl := split_new_len hb
        rw [hblm] at hl
        have hs : splits (step E st op).1 = splits st + 1 := by
          unfold splits; rw [hl]; have := hd.len; omega
        refine ⟨by rw [hl]; have := hd.len; omega, by omega, ?_⟩
        right; rw [hs, hmax, hlen]; push_cast; omega
    · injection hsn with hsn
      have hbl : (step E st op).1.blist = st.blist := by rw [← hsn]; exact x.blist
      have hs : splits (step E st op).1 = splits st := by unfold splits; rw [hbl]
      refine ⟨by rw [hbl]; exact hd.len, by omega, ?_⟩
      rw [hs, hmax, hlen]
      rcases hd.few with ⟨ha, hb⟩ | ha
      · refine Or.inl ⟨ha, fun p => ?_⟩
        rw [← hsn]
        have h1 := hlen2 p
        have h2 := hb p
        omega
      · right; omega

theorem few_init (cfg : Cfg) : FewInv (initSt cfg) := by
  have hd := depth_init cfg
  have hl : (initSt cfg).len = 0 := rfl
  refine ⟨hd.len, by rw [hl], ?_⟩
  have hs : splits (initSt cfg) = 0 := by unfold splits; rw [splits_init]
  refine Or.inl ⟨hs, ?_⟩
  intro p
  rw [hl, initSt_mem]
  match p with
  | [] => simp [initMem]
  | [i] => by_cases hi : i < 16 <;> simp [initMem, hi]
  | _ :: _ :: _ => simp [initMem]

theorem run_few (E : Env) (ops : List Op) : ∀ {st : St}, Inv st → FewInv st → FewInv (run E st ops).1 ∧ (run E st ops).1.maxPer = st.maxPer := by
  induction ops with
  | nil => intro st _ hd; exact ⟨hd, rfl⟩
  | cons op ops ih =>
    intro st hi hd
    obtain ⟨h1, h2⟩ := step_few E hi hd op
    obtain ⟨h3, h4⟩ := ih (step_inv E hi op) h1
    exact ⟨h3, h4.trans h2⟩

theorem step_one (E : Env) {st : St} (h : Inv st) (op : Op) : OneMore st.blist (step E st op).1.blist (step E st op).2 := by
  rcases step_eff E h op with x | ⟨e, nv, b, x⟩ | ⟨key, e, x⟩ | ⟨st2, k, c, e, x⟩
  · obtain ⟨b, hb⟩ := x.same
    rw [hb]; exact Or.inl rfl
  · rw [x.res]; exact Or.inl rfl
  · rw [x.res]; exact Or.inl rfl
  · rcases x.grow with hg | ⟨A, B, nn, b, c', hb⟩
    · left; rw [hg]; exact x.blist
    · right
      have ho : st.blist = A ++ nn :: c' :: B := by rw [← x.blist]; exact hb.old
      refine ⟨x.out, A ++ [nn], c' :: B, b, by rw [ho]; simp, by rw [hb.new]; simp, ?_⟩
      have hnd : (A ++ nn :: b :: c' :: B).Nodup := by
        rw [← hb.new]
        refine (step_inv E h op).bi.desc.imp ?_
        rintro p q hpq rfl
        omega
      rw [ho]
      intro hm
      have h2 := (List.nodup_append.1 hnd)
      have h3 := h2.2.1
      simp only [List.nodup_cons, List.mem_cons, not_or] at h3
      simp only [List.mem_append, List.mem_cons] at hm
      rcases hm with hm | hm | hm | hm
      · exact h2.2.2 b hm b (by simp) rfl
      · exact h3.1.1 hm.symm
      · exact h3.2.1.1 hm
      · exact h3.2.1.2 hm

/-- **C115** for every history (any keys, any configuration). -/
theorem C115_partial (E : Env) (cfg : Cfg) (ops : List Op) : C115_statement E cfg ops := by
  have hi := run_inv E (inv_init cfg) ops
  obtain ⟨h1, h2⟩ := run_few E ops (inv_init cfg) (few_init cfg)
  refine ⟨fun op => step_one E hi op, ?_⟩
  have h3 : (initSt cfg).maxPer = cfg.maxPer := rfl
  have hl := h1.len
  have hs : splits (run E (initSt cfg) ops).1 = (run E (initSt cfg) ops).1.blist.length - 17 := rfl
  rcases h1.few with ⟨h, _⟩ | h <;> omega

/-- The bound is reached: with MaxPefBucket 1 the second key of a bucket makes the eighteenth. -/
theorem C115_applies :
    let st := (run exE (initSt { maxPer := 1 }) [.set (sk 1) (exV 1), .set (sk 2) (exV 2), .set (sk 17) (exV 3), .set (sk 33) (exV 4), .set (sk 17) (exV 5), .delete (sk 17)]).1
    st.blist.length = 19 ∧ st.len = 4 := by decide +kernel

namespace Emb

/-- The full property for maps with embedded pools. -/
def C115_statement (H : HashFns) (mp : Nat) (ops : List Op) : Prop :=
  (∀ op, (step H (run H (initSt mp) ops).1 op).1.blist.length ≤ (run H (initSt mp) ops).1.blist.length + 1) ∧
  ((run H (initSt mp) ops).1.blist.length : Int) ≤ 17 + max 0 ((run H (initSt mp) ops).1.len - mp)

/-- There one Set can make two buckets: two keys in the upper half of a bucket do not split it (MaxPefBucket 1), the third key splits it
and then its upper half. -/
theorem C115_refuted : ¬ ∀ (H : HashFns) (mp : Nat) (ops : List Op), C115_statement H mp ops := by
  intro h
  have h1 := (h hR 1 [.set (.str (key8 (BitVec.ofNat 64 (2 ^ 59 + 1)))) (exV 1), .set (.str (key8 (BitVec.ofNat 64 (2 ^ 59 + 2 ^ 58 + 1)))) (exV 1)]).1
    (.set (.str (key8 1)) (exV 1))
  revert h1
  decide +kernel

/-- The bound on their number holds there too, for histories of Sets with string keys and lookups. -/
theorem C115_embedded_partial {H : HashFns} {mp : Nat} {ops : List Op} (h : Clean H mp ops) (hc : NoCrash H mp ops) :
    ((run H (initSt mp) ops).1.blist.length : Int) ≤ 17 + max 0 ((run H (initSt mp) ops).1.len - mp) := by
  obtain ⟨_, hm, _⟩ := h.rel hc
  obtain ⟨hr, hl⟩ := run_room (K := hashes H ops) h.kok ops (initSt mp) _ _ (init_rel H _ mp h.one) rfl (initE_room mp) h.plain
    (fun op ho kc hk => mem_hashes.2 ⟨op, ho, hk⟩) hc
  change (run H (initSt mp) ops).1.maxPer = mp at hm
  have hf := hr.few
  rw [hm] at hf
  rcases hf with h1 | ⟨_, h1⟩
  · omega
  · rw [hl]; omega

/-- `C115_embedded_partial` on a history that divides a bucket. -/
theorem C115_embedded_applies : Clean hR 3 exOps ∧ NoCrash hR 3 exOps ∧ (run hR (initSt 3) exOps).1.blist.length = 18 :=
  ⟨exClean, exNoCrash, by decide +kernel⟩

end Emb
end SLM
