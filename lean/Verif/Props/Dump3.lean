import Verif.Props.Dump
/-!
C106: what DumpBucketPerLevel prints.
-/
set_option autoImplicit false
set_option maxRecDepth 20000
namespace SLM
open History

/-- The list of a level holds the buckets of that level and nothing twice. -/
structure LvFull (st : St) : Prop where
  len : ∀ l, ∀ p ∈ st.lv l, p ≠ [] → p.length = l
  root : ∀ l, [] ∈ st.lv l → l = 16
  top : [] ∈ st.lv 16
  all : ∀ p ∈ st.blist, p ≠ [] → p ∈ st.lv p.length
  nd : ∀ l, (st.lv l).Nodup
  lev : (st.mem []).level = 16

theorem NewBucket.full {st st' : St} {A B : List Path} {n b c : Path} (x : NewBucket st st' A B n b c) (hi : Inv st) (h : LvFull st) : LvFull st' := by
  have hp := x.lvp h.len
  have hbl : (0 :: b.tail).length = b.length := by
    cases b with
    | nil => exact absurd rfl x.ne
    | cons i q => rfl
  have hnb : b ≠ 0 :: b.tail := by
    intro e
    apply x.hd
    rw [e]; rfl
  have hnv : ¬ V st.mem b := by
    intro hv
    apply x.notin
    rw [hi.bi.mem_iff b x.ne]
    refine ⟨hv, ?_⟩
    cases b with
    | nil => exact absurd rfl x.ne
    | cons i q =>
      cases ha : (st.mem (i :: q)).isAlias with
      | false => rfl
      | true => exact absurd (by rw [((hi.bi.ti.ali i q hv).1 ha).1]; rfl) x.hd
  have hmem : ∀ l p, p ∈ st'.lv l → p ∈ st.lv l ∨ (l = b.length ∧ (p = b ∨ p = 0 :: b.tail)) := by
    intro l p hm
    have := (hp l).subset hm
    by_cases hl : l = b.length
    · rw [if_pos hl] at this
      rcases List.mem_cons.1 this with e | this
      · exact Or.inr ⟨hl, Or.inl e⟩
      · split at this
        · rcases List.mem_cons.1 this with e | this
          · exact Or.inr ⟨hl, Or.inr e⟩
          · exact Or.inl this
        · exact Or.inl this
    · rw [if_neg hl] at this
      exact Or.inl this
  have hkeep : ∀ l p, p ∈ st.lv l → p ∈ st'.lv l := by
    intro l p hm
    refine (hp l).symm.subset ?_
    split
    · split
      · exact List.mem_cons_of_mem _ (List.mem_cons_of_mem _ hm)
      · exact List.mem_cons_of_mem _ hm
    · exact hm
  refine ⟨?_, ?_, hkeep _ _ h.top, ?_, ?_, by rw [x.root]; exact h.lev⟩
  · intro l p hm hn
    rcases hmem l p hm with hm | ⟨rfl, rfl | rfl⟩
    · exact h.len l p hm hn
    · rfl
    · exact hbl
  · intro l hm
    rcases hmem l _ hm with hm | ⟨_, e | e⟩
    · exact h.root l hm
    · exact absurd e.symm x.ne
    · cases e
  · intro p hm hn
    rw [x.new] at hm
    have : p ∈ st.blist ∨ p = b := by
      rw [x.old]
      simp only [List.mem_append, List.mem_cons] at hm ⊢
      tauto
    rcases this with hm | rfl
    · exact hkeep _ _ (h.all p hm hn)
    · refine (hp _).symm.subset ?_
      rw [if_pos rfl]
      exact List.mem_cons_self ..
  · intro l
    rw [(hp l).nodup_iff]
    by_cases hl : l = b.length
    · rw [if_pos hl]
      split
      · next h0 =>
        rw [List.nodup_cons, List.nodup_cons]
        refine ⟨?_, ?_, h.nd l⟩
        · intro hm
          rcases List.mem_cons.1 hm with e | hm
          · exact hnb e
          · exact hnv (hi.lv.val _ _ hm)
        · intro hm
          exact hi.lv.val _ _ hm h0
      · rw [List.nodup_cons]
        exact ⟨fun hm => hnv (hi.lv.val _ _ hm), h.nd l⟩
    · rw [if_neg hl]
      exact h.nd l

theorem LvFull.of {st st' : St} (h : LvFull st) (e1 : st'.lv = st.lv) (e2 : st'.blist = st.blist) (e3 : (st'.mem []).level = (st.mem []).level) : LvFull st' :=
  ⟨by rw [e1]; exact h.len, by rw [e1]; exact h.root, by rw [e1]; exact h.top, by rw [e1, e2]; exact h.all, by rw [e1]; exact h.nd, by rw [e3]; exact h.lev⟩

theorem step_full (E : Env) {st : St} (h : Inv st) (hz : LvFull st) (op : Op) : LvFull (step E st op).1 := by
  rcases step_eff E h op with x | ⟨e, nv, b, x⟩ | ⟨key, e, x⟩ | ⟨st2, k, c, e, x⟩
  · obtain ⟨b, hb⟩ := x.same
    rw [hb]; exact hz.of rfl rfl rfl
  · rw [x.res]; exact hz.of rfl rfl rfl
  · rw [x.res]; exact hz.of rfl rfl rfl
  · have hm : LvFull (setMid st2 k (findBucket st.mem (rev64 k)) e) := hz.of (by rw [← x.lv]; rfl) (by rw [← x.blist]; rfl) (by rw [((setMid_eqL st2 k (findBucket st.mem (rev64 k)) e).fields []).1, x.mem])
    rcases x.grow with hg | ⟨A, B, n, b, c', hb⟩
    · rw [hg]; exact hm
    · exact hb.full x.midinv hm

theorem init_full (cfg : Cfg) : LvFull (initSt cfg) := by
  have hlv : (initSt cfg).lv = initLv := rfl
  have h1 : initLv 1 = (List.range 16).reverse.map (fun i => [i]) := by decide +kernel
  have h16 : initLv 16 = [[]] := by decide +kernel
  have h0 : ∀ l, l ≠ 1 → l ≠ 16 → initLv l = [] := by
    intro l a b
    unfold initLv setLv
    rw [if_neg a, if_neg b]
  refine ⟨?_, ?_, ?_, ?_, ?_, by rw [initSt_mem]; decide +kernel⟩
  · rw [hlv]
    intro l p hp hn
    by_cases e1 : l = 1
    · subst e1
      rw [h1] at hp
      obtain ⟨i, _, rfl⟩ := List.mem_map.1 hp
      rfl
    · by_cases e16 : l = 16
      · subst e16
        rw [h16] at hp
        simp at hp
        exact absurd hp hn
      · rw [h0 l e1 e16] at hp
        cases hp
  · rw [hlv]
    intro l hp
    by_contra e16
    by_cases e1 : l = 1
    · subst e1
      rw [h1] at hp
      simp at hp
    · rw [h0 l e1 e16] at hp
      cases hp
  · rw [hlv, h16]; simp
  · rw [hlv]
    intro p hp hn
    have hi := inv_init cfg
    have := ((hi.bi.mem_iff p hn).1 hp).1
    rw [initSt_mem, initMem_V] at this
    rcases this with h | ⟨i, hi, rfl⟩
    · exact absurd h hn
    · show [i] ∈ initLv 1
      rw [h1]
      exact List.mem_map.2 ⟨i, by simpa using hi, rfl⟩
  · rw [hlv]
    intro l
    by_cases e1 : l = 1
    · subst e1; decide +kernel
    · by_cases e16 : l = 16
      · subst e16; rw [h16]; simp
      · rw [h0 l e1 e16]; simp

theorem Reachable.full {E : Env} {st : St} (h : Reachable E st) : LvFull st := by
  obtain ⟨c, ops, rfl⟩ := h
  have key : ∀ (ops : List Op) (st : St), Inv st → LvFull st → LvFull (run E st ops).1 := by
    intro ops
    induction ops with
    | nil => intro st _ h; exact h
    | cons op ops ih => intro st hi h; exact ih _ (step_inv E hi op) (step_full E hi h op)
  exact key ops _ (inv_init c) (init_full c)

/-- C106, for every reachable map: whatever DumpBucketPerLevel prints for a level has that level, no boundary twice, and is one of the boundaries DumpBucket
prints; and every line DumpBucket prints is printed under its level. -/
theorem C106_partial {E : Env} {st : St} (h : Reachable E st) :
    (∀ l, ∀ x ∈ st.levelLines l, x.level = l ∧ x.reverse ∈ st.dumpBucket.map (·.reverse)) ∧
    (∀ l, ((st.levelLines l).map (·.reverse)).Nodup) ∧
    ∀ x ∈ st.dumpBucket, x ∈ st.levelLines x.level := by
  have hi := h.inv
  have hf := h.full
  have hval : ∀ l, ∀ p ∈ st.lv l, p ≠ [] → (st.mem p).rev.toNat = pathVal p ∧ (st.mem p).level = l ∧ p.length = l ∧ p.length ≤ 16 ∧ Digits p := by
    intro l p hp hn
    have := hi.bi.ti.val p hn (hi.lv.val _ _ hp)
    exact ⟨this.1, this.2.1.trans (hf.len l p hp hn), hf.len l p hp hn, this.2.2.1, this.2.2.2.2⟩
  -- the bucket an alias stands for
  have key : ∀ (p : Path), p ≠ [] → V st.mem p → ∃ q ∈ st.blist, q ≠ [] ∧ (st.mem q).rev = (st.mem p).rev := by
    intro p
    induction p with
    | nil => intro hn; exact absurd rfl hn
    | cons i q ih =>
      intro hn hv
      cases ha : (st.mem (i :: q)).isAlias with
      | false => exact ⟨_, (hi.bi.mem_iff _ hn).2 ⟨hv, ha⟩, hn, rfl⟩
      | true =>
        obtain ⟨h0, hq⟩ := (hi.bi.ti.ali i q hv).1 ha
        have hvq := (hi.bi.ti.parent i q hq hv).1
        obtain ⟨z, hz, hzn, he⟩ := ih hq hvq
        refine ⟨z, hz, hzn, he.trans ?_⟩
        apply BitVec.eq_of_toNat_eq
        rw [(hi.bi.ti.val _ hn hv).1, (hi.bi.ti.val q hq hvq).1, h0]
        simp [pathVal]
  refine ⟨?_, ?_, ?_⟩
  · intro l x hx
    obtain ⟨p, hp, rfl⟩ := List.mem_map.1 hx
    by_cases hn : p = []
    · subst hn
      refine ⟨by rw [hf.root l hp]; exact hf.lev, ?_⟩
      exact List.mem_map.2 ⟨_, List.mem_map.2 ⟨[], hi.bi.nil_mem, rfl⟩, rfl⟩
    · refine ⟨(hval l p hp hn).2.1, ?_⟩
      obtain ⟨q, hq, _, he⟩ := key p hn (hi.lv.val _ _ hp)
      exact List.mem_map.2 ⟨_, List.mem_map.2 ⟨q, hq, rfl⟩, he⟩
  · intro l
    unfold St.levelLines
    rw [List.map_map]
    refine List.Nodup.map_on ?_ (hf.nd l)
    intro p hp q hq he
    have he : (st.mem p).rev = (st.mem q).rev := he
    have hmax : ∀ p ∈ st.lv l, p ≠ [] → (st.mem p).rev ≠ maxU64 := by
      intro p hp hn hm
      obtain ⟨z, hz, he⟩ : ∃ q ∈ st.blist, q ≠ [] ∧ (st.mem q).rev = (st.mem p).rev := by
        exact key p hn (hi.lv.val _ _ hp)
      have h1 := hi.bi.lt z hz he.1
      rw [← hi.bi.rev_toNat hz he.1, he.2, hm] at h1
      revert h1; decide
    by_cases hpn : p = []
    · subst hpn
      by_contra hc
      exact hmax q hq (fun e => hc e.symm) (by rw [← he]; exact hi.bi.ti.root.1)
    · by_cases hqn : q = []
      · subst hqn
        exact absurd (by rw [he]; exact hi.bi.ti.root.1) (hmax p hp hpn)
      · obtain ⟨a1, _, a3, a4, a5⟩ := hval l p hp hpn
        obtain ⟨b1, _, b3, b4, b5⟩ := hval l q hq hqn
        have h1 := pref_pathVal p a5 a4
        have h2 := pref_pathVal q b5 b4
        rw [← a1, he, b1, a3, ← b3, h2] at h1
        exact h1.symm
  · intro x hx
    obtain ⟨p, hp, rfl⟩ := List.mem_map.1 hx
    by_cases hn : p = []
    · subst hn
      refine List.mem_map.2 ⟨[], ?_, rfl⟩
      show [] ∈ st.lv (st.mem []).level
      rw [hf.lev]; exact hf.top
    · refine List.mem_map.2 ⟨p, ?_, rfl⟩
      show p ∈ st.lv (st.mem p).level
      rw [(hi.bi.ti.val p hn ((hi.bi.mem_iff p hn).1 hp).1).2.1]
      exact hf.all p hp hn

/-- Six keys each in two top-level buckets. -/
def levelOps : List Op := (List.range 6).map (fun i => .set (sk (BitVec.ofNat 8 (16 * i + 1))) (exV i)) ++
  (List.range 6).map (fun i => .set (sk (BitVec.ofNat 8 (16 * i + 2))) (exV i))

/-- C106 fails as to the order: unlike those of DumpBucket, the boundaries printed for a level need not descend.  (For both possible answers of the list package,
see `Cfg.loneEmpty`.) -/
theorem C106_refuted_order (le : Bool) :
    ¬ (((run exE (initSt { maxPer := 1, loneEmpty := le }) levelOps).1.levelLines 2).map (·.reverse)).Pairwise (fun a b => b < a) := by
  cases le <;> decide +kernel

/-- And it prints lines for buckets that DumpBucket does not print: the first child of a divided bucket, under the bucket's boundary and the next level. -/
theorem C106_refuted_alias (le : Bool) :
    ∃ x ∈ (run exE (initSt { maxPer := 1, loneEmpty := le }) levelOps).1.levelLines 2,
      ∀ y ∈ (run exE (initSt { maxPer := 1, loneEmpty := le }) levelOps).1.dumpBucket, y.reverse = x.reverse → y.level ≠ x.level := by
  have h : ((run exE (initSt { maxPer := 1, loneEmpty := le }) levelOps).1.levelLines 2).any (fun x =>
      (run exE (initSt { maxPer := 1, loneEmpty := le }) levelOps).1.dumpBucket.all (fun y => !decide (y.reverse = x.reverse) || !decide (y.level = x.level))) = true := by
    cases le <;> decide +kernel
  obtain ⟨x, hx, h⟩ := List.any_eq_true.1 h
  refine ⟨x, hx, fun y hy he => ?_⟩
  have := List.all_eq_true.1 h y hy
  simpa [he] using this

end SLM
