import Verif.Props.Dump
import Verif.Props.Fill
import Verif.Props.Locate
/-!
C100: the columns `level`, `down` and `len` that DumpBucket prints.
-/
set_option autoImplicit false
set_option maxRecDepth 20000
namespace SLM
open History

/-! ### The last child of a bucket -/

/-- The array of children of a bucket ends with a bucket, and not with the child 0. -/
def LastIn (m : Path → Bkt) : Prop := ∀ p, p ≠ [] → 0 < (m p).downLen → 2 ≤ (m p).downLen ∧ V m (((m p).downLen - 1) :: p)

theorem LastIn.congr {m m' : Path → Bkt} (h : LastIn m) (e : ∀ p, V m' p ↔ V m p) (ed : ∀ p, (m' p).downLen = (m p).downLen) : LastIn m' := by
  intro p hp h0
  rw [ed] at h0
  rw [ed, e]
  exact h p hp h0

theorem NewBucket.last {st st' : St} {A B : List Path} {n b c : Path} (x : NewBucket st st' A B n b c) (h : LastIn st.mem) : LastIn st'.mem := by
  intro p hp h0
  rw [x.dch] at h0 ⊢
  by_cases e : p = b.tail
  · rw [if_pos e] at h0 ⊢
    cases b with
    | nil => exact absurd rfl x.ne
    | cons i q =>
      rw [List.tail_cons] at e
      subst e
      have hi : i ≠ 0 := by simpa using x.hd
      simp only [List.headD_cons] at h0 ⊢
      refine ⟨by omega, ?_⟩
      by_cases hm : (st.mem p).downLen ≤ i + 1
      · rw [max_eq_right hm]
        exact (x.vch _).2 (Or.inr (Or.inl rfl))
      · rw [max_eq_left (by omega)]
        exact (x.vch _).2 (Or.inl (h p hp (by omega)).2)
  · rw [if_neg e] at h0 ⊢
    exact ⟨(h p hp h0).1, (x.vch _).2 (Or.inl (h p hp h0).2)⟩

theorem step_last (E : Env) {st : St} (h : Inv st) (hz : LastIn st.mem) (op : Op) : LastIn (step E st op).1.mem := by
  rcases step_eff E h op with x | ⟨e, nv, b, x⟩ | ⟨key, e, x⟩ | ⟨st2, k, c, e, x⟩
  · obtain ⟨b, hb⟩ := x.same
    rw [hb]; exact hz
  · rw [x.res]; exact hz
  · rw [x.res]; exact hz
  · have hm : LastIn (setMid st2 k (findBucket st.mem (rev64 k)) e).mem := by
      apply hz.congr
      · intro p
        have := (setMid_eqL st2 k (findBucket st.mem (rev64 k)) e).fields p
        unfold V
        rw [this.1, x.mem]
      · intro p
        have := (setMid_eqL st2 k (findBucket st.mem (rev64 k)) e).fields p
        rw [this.2.2.2.1, x.mem]
    rcases x.grow with hg | ⟨A, B, n, b, c', hb⟩
    · rw [hg]; exact hm
    · exact hb.last hm

theorem run_last (E : Env) {st : St} (h : Inv st) (hz : LastIn st.mem) (ops : List Op) : LastIn (run E st ops).1.mem := by
  induction ops generalizing st with
  | nil => exact hz
  | cons op ops ih => exact ih (step_inv E h op) (step_last E h hz op)

theorem init_last (cfg : Cfg) : LastIn (initSt cfg).mem := by
  have i := inv_init cfg
  intro p hp h0
  exfalso
  by_cases hv : V (initSt cfg).mem p
  · have := (i.bi.ti.down p hp hv).2.2.2 h0
    obtain ⟨j, hj, hj2⟩ := init_nz cfg p hp this.2
    rw [initSt_mem, initMem_V] at hj2
    rcases hj2 with h | ⟨i, _, h⟩
    · cases h
    · simp at h; exact hp h.2
  · have := (i.bi.ti.zero p hv).2.2.2.1; omega

theorem Reachable.last {E : Env} {st : St} (h : Reachable E st) : LastIn st.mem := by
  obtain ⟨c, ops, rfl⟩ := h
  exact run_last E (inv_init c) (init_last c) ops

/-! ### C100 -/

/-- A line of DumpBucket that is not the first, and the bucket it shows. -/
theorem line_bucket {st : St} (h : Inv st) {l : BucketLine} (hl : l ∈ st.dumpBucket) (hm : l.reverse ≠ maxU64) :
    ∃ p, p ∈ st.blist ∧ p ≠ [] ∧ V st.mem p ∧ (st.mem p).isAlias = false ∧ Digits p ∧ p.length ≤ 16 ∧ l.reverse.toNat = pathVal p ∧ l.level = p.length ∧
      l.down = (st.mem p).downLen ∧ l.len = (st.mem p).len := by
  unfold St.dumpBucket at hl
  obtain ⟨p, hp, rfl⟩ := List.mem_map.1 hl
  have hn : p ≠ [] := by
    rintro rfl
    exact hm h.bi.ti.root.1
  obtain ⟨h1, h2⟩ := (h.bi.mem_iff p hn).1 hp
  obtain ⟨h3, h4, h5, _, h6⟩ := h.bi.ti.val p hn h1
  exact ⟨p, hp, hn, h1, h2, h6, h5, h3, h4, rfl, rfl⟩

/-- C100, the column `level`: in every reachable map the level DumpBucket prints for a boundary is the number of leading hexadecimal digits that spell it (all
later digits are zero, the last of these is not), at least 1 and at most 16. -/
theorem C100_level {E : Env} {st : St} (h : Reachable E st) {l : BucketLine} (hl : l ∈ st.dumpBucket) (hm : l.reverse ≠ maxU64) :
    1 ≤ l.level ∧ l.level ≤ 16 ∧ l.reverse.toNat % 16 ^ (16 - l.level) = 0 ∧ (2 ≤ l.level → l.reverse.toNat % 16 ^ (17 - l.level) ≠ 0) := by
  have hi := h.inv
  obtain ⟨p, hp, hn, h1, h2, h3, h4, h5, h6, _, _⟩ := line_bucket hi hl hm
  rw [h5, h6]
  have hlen : 1 ≤ p.length := by cases p with | nil => exact absurd rfl hn | cons _ _ => simp
  refine ⟨hlen, h4, Nat.mod_eq_zero_of_dvd (pathVal_dvd p h4), ?_⟩
  intro h7 h8
  have h9 := Nat.dvd_of_mod_eq_zero h8
  cases p with
  | nil => exact hn rfl
  | cons d q =>
    have hq : q ≠ [] := by rintro rfl; simp at h7
    have hd : d < 16 := h3 d (by simp)
    simp only [List.length_cons] at h4 h9
    rw [show 17 - (q.length + 1) = 16 - q.length by omega] at h9
    simp only [pathVal] at h9
    have h10 := (Nat.dvd_add_right (pathVal_dvd q (by omega))).1 h9
    rw [show 16 - q.length = (15 - q.length) + 1 by omega, pow_succ, Nat.mul_comm d] at h10
    have h11 := Nat.dvd_of_mul_dvd_mul_left (Nat.pos_of_ne_zero (by simp)) h10
    have h12 : d = 0 := by omega
    have := (hi.bi.ti.ali d q h1).2 ⟨h12, hq⟩
    rw [this] at h2
    cases h2

/-- C100, the column `down`: in every reachable map it is 0 or one more than the largest next digit of a boundary printed that starts with the digits of this
line.  Every such boundary has a smaller next digit, and there is one with the digit `down - 1` followed by zeros, which is above the line's own. -/
theorem C100_down {E : Env} {st : St} (h : Reachable E st) {l : BucketLine} (hl : l ∈ st.dumpBucket) (hm : l.reverse ≠ maxU64) :
    l.down ≤ 16 ∧
    (∀ l' ∈ st.dumpBucket, l'.reverse ≠ maxU64 → l.reverse < l'.reverse → l'.reverse.toNat < l.reverse.toNat + 16 ^ (16 - l.level) →
      (l'.reverse.toNat - l.reverse.toNat) / 16 ^ (15 - l.level) < l.down) ∧
    (0 < l.down → 2 ≤ l.down ∧ l.level ≤ 15 ∧ ∃ l' ∈ st.dumpBucket, l'.reverse.toNat = l.reverse.toNat + (l.down - 1) * 16 ^ (15 - l.level)) := by
  have hi := h.inv
  obtain ⟨p, hp, hn, h1, h2, h3, h4, h5, h6, h7, _⟩ := line_bucket hi hl hm
  have hd := hi.bi.ti.down p hn h1
  refine ⟨by rw [h7]; exact hd.2.1, ?_, ?_⟩
  · intro l' hl' hm' hlt hin
    obtain ⟨q, _, gn, g1, _, g3, g4, g5, _, _, _⟩ := line_bucket hi hl' hm'
    rw [BitVec.lt_def, h5] at hlt
    rw [h5, h6] at hin
    have hpq : pref l'.reverse p.length = p := pref_of_block p h3 h4 _ (by omega) hin
    have hqq : pref l'.reverse q.length = q := by
      apply pref_of_block q g3 g4
      · omega
      · have : 0 < 16 ^ (16 - q.length) := Nat.pos_of_ne_zero (by simp)
        omega
    have hlen : p.length < q.length := by
      by_contra hc
      obtain ⟨z, hz⟩ := pref_take l'.reverse p.length q.length (by omega)
      rw [hpq, hqq] at hz
      have := pathVal_ext z q (by rw [← hz]; exact h3) (by rw [← hz]; exact h4)
      rw [← hz] at this
      omega
    obtain ⟨z, hz⟩ := pref_take l'.reverse q.length p.length (by omega)
    rw [hpq, hqq] at hz
    have hzn : z ≠ [] := by rintro rfl; rw [hz] at hlen; simp at hlen
    obtain ⟨z', j, rfl, h8, h9⟩ := hi.bi.ti.child_of_ext hn (by rw [← hz]; exact g1) hzn
    rw [List.append_assoc, List.singleton_append] at hz
    have hx := pathVal_ext z' (j :: p) (by rw [← hz]; exact g3) (by rw [← hz]; exact g4)
    rw [← hz] at hx
    simp only [pathVal, List.length_cons] at hx
    rw [h7, h6, h5, g5]
    refine lt_of_le_of_lt ?_ h9
    have hpos : 0 < 16 ^ (15 - p.length) := Nat.pos_of_ne_zero (by simp)
    rw [← Nat.lt_succ_iff, Nat.div_lt_iff_lt_mul hpos, Nat.succ_mul]
    rw [show 16 - (p.length + 1) = 15 - p.length by omega] at hx
    have : 0 < 16 ^ (16 - q.length) := Nat.pos_of_ne_zero (by simp)
    omega
  · intro h0
    rw [h7] at h0 ⊢
    obtain ⟨h8, h9⟩ := h.last p hn h0
    have hv := hi.bi.ti.val _ (by simp) h9
    have hm2 : ((st.mem p).downLen - 1) :: p ∈ st.blist := by
      rw [hi.bi.mem_iff _ (by simp)]
      refine ⟨h9, ?_⟩
      cases ha : (st.mem (((st.mem p).downLen - 1) :: p)).isAlias with
      | false => rfl
      | true => have := ((hi.bi.ti.ali _ _ h9).1 ha).1; omega
    refine ⟨h8, by have := hv.2.2.1; simp at this; omega, ⟨_, List.mem_map.2 ⟨_, hm2, rfl⟩, ?_⟩⟩
    show (st.mem (((st.mem p).downLen - 1) :: p)).rev.toNat = _
    rw [hv.1, h5, h6]
    simp [pathVal]

/-- The lines of DumpBucket around one: the number of items stored between two neighbouring boundaries printed, deleted ones included. -/
def between (st : St) (lo hi : U64) : Nat := st.items.countP (fun e => !e.dummy && decide (lo ≤ e.rev) && (decide (e.rev < hi) || decide (hi = maxU64)))

/-- C100, the column `len`, until the first bucket is divided: the number of items stored between the boundary printed and the one printed before it. -/
theorem C100_len_partial {E : Env} {cfg : Cfg} {ops : List Op} (hM : 0 ≤ cfg.maxPer) (hf : FreshItems ops)
    (hk : ∀ op ∈ ops, ∀ k c, storeHash E.H op = some (k, c) → k ≠ maxU64) (hb : (run E (initSt cfg) ops).1.dumpBucket.length = 17)
    {A B : List BucketLine} {n c : BucketLine} (hbl : (run E (initSt cfg) ops).1.dumpBucket = A ++ n :: c :: B) :
    c.len = between (run E (initSt cfg) ops).1 c.reverse n.reverse := by
  have hi := run_inv E (inv_init cfg) ops
  have hb2 : (run E (initSt cfg) ops).1.blist.length = 17 := by simpa [St.dumpBucket] using hb
  unfold St.dumpBucket at hbl
  obtain ⟨A', R, h1, rfl, h2⟩ := List.map_eq_append_iff.1 hbl
  obtain ⟨n', R', rfl, rfl, h3⟩ := List.map_eq_cons_iff.1 h2
  obtain ⟨c', B', rfl, rfl, h4⟩ := List.map_eq_cons_iff.1 h3
  have := C99_counter_partial hM hf hk hb2 h1
  show ((run E (initSt cfg) ops).1.mem c').len = _
  rw [← this]
  unfold stored between
  congr 1
  apply List.countP_congr
  intro e _
  have hroot : n'.isEmpty = decide (((run E (initSt cfg) ops).1.mem n').rev = maxU64) := by
    rw [Bool.eq_iff_iff, List.isEmpty_iff, decide_eq_true_eq]
    constructor
    · rintro rfl; exact hi.bi.ti.root.1
    · intro he
      by_contra hn
      have hm : n' ∈ (run E (initSt cfg) ops).1.blist := by rw [h1]; simp
      have h5 := hi.bi.lt n' hm hn
      rw [← hi.bi.rev_toNat hm hn, he] at h5
      revert h5; decide
  rw [hroot]

/-- There are lines of level 2 and lines with `down` above 1 in a reachable map. -/
example : (run exE (initSt { maxPer := 3 }) dumpOps).1.dumpBucket.any (fun l => decide (l.level = 2) && decide (l.down = 0)) = true ∧
    (run exE (initSt { maxPer := 3 }) dumpOps).1.dumpBucket.any (fun l => decide (l.level = 1) && decide (2 ≤ l.down)) = true := by
  refine ⟨?_, ?_⟩ <;> decide +kernel

/-- The conditions of `C100_len_partial` are met by a map with twelve keys. -/
example : FreshItems dumpOps ∧ (∀ op ∈ dumpOps, ∀ k c, storeHash exH op = some (k, c) → k ≠ maxU64) ∧
    (run exE (initSt {}) dumpOps).1.dumpBucket.length = 17 ∧ (run exE (initSt {}) dumpOps).1.dumpBucket.any (fun l => decide (l.len = 12)) = true := by
  refine ⟨?_, ?_, ?_, ?_⟩
  · intro it h; simp [dumpOps] at h
  · have : dumpOps.all (fun op => match storeHash exH op with
        | some kc => decide (kc.1 ≠ maxU64)
        | none => true) = true := by decide +kernel
    intro op ho k c hs
    have := List.all_eq_true.1 this op ho
    rw [hs] at this
    simpa using this
  · decide +kernel
  · decide +kernel

end SLM
