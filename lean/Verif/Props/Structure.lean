import Verif.Proofs.Example
import Verif.Proofs.StepEff
/-!
C08–C12, C21: structure of every reachable map (any history, any arguments, any configuration).
-/
set_option maxRecDepth 20000
set_option linter.unusedSimpArgs false
set_option autoImplicit false
namespace SLM
open History

/-! ### C09 -/

/-- C09: in every reachable map the item list is in non-decreasing order of reversed hash. -/
theorem C09_item_order {E : Env} {st : St} (h : Reachable E st) : st.items.Pairwise (fun a b => a.rev ≤ b.rev) := h.inv.ii.sorted

/-- Also with items whose hash field was set beforehand. -/
example : ((run exE (initSt {}) [.storeItem { kind := .entry, key := .int 3, val := none, rev0 := 0xF000000000000005 },
    .set (sk 1) (exV 1), .storeItem { kind := .entry, key := .int 5, val := none }]).1.items.filter (fun e => !e.dummy)).length = 3 := by
  decide +kernel

/-! ### C08 -/

/-- The live items: neither sentinel nor deleted. -/
def liveItems (st : St) : List Entry := st.items.filter (fun e => !e.dummy && !e.deleted)

theorem rangeItems_spec (f : List Entry → Entry → Bool) (l seen : List Entry) :
    ∃ vis rest, rangeItems f seen l = seen ++ vis ∧ l.filter (fun e => !e.dummy && !e.deleted) = vis ++ rest ∧
      (∀ p x s, vis = p ++ x :: s → s ≠ [] → f (seen ++ p) x = true) ∧
      (rest ≠ [] → ∃ p x, vis = p ++ [x] ∧ f (seen ++ p) x = false) := by
  induction l generalizing seen with
  | nil => exact ⟨[], [], by simp [rangeItems], rfl, by simp, by simp⟩
  | cons e es ih =>
    by_cases hi : e.ignored = true
    · obtain ⟨vis, rest, h1, h2, h3, h4⟩ := ih seen
      refine ⟨vis, rest, ?_, ?_, h3, h4⟩
      · simp [rangeItems, hi, h1]
      · have : (!e.dummy && !e.deleted) = false := by
          unfold Entry.ignored at hi
          cases hd : e.dummy <;> cases hx : e.deleted <;> simp_all
        simp [List.filter_cons, this, h2]
    · have hl : (!e.dummy && !e.deleted) = true := by
        unfold Entry.ignored at hi
        cases hd : e.dummy <;> cases hx : e.deleted <;> simp_all
      by_cases hf : f seen e = true
      · obtain ⟨vis, rest, h1, h2, h3, h4⟩ := ih (seen ++ [e])
        refine ⟨e :: vis, rest, ?_, ?_, ?_, ?_⟩
        · simp [rangeItems, hi, hf, h1]
        · simp [List.filter_cons, hl, h2]
        · intro p x s hv hs
          cases p with
          | nil =>
            simp at hv
            rw [← hv.1]; simpa using hf
          | cons y p =>
            simp at hv
            have := h3 p x s hv.2 hs
            simpa [hv.1] using this
        · intro hr
          obtain ⟨p, x, h5, h6⟩ := h4 hr
          exact ⟨e :: p, x, by simp [h5], by simpa using h6⟩
      · refine ⟨[e], es.filter (fun e => !e.dummy && !e.deleted), ?_, ?_, ?_, ?_⟩
        · simp [rangeItems, hi, hf]
        · simp [List.filter_cons, hl]
        · intro p x s hv hs
          cases p with
          | nil => simp at hv; exact absurd hv.2 hs
          | cons y p => simp at hv
        · intro _
          exact ⟨[], e, by simp, by simpa using hf⟩

/-- C08: in every reachable map and for every callback `f` (which may depend on what it has seen so far), the items
RangeItem calls `f` on are an initial part of the live items; these are pairwise different and in ascending order of
reversed hash; `f` answered true on all of them but possibly the last one; and if some live item is not visited, `f`
answered false on the last one visited. -/
theorem C08_range {E : Env} {st : St} (h : Reachable E st) (f : List Entry → Entry → Bool) :
    (liveItems st).Nodup ∧ (liveItems st).Pairwise (fun a b => a.rev ≤ b.rev) ∧
    ∃ rest, liveItems st = st.rangeItem f ++ rest ∧
      (∀ p x s, st.rangeItem f = p ++ x :: s → s ≠ [] → f p x = true) ∧
      (rest ≠ [] → ∃ p x, st.rangeItem f = p ++ [x] ∧ f p x = false) := by
  refine ⟨?_, ?_, ?_⟩
  · exact (List.Nodup.of_map _ h.inv.ii.nodup).filter _
  · exact h.inv.ii.sorted.filter _
  · obtain ⟨vis, rest, h1, h2, h3, h4⟩ := rangeItems_spec f st.items []
    refine ⟨rest, ?_, ?_, ?_⟩
    · unfold St.rangeItem; rw [h1]; simpa [liveItems] using h2
    · unfold St.rangeItem; rw [h1]; simpa using h3
    · unfold St.rangeItem; rw [h1]; simpa using h4

/-- C08, a callback that never stops: `f` sees exactly the live items. -/
theorem C08_range_all {E : Env} {st : St} (h : Reachable E st) : st.rangeItem (fun _ _ => true) = liveItems st := by
  obtain ⟨_, _, rest, h1, _, h3⟩ := C08_range h (fun _ _ => true)
  have : rest = [] := by
    by_contra hc
    obtain ⟨p, x, _, hf⟩ := h3 hc
    simp at hf
  rw [this, List.append_nil] at h1
  exact h1.symm

/-- C08 and Get (clean histories): the items visited are exactly what Get finds, each hash pair once. -/
theorem C08_range_get_partial {E : Env} {cfg : Cfg} {ops : List Op} (h : Clean E cfg ops) :
    let st := (run E (initSt cfg) ops).1
    ((st.rangeItem (fun _ _ => true)).map (fun e => (rev64 e.rev, e.conflict))).Nodup ∧
    ∀ k c v, (∃ e ∈ st.rangeItem (fun _ _ => true), rev64 e.rev = k ∧ e.conflict = c ∧ e.val = v) ↔
      opGetByHash E st k c = .val v true := by
  intro st
  have g : Good st := h.good
  have hR : Reachable E st := ⟨cfg, ops, rfl⟩
  rw [C08_range_all hR]
  have hlive : ∀ e, e ∈ liveItems st ↔ Live st.items e := by
    intro e
    unfold liveItems Live Entry.ignored
    rw [List.mem_filter]
    cases e.dummy <;> cases e.deleted <;> simp
  constructor
  · rw [List.nodup_map_iff_inj_on (show (liveItems st).Nodup from (List.Nodup.of_map _ g.inv.ii.nodup).filter _)]
    intro a ha b hb hab
    have h1 := (hlive a).1 ha
    have h2 := (hlive b).1 hb
    injection hab with h3 _
    exact g.uniq a h1.1 b h2.1 h1.2 h2.2 (rev64_inj h3)
  · intro k c v
    rw [getByHash_absM g]
    constructor
    · rintro ⟨e, he, h1, h2, h3⟩
      rw [(absM_some g.uniq).2 ⟨e, (hlive e).1 he, by rw [← h1, rev64_rev64], h2, h3⟩]
    · intro hv
      cases hm : (absM st).m (k, c) with
      | none => rw [hm] at hv; simp at hv
      | some v' =>
        rw [hm] at hv
        simp only [Out.val.injEq, and_true] at hv
        obtain ⟨e, h1, h2, h3, h4⟩ := (absM_some g.uniq).1 hm
        exact ⟨e, (hlive e).2 h1, by rw [h2, rev64_rev64], h3, by rw [h4, hv]⟩

example : Clean exE exCfg exOps ∧ ((run exE (initSt exCfg) exOps).1.rangeItem (fun s _ => s.length < 2)).length = 3 ∧
    (liveItems (run exE (initSt exCfg) exOps).1).length = 6 := ⟨exClean, by decide +kernel, by decide +kernel⟩

/-! ### C10 -/

/-- C10: in every reachable map the bucket boundaries are strictly decreasing from 2^64-1 to 0, and each bucket has
exactly one sentinel in the item list, with the same hash; between it and the next larger one lie exactly the items of
that interval by C09. -/
theorem C10_buckets {E : Env} {st : St} (h : Reachable E st) :
    (boundaries st).Pairwise (fun a b => b < a) ∧ (boundaries st).head? = some maxU64 ∧ (boundaries st).getLast? = some 0 ∧
    (∀ p ∈ st.blist, ∃ d ∈ st.items, d.ref = .dummy p ∧ d.dummy = true ∧ d.rev = (st.mem p).rev) ∧
    (∀ d ∈ st.items, d.dummy = true → ∃ p ∈ st.blist, d.ref = .dummy p ∧ d.rev = (st.mem p).rev) ∧
    (st.items.map (·.ref)).Nodup := by
  have hi := h.inv
  have hb := hi.bi
  refine ⟨?_, ?_, ?_, ?_, ?_, hi.ii.nodup⟩
  · unfold boundaries
    rw [List.pairwise_map]
    refine List.Pairwise.imp_of_mem ?_ hb.desc
    intro a b ha hb' hab
    exact (hb.rev_lt_iff hb' ha).2 hab
  · obtain ⟨rest, hr⟩ := hb.head
    unfold boundaries
    rw [hr]
    simp [hb.ti.root.1]
  · have h0 : [0] ∈ st.blist := hb.top_mem (by omega)
    have hrev : (st.mem [0]).rev = 0 := by rw [hb.rev_eq h0]; decide
    unfold boundaries
    rw [List.getLast?_map]
    obtain ⟨ini, hl⟩ : ∃ ini, st.blist = ini ++ [[0]] := by
      obtain ⟨A, B, hAB⟩ := List.append_of_mem h0
      cases B with
      | nil => exact ⟨A, hAB⟩
      | cons x B =>
        exfalso
        have hd := hb.desc
        rw [hAB, List.pairwise_append] at hd
        have := (List.pairwise_cons.1 hd.2.1).1 x (by simp)
        simp [bval, pathVal] at this
    rw [hl]
    simp [hrev]
  · intro p hp
    exact ⟨_, hi.ii.has p hp, rfl, rfl, (hb.rev_eq hp).symm⟩
  · intro d hd hdd
    cases href : d.ref with
    | item n => have := (hi.ii.itm d hd n href).1; rw [hdd] at this; cases this
    | dummy p =>
      obtain ⟨h1, h2⟩ := hi.ii.dum d hd p href
      refine ⟨p, h1, rfl, ?_⟩
      rw [hb.rev_eq h1, h2]; rfl

example : 17 < (boundaries (run exE (initSt exCfg) exOps).1).length := by decide +kernel

/-! ### C11 -/

/-- Boundary as a number; the topmost bucket (boundary 2^64-1) closes the hash space at 2^64. -/
def bnd (st : St) (p : Path) : Nat := if p = [] then 2 ^ 64 else (st.mem p).rev.toNat

theorem bnd_eq {st : St} (h : BI st.mem st.blist) {p : Path} (hp : p ∈ st.blist) : bnd st p = bval p := by
  unfold bnd
  split
  · subst_vars; simp [bval]
  · rename_i hne; exact h.rev_toNat hp hne

/-- C11, intervals: consecutive buckets enclose an interval of power-of-two size aligned to its start. -/
theorem C11_dyadic {E : Env} {st : St} (h : Reachable E st) {A B : List Path} {n c : Path} (hl : st.blist = A ++ n :: c :: B) :
    ∃ k, bnd st c + 2 ^ k = bnd st n ∧ 2 ^ k ∣ bnd st c := by
  have hb := h.inv.bi
  have hd := hb.dy
  rw [hl] at hd
  have := List.isChain_append.1 hd
  obtain ⟨k, h1, h2, _⟩ := (List.isChain_cons_cons.1 this.2.1).1
  refine ⟨k, ?_, ?_⟩
  · rw [bnd_eq hb (by rw [hl]; simp), bnd_eq hb (by rw [hl]; simp)]; exact h1
  · rw [bnd_eq hb (by rw [hl]; simp)]; exact h2

/-- C11, trie: every bucket below the topmost one sits at the path spelled by the leading hex digits of its boundary
(`st.mem` is addressed by such paths, deepest digit first), its level is the number of digits, and the remaining digits of
the boundary are zero. -/
theorem C11_trie {E : Env} {st : St} (h : Reachable E st) {p : Path} (hp : p ∈ st.blist) (hne : p ≠ []) :
    (st.mem p).level = p.length ∧ p.length ≤ 16 ∧
    p = (List.range p.length).reverse.map (fun i => nib (st.mem p).rev (i + 1)) ∧
    2 ^ (64 - 4 * p.length) ∣ (st.mem p).rev.toNat := by
  have hb := h.inv.bi
  have hv := ((hb.mem_iff p hne).1 hp).1
  obtain ⟨h1, h2, h3, _, h5⟩ := hb.ti.val p hne hv
  refine ⟨h2, h3, ?_, ?_⟩
  · have hr : (st.mem p).rev = BitVec.ofNat 64 (pathVal p) := by
      have := hb.rev_eq hp
      rw [this]; simp [bvRev, hne]
    have hpp := pref_pathVal p h5 h3
    rw [← hr] at hpp
    have hgen : ∀ l, pref (st.mem p).rev l = (List.range l).reverse.map (fun i => nib (st.mem p).rev (i + 1)) := by
      intro l
      induction l with
      | zero => rfl
      | succ l ih => rw [List.range_succ]; simp only [List.reverse_append, List.reverse_cons, List.reverse_nil, List.nil_append,
          List.singleton_append, List.map_cons, ← ih]; rfl
    rw [← hgen, hpp]
  · have := pathVal_dvd p h3
    rw [pow16, show 4 * (16 - p.length) = 64 - 4 * p.length by omega] at this
    rw [h1]; exact this

/-- C11, splitting: an operation leaves the bucket list alone or adds one bucket at the midpoint of an interval. -/
theorem C11_split {E : Env} {st : St} (h : Reachable E st) (op : Op) :
    let st' := (step E st op).1
    st'.blist = st.blist ∨
    ∃ A B n b c, st.blist = A ++ n :: c :: B ∧ st'.blist = A ++ n :: b :: c :: B ∧ 2 * bnd st' b = bnd st' c + bnd st' n := by
  intro st'
  have hinv' : Inv st' := step_inv E h.inv op
  have hgrow : ∀ mid : St, mid.blist = st.blist → Grow mid st' → (st'.blist = st.blist ∨
    ∃ A B n b c, st.blist = A ++ n :: c :: B ∧ st'.blist = A ++ n :: b :: c :: B ∧ 2 * bnd st' b = bnd st' c + bnd st' n) := by
    intro mid hm hg
    rcases hg with hg | ⟨A, B, n, b, c, hb⟩
    · left; rw [hg, hm]
    · right
      refine ⟨A, B, n, b, c, hm ▸ hb.old, hb.new, ?_⟩
      rw [bnd_eq hinv'.bi (by rw [hb.new]; simp), bnd_eq hinv'.bi (by rw [hb.new]; simp), bnd_eq hinv'.bi (by rw [hb.new]; simp)]
      exact hb.mid
  rcases step_eff E h.inv op with he | ⟨e, nv, b, he⟩ | ⟨key, e, he⟩ | ⟨st2, k, c, e, he⟩
  · obtain ⟨b, hb⟩ := he.same; left; show (step E st op).1.blist = _; rw [hb]
  · left; show (step E st op).1.blist = _; rw [he.res]
  · left; show (step E st op).1.blist = _; rw [he.res]
  · exact hgrow (setMid st2 k (findBucket st.mem (rev64 k)) e) he.blist he.grow

/-- C11/C15: whatever the operation, it never spins forever and never dereferences a nil bucket. -/
theorem C11_no_livelock {E : Env} {st : St} (h : Reachable E st) (op : Op) :
    (step E st op).2 ≠ .panic .livelock ∧ (step E st op).2 ≠ .panic .nilBucket := by
  rcases step_eff E h.inv op with he | ⟨e, nv, b, he⟩ | ⟨key, e, he⟩ | ⟨st2, k, c, e, he⟩
  · exact ⟨he.live, he.nil⟩
  · rw [he.res]; simp
  · rw [he.res]; simp
  · rw [he.out]; simp

/-! ### C12 -/

/-- C12: in every reachable map FindBucket answers, for every reversed hash, with an initialised bucket whose boundary is
not above it; and the sentinel its search starts from is in the item list, with that boundary. -/
theorem C12_find_bucket {E : Env} {st : St} (h : Reachable E st) (r : U64) :
    let b := findBucket st.mem r
    (st.mem b).level ≠ 0 ∧ (st.mem b).rev ≤ r ∧
    ∃ d ∈ st.items, d.ref = st.head b ∧ d.dummy = true ∧ d.rev = (st.mem b).rev := by
  obtain ⟨h1, _, h3⟩ := findBucket_spec h.inv.bi.ti r
  obtain ⟨p, hp, hh, hr, hm⟩ := head_spec h.inv h1
  exact ⟨h1, h3, _, hm, by rw [hh]; rfl, rfl, hr⟩

end SLM
