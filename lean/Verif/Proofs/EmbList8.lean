import Verif.Proofs.EmbList7
/-! The item list of embedded mode: histories, and what `Range` sees. -/
set_option linter.unusedSimpArgs false
set_option autoImplicit false
set_option maxRecDepth 20000
namespace SLM.EList
open Spec (PMap)
open Emb (Pool Slot EI clrSt clrP Adj OKP CP upool Stored RelD FoundD KOK NotCrowded Placed gentle gentleRun setHash toOp)
variable {st st1 : Emb.St} {gl gl' A B : List Path} {n b c p : Path} {l0 : Int} {D : Node → Bool} {H : HashFns} {K : List (U64 × U64)} {s : PMap}

theorem link_sub {st' : Emb.St} {r : U64} {ig : Bool} (h : Emb.link st b r ig = .ok st') : ∀ q ∈ st.blist, q ∈ st'.blist := by
  intro q hq
  unfold Emb.link at h
  simp only at h
  split at h
  · cases h
  · rename_i st1 hm
    injection h with h
    subst h
    split at hm
    · exact makeBucket2_sub _ _ _ _ hm q hq
    · injection hm with hm; subst hm; exact hq

theorem finish_sub {x : Except Emb.Crash Emb.St} {bl : List Path} (h0 : ∀ q ∈ bl, q ∈ st.blist)
    (h : ∀ st', x = .ok st' → ∀ q ∈ bl, q ∈ st'.blist) : ∀ q ∈ bl, q ∈ (Emb.finish st x).1.blist := by
  intro q hq
  cases x with
  | error e => exact h0 q hq
  | ok st' => exact h st' rfl q hq

theorem step_sub (H : HashFns) (st : Emb.St) (op : Emb.Op) : ∀ q ∈ st.blist, q ∈ (Emb.step H st op).1.blist := by
  intro q hq
  cases op with
  | set key v =>
    simp only [Emb.step, Emb.opSet]
    repeat' split
    all_goals first
      | exact hq
      | (unfold Emb.update; repeat' split <;> exact hq)
      | (refine finish_sub (bl := st.blist) (fun _ h => h) ?_ q hq; intro st' h q hq; exact link_sub h q hq)
  | storeItem str v r =>
    simp only [Emb.step, Emb.opStoreItem]
    repeat' split
    all_goals first
      | exact hq
      | (unfold Emb.update; repeat' split <;> exact hq)
      | (refine finish_sub (bl := st.blist) (fun _ h => h) ?_ q hq; intro st' h q hq; exact link_sub h q hq)
  | delete key =>
    simp only [Emb.step, Emb.opDelete]
    repeat' split
    all_goals exact hq
  | purge key =>
    simp only [Emb.step, Emb.opPurge]
    repeat' split
    all_goals exact hq
  | _ => exact hq

theorem run_sub (H : HashFns) : ∀ (ops : List Emb.Op) (st : Emb.St), ∀ q ∈ st.blist, q ∈ (Emb.run H st ops).1.blist := by
  intro ops
  induction ops with
  | nil => intro st q hq; exact hq
  | cons op ops ih => intro st q hq; exact ih _ q (step_sub H st op q hq)

theorem run_st (H : HashFns) : ∀ (ops : List Emb.Op) (s : LSt), (run H s ops).st = (Emb.run H s.st ops).1 := by
  intro ops
  induction ops with
  | nil => intro s; rfl
  | cons op ops ih => intro s; exact ih _

theorem Off.mono {bl bl' : List Path} (h : Off K bl') (hs : ∀ q ∈ bl, q ∈ bl') : Off K bl :=
  ⟨fun kc hk q hq => h.grid kc hk q (hs q hq), h.max⟩

theorem run_li (hK : KOK st.maxPer K) : ∀ (ops : List Emb.Op) (st0 : Emb.St) (gl : List Path) (s : PMap) (l : List Node), RelD H K st0 gl s →
    st0.maxPer = st.maxPer → gentleRun H st0 ops = true → (∀ op ∈ ops, ∀ kc, setHash H op = some kc → kc ∈ K) →
    (∀ c, Emb.Out.crash c ∉ (Emb.run H st0 ops).2) → LI st0 l → Off K (Emb.run H st0 ops).1.blist →
    ∃ l', (run H ⟨st0, some l⟩ ops).items = some l' ∧ LI (Emb.run H st0 ops).1 l' := by
  intro ops
  induction ops with
  | nil => intro st0 gl s l h hm _ _ _ hl _; exact ⟨l, rfl, hl⟩
  | cons op ops ih =>
    intro st0 gl s l h hm hp hk hc hl hoff
    simp only [Emb.run] at hc hoff ⊢
    simp only [gentleRun, Bool.and_eq_true] at hp
    rcases h.step (hm ▸ hK) hp.1 (hk op (by simp)) with ⟨h1, _⟩ | ⟨⟨gl', h1, _⟩, h2, h3⟩
    · exact absurd (by rw [h1]; simp) (hc .stackOverflow)
    · obtain ⟨l1, e1, e2⟩ := step_li h (hm ▸ hK) hp.1 (hk op (by simp)) hl ⟨gl', h1.ei⟩ (hoff.mono (run_sub H ops _))
      obtain ⟨l', g1, g2⟩ := ih _ gl' _ l1 h1 (h2.trans hm) hp.2 (fun o ho => hk o (by simp [ho]))
        (fun c hx => hc c (List.mem_cons_of_mem _ hx)) e2 hoff
      refine ⟨l', ?_, g2⟩
      have : step H ⟨st0, some l⟩ op = ⟨(Emb.step H st0 op).1, some l1⟩ := by
        unfold step; simp only [Option.bind_some, e1]
      show (run H (step H ⟨st0, some l⟩ op) ops).items = some l'
      rw [this]; exact g1

theorem init_li (mp : Nat) : LI (Emb.initSt mp) ((Emb.initSt mp).blist.reverse.map .dummy) := by
  refine ⟨fun _ => false, ?_, ?_⟩
  · intro x hx; cases hx
  unfold lst canon
  simp only [Bool.not_false, List.filter_true]
  rw [List.map_eq_flatMap]
  apply List.flatMap_congr
  intro p _
  unfold seg plen
  cases hp : (Emb.initSt mp).pools p with
  | none => rfl
  | some P =>
    change (if p ≠ [] ∧ p ∈ (SLM.initSt {}).blist then some ({ arr := List.replicate (mp * 3 / 2) {}, len := 0 } : Pool) else none) = some P at hp
    split at hp
    · injection hp with hp; subst hp; rfl
    · cases hp

/-! ### what Range sees -/

/-- The live slots of a list. -/
def liveS (st : Emb.St) (l : List Node) : List Slot := (l.filterMap (slotOf st)).filter (fun x => !x.deleted)

theorem rangeItems_spec (f : List Slot → Slot → Bool) (l : List Node) (seen : List Slot) :
    ∃ vis rest, rangeItems st f seen l = seen ++ vis ∧ liveS st l = vis ++ rest ∧
      (∀ p x s, vis = p ++ x :: s → s ≠ [] → f (seen ++ p) x = true) ∧
      (rest ≠ [] → ∃ p x, vis = p ++ [x] ∧ f (seen ++ p) x = false) := by
  unfold liveS
  induction l generalizing seen with
  | nil => exact ⟨[], [], by simp [rangeItems], rfl, by simp, by simp⟩
  | cons e es ih =>
    cases hs : slotOf st e with
    | none =>
      obtain ⟨vis, rest, h1, h2, h3, h4⟩ := ih seen
      exact ⟨vis, rest, by simp [rangeItems, hs, h1], by simp [List.filterMap_cons, hs, h2], h3, h4⟩
    | some sl =>
      by_cases hi : sl.deleted = true
      · obtain ⟨vis, rest, h1, h2, h3, h4⟩ := ih seen
        refine ⟨vis, rest, ?_, ?_, h3, h4⟩
        · simp [rangeItems, hs, hi, h1]
        · simp [List.filterMap_cons, List.filter_cons, hs, hi, h2]
      · by_cases hf : f seen sl = true
        · obtain ⟨vis, rest, h1, h2, h3, h4⟩ := ih (seen ++ [sl])
          refine ⟨sl :: vis, rest, ?_, ?_, ?_, ?_⟩
          · simp [rangeItems, hs, hi, hf, h1]
          · simp [List.filterMap_cons, List.filter_cons, hs, hi, h2]
          · intro p x s hv hs
            cases p with
            | nil =>
              simp at hv
              rw [← hv.1]; simpa using hf
            | cons y p =>
              simp at hv
              have := h3 p x s hv.2 hs
              simpa [hv.1] using this
          · intro hr
            obtain ⟨p, x, h5, h6⟩ := h4 hr
            exact ⟨sl :: p, x, by simp [h5], by simpa using h6⟩
        · refine ⟨[sl], (es.filterMap (slotOf st)).filter (fun x => !x.deleted), ?_, ?_, ?_, ?_⟩
          · simp [rangeItems, hs, hi, hf]
          · simp [List.filterMap_cons, List.filter_cons, hs, hi]
          · intro p x s hv hs
            cases p with
            | nil => simp at hv; exact absurd hv.2 hs
            | cons y p => simp at hv
          · intro _
            exact ⟨[], sl, by simp, by simpa using hf⟩

/-- The slots of the linked buckets, in the order of the list. -/
theorem slot_iff (h : EI (clrSt st l0) gl) (x : Slot) : (∃ y ∈ canon st, slotOf st y = some x) ↔ Stored st x := by
  constructor
  · rintro ⟨y, hy, hs⟩
    obtain ⟨p, hp, hy⟩ := mem_canon.1 hy
    rcases mem_seg.1 hy with rfl | ⟨i, hi, rfl⟩
    · cases hs
    · obtain ⟨P, hP, hi⟩ := plen_lt hi
      simp only [slotOf, hP, Option.map_some, Option.some.injEq] at hs
      obtain ⟨n, ha⟩ := Emb.adj_next h.desc h.head hp (h.pool p (by simp [clrSt, hP])).2
      obtain ⟨z, h1, _⟩ := item_cp h ha hP
      have hl : P.len.toNat = P.used.length := by rw [h1.len]; simp
      rw [h1.slot (by omega)] at hs
      exact ⟨p, P, hP, hs ▸ List.getElem_mem _⟩
  · rintro ⟨p, P, hP, hx⟩
    obtain ⟨i, hi, rfl⟩ := List.getElem_of_mem hx
    have hp := h.pool p (by simp [clrSt, hP])
    obtain ⟨n, ha⟩ := Emb.adj_next h.desc h.head hp.1 hp.2
    obtain ⟨z, h1, _⟩ := item_cp h ha hP
    have hl : P.len.toNat = P.used.length := by rw [h1.len]; simp
    refine ⟨.item p i, item_mem_lst hP (by omega) hp.1, ?_⟩
    simp only [slotOf, hP, Option.map_some, Option.some.injEq]
    exact h1.slot hi

theorem live_iff (h : EI (clrSt st l0) gl) (hD : DOk D st) (x : Slot) : x ∈ liveS st (lst D st) ↔ Stored st x ∧ x.deleted = false := by
  unfold liveS
  simp only [List.mem_filter, List.mem_filterMap, Bool.not_eq_true']
  constructor
  · rintro ⟨⟨y, hy, hs⟩, hd⟩
    exact ⟨(slot_iff h x).1 ⟨y, List.mem_of_mem_filter hy, hs⟩, hd⟩
  · rintro ⟨hs, hd⟩
    obtain ⟨y, hy, hs⟩ := (slot_iff h x).2 hs
    refine ⟨⟨y, ?_, hs⟩, hd⟩
    unfold lst
    rw [List.mem_filter]
    refine ⟨hy, ?_⟩
    cases hc : D y with
    | false => rfl
    | true =>
      obtain ⟨b, i, P, rfl, q2, q3, q4⟩ := hD y hc
      simp only [slotOf, q2, Option.map_some, Option.some.injEq] at hs
      rw [hs, hd] at q4; cases q4

theorem seg_sorted (h : EI (clrSt st l0) gl) (hp : p ∈ st.blist) :
    ((seg st.pools p).filterMap (slotOf st)).Pairwise (fun a b => a.rev < b.rev) := by
  unfold seg
  rw [List.filterMap_cons]
  simp only [slotOf]
  cases hP : st.pools p with
  | none =>
    have : plen st.pools p = 0 := by simp [plen, hP]
    rw [this]; simp
  | some P =>
    obtain ⟨n, ha⟩ := Emb.adj_next h.desc h.head hp (h.pool p (by simp [clrSt, hP])).2
    have e : ((List.range (plen st.pools p)).map (Node.item p)).filterMap (slotOf st) = (List.range (plen st.pools p)).map (fun i => P.slot i) := by
      rw [List.filterMap_map]
      have : (slotOf st ∘ Node.item p) = fun i => some (P.slot i) := by
        funext i; simp [slotOf, hP]
      rw [this, List.filterMap_eq_map']
    rw [e, List.pairwise_map]
    have hlen : plen st.pools p = P.len.toNat := by simp [plen, hP]
    refine List.pairwise_lt_range.imp_of_mem ?_
    intro i j _ hj hij
    exact item_mono h ha hP (by rw [← hlen]; exact List.mem_range.1 hj) hij

theorem canon_sorted (h : EI (clrSt st l0) gl) : ((canon st).filterMap (slotOf st)).Pairwise (fun a b => a.rev < b.rev) := by
  have hd : st.blist.reverse.Pairwise (fun p q => bval p < bval q) := List.pairwise_reverse.2 h.desc
  have hs : ∀ p ∈ st.blist.reverse, p ∈ st.blist := fun p hp => List.mem_reverse.1 hp
  unfold canon
  rw [List.filterMap_flatMap]
  rw [List.pairwise_flatMap]
  refine ⟨fun p hp => seg_sorted h (hs p hp), ?_⟩
  refine hd.imp_of_mem ?_
  intro p q hp hq hpq x hx y hy
  obtain ⟨a, ha, ha'⟩ := List.mem_filterMap.1 hx
  obtain ⟨c, hc, hc'⟩ := List.mem_filterMap.1 hy
  rcases mem_seg.1 ha with rfl | ⟨i, hi, rfl⟩
  · cases ha'
  rcases mem_seg.1 hc with rfl | ⟨j, hj, rfl⟩
  · cases hc'
  obtain ⟨P, hP, hi⟩ := plen_lt hi
  obtain ⟨Q, hQ, hj⟩ := plen_lt hj
  simp only [slotOf, hP, hQ, Option.map_some, Option.some.injEq] at ha' hc'
  subst ha' hc'
  obtain ⟨n, an⟩ := Emb.adj_next h.desc h.head (hs p hp) (h.pool p (by simp [clrSt, hP])).2
  obtain ⟨n', an'⟩ := Emb.adj_next h.desc h.head (hs q hq) (h.pool q (by simp [clrSt, hQ])).2
  have b1 := item_bounds h an hP hi
  have b2 := item_bounds h an' hQ hj
  have b3 := an.2.2.2 q (hs q hq)
  rw [BitVec.lt_def]
  omega

theorem live_sorted (h : EI (clrSt st l0) gl) : (liveS st (lst D st)).Pairwise (fun a b => a.rev < b.rev) := by
  refine (canon_sorted h).sublist ?_
  unfold liveS lst
  exact List.filter_sublist.trans (List.filter_sublist.filterMap _)

end SLM.EList
