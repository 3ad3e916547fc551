import Verif.Proofs.EmbOps
/-! Histories of embedded mode without deletions. -/
set_option linter.unusedSimpArgs false
set_option autoImplicit false
set_option maxRecDepth 20000
namespace SLM.Emb
open Spec (PMap Ans)

/-! ### initial state -/

theorem init_mem (mp : Nat) : (initSt mp).mem = initMem := initSt_mem {}
theorem init_blist (mp : Nat) : (initSt mp).blist = (SLM.initSt {}).blist := rfl

theorem init_blist_mem (mp : Nat) (p : Path) : p ∈ (initSt mp).blist ↔ p = [] ∨ ∃ i, i < 16 ∧ p = [i] := by
  rw [init_blist, initSt_blist]
  simp only [List.mem_cons, List.mem_map, List.mem_range]
  constructor
  · rintro (h | ⟨i, hi, rfl⟩)
    · exact Or.inl h
    · exact Or.inr ⟨15 - i, by omega, rfl⟩
  · rintro (h | ⟨i, hi, rfl⟩)
    · exact Or.inl h
    · exact Or.inr ⟨15 - i, by omega, by congr 1; omega⟩

theorem init_EI (mp : Nat) (h1 : 1 ≤ mp) : EI (initSt mp) (initSt mp).blist := by
  have hbi : BI (initSt mp).mem (initSt mp).blist := (inv_init {}).bi
  have hmul : ∀ p ∈ (initSt mp).blist, 2 ^ 60 ∣ bval p := by
    intro p hp
    rcases (init_blist_mem mp p).1 hp with rfl | ⟨i, _, rfl⟩
    · rw [bval_nil]; exact ⟨16, rfl⟩
    · rw [bval_top]; exact Dvd.intro_left _ rfl
  refine ⟨hbi, ?_, ?_, fun p hp => hp, hbi.head, hbi.desc, fun i hi => hbi.top_mem hi, ?_, ?_, ?_⟩
  · rw [init_mem]; exact initMem_nz
  · rw [init_mem]; exact initMem_shallow
  · intro n c ha
    obtain ⟨A, B, hbl⟩ := adj_decomp hbi.desc ha
    obtain ⟨⟨k, hk, hdv, _⟩, _⟩ := hbi.neighbours hbl
    refine ⟨k, hk, hdv, ?_, ?_⟩
    · have h2 : 2 ^ 60 ∣ 2 ^ k := by
        have := hmul n ha.1
        rw [← hk] at this
        exact (Nat.dvd_add_right (hmul c ha.2.1)).1 this
      have := (Nat.pow_dvd_pow_iff_le_right (by omega : 1 < 2)).1 h2
      omega
    · intro q hq x1 x2
      have := ha.2.2.2 q hq
      omega
  · intro n c ha
    have hc : c ≠ [] := by
      obtain ⟨A, B, hbl⟩ := adj_decomp hbi.desc ha
      exact (hbi.neighbours hbl).2.2.1
    have hcm : c ∈ (SLM.initSt {}).blist := ha.2.1
    refine ⟨{ arr := List.replicate (mp * 3 / 2) {}, len := 0 }, [], mp * 3 / 2, ?_, ⟨by simp, by simp, by simp, by simp, ?_⟩, by simp⟩
    · show (if c ≠ [] ∧ c ∈ (SLM.initSt {}).blist then _ else none) = _
      rw [if_pos ⟨hc, hcm⟩]
    · intro _; omega
  · intro p hp
    change ((if p ≠ [] ∧ p ∈ (SLM.initSt {}).blist then some ({ arr := List.replicate (mp * 3 / 2) {}, len := 0 } : Pool) else none).isSome) = true at hp
    by_cases hc : p ≠ [] ∧ p ∈ (SLM.initSt {}).blist
    · exact ⟨hc.2, hc.1⟩
    · rw [if_neg hc] at hp; simp at hp

theorem init_stored (mp : Nat) (s : Slot) : ¬ Stored (initSt mp) s := by
  rintro ⟨c, P, hP, hs⟩
  change (if c ≠ [] ∧ c ∈ (SLM.initSt {}).blist then some ({ arr := List.replicate (mp * 3 / 2) {}, len := 0 } : Pool) else none) = some P at hP
  split at hP
  · injection hP with hP
    rw [← hP] at hs
    simp [Pool.used] at hs
  · cases hP

theorem init_rel (H : HashFns) (K : List (U64 × U64)) (mp : Nat) (h1 : 1 ≤ mp) :
    RelE H K (initSt mp) (initSt mp).blist (PMap.empty .sample) := by
  refine ⟨init_EI mp h1, rfl, ?_, fun x hx => absurd hx (init_stored mp x), fun x hx => absurd hx (init_stored mp x), ⟨[], by simp, ?_, rfl⟩⟩
  · intro k c v
    constructor
    · intro h; cases h
    · rintro ⟨x, hx, _⟩; exact absurd hx (init_stored mp x)
  · intro r
    constructor
    · intro h; cases h
    · rintro ⟨x, hx, _⟩; exact absurd hx (init_stored mp x)

/-! ### steps -/

/-- The operation as one of the specification's: Purge and Delete both remove. -/
def toOp : Op → SLM.Op
  | .set k v => .set k v
  | .get k => .get k
  | .getByHash k c => .getByHash k c
  | .loadItem k => .loadItem k
  | .loadItemByHash k c => .loadItemByHash k c
  | .storeItem str v _ => .storeItem { kind := .sample, key := .str str, val := v }
  | .delete k => .delete k
  | .purge k => .delete k
  | .len => .len

/-- Set with a string key, lookups and Len. -/
def Plain : Op → Prop
  | .set (.str _) _ => True
  | .set _ _ => False
  | .storeItem _ _ _ => False
  | .delete _ => False
  | .purge _ => False
  | _ => True

/-- The hash pair a Set addresses. -/
def setHash (H : HashFns) : Op → Option (U64 × U64)
  | .set (.str s) _ => some (H.mem s, H.xx s)
  | _ => none

variable {H : HashFns} {K : List (U64 × U64)} {s : PMap} {st : St} {gl : List Path}

theorem RelE.step (h : RelE H K st gl s) (hK : KOK st.maxPer K) {op : Op} (hp : Plain op)
    (hk : ∀ kc, setHash H op = some kc → kc ∈ K) :
    ((step H st op).2 = .crash .stackOverflow ∧ gl ≠ st.blist) ∨
    ((∃ gl', RelE H K (step H st op).1 gl' (s.step H (toOp op)).1 ∧
        (Few st.maxPer K → gl' = gl ∧ (step H st op).1.blist = st.blist)) ∧
      (step H st op).1.maxPer = st.maxPer ∧ ansE (step H st op).2 = some (s.step H (toOp op)).2) := by
  cases op with
  | set key v =>
    cases key with
    | str str => exact h.set hK (hk _ rfl) v
    | _ => exact absurd hp (by simp [Plain])
  | get key =>
    simp only [Emb.step, opGet, toOp, PMap.step]
    cases hh : keyToHash H key with
    | none => right; exact ⟨⟨gl, h, fun _ => ⟨by trivial, by trivial⟩⟩, by trivial, by trivial⟩
    | some kc =>
      obtain ⟨k, c⟩ := kc
      simp only
      rcases h.getByHash k c with h1 | h1
      · exact Or.inl h1
      · right
        refine ⟨⟨gl, h, fun _ => ⟨by trivial, by trivial⟩⟩, by trivial, ?_⟩
        rw [h1]; cases s.m (k, c) <;> rfl
  | getByHash k c =>
    simp only [Emb.step, toOp, PMap.step]
    rcases h.getByHash k c with h1 | h1
    · exact Or.inl h1
    · right
      refine ⟨⟨gl, h, fun _ => ⟨by trivial, by trivial⟩⟩, by trivial, ?_⟩
      rw [h1]; cases s.m (k, c) <;> rfl
  | loadItem key =>
    simp only [Emb.step, opLoadItem, toOp, PMap.step]
    cases hh : keyToHash H key with
    | none => right; exact ⟨⟨gl, h, fun _ => ⟨by trivial, by trivial⟩⟩, by trivial, by trivial⟩
    | some kc =>
      obtain ⟨k, c⟩ := kc
      simp only
      rcases h.loadByHash k c with h1 | ⟨r, h1, h2, _⟩
      · exact Or.inl h1
      · right
        refine ⟨⟨gl, h, fun _ => ⟨by trivial, by trivial⟩⟩, by trivial, ?_⟩
        rw [h1]; simp only [ansE, h2]
  | loadItemByHash k c =>
    simp only [Emb.step, toOp, PMap.step]
    rcases h.loadByHash k c with h1 | ⟨r, h1, h2, _⟩
    · exact Or.inl h1
    · right
      refine ⟨⟨gl, h, fun _ => ⟨by trivial, by trivial⟩⟩, by trivial, ?_⟩
      rw [h1]; simp only [ansE, h2]
  | storeItem str v r => exact absurd hp (by simp [Plain])
  | delete k => exact absurd hp (by simp [Plain])
  | purge k => exact absurd hp (by simp [Plain])
  | len => right; exact ⟨⟨gl, h, fun _ => ⟨by trivial, by trivial⟩⟩, by trivial, by trivial⟩

theorem RelE.run (hK : KOK st.maxPer K) : ∀ (ops : List Op) (st0 : St) (gl : List Path) (s : PMap), RelE H K st0 gl s →
    st0.maxPer = st.maxPer → (∀ op ∈ ops, Plain op) → (∀ op ∈ ops, ∀ kc, setHash H op = some kc → kc ∈ K) →
    (∀ c, Out.crash c ∉ (run H st0 ops).2) →
    (∃ gl', RelE H K (run H st0 ops).1 gl' (s.run H (ops.map toOp)).1) ∧ (run H st0 ops).1.maxPer = st.maxPer ∧
      (run H st0 ops).2.map ansE = (s.run H (ops.map toOp)).2.map some := by
  intro ops
  induction ops with
  | nil => intro st0 gl s h hm _ _ _; exact ⟨⟨gl, h⟩, hm, rfl⟩
  | cons op ops ih =>
    intro st0 gl s h hm hp hk hc
    simp only [Emb.run] at hc ⊢
    rcases h.step (hm ▸ hK) (hp op (by simp)) (hk op (by simp)) with ⟨h1, _⟩ | ⟨⟨gl', h1, _⟩, h2, h3⟩
    · exact absurd (by rw [h1]; simp) (hc .stackOverflow)
    · obtain ⟨g1, g2, g3⟩ := ih _ gl' _ h1 (h2.trans hm) (fun o ho => hp o (by simp [ho])) (fun o ho => hk o (by simp [ho]))
        (fun c hx => hc c (List.mem_cons_of_mem _ hx))
      refine ⟨g1, g2, ?_⟩
      simp only [List.map_cons, PMap.run, h3, g3]

/-- Few keys: no crash at all. -/
theorem RelE.total (hK : KOK st.maxPer K) (hF : Few st.maxPer K) : ∀ (ops : List Op) (st0 : St) (s : PMap),
    RelE H K st0 st0.blist s → st0.maxPer = st.maxPer → (∀ op ∈ ops, Plain op) →
    (∀ op ∈ ops, ∀ kc, setHash H op = some kc → kc ∈ K) → ∀ c, Out.crash c ∉ (Emb.run H st0 ops).2 := by
  intro ops
  induction ops with
  | nil => intro st0 s h hm _ _ c hc; cases hc
  | cons op ops ih =>
    intro st0 s h hm hp hk c hc
    simp only [Emb.run, List.mem_cons] at hc
    rcases h.step (hm ▸ hK) (hp op (by simp)) (hk op (by simp)) with ⟨_, h1⟩ | ⟨⟨gl', h1, h4⟩, h2, h3⟩
    · exact h1 rfl
    · obtain ⟨e1, e2⟩ := h4 (hm ▸ hF)
      rcases hc with hc | hc
      · rw [← hc] at h3; simp [ansE] at h3
      · rw [e1, ← e2] at h1
        exact ih _ _ h1 (h2.trans hm) (fun o ho => hp o (by simp [ho])) (fun o ho => hk o (by simp [ho])) c hc

end SLM.Emb
