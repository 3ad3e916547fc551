import Verif.Proofs.EmbList
/-! The item list of embedded mode: its normal form. -/
set_option linter.unusedSimpArgs false
set_option autoImplicit false
namespace SLM.EList
open Emb (Pool Slot EI clrSt clrP Adj OKP CP upool)
variable {st : Emb.St} {gl A B : List Path} {n b p : Path} {l0 : Int} {D : Node → Bool}

def plen (pools : Path → Option Pool) (p : Path) : Nat := match pools p with
  | some P => P.len.toNat
  | none => 0

def seg (pools : Path → Option Pool) (p : Path) : List Node := .dummy p :: (List.range (plen pools p)).map (.item p)

/-- The buckets in ascending order, each followed by its slots. -/
def canon (st : Emb.St) : List Node := st.blist.reverse.flatMap (seg st.pools)

/-- ... without the slots that were purged. -/
def lst (D : Node → Bool) (st : Emb.St) : List Node := (canon st).filter (fun x => !D x)

/-- Purged slots are deleted ones. -/
def DOk (D : Node → Bool) (st : Emb.St) : Prop :=
  ∀ x, D x = true → ∃ b i P, x = .item b i ∧ st.pools b = some P ∧ i < P.len.toNat ∧ (P.slot i).deleted = true

def LI (st : Emb.St) (l : List Node) : Prop := ∃ D, DOk D st ∧ l = lst D st

theorem DOk.dummy (h : DOk D st) (p : Path) : D (.dummy p) = false := by
  cases hc : D (.dummy p) with
  | false => rfl
  | true => obtain ⟨b, i, P, h1, _⟩ := h _ hc; cases h1

def lo (pools : Path → Option Pool) (B : List Path) : List Node := B.reverse.flatMap (seg pools)
def hi (pools : Path → Option Pool) (n : Path) (A : List Path) : List Node := seg pools n ++ A.reverse.flatMap (seg pools)

theorem canon_eq (hbl : st.blist = A ++ n :: b :: B) :
    canon st = lo st.pools B ++ (seg st.pools b ++ hi st.pools n A) := by
  unfold canon lo hi
  rw [hbl]
  simp [List.flatMap_append, List.flatMap_cons]

theorem seg_congr {f g : Path → Option Pool} (h : plen f p = plen g p) : seg f p = seg g p := by
  unfold seg; rw [h]

theorem lo_congr {f g : Path → Option Pool} (h : ∀ p ∈ B, plen f p = plen g p) : lo f B = lo g B := by
  unfold lo
  apply List.flatMap_congr
  intro p hp
  exact seg_congr (h p (List.mem_reverse.1 hp))

theorem hi_congr {f g : Path → Option Pool} (h : ∀ p ∈ n :: A, plen f p = plen g p) : hi f n A = hi g n A := by
  unfold hi
  rw [seg_congr (h n (by simp))]
  congr 1
  apply List.flatMap_congr
  intro p hp
  exact seg_congr (h p (List.mem_cons_of_mem _ (List.mem_reverse.1 hp)))

theorem mem_seg {f : Path → Option Pool} {x : Node} : x ∈ seg f p ↔ x = .dummy p ∨ ∃ i, i < plen f p ∧ x = .item p i := by
  simp [seg, eq_comm]

theorem mem_lo {f : Path → Option Pool} {x : Node} : x ∈ lo f B ↔ ∃ p ∈ B, x ∈ seg f p := by simp [lo]

theorem mem_hi {f : Path → Option Pool} {x : Node} : x ∈ hi f n A ↔ ∃ p ∈ n :: A, x ∈ seg f p := by simp [hi]

theorem mem_canon {x : Node} : x ∈ canon st ↔ ∃ p ∈ st.blist, x ∈ seg st.pools p := by simp [canon]

theorem seg_nodup (f : Path → Option Pool) (p : Path) : (seg f p).Nodup := by
  unfold seg
  rw [List.nodup_cons]
  refine ⟨by simp, ?_⟩
  exact List.Nodup.map (fun a b h => by injection h) List.nodup_range

theorem flatMap_nodup (f : Path → Option Pool) : ∀ L : List Path, L.Nodup → (L.flatMap (seg f)).Nodup := by
  intro L
  induction L with
  | nil => intro _; simp
  | cons p L ih =>
    intro h
    rw [List.nodup_cons] at h
    rw [List.flatMap_cons, List.nodup_append]
    refine ⟨seg_nodup f p, ih h.2, ?_⟩
    intro x hx y hy hxy
    subst hxy
    obtain ⟨q, hq, hy⟩ := List.mem_flatMap.1 hy
    have : p = q := by
      rcases mem_seg.1 hx with rfl | ⟨i, _, rfl⟩ <;> rcases mem_seg.1 hy with h1 | ⟨j, _, h1⟩ <;> injection h1
    subst this
    exact h.1 hq

theorem canon_nodup (h : EI (clrSt st l0) gl) : (canon st).Nodup :=
  flatMap_nodup _ _ (List.nodup_reverse.2 (desc_nodup h.desc))

/-! ### reversed hashes -/

theorem item_cp (h : EI (clrSt st l0) gl) {P : Pool} (ha : Adj st.blist n p) (hP : st.pools p = some P) :
    ∃ z, CP P P.used z ∧ ∀ s ∈ P.used, bval p ≤ s.rev.toNat ∧ s.rev.toNat < bval n := by
  obtain ⟨P', xs, z, g1, g2, g3⟩ := h.content n p ha
  simp only [clrSt, hP, Option.map_some, Option.some.injEq] at g1
  subst g1
  obtain ⟨h1, h2⟩ := g2.cp
  refine ⟨z, h1, ?_⟩
  intro s hs
  have := g3 (Emb.clr s) (by rw [← h2]; exact List.mem_map_of_mem hs)
  simpa using this

theorem item_bounds (h : EI (clrSt st l0) gl) {P : Pool} (ha : Adj st.blist n p) (hP : st.pools p = some P) {i : Nat}
    (hi : i < P.len.toNat) : bval p ≤ (P.slot i).rev.toNat ∧ (P.slot i).rev.toNat < bval n := by
  obtain ⟨z, h1, h2⟩ := item_cp h ha hP
  have hl : P.len.toNat = P.used.length := by rw [h1.len]; simp
  rw [h1.slot (by omega)]
  exact h2 _ (List.getElem_mem _)

theorem item_mono (h : EI (clrSt st l0) gl) {P : Pool} (ha : Adj st.blist n p) (hP : st.pools p = some P) {i j : Nat}
    (hj : j < P.len.toNat) (hij : i < j) : (P.slot i).rev < (P.slot j).rev := by
  obtain ⟨z, h1, h2⟩ := item_cp h ha hP
  have hl : P.len.toNat = P.used.length := by rw [h1.len]; simp
  rw [h1.slot (by omega), h1.slot (by omega)]
  exact h1.mono (by omega) hij

theorem plen_lt {i : Nat} (h : i < plen st.pools p) : ∃ P, st.pools p = some P ∧ i < P.len.toNat := by
  unfold plen at h
  split at h
  · exact ⟨_, by assumption, h⟩
  · omega

theorem dummy_rev (h : EI (clrSt st l0) gl) (hp : p ∈ st.blist) (hne : p ≠ []) : (revOf st (.dummy p)).toNat = bval p :=
  h.bi.rev_toNat (h.sub p hp) hne

theorem lo_bounds (h : EI (clrSt st l0) gl) (hbl : st.blist = A ++ n :: b :: B) {x : Node} (hx : x ∈ lo st.pools B) :
    (revOf st x).toNat < bval b := by
  obtain ⟨p, hp, hx⟩ := mem_lo.1 hx
  have hd : (A ++ n :: b :: B).Pairwise (fun p q => bval q < bval p) := hbl ▸ h.desc
  have hpb : bval p < bval b := by
    have h1 := (List.pairwise_append.1 hd).2.1
    exact (List.pairwise_cons.1 (List.pairwise_cons.1 h1).2).1 p hp
  have hmem : p ∈ st.blist := by rw [hbl]; simp [hp]
  have hbm : b ∈ st.blist := by rw [hbl]; simp
  have hne : p ≠ [] := by
    rintro rfl
    rw [bval_nil] at hpb
    by_cases hb : b = []
    · subst hb; rw [bval_nil] at hpb; omega
    · have := dummy_rev h hbm hb
      have := (revOf st (.dummy b)).isLt
      omega
  rcases mem_seg.1 hx with rfl | ⟨i, hi, rfl⟩
  · rw [dummy_rev h hmem hne]; exact hpb
  · obtain ⟨P, hP, hi⟩ := plen_lt hi
    obtain ⟨n', ha⟩ := Emb.adj_next h.desc h.head hmem hne
    have h1 := item_bounds h ha hP hi
    simp only [revOf, hP]
    have h2 := ha.2.2.2 b hbm
    omega

theorem hi_bounds (h : EI (clrSt st l0) gl) (hbl : st.blist = A ++ n :: b :: B) {x : Node} (hx : x ∈ hi st.pools n A) :
    x = .dummy [] ∨ bval n ≤ (revOf st x).toNat := by
  obtain ⟨p, hp, hx⟩ := mem_hi.1 hx
  have hd : (A ++ n :: b :: B).Pairwise (fun p q => bval q < bval p) := hbl ▸ h.desc
  have hpb : bval n ≤ bval p := by
    rcases List.mem_cons.1 hp with rfl | hp
    · exact le_refl _
    · exact Nat.le_of_lt ((List.pairwise_append.1 hd).2.2 p hp n (by simp))
  have hmem : p ∈ st.blist := by rw [hbl]; rcases List.mem_cons.1 hp with rfl | hp <;> simp [*]
  rcases mem_seg.1 hx with rfl | ⟨i, hi, rfl⟩
  · by_cases hne : p = []
    · subst hne; exact Or.inl rfl
    · right; rw [dummy_rev h hmem hne]; exact hpb
  · right
    obtain ⟨P, hP, hi⟩ := plen_lt hi
    have hne := (h.pool p (by simp [clrSt, hP])).2
    obtain ⟨n', ha⟩ := Emb.adj_next h.desc h.head hmem hne
    have h1 := item_bounds h ha hP hi
    simp only [revOf, hP]
    omega

end SLM.EList
