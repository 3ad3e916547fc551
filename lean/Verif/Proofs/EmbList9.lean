import Verif.Model.EmbList
import Verif.Proofs.EmbList
/-! The two ends of the item list in embedded mode, for every history whose list is followed. -/
set_option linter.unusedSimpArgs false
set_option autoImplicit false
set_option maxRecDepth 20000
namespace SLM.EList
open Emb (Pool Slot)

/-- The list begins with the dummy of the lowest bucket and ends with the sentinel. -/
def Ends (l : List Node) : Prop := ∃ m, l = .dummy [0] :: (m ++ [.dummy []])

/-- The reversed hashes of the two ends. -/
def RevEnds (st : Emb.St) : Prop := (st.mem [0]).rev = 0 ∧ (st.mem []).rev = maxU64

variable {l : List Node} {st : Emb.St}

theorem Ends.filter (h : Ends l) (p : Node → Bool) (h1 : p (.dummy [0]) = true) (h2 : p (.dummy []) = true) : Ends (l.filter p) := by
  obtain ⟨m, rfl⟩ := h
  exact ⟨m.filter p, by simp [List.filter_cons, List.filter_append, h1, h2]⟩

theorem Ends.map (h : Ends l) (f : Node → Node) (h1 : ∀ p, f (.dummy p) = .dummy p) : Ends (l.map f) := by
  obtain ⟨m, rfl⟩ := h
  exact ⟨m.map f, by simp [h1]⟩

theorem Ends.mem_last (h : Ends l) : Node.dummy [] ∈ l := by
  obtain ⟨m, rfl⟩ := h; simp

theorem before_from (r : Node) (l : List Node) : beforeN r l ++ fromN r l = l := List.takeWhile_append_dropWhile

theorem fromN_cons {r : Node} : ∀ {l : List Node}, r ∈ l → ∃ B, fromN r l = r :: B := by
  intro l
  induction l with
  | nil => intro h; cases h
  | cons x l ih =>
    intro h
    unfold fromN at ih ⊢
    rw [List.dropWhile_cons]
    by_cases hx : x = r
    · subst hx; exact ⟨l, by simp⟩
    · rcases List.mem_cons.1 h with h | h
      · exact absurd h.symm hx
      · obtain ⟨B, hB⟩ := ih h
        exact ⟨B, by simp only [ne_eq, hx, not_false_eq_true, decide_true, if_true]; exact hB⟩

/-- The last element of a list that ends a longer one. -/
theorem last_of_append {P D l : List Node} (e : P ++ D = l) (hD : D ≠ []) (h : Ends l) : D.getLast? = some (.dummy []) := by
  obtain ⟨m, hm⟩ := h
  have h1 : l.getLast? = some (.dummy []) := by
    rw [hm]; exact List.getLast?_concat (l := Node.dummy [0] :: m)
  rw [← e, List.getLast?_append] at h1
  cases hq : D.getLast? with
  | none => exact absurd (List.getLast?_eq_none_iff.1 hq) hD
  | some z => rw [hq] at h1; simpa using h1

/-- A node before a node of the list that is not the first one. -/
theorem Ends.insert (h : Ends l) {r : Node} (hr : r ∈ l) (hne : r ≠ .dummy [0]) (c : Node) : Ends (beforeN r l ++ c :: fromN r l) := by
  obtain ⟨B, hB⟩ := fromN_cons hr
  have hl := before_from r l
  obtain ⟨m, hm⟩ := h
  rw [hB] at hl ⊢
  generalize beforeN r l = A at hl ⊢
  cases A with
  | nil =>
    rw [hm] at hl
    simp only [List.nil_append, List.cons.injEq] at hl
    exact absurd hl.1 hne
  | cons a A =>
    rw [hm] at hl
    simp only [List.cons_append, List.cons.injEq] at hl
    obtain ⟨rfl, hl⟩ := hl
    obtain ⟨C, hC⟩ : ∃ C, r :: B = C ++ [.dummy []] := by
      have hlast := congrArg List.getLast? hl
      rw [List.getLast?_append] at hlast
      simp only [List.getLast?_append, List.getLast?_singleton, Option.some_or] at hlast
      have hz : (r :: B).getLast? = some (.dummy []) := by
        cases hq : (r :: B).getLast? with
        | none => simp at hq
        | some z => rw [hq] at hlast; simpa using hlast
      exact ⟨(r :: B).dropLast, ((List.dropLast_append_getLast? _ hz)).symm⟩
    exact ⟨A ++ c :: C, by rw [hC]; simp⟩

variable {rev : Node → U64}

theorem Ends.insertCheck (h : Ends l) {r c : Node} (hr : r ∈ l) (h0 : rev (.dummy [0]) = 0) (hc : r ≠ .dummy [0] ∨ rev c ≠ 0) :
    Ends (insertCheck rev r c l) := by
  unfold EList.insertCheck
  split
  · exact h
  · rename_i hlt
    have hne : r ≠ .dummy [0] := by
      rcases hc with hc | hc
      · exact hc
      · rintro rfl
        rw [h0] at hlt
        bv_omega
    split
    · split
      · exact h
      · exact h.insert hr hne c
    · exact h.insert hr hne c

theorem last_from (h : Ends l) {s : Node} (hs : s ∈ l) : Node.dummy [] ∈ fromN s l := by
  obtain ⟨B, hB⟩ := fromN_cons hs
  exact List.mem_of_getLast? (last_of_append (before_from s l) (by rw [hB]; simp) h)

theorem Ends.add2 (h : Ends l) (h0 : rev (.dummy [0]) = 0) (h1 : rev (.dummy []) = maxU64) {start c : Node} (hs : start ∈ l)
    {opt : Option (Node × Node)} (ho : ∀ x ∈ opt, x.1 ∈ l ∧ x.2 ∈ l) : Ends (add2 rev start c opt l) := by
  unfold EList.add2
  split
  · rename_i pos hf
    have hlt := List.find?_some hf
    simp only [decide_eq_true_eq] at hlt
    refine h.insertCheck (mem_fromN (List.mem_of_find?_eq_some hf)) h0 (Or.inl ?_)
    rintro rfl
    rw [h0] at hlt
    bv_omega
  · rename_i hf
    have hmax := List.find?_eq_none.1 hf _ (last_from h hs)
    simp only [decide_eq_true_eq, h1] at hmax
    have hne : rev c ≠ 0 := by
      intro hc
      rw [hc] at hmax
      exact hmax (by decide)
    cases opt with
    | some x =>
      obtain ⟨hd, phd⟩ := x
      obtain ⟨m1, m2⟩ := ho (hd, phd) rfl
      simp only
      split
      · exact h
      · rename_i d rest hdr
        have hsub : ∀ x, x ∈ d :: rest → x ∈ l := by
          intro x hx
          rw [← hdr] at hx
          exact mem_fromN hx
        refine h.insertCheck ?_ h0 (Or.inr hne)
        split
        · exact m2
        · cases rest with
          | nil => exact hsub d (by simp)
          | cons y rest => exact hsub y (by simp)
    | none =>
      simp only
      split
      · rename_i last hl
        exact h.insertCheck (List.mem_of_getLast? hl) h0 (Or.inr hne)
      · exact h

theorem Ends.setInsert (h : Ends l) (hv : RevEnds st) {b : Path} {rk : U64} {c : Node} {l' : List Node}
    (hi : setInsert st b rk c l = some l') : Ends l' := by
  unfold EList.setInsert at hi
  simp only at hi
  split at hi
  · cases hi
  · rename_i hg
    simp only [not_or, Decidable.not_not] at hg
    injection hi with hi
    rw [← hi]
    refine h.add2 hv.1 hv.2 ?_ (by intro x hx; injection hx with hx; rw [← hx]; exact ⟨hg.1, hg.2.1⟩)
    split
    · exact hg.1
    · rename_i en hen
      split
      · exact mem_fromN (List.mem_of_find?_eq_some hen)
      · split
        · rename_i pe hpe
          split
          · exact mem_beforeN (List.mem_of_getLast? hpe)
          · exact hg.1
        · exact hg.1

theorem Ends.relink (h : Ends l) {b : Path} {n i : Nat} {l' : List Node} (hi : relink b n i l = some l') : Ends l' := by
  unfold EList.relink at hi
  cases hc : cut b n l with
  | none => rw [hc] at hi; cases hi
  | some x =>
    obtain ⟨pre, post⟩ := x
    rw [hc] at hi
    simp only at hi
    split at hi
    · cases hi
    · injection hi with hi
      unfold cut at hc
      simp only at hc
      split at hc
      · rename_i hm
        simp only [Option.some.injEq, Prod.mk.injEq] at hc
        obtain ⟨A, hA⟩ : ∃ A, pre = .dummy [0] :: A := by
          rw [← hc.1]
          obtain ⟨m, rfl⟩ := h
          unfold beforeN
          rw [List.takeWhile_cons, if_pos (by simp)]
          exact ⟨_, rfl⟩
        obtain ⟨C, hC⟩ : ∃ C, post = C ++ [.dummy []] := by
          rw [← hc.2]
          obtain ⟨B, hB⟩ := fromN_cons hm.1
          have k1 : ∃ P, P ++ fromN (.item b 0) l = l := ⟨_, before_from _ _⟩
          obtain ⟨D, hD⟩ := fromN_cons hm.2
          obtain ⟨P, hP⟩ := k1
          have hQ := before_from (.item b (n - 1)) (fromN (.item b 0) l)
          rw [hD] at hQ ⊢
          simp only [List.tail_cons]
          have e : (P ++ beforeN (.item b (n - 1)) (fromN (.item b 0) l) ++ [.item b (n - 1)]) ++ D = l := by
            simp only [List.append_assoc, List.singleton_append]
            rw [hQ, hP]
          have hDne : D ≠ [] := by
            rintro rfl
            have := last_of_append (P := P ++ beforeN (.item b (n - 1)) (fromN (.item b 0) l)) (D := [.item b (n - 1)]) (by rw [List.append_nil] at e; exact e) (by simp) h
            simp at this
          have hz := last_of_append e hDne h
          exact ⟨D.dropLast, (List.dropLast_append_getLast? _ hz).symm⟩
        rw [← hi, hA, hC]
        exact ⟨A ++ (((List.range (n + 1)).filter (fun j => decide (j ≠ i))).map (.item b) ++ C), by simp⟩
      · cases hc

theorem Ends.getSlot {b : Path} : ∀ (fuel : Nat) (p : Pool) (r : U64) (l l' : List Node), Ends l → getSlot b fuel p r l = some l' → Ends l' := by
  intro fuel
  induction fuel with
  | zero => intro p r l l' h hi; injection hi with hi; exact hi ▸ h
  | succ fuel ih =>
    intro p r l l' h hi
    simp only [EList.getSlot] at hi
    split at hi
    · injection hi with hi; exact hi ▸ h
    · split at hi
      · injection hi with hi
        rw [← hi]
        exact h.filter _ (by simp) (by simp)
      · split at hi
        · split at hi
          · injection hi with hi; exact hi ▸ h
          · rename_i q _
            cases hm : moved b p.len.toNat l with
            | none => rw [hm] at hi; cases hi
            | some l1 =>
              rw [hm] at hi
              refine ih q r l1 l' ?_ hi
              unfold moved at hm
              cases hc : cut b p.len.toNat l with
              | none => rw [hc] at hm; cases hm
              | some x =>
                rw [hc] at hm
                simp only at hm
                split at hm
                · injection hm with hm; exact hm ▸ h
                · cases hm
        · split at hi
          · injection hi with hi; exact hi ▸ h
          · split at hi
            · injection hi with hi; exact hi ▸ h
            · split at hi
              · exact h.relink hi
              · injection hi with hi; exact hi ▸ h

/-! ### buckets -/

theorem upd_short {m : Path → Bkt} {b : Path} {x : Bkt} {q : Path} (h : x.rev = (m b).rev ∨ 2 ≤ b.length) (hq : q.length ≤ 1) :
    (upd m b x q).rev = (m q).rev := by
  unfold upd
  split
  · rename_i he
    subst he
    rcases h with h | h
    · exact h
    · omega
  · rfl

theorem bfpLoopE_short (r : U64) {q : Path} (hq : q.length ≤ 1) : ∀ (f l : Nat) (m : Path → Bkt) (b : Path), b ≠ [] →
    ((Emb.bfpLoopE r f l m b).1 q).rev = (m q).rev := by
  intro f
  induction f with
  | zero => intros; rfl
  | succ f ih =>
    intro l m b hb
    have hlen : ∀ i : Nat, 2 ≤ (i :: b).length := by
      intro i
      cases b with
      | nil => exact absurd rfl hb
      | cons _ _ => simp
    have h1 : ((Emb.allocDownsE m b) q).rev = (m q).rev := by
      unfold Emb.allocDownsE
      split
      · simp only
        rw [upd_short (Or.inr (hlen 0)) hq, upd_short (Or.inl (by rfl)) hq]
      · rfl
    have h2 : ((Emb.growDowns (Emb.allocDownsE m b) b (nib r l)) q).rev = (m q).rev := by
      unfold Emb.growDowns
      split
      · rw [upd_short (Or.inl (by rfl)) hq, h1]
      · exact h1
    simp only [Emb.bfpLoopE]
    split
    · rw [upd_short (Or.inr (hlen _)) hq, h2]
    · rw [ih _ _ _ (by simp), h2]

theorem RevEnds.bfp (h : RevEnds st) (r : U64) : RevEnds { st with mem := (Emb.bucketFromPoolE st.mem r).1 } := by
  unfold RevEnds Emb.bucketFromPoolE
  simp only
  rw [bfpLoopE_short r (by simp) _ _ _ _ (by simp), bfpLoopE_short r (by simp) _ _ _ _ (by simp)]
  exact h

theorem Ends.addDummy (h : Ends l) (hv : RevEnds st) {bl : List Path} {b : Path} {l' : List Node} (hi : addDummy st bl b l = some l') :
    Ends l' := by
  unfold EList.addDummy at hi
  split at hi
  · injection hi with hi; exact hi ▸ h
  · split at hi
    · injection hi with hi; exact hi ▸ h
    · split at hi
      · cases hi
      · rename_i hg
        simp only [Decidable.not_not] at hg
        injection hi with hi
        rw [← hi]
        exact h.add2 hv.1 hv.2 hg (by intro x hx; cases hx)

theorem Ends.makeBucket2 : ∀ (fuel : Nat) (st : Emb.St) (c : Path) (l l' : List Node), Ends l → RevEnds st →
    makeBucket2 fuel st c l = some l' → Ends l' := by
  intro fuel
  induction fuel with
  | zero => intro st c l l' h _ hi; injection hi with hi; exact hi ▸ h
  | succ fuel ih =>
    intro st c l l' h hv hi
    simp only [EList.makeBucket2] at hi
    have hv1 := hv.bfp (Emb.newRevE (st.mem (Emb.prevAsB st.blist c)).rev (st.mem c).rev)
    generalize Emb.newRevE (st.mem (Emb.prevAsB st.blist c)).rev (st.mem c).rev = nr at hi hv1
    split at hi
    · injection hi with hi; exact hi ▸ h
    · cases hb : Emb.bucketFromPoolE st.mem nr with
      | mk m1 b =>
        rw [hb] at hi hv1
        simp only at hi hv1
        split at hi
        · injection hi with hi; exact hi ▸ h
        · split at hi
          · injection hi with hi; exact hi ▸ h
          · split at hi
            · injection hi with hi; exact hi ▸ h
            · split at hi
              · injection hi with hi; exact hi ▸ h
              · injection hi with hi; exact hi ▸ h
              · split at hi
                · cases hi
                · rename_i l2 ha
                  have h2 : Ends l2 := Ends.addDummy (h.map _ (fun p => rfl)) (by exact hv1) ha
                  split at hi
                  · exact ih _ _ _ _ h2 (by exact hv1) hi
                  · split at hi
                    · exact ih _ _ _ _ h2 (by exact hv1) hi
                    · injection hi with hi; exact hi ▸ h2

theorem RevEnds.makeBucket2 : ∀ (fuel : Nat) (st st' : Emb.St) (c : Path), RevEnds st → Emb.makeBucket2 fuel st c = .ok st' → RevEnds st' := by
  intro fuel
  induction fuel with
  | zero => intro st st' c _ h; cases h
  | succ fuel ih =>
    intro st st' c hv hi
    simp only [Emb.makeBucket2] at hi
    have hv1 := hv.bfp (Emb.newRevE (st.mem (Emb.prevAsB st.blist c)).rev (st.mem c).rev)
    generalize Emb.newRevE (st.mem (Emb.prevAsB st.blist c)).rev (st.mem c).rev = nr at hi hv1
    split at hi
    · cases hi
    · cases hb : Emb.bucketFromPoolE st.mem nr with
      | mk m1 b =>
        rw [hb] at hi hv1
        simp only at hi hv1
        split at hi
        · injection hi with hi; exact hi ▸ hv1
        · split at hi
          · cases hi
          · split at hi
            · cases hi
            · split at hi
              · injection hi with hi; exact hi ▸ hv1
              · injection hi with hi; exact hi ▸ hv1
              · split at hi
                · exact ih _ _ _ (by exact hv1) hi
                · split at hi
                  · exact ih _ _ _ (by exact hv1) hi
                  · injection hi with hi
                    rw [← hi]; exact hv1

theorem RevEnds.link (hv : RevEnds st) {b : Path} {r : U64} {ig : Bool} {st' : Emb.St} (hi : Emb.link st b r ig = .ok st') : RevEnds st' := by
  unfold Emb.link at hi
  simp only at hi
  split at hi
  · cases hi
  · rename_i st1 h1
    injection hi with hi
    rw [← hi]
    have hv1 : RevEnds st1 := by
      split at h1
      · exact RevEnds.makeBucket2 64 st st1 b hv h1
      · injection h1 with h1; exact h1 ▸ hv
    unfold RevEnds at hv1 ⊢
    simp only
    split
    · rw [upd_short (Or.inl (by rfl)) (by simp), upd_short (Or.inl (by rfl)) (by simp)]; exact hv1
    · exact hv1

theorem RevEnds.finish (hv : RevEnds st) {x : Except Emb.Crash Emb.St} (hx : ∀ st', x = .ok st' → RevEnds st') :
    RevEnds (Emb.finish st x).1 := by
  cases x with
  | error c => exact hv
  | ok st' => exact hx st' rfl

/-- No call changes the reversed hashes of the two ends. -/
theorem RevEnds.step (hv : RevEnds st) (H : HashFns) (op : Emb.Op) : RevEnds (Emb.step H st op).1 := by
  have hset : ∀ b p i s, RevEnds (Emb.setSlot st b p i s) := fun _ _ _ _ => hv
  have hupd : ∀ b p i v, RevEnds (Emb.update st b p i v).1 := by
    intro b p i v
    unfold Emb.update
    split
    · exact hv
    · exact hv
  cases op with
  | set key v =>
    simp only [Emb.step, Emb.opSet]
    split
    · exact hv
    · split
      · exact hv
      · exact hupd _ _ _ _
      · split
        · exact hv
        · split
          · split
            · exact hv
            · exact hv.finish (fun st' h => RevEnds.link (by exact hv) h)
          · exact hv
  | storeItem str v r =>
    simp only [Emb.step, Emb.opStoreItem]
    split
    · exact hv
    · exact hupd _ _ _ _
    · exact hv.finish (fun st' h => RevEnds.link (by exact hv) h)
  | delete key =>
    simp only [Emb.step, Emb.opDelete]
    repeat' split
    all_goals exact hv
  | purge key =>
    simp only [Emb.step, Emb.opPurge]
    repeat' split
    all_goals exact hv
  | _ => exact hv

/-- One call keeps the two ends of a list that is followed. -/
theorem Ends.step (h : Ends l) (hv : RevEnds st) {H : HashFns} {op : Emb.Op} {l' : List Node} (hi : stepL H st l op = some l') : Ends l' := by
  cases op with
  | set key v =>
    simp only [stepL, opSet] at hi
    split at hi
    · injection hi with hi; exact hi ▸ h
    · split at hi
      · injection hi with hi; exact hi ▸ h
      · injection hi with hi; exact hi ▸ h
      · split at hi
        · injection hi with hi; exact hi ▸ h
        · split at hi
          · cases hi
          · rename_i l1 hg
            have h1 := Ends.getSlot _ _ _ _ _ h hg
            split at hi
            · split at hi
              · injection hi with hi; exact hi ▸ h1
              · unfold EList.link at hi
                split at hi
                · cases hi
                · rename_i l2 hs
                  have h2 := h1.setInsert (by exact hv) hs
                  split at hi
                  · exact Ends.makeBucket2 _ _ _ _ _ h2 (by exact hv) hi
                  · injection hi with hi; exact hi ▸ h2
            · injection hi with hi; exact hi ▸ h1
  | storeItem str v r =>
    simp only [stepL, opStoreItem] at hi
    split at hi
    · injection hi with hi; exact hi ▸ h
    · injection hi with hi; exact hi ▸ h
    · cases hi
  | purge key =>
    simp only [stepL] at hi
    injection hi with hi
    rw [← hi]
    unfold opPurge
    split
    · exact h
    · split
      · exact h
      · exact h
      · simp only
        split
        · exact (h.filter _ (by simp) (by simp)).filter _ (by simp) (by simp)
        · exact h.filter _ (by simp) (by simp)
  | _ => injection hi with hi; exact hi ▸ h

theorem Ends.run (H : HashFns) : ∀ (ops : List Emb.Op) (s : LSt), (∀ l, s.items = some l → Ends l) → RevEnds s.st →
    (∀ l, (run H s ops).items = some l → Ends l) ∧ RevEnds (run H s ops).st := by
  intro ops
  induction ops with
  | nil => intro s h hv; exact ⟨h, hv⟩
  | cons op ops ih =>
    intro s h hv
    refine ih (EList.step H s op) ?_ (hv.step H op)
    intro l hl
    simp only [EList.step] at hl
    cases hs : s.items with
    | none => rw [hs] at hl; cases hl
    | some l0 =>
      rw [hs] at hl
      exact (h l0 hs).step hv hl

end SLM.EList
