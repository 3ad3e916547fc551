import Verif.Proofs.Walk
import Verif.Props.Provenance
import Verif.Props.Structure
/-! What a Range has done when it is over. -/
set_option autoImplicit false
set_option linter.unusedSimpArgs false
namespace SLM.Walk
open History

theorem winv_start (E : Env) {st : St} (h : Inv st) : WInv E st st none [] [] where
  inv0 := h
  inv := h
  run := rfl
  on := fun r hr => by cases hr
  sub := List.Sublist.refl _
  was := fun e he => by cases he
  all := fun x hx y hy hr hyi => Or.inr (List.mem_map.2 ⟨x, hx, rfl⟩)
  cnt := by simp [after]

theorem loop (E : Env) (f : List Entry → Entry → List Op × Bool) {st0 : St} : ∀ (n : Nat) (st : St) (cur : Option Ref) (seen : List Entry)
    (tr : List Op), WInv E st0 st cur seen tr →
    ∃ cur', WInv E st0 (rangeWith E f n st cur seen tr).st cur' (rangeWith E f n st cur seen tr).seen (rangeWith E f n st cur seen tr).trace ∧
      ((rangeWith E f n st cur seen tr).status = .atEnd → liveN (after cur' (rangeWith E f n st cur seen tr).st.items) = 0) ∧
      ((rangeWith E f n st cur seen tr).status = .running → (rangeWith E f n st cur seen tr).seen.length = seen.length + n ∧
        0 < liveN (after cur' (rangeWith E f n st cur seen tr).st.items)) := by
  intro n
  induction n with
  | zero =>
    intro st cur seen tr h
    unfold rangeWith
    cases he : (after cur st.items).find? (fun x => !x.ignored) with
    | none =>
      refine ⟨cur, h, fun _ => ?_, fun hc => by cases hc⟩
      exact List.countP_eq_zero.2 (fun x hx => by simpa using List.find?_eq_none.1 he x hx)
    | some e =>
      simp only
      refine ⟨cur, h, fun hc => by simp at hc, fun _ => ⟨by simp, ?_⟩⟩
      exact List.countP_pos_iff.2 ⟨e, List.mem_of_find?_eq_some he, by obtain ⟨_, _, _, _, h⟩ := find_split he; simp [h]⟩
  | succ n ih =>
    intro st cur seen tr h
    unfold rangeWith
    cases he : (after cur st.items).find? (fun x => !x.ignored) with
    | none =>
      refine ⟨cur, h, fun _ => ?_, fun hc => by cases hc⟩
      exact List.countP_eq_zero.2 (fun x hx => by simpa using List.find?_eq_none.1 he x hx)
    | some e =>
      have h1 := (h.move he).calls (f seen e).1
      simp only
      split
      · obtain ⟨c', g1, g2, g3⟩ := ih _ _ _ _ h1
        refine ⟨c', g1, g2, fun hr => ⟨?_, (g3 hr).2⟩⟩
        rw [(g3 hr).1]
        simp
        omega
      · exact ⟨_, h1, fun hc => by simp at hc, fun hc => by simp at hc⟩

theorem WInv.sorted {E : Env} {st0 st : St} {cur : Option Ref} {seen : List Entry} {tr : List Op} (h : WInv E st0 st cur seen tr) :
    (refs seen).Nodup ∧ seen.Pairwise (fun a b => a.rev ≤ b.rev) := by
  have hua := upto_after cur st.items
  have hsub : (refs seen).Sublist (refs st.items) := by
    refine h.sub.trans ?_
    conv_rhs => rw [← hua]
    unfold refs
    rw [List.map_append]
    exact List.sublist_append_left _ _
  refine ⟨h.inv.ii.nodup.sublist hsub, ?_⟩
  have hp : (refs st.items).Pairwise (fun r r' => ∀ y ∈ st.items, ∀ y' ∈ st.items, y.ref = r → y'.ref = r' → y.rev ≤ y'.rev) := by
    unfold refs
    rw [List.pairwise_map]
    refine h.inv.ii.sorted.imp_of_mem ?_
    intro a b ha hb hab y hy y' hy' h1 h2
    have e1 := ref_inj h.inv.ii.nodup hy ha h1
    have e2 := ref_inj h.inv.ii.nodup hy' hb h2
    rw [e1, e2]; exact hab
  have hq := hp.sublist hsub
  unfold refs at hq
  rw [List.pairwise_map] at hq
  have cur_of : ∀ e ∈ seen, ∃ y ∈ st.items, Same e y := by
    intro e he
    obtain ⟨_, p, s, h1, h2⟩ := h.was e he
    have hev := run_evo E (ops := s) (run_inv E h.inv0 p)
    rw [← run_app, ← h1, ← h.run] at hev
    exact hev.mem h2
  refine hq.imp_of_mem ?_
  intro a b ha hb hab
  obtain ⟨y, hy, hs⟩ := cur_of a ha
  obtain ⟨y', hy', hs'⟩ := cur_of b hb
  have := hab y hy y' hy' hs.1 hs'.1
  rw [hs.2.1, hs'.2.1] at this
  exact this

/-- An item seen is the one that was there at the start. -/
theorem WInv.key {E : Env} {st0 st : St} {cur : Option Ref} {seen : List Entry} {tr : List Op} (h : WInv E st0 st cur seen tr)
    {x e : Entry} (hx : x ∈ st0.items) (he : e ∈ seen) (hr : e.ref = x.ref) : Same x e := by
  obtain ⟨_, p, s, _, h2⟩ := h.was e he
  exact (run_evo E (ops := p) h.inv0).same (run_inv E h.inv0 p).ii.nodup hx h2 hr

/-! ### Len never falls -/

theorem run_len_mono (E : Env) {ops : List Op} {st : St} (h : Inv st) : st.len ≤ (run E st ops).1.len := by
  induction ops generalizing st with
  | nil => exact le_refl _
  | cons op ops ih =>
    have h1 : st.len ≤ (step E st op).1.len := by
      rcases step_len E h op with ⟨_, _, h⟩ | ⟨_, h⟩ <;> rw [h] <;> omega
    exact le_trans h1 (ih (step_inv E h op))

theorem mem_of_count {p : Entry → Bool} {a b : List Entry} (h : a.Sublist b) (hc : b.countP p ≤ a.countP p) {y : Entry} (hy : y ∈ b)
    (hp : p y = true) : y ∈ a := by
  have h1 := h.filter p
  rw [List.countP_eq_length_filter, List.countP_eq_length_filter] at hc
  have := h1.eq_of_length_le hc
  have h2 : y ∈ b.filter p := List.mem_filter.2 ⟨hy, hp⟩
  rw [← this] at h2
  exact (List.mem_filter.1 h2).1

/-- If nothing was added, every live item is an old one. -/
theorem Evo.old {l l' : List Entry} {d : Int} (h : Evo l l' d) (hd : d ≤ 0) {y : Entry} (hy : y ∈ l') (hl : y.ignored = false) :
    ∃ x ∈ l, Same x y := by
  obtain ⟨f, hf, h1, h2⟩ := h.ex
  have := mem_of_count (p := fun e => !e.ignored) h1 (by unfold liveN at h2; omega) hy (by simp [hl])
  obtain ⟨x, hx, rfl⟩ := List.mem_map.1 this
  exact ⟨x, hx, hf x⟩

/-! ### Deleting everything -/

theorem after_map {f : Entry → Entry} (hf : ∀ x, (f x).ref = x.ref) (cur : Option Ref) (l : List Entry) :
    after cur (l.map f) = (after cur l).map f := by
  cases cur with
  | none => rfl
  | some r =>
    simp only [after, fromRef]
    rw [List.map_tail]
    congr 1
    induction l with
    | nil => rfl
    | cons x l ih =>
      simp only [List.map_cons, List.dropWhile_cons, hf]
      split
      · exact ih
      · rfl

/-- The key of every live item hashes to the place where the item stands. -/
def KeyHash (E : Env) (st : St) : Prop := ∀ e, Live st.items e → keyToHash E.H e.key = some (rev64 e.rev, e.conflict)

theorem clean_keyHash {E : Env} {cfg : Cfg} {ops : List Op} (h : Clean E cfg ops) : KeyHash E (run E (initSt cfg) ops).1 := by
  intro e he
  have hd : e.dummy = false ∧ e.deleted = false := by have := he.2; unfold Entry.ignored at this; simpa using this
  obtain ⟨a, op, b, h1, h2, _⟩ := (run_prov E cfg ops e he.1 hd.1).2 hd.2
  cases op with
  | set key v =>
    obtain ⟨h2, h3⟩ := h2
    simp only [opKey, Option.some.injEq] at h2
    rw [← h2]; exact h3
  | storeItem it =>
    obtain ⟨h2, h3⟩ := h2
    simp only [opKey, Option.some.injEq] at h2
    have hfr := h.fresh it (by rw [h1]; simp)
    simp only [filedAs, hfr.1, hfr.2, if_true, Option.map_id'] at h3
    rw [← h2]
    simpa using h3
  | _ => cases h2.1

theorem clear_loop (E : Env) (f : List Entry → Entry → List Op × Bool) (hf : ∀ s e, f s e = ([.delete e.key], true)) :
    ∀ (n : Nat) (st : St) (cur : Option Ref) (seen : List Entry) (tr : List Op), Good st → KeyHash E st →
      (∀ y, Live st.items y → y ∈ after cur st.items) → liveN (after cur st.items) ≤ n →
      (rangeWith E f n st cur seen tr).status = .atEnd ∧ ∀ y ∈ (rangeWith E f n st cur seen tr).st.items, y.ignored = true := by
  intro n
  induction n with
  | zero =>
    intro st cur seen tr g _ ha hn
    unfold rangeWith
    have hz : ∀ x ∈ after cur st.items, x.ignored = true := by
      have := List.countP_eq_zero.1 (Nat.le_zero.1 hn)
      intro x hx
      simpa using this x hx
    rw [List.find?_eq_none.2 (fun x hx => by simp [hz x hx])]
    refine ⟨rfl, fun y hy => ?_⟩
    cases hi : y.ignored with
    | true => rfl
    | false => exact absurd (hz y (ha y ⟨hy, hi⟩)) (by simp [hi])
  | succ n ih =>
    intro st cur seen tr g hk ha hn
    unfold rangeWith
    cases he : (after cur st.items).find? (fun x => !x.ignored) with
    | none =>
      refine ⟨rfl, fun y hy => ?_⟩
      cases hi : y.ignored with
      | true => rfl
      | false => have := List.find?_eq_none.1 he y (ha y ⟨hy, hi⟩); simp [hi] at this
    | some e =>
      obtain ⟨A, B, hA, hAi, hei⟩ := find_split he
      have hmem : ∀ x ∈ after cur st.items, x ∈ st.items := by
        intro x hx
        have := upto_after cur st.items
        rw [← this]; exact List.mem_append_right _ hx
      have hem : e ∈ st.items := hmem e (by rw [hA]; simp)
      have hel : Live st.items e := ⟨hem, hei⟩
      have hdel : step E st (.delete e.key) = ({ st with items := markDeleted st.itemFn e.ref st.items }, .bool true) := by
        simp only [step, opDelete]
        rw [hk e hel]
        simp only
        rw [getWithBucket_eq g, (lookup_some g.uniq).2 ⟨hem, hei, by rw [rev64_rev64], rfl⟩]
      have hrun : (run E st [.delete e.key]).1 = { st with items := markDeleted st.itemFn e.ref st.items } := by
        show (step E st (.delete e.key)).1 = _
        rw [hdel]
      have g' := (delete_refines g hel (k := rev64 e.rev) (by rw [rev64_rev64]) rfl).1
      simp only [hf, if_true]
      rw [hrun]
      obtain ⟨m, hm, hmd⟩ := markDeleted_same st.itemFn e.ref st.items
      have hlive : ∀ y, Live (markDeleted st.itemFn e.ref st.items) y → Live st.items y ∧ y ≠ e := by
        rintro y ⟨hy, hyi⟩
        obtain ⟨x, hx, rfl⟩ := List.mem_map.1 hy
        split at hyi
        · simp [Entry.ignored] at hyi
        · rename_i hne
          rw [if_neg hne]
          exact ⟨⟨hx, hyi⟩, fun hc => hne (by rw [hc])⟩
      have hsp : after (some e.ref) st.items = B := by
        have hua := upto_after cur st.items
        have hl : st.items = (upto cur st.items ++ A) ++ e :: B := by
          rw [List.append_assoc, ← hA]; exact hua.symm
        have hn' := g.inv.ii.nodup
        rw [hl] at hn'
        have hno : ∀ x ∈ upto cur st.items ++ A, x.ref ≠ e.ref := fun x hx hc =>
          (nodup_split hn').1 (by rw [← hc]; exact List.mem_map.2 ⟨x, hx, rfl⟩)
        show (fromRef e.ref st.items).tail = B
        have key : ∀ m : List Entry, m = (upto cur st.items ++ A) ++ e :: B → (fromRef e.ref m).tail = B := by
          intro m hm
          rw [hm]
          unfold fromRef
          rw [List.dropWhile_append_of_pos (fun x hx => by simpa using hno x hx), List.dropWhile_cons]
          simp
        exact key _ hl
      have hafter : after (some e.ref) (markDeleted st.itemFn e.ref st.items) = B.map m := by
        rw [hmd, after_map (fun x => (hm x).1), hsp]
      refine ih _ _ _ _ g' ?_ ?_ ?_
      · intro y hy; exact hk y (hlive y hy).1
      · intro y hy
        obtain ⟨h1, h2⟩ := hlive y hy
        have h3 := ha y h1
        rw [hA] at h3
        have hyB : y ∈ B := by
          rcases List.mem_append.1 h3 with h | h
          · have := h1.2; rw [hAi y h] at this; cases this
          · rcases List.mem_cons.1 h with h | h
            · exact absurd h h2
            · exact h
        show y ∈ after (some e.ref) (markDeleted st.itemFn e.ref st.items)
        rw [hafter]
        refine List.mem_map.2 ⟨y, hyB, ?_⟩
        have hmy : m y ∈ markDeleted st.itemFn e.ref st.items := by rw [hmd]; exact List.mem_map.2 ⟨y, h1.1, rfl⟩
        exact ref_inj g'.inv.ii.nodup hmy hy.1 (hm y).1
      · show liveN (after (some e.ref) (markDeleted st.itemFn e.ref st.items)) ≤ n
        rw [hafter]
        refine (liveN_map_le hm B).trans ?_
        rw [hA] at hn
        unfold liveN at *
        simp only [List.countP_append, List.countP_cons, hei] at hn
        simp at hn
        omega

end SLM.Walk
