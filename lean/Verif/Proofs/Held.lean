import Verif.Proofs.Count
/-! Which items one operation leaves in the list. -/
set_option autoImplicit false
namespace SLM
open History

theorem Ins.mem {e : Entry} {l l' : List Entry} (h : Ins e l l') (x : Entry) : (x ∈ l → x ∈ l') ∧ (x ∈ l' → x = e ∨ x ∈ l) := by
  rcases h with rfl | ⟨pre, d, post, rfl, rfl⟩
  · exact ⟨id, Or.inr⟩
  · simp only [List.mem_append, List.mem_cons]
    tauto

theorem Grow.mem {st st' : St} (h : Grow st st') {x : Entry} (hx : x.dummy = false) : x ∈ st'.items ↔ x ∈ st.items := by
  rcases h with rfl | ⟨A, B, n, b, c, hb⟩
  · rfl
  · rw [hb.items, (insAt_perm _ _).mem_iff, List.mem_cons]
    constructor
    · rintro (rfl | h)
      · simp [dummyEntry] at hx
      · exact h
    · exact Or.inr

theorem EffNew.mem_items {E : Env} {st st2 : St} {op : Op} {r : St × Out} {k c : U64} {e : Entry}
    (h : EffNew E st op r st2 k c e) {x : Entry} (hx : x.dummy = false) :
    (x ∈ st.items → x ∈ r.1.items) ∧ (x ∈ r.1.items → x = e ∨ x ∈ st.items) := by
  have h1 := Grow.mem h.grow hx
  have h2 : Ins e st2.items (setMid st2 k (findBucket st.mem (rev64 k)) e).items := setInsert_ins
  rw [h.items] at h2
  have h3 := h2.mem x
  rw [h1]
  exact h3

/-- A live item keeps its identity, hashes, type and key as long as it is not deleted. -/
theorem step_held (E : Env) {st : St} (h : Inv st) (op : Op) {e : Entry} (he : e ∈ st.items) (hl : e.ignored = false)
    (hd : ∀ key, op = .delete key → keyToHash E.H key ≠ some (rev64 e.rev, e.conflict)) :
    ∃ e' ∈ (step E st op).1.items, e'.ref = e.ref ∧ e'.ignored = false ∧ e'.rev = e.rev ∧ e'.conflict = e.conflict ∧
      e'.kind = e.kind ∧ e'.key = e.key := by
  rcases step_eff E h op with x | ⟨e1, nv, b, x⟩ | ⟨key, e1, x⟩ | ⟨st2, k, c, e1, x⟩
  · obtain ⟨b, hb⟩ := x.same
    rw [hb]
    exact ⟨e, he, rfl, hl, rfl, rfl, rfl, rfl⟩
  · rw [x.res]
    refine ⟨if e.ref = e1.ref then { e with val := nv } else e, List.mem_map.2 ⟨e, he, rfl⟩, ?_⟩
    split <;> exact ⟨rfl, hl, rfl, rfl, rfl, rfl⟩
  · rw [x.res]
    have hne : e.ref ≠ e1.ref := by
      intro hc
      have := ref_inj h.ii.nodup he x.mem hc
      subst this
      exact hd key x.op x.hash
    refine ⟨e, List.mem_map.2 ⟨e, he, ?_⟩, rfl, hl, rfl, rfl, rfl, rfl⟩
    rw [if_neg hne]
  · have hdum : e.dummy = false := by unfold Entry.ignored at hl; simp at hl; exact hl.1
    exact ⟨e, (x.mem_items hdum).1 he, rfl, hl, rfl, rfl, rfl, rfl⟩

theorem run_held (E : Env) {ops : List Op} {st : St} (h : Inv st) {e : Entry} (he : e ∈ st.items) (hl : e.ignored = false)
    (hd : ∀ key, Op.delete key ∈ ops → keyToHash E.H key ≠ some (rev64 e.rev, e.conflict)) :
    ∃ e' ∈ (run E st ops).1.items, e'.ref = e.ref ∧ e'.ignored = false ∧ e'.rev = e.rev ∧ e'.conflict = e.conflict ∧
      e'.kind = e.kind ∧ e'.key = e.key := by
  induction ops generalizing st e with
  | nil => exact ⟨e, he, rfl, hl, rfl, rfl, rfl, rfl⟩
  | cons op ops ih =>
    obtain ⟨e1, h1, h2, h3, h4, h5, h6, h7⟩ := step_held E h op he hl (fun key hk => hd key (by simp [hk]))
    obtain ⟨e2, g1, g2, g3, g4, g5, g6, g7⟩ := ih (step_inv E h op) h1 h3 (fun key hk => by rw [h4, h5]; exact hd key (by simp [hk]))
    exact ⟨e2, g1, g2.trans h2, g3, g4.trans h4, g5.trans h5, g6.trans h6, g7.trans h7⟩

end SLM
