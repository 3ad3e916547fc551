import Verif.Model.Conc
import Verif.Proofs.Lists
import Mathlib.Data.List.Sublists
/-! Invariants of the concurrent machine over all schedules. -/
set_option autoImplicit false
namespace SLM.Conc

/-! ### Positions -/

theorem node_some {l : List Entry} {r : Ref} {x : Entry} (h : node l r = some x) :
    x ∈ l ∧ x.ref = r ∧ ∃ post, fromRef r l = x :: post ∧ l = beforeRef r l ++ x :: post := by
  unfold node at h
  by_cases hr : r ∈ refs l
  · obtain ⟨d, post, hd, hf, hl⟩ := split_at r l hr
    rw [hf] at h; simp at h; subst h
    refine ⟨?_, hd, post, hf, hl⟩
    rw [hl]; simp
  · rw [fromRef_nil r l hr] at h; simp at h

theorem node_mem {l : List Entry} {r : Ref} (h : r ∈ refs l) : ∃ x, node l r = some x := by
  obtain ⟨d, post, hd, hf, hl⟩ := split_at r l h
  exact ⟨d, by simp [node, hf]⟩

theorem node_of_mem {l : List Entry} {x : Entry} (hn : (refs l).Nodup) (h : x ∈ l) : node l x.ref = some x := by
  obtain ⟨y, hy⟩ := node_mem (List.mem_map.2 ⟨x, h, rfl⟩ : x.ref ∈ refs l)
  have := node_some hy
  rw [hy]; congr 1
  exact List.inj_on_of_nodup_map hn this.1 h this.2.1

theorem nx_some {l : List Entry} {r r' : Ref} (h : nx l r = some r') :
    ∃ x y post, x.ref = r ∧ y.ref = r' ∧ l = beforeRef r l ++ x :: y :: post := by
  unfold nx at h
  by_cases hr : r ∈ refs l
  · obtain ⟨d, post, hd, hf, hl⟩ := split_at r l hr
    rw [hf] at h
    simp only [List.tail_cons] at h
    cases post with
    | nil => simp at h
    | cons y post =>
      simp at h
      exact ⟨d, y, post, hd, h, hl⟩
  · rw [fromRef_nil r l hr] at h; simp at h

theorem nx_none {l : List Entry} {r : Ref} (h : nx l r = none) (hr : r ∈ refs l) :
    ∃ x, x.ref = r ∧ l = beforeRef r l ++ [x] := by
  obtain ⟨d, post, hd, hf, hl⟩ := split_at r l hr
  unfold nx at h
  rw [hf] at h
  cases post with
  | nil => exact ⟨d, hd, hl⟩
  | cons y post => simp at h

theorem pv_some {l : List Entry} {r r' : Ref} (h : pv l r = some r') (hr : r ∈ refs l) :
    ∃ pre x y post, x.ref = r ∧ y.ref = r' ∧ l = pre ++ y :: x :: post ∧ beforeRef r l = pre ++ [y] := by
  obtain ⟨d, post, hd, hf, hl⟩ := split_at r l hr
  unfold pv at h
  cases hb : (beforeRef r l).getLast? with
  | none => rw [hb] at h; simp at h
  | some y =>
    rw [hb] at h; simp at h
    obtain ⟨ys, hys⟩ := List.getLast?_eq_some_iff.1 hb
    refine ⟨ys, d, y, post, hd, h, ?_, hys⟩
    rw [hys] at hl; simpa using hl

theorem pv_none {l : List Entry} {r : Ref} (h : pv l r = none) (hr : r ∈ refs l) : ∃ x post, x.ref = r ∧ l = x :: post := by
  obtain ⟨d, post, hd, hf, hl⟩ := split_at r l hr
  unfold pv at h
  have : beforeRef r l = [] := by
    cases hb : (beforeRef r l).getLast? with
    | none => simpa using hb
    | some y => rw [hb] at h; simp at h
  rw [this] at hl
  exact ⟨d, post, hd, by simpa using hl⟩

/-- `r` is strictly before `r'` in the list. -/
def SB (l : List Entry) (r r' : Ref) : Prop := List.Sublist [r, r'] (refs l)

theorem SB.left {l : List Entry} {r r' : Ref} (h : SB l r r') : r ∈ refs l := h.subset (by simp)
theorem SB.right {l : List Entry} {r r' : Ref} (h : SB l r r') : r' ∈ refs l := h.subset (by simp)

theorem SB.ne {l : List Entry} {r r' : Ref} (hn : (refs l).Nodup) (h : SB l r r') : r ≠ r' := by
  have := hn.sublist h; simpa using this

theorem SB.of_split {pre post : List Entry} {x : Entry} {r' : Ref} (h : r' ∈ refs post) : SB (pre ++ x :: post) x.ref r' := by
  unfold SB refs
  rw [List.map_append, List.map_cons]
  refine List.Sublist.trans ?_ (List.sublist_append_right _ _)
  exact List.Sublist.cons_cons _ (by simpa using h)

/-- In a list without duplicates: strictly before means in the part before. -/
theorem SB.split {pre post : List Entry} {x : Entry} {r' : Ref} (hn : (refs (pre ++ x :: post)).Nodup)
    (h : SB (pre ++ x :: post) x.ref r') : r' ∈ refs post := by
  have hns := nodup_split hn
  unfold SB at h
  rw [show refs (pre ++ x :: post) = refs pre ++ x.ref :: refs post by simp] at h
  rw [List.sublist_append_iff] at h
  obtain ⟨l1, l2, h1, h2, h3⟩ := h
  match l1, h1, h2 with
  | [], h1, h2 =>
    simp at h1; subst h1
    cases h3 with
    | cons _ h3 => exact absurd (h3.subset (by simp)) hns.2
    | cons_cons _ h3 => simpa using h3
  | a :: l1, h1, h2 =>
    simp at h1
    have : x.ref ∈ refs pre := by rw [h1.1]; exact h2.subset (by simp)
    exact absurd this hns.1

theorem SB.split' {pre post : List Entry} {x : Entry} {r : Ref} (hn : (refs (pre ++ x :: post)).Nodup)
    (h : SB (pre ++ x :: post) r x.ref) : r ∈ refs pre := by
  have hns := nodup_split hn
  have hne := h.ne hn
  have hr : r ∈ refs (pre ++ x :: post) := h.left
  rw [show refs (pre ++ x :: post) = refs pre ++ x.ref :: refs post by simp] at hr
  simp only [List.mem_append, List.mem_cons] at hr
  rcases hr with hr | hr | hr
  · exact hr
  · exact absurd hr hne
  · exfalso
    have h2 : SB (pre ++ x :: post) x.ref r := SB.of_split hr
    -- both orders are impossible
    obtain ⟨a, ha, har⟩ := List.mem_map.1 hr
    obtain ⟨p1, p2, hp⟩ := List.append_of_mem ha
    subst hp
    rw [show pre ++ x :: (p1 ++ a :: p2) = (pre ++ x :: p1) ++ a :: p2 by simp] at h hn
    have h3 := SB.split hn (by rw [har]; exact h)
    have := nodup_split (pre := pre) (d := x) (post := p1 ++ a :: p2) (by simpa using hn)
    apply this.2
    simp only [List.map_append, List.map_cons, List.mem_append, List.mem_cons]
    exact Or.inr (Or.inr h3)

theorem SB.total {l : List Entry} {r r' : Ref} (h : r ∈ refs l) (h' : r' ∈ refs l) (hne : r ≠ r') : SB l r r' ∨ SB l r' r := by
  obtain ⟨a, ha, har⟩ := List.mem_map.1 h
  obtain ⟨p1, p2, hp⟩ := List.append_of_mem ha
  subst hp
  rw [show refs (p1 ++ a :: p2) = refs p1 ++ a.ref :: refs p2 by simp] at h'
  simp only [List.mem_append, List.mem_cons] at h'
  rcases h' with h' | h' | h'
  · right
    rw [← har]
    obtain ⟨b, hb, hbr⟩ := List.mem_map.1 h'
    obtain ⟨q1, q2, hq⟩ := List.append_of_mem hb
    subst hq
    rw [show (q1 ++ b :: q2) ++ a :: p2 = q1 ++ b :: (q2 ++ a :: p2) by simp, ← hbr]
    exact SB.of_split (by simp)
  · exact absurd (h'.trans har).symm hne
  · left; rw [← har]; exact SB.of_split h'

theorem SB.rev_le {l : List Entry} {r r' : Ref} {x y : Entry} (hn : (refs l).Nodup) (hs : Sorted l) (h : SB l r r')
    (hx : x ∈ l) (hxr : x.ref = r) (hy : y ∈ l) (hyr : y.ref = r') : x.rev ≤ y.rev := by
  subst hxr hyr
  obtain ⟨p1, p2, hp⟩ := List.append_of_mem hx
  subst hp
  have := SB.split hn h
  obtain ⟨z, hz, hzr⟩ := List.mem_map.1 this
  have hzy : z = y := List.inj_on_of_nodup_map hn (by simp [hz]) hy hzr
  subst hzy
  exact (List.pairwise_cons.1 (List.pairwise_append.1 hs).2.1).1 z hz

/-- One step forward along the list. -/
theorem SB.next {l : List Entry} {r r' e : Ref} (hn : (refs l).Nodup) (h : SB l r e) (hx : nx l r = some r') : r' = e ∨ SB l r' e := by
  obtain ⟨x, y, post, h1, h2, h3⟩ := nx_some hx
  subst h1 h2
  generalize beforeRef x.ref l = pre at h3
  subst h3
  have := SB.split hn h
  simp only [refs, List.map_cons, List.mem_cons] at this
  rcases this with h | h
  · exact Or.inl h.symm
  · right
    rw [show pre ++ x :: y :: post = (pre ++ [x]) ++ y :: post by simp]
    exact SB.of_split h

theorem SB.next_ne {l : List Entry} {r e : Ref} (hn : (refs l).Nodup) (h : SB l r e) : nx l r ≠ none := by
  intro hx
  obtain ⟨x, h1, h2⟩ := nx_none hx h.left
  subst h1
  generalize beforeRef x.ref l = pre at h2
  subst h2
  simpa using SB.split hn h

theorem SB.prev {l : List Entry} {r r' e : Ref} (hn : (refs l).Nodup) (h : SB l e r) (hx : pv l r = some r') : r' = e ∨ SB l e r' := by
  obtain ⟨pre, x, y, post, h1, h2, h3, _⟩ := pv_some hx h.right
  subst h1 h2
  subst h3
  rw [show pre ++ y :: x :: post = (pre ++ [y]) ++ x :: post by simp] at h hn
  have := SB.split' hn h
  simp only [refs, List.map_append, List.mem_append, List.map_cons, List.map_nil, List.mem_singleton] at this
  rcases this with h | h
  · right
    obtain ⟨a, ha, har⟩ := List.mem_map.1 h
    obtain ⟨q1, q2, hq⟩ := List.append_of_mem ha
    subst hq
    rw [show (q1 ++ a :: q2) ++ y :: x :: post = q1 ++ a :: (q2 ++ y :: x :: post) by simp, ← har]
    exact SB.of_split (by simp)
  · exact Or.inl h.symm

theorem SB.prev_ne {l : List Entry} {r e : Ref} (hn : (refs l).Nodup) (h : SB l e r) : pv l r ≠ none := by
  intro hx
  obtain ⟨x, post, h1, h2⟩ := pv_none hx h.right
  subst h1
  have := SB.split' (pre := []) (post := post) (x := x) (r := e) (by simpa [h2] using hn) (by simpa [h2] using h)
  simp at this

theorem nx_mem {l : List Entry} {r r' : Ref} (h : nx l r = some r') : r' ∈ refs l := by
  obtain ⟨x, y, post, h1, h2, h3⟩ := nx_some h
  rw [h3]; simp [← h2]

theorem pv_mem {l : List Entry} {r r' : Ref} (h : pv l r = some r') : r' ∈ refs l := by
  unfold pv at h
  cases hb : (beforeRef r l).getLast? with
  | none => rw [hb] at h; simp at h
  | some y =>
    rw [hb] at h; simp at h
    have h1 := List.mem_of_getLast? hb
    have : y ∈ l := by rw [← before_append_from r l]; simp [h1]
    exact List.mem_map.2 ⟨y, this, h⟩

/-! ### What a step does to the list -/

/-- `y` is `x` later: only value, and deletion mark may differ. -/
def Same (x y : Entry) : Prop := y.ref = x.ref ∧ y.rev = x.rev ∧ y.conflict = x.conflict ∧ y.dummy = x.dummy ∧
  (x.deleted = true → y.deleted = true)

theorem Same.rfl {x : Entry} : Same x x := ⟨_root_.rfl, _root_.rfl, _root_.rfl, _root_.rfl, id⟩
theorem Same.trans {x y z : Entry} (h : Same x y) (h' : Same y z) : Same x z :=
  ⟨h'.1.trans h.1, h'.2.1.trans h.2.1, h'.2.2.1.trans h.2.2.1, h'.2.2.2.1.trans h.2.2.2.1, fun a => h'.2.2.2.2 (h.2.2.2.2 a)⟩

/-- `setVal` and `markDeleted` change nodes in place. -/
theorem setVal_same (r : Ref) (v : IVal) (l : List Entry) : ∃ f : Entry → Entry, (∀ x, Same x (f x)) ∧ setVal r v l = l.map f :=
  ⟨_, fun x => by by_cases h : x.ref = r <;> simp [h, Same], rfl⟩

theorem markDeleted_same (k : Kind) (r : Ref) (l : List Entry) : ∃ f : Entry → Entry, (∀ x, Same x (f x)) ∧ markDeleted k r l = l.map f :=
  ⟨_, fun x => by by_cases h : x.ref = r <;> simp [h, Same], rfl⟩

/-- The list grew and nodes were changed in place. -/
def Ext (l l' : List Entry) : Prop := ∃ f : Entry → Entry, (∀ x, Same x (f x)) ∧ (l.map f).Sublist l'

theorem Ext.refl (l : List Entry) : Ext l l := ⟨id, fun _ => Same.rfl, by simp⟩
theorem Ext.trans {a b c : List Entry} (h : Ext a b) (h' : Ext b c) : Ext a c := by
  obtain ⟨f, hf, h⟩ := h
  obtain ⟨f', hf', h'⟩ := h'
  refine ⟨f' ∘ f, fun x => (hf x).trans (hf' _), ?_⟩
  rw [← List.map_map]
  exact (h.map f').trans h'

theorem insBefore_sub (r : Ref) (e : Entry) (l : List Entry) : l.Sublist (insBefore r e l) := by
  unfold insBefore
  conv => lhs; rw [← before_append_from r l]
  exact List.Sublist.append (List.Sublist.refl _) (List.sublist_cons_self _ _)

theorem Ext.refs {l l' : List Entry} (h : Ext l l') : (refs l).Sublist (refs l') := by
  obtain ⟨f, hf, h⟩ := h
  have := h.map (fun x : Entry => x.ref)
  simpa [SLM.refs, List.map_map, Function.comp_def, fun x => (hf x).1] using this

theorem Ext.mem {l l' : List Entry} (h : Ext l l') {x : Entry} (hx : x ∈ l) : ∃ y ∈ l', Same x y := by
  obtain ⟨f, hf, h⟩ := h
  exact ⟨f x, h.subset (List.mem_map.2 ⟨x, hx, rfl⟩), hf x⟩

theorem SB.ext {l l' : List Entry} {r r' : Ref} (h : Ext l l') (hb : SB l r r') : SB l' r r' := List.Sublist.trans hb h.refs

variable {Pk : CSt → Call → Ref → Prop}

theorem Step.ext {s s' : CSt} {g : Tid} (h : Step Pk s g s') : Ext s.items s'.items := by
  cases h <;> try exact Ext.refl _
  case hitSet r x nv ok _ _ _ =>
    obtain ⟨f, hf, h⟩ := setVal_same r nv s.items
    exact ⟨f, hf, by simp [setPC, h]⟩
  case hitDel r _ =>
    obtain ⟨f, hf, h⟩ := markDeleted_same .sample r s.items
    exact ⟨f, hf, by simp [setPC, h]⟩
  case link e r _ => exact ⟨id, fun _ => Same.rfl, by simpa [setPC] using insBefore_sub r e s.items⟩

theorem Steps.ext {s s' : CSt} (h : Steps Pk s s') : Ext s.items s'.items := by
  induction h with
  | refl => exact Ext.refl _
  | step _ h ih => exact ih.trans h.ext

theorem Steps.trans {a b c : CSt} (h : Steps Pk a b) (h' : Steps Pk b c) : Steps Pk a c := by
  induction h' with
  | refl => exact h
  | step _ h2 ih => exact .step ih h2

/-! ### Invariants without any restriction on the schedule -/

/-- The node a goroutine is going to link. -/
def PC.newRef : PC → Option Ref
  | .pick (.split _ p) => some (.dummy p)
  | .fOpt _ e _ _ => some e.ref
  | .fLoop _ e _ _ _ _ => some e.ref
  | .fEnd _ e _ _ _ => some e.ref
  | .start2 e _ _ => some e.ref
  | .target e _ _ => some e.ref
  | .check e _ => some e.ref
  | .link e _ => some e.ref
  | _ => none

/-- The nodes a goroutine refers to. -/
def PC.curs : PC → List Ref
  | .look _ _ b cur _ => [b, cur]
  | .hit _ r => [r]
  | .miss _ b => [b]
  | .fOpt _ _ b start => start :: b.toList
  | .fLoop _ _ b _ cur _ => cur :: b.toList
  | .fEnd _ _ b _ res => b.toList ++ res.toList
  | .start2 _ b res => b :: res.toList
  | .target _ b res => b.toList ++ res.toList
  | .check _ r => [r]
  | .link _ r => [r]
  | .walk cur _ _ => [cur]
  | _ => []

def Old (k : Nat) (used : List Path) : Ref → Prop
  | .item n => n < k
  | .dummy p => p ∈ used

/-- A sentinel or a live item. -/
def WF (e : Entry) : Prop := e.deleted = false ∧ (∀ p, e.ref = .dummy p → e.dummy = true) ∧ ∀ n, e.ref = .item n → e.dummy = false

structure J0 (s : CSt) : Prop where
  nd : (refs s.items).Nodup
  old : ∀ r ∈ refs s.items, Old s.nextId s.used r
  new : ∀ g r, (s.pc g).newRef = some r → Old s.nextId s.used r ∧ r ∉ refs s.items
  dist : ∀ g g' r, (s.pc g).newRef = some r → (s.pc g').newRef = some r → g = g'
  cur : ∀ g, ∀ r ∈ (s.pc g).curs, r ∈ refs s.items
  dum : ∀ e ∈ s.items, ∀ p, e.ref = .dummy p → e.dummy = true
  itm : ∀ e ∈ s.items, ∀ n, e.ref = .item n → e.dummy = false
  wf : ∀ g e, (s.pc g).newE = some e → WF e

theorem setPC_pc (s : CSt) (g u : Tid) (c : PC) : (setPC s g c).pc u = if u = g then c else s.pc u := rfl

theorem J0.pc {s : CSt} (h : J0 s) (g : Tid) (c : PC) (hn : ∀ r, c.newRef = some r → (s.pc g).newRef = some r)
    (hc : ∀ r ∈ c.curs, r ∈ refs s.items) (hw : ∀ e, c.newE = some e → (s.pc g).newE = some e ∨ WF e) : J0 (setPC s g c) := by
  refine ⟨h.nd, h.old, ?_, ?_, ?_, h.dum, h.itm, ?_⟩
  rotate_left 3
  · intro u e hu
    rw [setPC_pc] at hu
    by_cases eu : u = g
    · simp only [eu, if_true] at hu
      rcases hw e hu with h1 | h1
      · exact h.wf g e h1
      · exact h1
    · simp only [eu, if_false] at hu; exact h.wf u e hu
  · intro u r hu
    rw [setPC_pc] at hu
    by_cases e : u = g
    · simp only [e, if_true] at hu; exact h.new g r (hn r hu)
    · simp only [e, if_false] at hu; exact h.new u r hu
  · intro u u' r hu hu'
    rw [setPC_pc] at hu hu'
    have key : ∀ w, (if w = g then c else s.pc w).newRef = some r → (s.pc w).newRef = some r := by
      intro w hw
      by_cases e : w = g
      · simp only [e, if_true] at hw ⊢; exact hn r hw
      · simpa only [e, if_false] using hw
    exact h.dist u u' r (key u hu) (key u' hu')
  · intro u r hu
    rw [setPC_pc] at hu
    by_cases e : u = g
    · simp only [e, if_true] at hu; exact hc r hu
    · simp only [e, if_false] at hu; exact h.cur u r hu

/-- Changing nodes in place. -/
theorem J0.map {s : CSt} (h : J0 s) {l' : List Entry} {f : Entry → Entry} (hf : ∀ x, Same x (f x)) (hl : l' = s.items.map f) :
    J0 { s with items := l' } := by
  have hr : refs l' = refs s.items := by
    rw [hl]; simp [SLM.refs, List.map_map, Function.comp_def, fun x => (hf x).1]
  refine ⟨by simpa [hr] using h.nd, by simpa [hr] using h.old, ?_, h.dist, by simpa [hr] using h.cur, ?_, ?_, h.wf⟩
  · intro g r hg
    simpa [hr] using h.new g r hg
  · intro e he p hp
    simp only [hl, List.mem_map] at he
    obtain ⟨x, hx, rfl⟩ := he
    rw [(hf x).1] at hp; rw [(hf x).2.2.2.1]; exact h.dum x hx p hp
  · intro e he p hp
    simp only [hl, List.mem_map] at he
    obtain ⟨x, hx, rfl⟩ := he
    rw [(hf x).1] at hp; rw [(hf x).2.2.2.1]; exact h.itm x hx p hp

theorem J0.opt {s : CSt} (h : J0 s) (o : Bool) : J0 { s with opt := o } := ⟨h.nd, h.old, h.new, h.dist, h.cur, h.dum, h.itm, h.wf⟩

theorem refs_insBefore (r : Ref) (e : Entry) (l : List Entry) : (refs (insBefore r e l)).Perm (e.ref :: refs l) := by
  unfold insBefore refs
  conv => rhs; rw [← before_append_from r l]
  simpa using List.perm_middle

theorem mem_insBefore {r : Ref} {e x : Entry} {l : List Entry} : x ∈ insBefore r e l ↔ x = e ∨ x ∈ l := by
  have : (insBefore r e l).Perm (e :: l) := by
    unfold insBefore
    conv => rhs; rw [← before_append_from r l]
    simpa using List.perm_middle
  rw [this.mem_iff]; simp

theorem Old.mono {k k' : Nat} {u u' : List Path} (h1 : k ≤ k') (h2 : ∀ p ∈ u, p ∈ u') {r : Ref} (h : Old k u r) : Old k' u' r := by
  cases r with
  | item n => exact Nat.lt_of_lt_of_le h h1
  | dummy p => exact h2 p h

theorem tStart_mem {l : List Entry} {e : Entry} {b : Ref} {res : Option Ref} (hb : b ∈ refs l) : tStart l e b res ∈ refs l := by
  unfold tStart
  cases res with
  | none => exact hb
  | some en =>
    simp only
    cases h : (beforeRef en l).getLast? with
    | none => exact hb
    | some pe =>
      simp only
      split
      · have h1 := List.mem_of_getLast? h
        have : pe ∈ l := by rw [← before_append_from en l]; simp [h1]
        exact List.mem_map.2 ⟨pe, this, rfl⟩
      · exact hb

theorem fallback_mem {l : List Entry} {phd r : Ref} {b : Option Ref} (hp : phd ∈ refs l) (h : fallback l phd b = some r) : r ∈ refs l := by
  unfold fallback at h
  cases b with
  | none =>
    simp at h
    obtain ⟨x, hx, rfl⟩ := h
    exact List.mem_map.2 ⟨x, List.mem_of_getLast? hx, rfl⟩
  | some hd =>
    simp only at h
    by_cases hr : hd ∈ refs l
    · obtain ⟨d, post, h1, h2, h3⟩ := split_at hd l hr
      rw [h2] at h
      simp only [Option.some.injEq] at h
      split at h
      · exact h ▸ hp
      · rw [← h]
        cases post with
        | nil => simp; exact ⟨d, by rw [h3]; simp, rfl⟩
        | cons y post =>
          simp
          exact ⟨y, by rw [h3]; simp, rfl⟩
    · rw [fromRef_nil hd l hr] at h; simp at h

/-- A new item is made. -/
theorem J0.alloc {s : CSt} (j : J0 s) (g : Tid) (c : PC) (hc : c.newRef = some (.item s.nextId)) (hcur : ∀ r ∈ c.curs, r ∈ refs s.items)
    (hw : ∀ e, c.newE = some e → WF e) : J0 (setPC { s with nextId := s.nextId + 1 } g c) := by
  refine ⟨j.nd, ?_, ?_, ?_, ?_, j.dum, j.itm, ?_⟩
  · intro r hr; exact (j.old r hr).mono (Nat.le_succ _) (fun q hq => hq)
  · intro u r hu
    rw [setPC_pc] at hu
    by_cases e : u = g
    · simp only [e, if_true, hc, Option.some.injEq] at hu
      subst hu
      refine ⟨by simp [Old, setPC], ?_⟩
      intro hc
      have := j.old _ hc
      simp [Old] at this
    · simp only [e, if_false] at hu
      exact ⟨(j.new u r hu).1.mono (Nat.le_succ _) (fun q hq => hq), (j.new u r hu).2⟩
  · intro u u' r hu hu'
    rw [setPC_pc] at hu hu'
    by_cases e : u = g <;> by_cases e' : u' = g
    · rw [e, e']
    · simp only [e, if_true, hc, Option.some.injEq] at hu
      simp only [e', if_false] at hu'
      subst hu
      have := (j.new u' _ hu').1
      simp [Old] at this
    · simp only [e', if_true, hc, Option.some.injEq] at hu'
      simp only [e, if_false] at hu
      subst hu'
      have := (j.new u _ hu).1
      simp [Old] at this
    · simp only [e, e', if_false] at hu hu'
      exact j.dist u u' r hu hu'
  · intro u r hu
    rw [setPC_pc] at hu
    by_cases e : u = g
    · simp only [e, if_true] at hu; exact hcur r hu
    · simp only [e, if_false] at hu; exact j.cur u r hu
  · intro u x hu
    rw [setPC_pc] at hu
    by_cases e : u = g
    · simp only [e, if_true] at hu; exact hw x hu
    · simp only [e, if_false] at hu; exact j.wf u x hu

/-- The bookkeeping is invariant under every step of every goroutine. -/
theorem Step.j0 (pk : PkOk Pk) {s s' : CSt} {g : Tid} (h : Step Pk s g s') (j : J0 s) : J0 s' := by
  have linked : ∀ cl b, Pk s cl b → b ∈ refs s.items := by
    intro cl b hb
    obtain ⟨d, hd, hr, _⟩ := pk.linked s cl b hb
    exact List.mem_map.2 ⟨d, hd, hr⟩
  cases h with
  | begin cl t c h1 h2 =>
    refine j.pc g _ ?_ (by simp [PC.curs]) (by simp [PC.newE])
    intro r hr
    cases cl <;> simp [Call.target] at h2 <;> simp [PC.newRef] at hr
  | beginSplit t p h1 h2 =>
    refine ⟨j.nd, ?_, ?_, ?_, ?_, j.dum, j.itm, ?_⟩
    · intro r hr; exact (j.old r hr).mono (Nat.le_refl _) (fun q hq => List.mem_cons_of_mem _ hq)
    · intro u r hu
      rw [setPC_pc] at hu
      by_cases e : u = g
      · simp only [e, if_true, PC.newRef, Option.some.injEq] at hu
        subst hu
        refine ⟨by simp [Old, setPC], ?_⟩
        intro hc
        exact h2 (j.old _ hc)
      · simp only [e, if_false] at hu
        refine ⟨(j.new u r hu).1.mono (Nat.le_refl _) (fun q hq => List.mem_cons_of_mem _ hq), (j.new u r hu).2⟩
    · intro u u' r hu hu'
      rw [setPC_pc] at hu hu'
      by_cases e : u = g <;> by_cases e' : u' = g
      · rw [e, e']
      · simp only [e, if_true, PC.newRef, Option.some.injEq] at hu
        simp only [e', if_false] at hu'
        subst hu
        exact absurd (j.new u' _ hu').1 h2
      · simp only [e', if_true, PC.newRef, Option.some.injEq] at hu'
        simp only [e, if_false] at hu
        subst hu'
        exact absurd (j.new u _ hu).1 h2
      · simp only [e, e', if_false] at hu hu'
        exact j.dist u u' r hu hu'
    · intro u r hu
      rw [setPC_pc] at hu
      by_cases e : u = g
      · simp [e, PC.curs] at hu
      · simp only [e, if_false] at hu; exact j.cur u r hu
    · intro u x hu
      rw [setPC_pc] at hu
      by_cases e : u = g
      · simp [e, PC.newE] at hu
      · simp only [e, if_false] at hu; exact j.wf u x hu
  | pickKey cl t c b d h1 h2 h3 h4 =>
    refine j.pc g _ (by simp [PC.newRef]) ?_ (by simp [PC.newE])
    simpa [PC.curs] using linked _ _ h3
  | pickSplit t p b h1 h2 =>
    refine j.pc g _ ?_ ?_ ?_
    rotate_left 2
    · simp [PC.newE, WF, dummyEntry]
    · simp [h1, PC.newRef, dummyEntry]
    · simpa [PC.curs] using linked _ _ h2
  | lookCont cl t c fwd b cur x h1 h2 h3 h4 =>
    refine j.pc g _ (by simp [PC.newRef]) ?_ (by simp [PC.newE])
    have := j.cur g; rw [h1] at this; simpa [PC.curs] using this
  | lookHit cl t c fwd b cur x h1 h2 h3 h4 h5 =>
    have := j.cur g; rw [h1] at this; simp [PC.curs] at this
    split
    · exact j.pc g _ (by simp [PC.newRef]) (by simp [PC.curs, this]) (by simp [PC.newE])
    · exact j.pc g _ (by simp [PC.newRef]) (by simp [PC.curs, this]) (by simp [PC.newE])
  | lookMiss cl t c fwd b cur x h1 h2 h3 h4 h5 =>
    have := j.cur g; rw [h1] at this; simp [PC.curs] at this
    exact j.pc g _ (by simp [PC.newRef]) (by simp [PC.curs, this]) (by simp [PC.newE])
  | lookAdv cl fwd b cur h1 =>
    have := j.cur g; rw [h1] at this; simp [PC.curs] at this
    split
    · rename_i r hr
      refine j.pc g _ (by simp [PC.newRef]) ?_ (by simp [PC.newE])
      have hm : r ∈ refs s.items := by
        cases fwd
        · exact pv_mem (by simpa using hr)
        · exact nx_mem (by simpa using hr)
      simp only [PC.curs, List.mem_cons, List.not_mem_nil, or_false]
      rintro x (rfl | rfl)
      · simpa using this.1
      · exact hm
    · exact j.pc g _ (by simp [PC.newRef]) (by simp [PC.curs, this]) (by simp [PC.newE])
  | hitGet t c r x h1 h2 => exact j.pc g _ (by simp [PC.newRef]) (by simp [PC.curs]) (by simp [PC.newE])
  | hitSet t c key v r x nv ok h1 h2 h3 =>
    obtain ⟨f, hf, h⟩ := setVal_same r nv s.items
    exact (j.map hf h).pc g _ (by simp [PC.newRef]) (by simp [PC.curs]) (by simp [PC.newE])
  | hitSetPanic t c key v r x p h1 h2 h3 => exact j.pc g _ (by simp [PC.newRef]) (by simp [PC.curs]) (by simp [PC.newE])
  | hitDel t c r h1 =>
    obtain ⟨f, hf, h⟩ := markDeleted_same .sample r s.items
    exact (j.map hf h).pc g _ (by simp [PC.newRef]) (by simp [PC.curs]) (by simp [PC.newE])
  | missGet t c b h1 => exact j.pc g _ (by simp [PC.newRef]) (by simp [PC.curs]) (by simp [PC.newE])
  | missDel t c b h1 => exact j.pc g _ (by simp [PC.newRef]) (by simp [PC.curs]) (by simp [PC.newE])
  | missSet t c key v b h1 =>
    have hcur := j.cur g; rw [h1] at hcur; simp [PC.curs] at hcur
    exact j.alloc g _ rfl (by simpa [PC.curs] using hcur) (by intro e he; cases he; simp [WF, newItem])
  | pickLost cl t c p r h1 h2 h3 h4 h5 => exact j.pc g _ (by simp [PC.newRef]) (by simp [PC.curs]) (by simp [PC.newE])
  | lostFound cl t c p r d h1 h2 h3 h4 =>
    have := node_some h3
    exact j.pc g _ (by simp [PC.newRef]) (by simpa [PC.curs] using List.mem_map.2 ⟨d, this.1, this.2.1⟩) (by simp [PC.newE])
  | lostPanic cl t c p r h1 h2 h3 => exact j.pc g _ (by simp [PC.newRef]) (by simp [PC.curs]) (by simp [PC.newE])
  | lostGet t c p r h1 h2 => exact j.pc g _ (by simp [PC.newRef]) (by simp [PC.curs]) (by simp [PC.newE])
  | lostDel t c p r h1 h2 => exact j.pc g _ (by simp [PC.newRef]) (by simp [PC.curs]) (by simp [PC.newE])
  | lostSet t c key v p r h1 h2 => exact j.alloc g _ rfl (by simp [PC.curs]) (by intro e he; cases he; simp [WF, newItem])
  | lostSetLate t c key v p r d h1 h2 h3 h4 =>
    have := node_some h3
    exact j.alloc g _ rfl (by simpa [PC.curs] using List.mem_map.2 ⟨d, this.1, this.2.1⟩) (by intro e he; cases he; simp [WF, newItem])
  | findOpt second e b start h1 =>
    have := j.cur g; rw [h1] at this
    exact (j.opt false).pc g _ (by simp [PC.newRef, h1]) (by simpa [PC.curs] using this) (by simp [PC.newE, h1])
  | findStop second e b prev cur x h1 h2 h3 =>
    have := j.cur g; rw [h1] at this
    refine j.pc g _ (by simp [PC.newRef, h1]) ?_ (by simp [PC.newE, h1])
    intro r hr
    apply this
    simp [PC.curs] at hr ⊢
    tauto
  | findCont second e b prev cur x h1 h2 h3 =>
    have := j.cur g; rw [h1] at this
    exact j.pc g _ (by simp [PC.newRef, h1]) (by simpa [PC.curs] using this) (by simp [PC.newE, h1])
  | findAdv second e b prev cur h1 =>
    have := j.cur g; rw [h1] at this
    split
    · rename_i r hr
      refine j.pc g _ (by simp [PC.newRef, h1]) ?_ (by simp [PC.newE, h1])
      intro x hx
      simp only [PC.curs, List.mem_cons] at hx
      rcases hx with rfl | hx
      · exact nx_mem hr
      · exact this x (by simp [PC.curs, hx])
    · refine j.pc g _ (by simp [PC.newRef, h1]) ?_ (by simp [PC.newE, h1])
      intro x hx
      simp [PC.curs] at hx
      exact this x (by simp [PC.curs, hx])
  | findEnd1 e b prev res h1 =>
    have := j.cur g; rw [h1] at this
    exact (j.opt prev).pc g _ (by simp [PC.newRef, h1]) (by simpa [PC.curs] using this) (by simp [PC.newE, h1])
  | findEnd2 e b prev res h1 =>
    have := j.cur g; rw [h1] at this
    exact (j.opt prev).pc g _ (by simp [PC.newRef, h1]) (by simpa [PC.curs] using this) (by simp [PC.newE, h1])
  | start2 e b res h1 =>
    have := j.cur g; rw [h1] at this; simp only [PC.curs, List.mem_cons, forall_eq_or_imp] at this
    refine j.pc g _ (by simp [PC.newRef, h1]) ?_ (by simp [PC.newE, h1])
    intro x hx
    simp [PC.curs] at hx
    rcases hx with rfl | rfl
    · exact tStart_mem this.1
    · exact this.1
  | targetPos e b r h1 =>
    have := j.cur g; rw [h1] at this
    refine j.pc g _ (by simp [PC.newRef, h1]) ?_ (by simp [PC.newE, h1])
    intro x hx
    simp [PC.curs] at hx; subst hx
    exact this x (by simp [PC.curs])
  | targetFall e b phd r h1 h2 h3 =>
    refine j.pc g _ (by simp [PC.newRef, h1]) ?_ (by simp [PC.newE, h1])
    obtain ⟨x, hx⟩ := Option.isSome_iff_exists.1 h2
    have hp : phd ∈ refs s.items := List.mem_map.2 ⟨x, (node_some hx).1, (node_some hx).2.1⟩
    intro y hy
    simp [PC.curs] at hy; subst hy
    exact fallback_mem hp h3
  | checkOk e r h1 h2 =>
    have := j.cur g; rw [h1] at this
    exact j.pc g _ (by simp [PC.newRef, h1]) (by simpa [PC.curs] using this) (by simp [PC.newE, h1])
  | checkFail e r h1 h2 => exact j.pc g _ (by simp [PC.newRef]) (by simp [PC.curs]) (by simp [PC.newE])
  | link e r h1 =>
    have hnew := j.new g e.ref (by simp [h1, PC.newRef])
    have hp := refs_insBefore r e s.items
    have hwf := j.wf g e (by simp [h1, PC.newE])
    refine ⟨?_, ?_, ?_, ?_, ?_, ?_, ?_, ?_⟩
    · simp only [setPC]
      rw [hp.nodup_iff]; exact List.nodup_cons.2 ⟨hnew.2, j.nd⟩
    · intro x hx
      have : x ∈ e.ref :: refs s.items := hp.mem_iff.1 hx
      rcases List.mem_cons.1 this with rfl | h
      · exact hnew.1
      · exact j.old x h
    · intro u x hu
      rw [setPC_pc] at hu
      by_cases eu : u = g
      · simp [eu, PC.newRef] at hu
      · simp only [eu, if_false] at hu
        refine ⟨(j.new u x hu).1, ?_⟩
        intro hc
        have : x ∈ e.ref :: refs s.items := hp.mem_iff.1 hc
        rcases List.mem_cons.1 this with rfl | h
        · exact eu (j.dist u g _ hu (by simp [h1, PC.newRef]))
        · exact (j.new u x hu).2 h
    · intro u u' x hu hu'
      rw [setPC_pc] at hu hu'
      by_cases eu : u = g <;> by_cases eu' : u' = g <;> simp [eu, eu', PC.newRef] at hu hu' ⊢
      exact j.dist u u' x hu hu'
    · intro u x hu
      rw [setPC_pc] at hu
      by_cases eu : u = g
      · simp [eu, PC.curs] at hu
      · simp only [eu, if_false] at hu
        exact hp.mem_iff.2 (List.mem_cons_of_mem _ (j.cur u x hu))
    · intro x hx p hxp
      rcases mem_insBefore.1 hx with rfl | hx
      · exact hwf.2.1 p hxp
      · exact j.dum x hx p hxp
    · intro x hx p hxp
      rcases mem_insBefore.1 hx with rfl | hx
      · exact hwf.2.2 p hxp
      · exact j.itm x hx p hxp
    · intro u x hu
      rw [setPC_pc] at hu
      by_cases e : u = g
      · simp [e, PC.newE] at hu
      · simp only [e, if_false] at hu; exact j.wf u x hu
  | rangeStart x h1 h2 =>
    refine j.pc g _ (by simp [PC.newRef]) ?_ (by simp [PC.newE])
    intro r hr
    simp [PC.curs] at hr; subst hr
    exact List.mem_map.2 ⟨x, List.mem_of_head? h2, rfl⟩
  | rangeSee cur seen x h1 h2 =>
    have := j.cur g; rw [h1] at this
    exact j.pc g _ (by simp [PC.newRef]) (by simpa [PC.curs] using this) (by simp [PC.newE, h1])
  | rangeAdv cur seen h1 =>
    split
    · rename_i r hr
      refine j.pc g _ (by simp [PC.newRef]) ?_ (by simp [PC.newE])
      intro y hy
      simp [PC.curs] at hy; subst hy
      exact nx_mem hr
    · exact j.pc g _ (by simp [PC.newRef]) (by simp [PC.curs]) (by simp [PC.newE])
  | foreignOpt h1 => exact (j.opt false).pc g _ (by simp [PC.newRef]) (by simp [PC.curs]) (by simp [PC.newE])
  | foreignEnd prev h1 => exact (j.opt prev).pc g _ (by simp [PC.newRef]) (by simp [PC.curs]) (by simp [PC.newE])

end SLM.Conc
