import Verif.Proofs.Core
import Verif.Proofs.Held
import Verif.Model.Hold
/-!
The plain machine with cells (specification of C91), and the relation to the list of items.
-/
set_option autoImplicit false
namespace SLM
open Spec (ans Ans)
open History

/-! ### Specification: keys lead to cells, variables lead to cells -/

/-- A key that is there leads to a cell, a cell has a value.  Deleting a key takes the key away, not the cell. -/
structure Cells where
  loc : U64 × U64 → Option Nat
  val : Nat → IVal
  fn : Kind
  next : Nat
  hand : Nat → Option (Nat × Kind)

/-- Writing to a cell through an item type (C16, C17: the string type refuses nil and panics on a change of type). -/
def Cells.write (s : Cells) (n : Nat) (f : Kind) (v : IVal) : Cells × Ans :=
  match f, s.val n, v with
  | .entry, _, v => ({ s with val := fun m => if m = n then v else s.val m }, .bool true)
  | .sample, _, none => (s, .bool false)
  | .sample, none, some v => ({ s with val := fun m => if m = n then some v else s.val m }, .bool true)
  | .sample, some o, some v =>
    if o.ty = v.ty then ({ s with val := fun m => if m = n then some v else s.val m }, .bool true) else (s, .panic .valueType)

/-- A new cell for a key. -/
def Cells.alloc (s : Cells) (kc : U64 × U64) (v : IVal) : Cells :=
  { s with loc := fun x => if x = kc then some s.next else s.loc x, val := fun m => if m = s.next then v else s.val m, next := s.next + 1 }

/-- The cell is no longer reached by any key. -/
def Cells.drop (s : Cells) (n : Nat) : Cells := { s with loc := fun x => if s.loc x = some n then none else s.loc x }

def Cells.take (s : Cells) (i : Nat) (x : Option (Nat × Kind)) : Cells := { s with hand := fun j => if j = i then x else s.hand j }

def Cells.call (H : HashFns) (s : Cells) : Op → Cells × Ans
  | .set key v =>
    match keyToHash H key with
    | none => (s, .panic .unsupportedKey)
    | some kc =>
      match s.loc kc with
      | some n => s.write n s.fn v
      | none => match key with
        | .str _ => ({ s.alloc kc v with fn := .sample }, .bool true)
        | _ => (s, .panic .keyNotString)
  | .storeItem it =>
    match keyToHash H it.key with
    | none => (s, .panic .unsupportedKey)
    | some kc =>
      match s.loc kc with
      | some n => s.write n s.fn it.val
      | none => (s.alloc kc it.val, .bool true)
  | .get key =>
    match keyToHash H key with
    | none => (s, .panic .unsupportedKey)
    | some kc => (s, match s.loc kc with | some n => .val (s.val n) true | none => .val none false)
  | .getByHash k c => (s, match s.loc (k, c) with | some n => .val (s.val n) true | none => .val none false)
  | .loadItem key =>
    match keyToHash H key with
    | none => (s, .panic .unsupportedKey)
    | some kc => (s, .item ((s.loc kc).map s.val))
  | .loadItemByHash k c => (s, .item ((s.loc (k, c)).map s.val))
  | .delete key =>
    match keyToHash H key with
    | none => (s, .panic .unsupportedKey)
    | some kc => match s.loc kc with | some n => (s.drop n, .bool true) | none => (s, .bool false)
  | .len => (s, .other)
  | .range => (s, .other)

def Cells.step (H : HashFns) (s : Cells) : HOp → Cells × Ans
  | .call op => s.call H op
  | .load i key =>
    match keyToHash H key with
    | none => (s, .panic .unsupportedKey)
    | some kc => (s.take i ((s.loc kc).map (fun n => (n, s.fn))), .bool (s.loc kc).isSome)
  | .store i it =>
    match keyToHash H it.key with
    | none => (s.take i none, .panic .unsupportedKey)
    | some kc =>
      match s.loc kc with
      | some n => ((s.write n s.fn it.val).1.take i none, (s.write n s.fn it.val).2)
      | none => ((s.alloc kc it.val).take i (some (s.next, it.kind)), .bool true)
  | .value i => (s, match s.hand i with | some x => .val (s.val x.1) true | none => .val none false)
  | .setValue i v => match s.hand i with | some x => s.write x.1 x.2 v | none => (s, .bool false)
  | .delete i => match s.hand i with | some x => (s.drop x.1, .bool true) | none => (s, .bool false)

def Cells.run (H : HashFns) (s : Cells) : List HOp → List Ans
  | [] => []
  | o :: os => (s.step H o).2 :: (s.step H o).1.run H os

/-- The empty map, all variables empty. -/
def Cells.empty (fn : Kind) : Cells := { loc := fun _ => none, val := fun _ => none, fn := fn, next := 0, hand := fun _ => none }


/-! ### The relation -/

structure Core.WF (c : Core) : Prop where
  nodup : (refs c.items).Nodup
  itm : ∀ e ∈ c.items, ∃ n, e.ref = .item n ∧ n < c.nextId
  nd : ∀ e ∈ c.items, e.dummy = false
  uniq : Uniq c.items

theorem Good.wf {st : St} (g : Good st) : (core st).WF := by
  refine ⟨?_, ?_, ?_, ?_⟩
  · exact (g.inv.ii.nodup).sublist ((List.filter_sublist).map _)
  · intro e he
    simp only [core, List.mem_filter, Bool.not_eq_true'] at he
    cases hr : e.ref with
    | item n => exact ⟨n, rfl, (g.inv.ii.itm e he.1 n hr).2⟩
    | dummy p =>
      have := (g.inv.ii.dum e he.1 p hr).2
      rw [this] at he
      simp [dummyEntry] at he
  · intro e he
    simp only [core, List.mem_filter, Bool.not_eq_true'] at he
    exact he.2
  · intro a ha b hb
    simp only [core, List.mem_filter] at ha hb
    exact g.uniq a ha.1 b hb.1

structure RelC (c : Core) (s : Cells) : Prop where
  fn : s.fn = c.fn
  next : s.next = c.nextId
  loc : ∀ kc n, s.loc kc = some n ↔ ∃ e ∈ c.items, e.ignored = false ∧ e.rev = rev64 kc.1 ∧ e.conflict = kc.2 ∧ e.ref = .item n
  val : ∀ e ∈ c.items, ∀ n, e.ref = .item n → s.val n = e.val

theorem RelC.hit {c : Core} {s : Cells} (w : c.WF) (r : RelC c s) {k cf : U64} {e : Entry} (h : lookup c.items k cf = some e) :
    ∃ n, e.ref = .item n ∧ e ∈ c.items ∧ s.loc (k, cf) = some n ∧ s.val n = e.val := by
  obtain ⟨h1, h2, h3⟩ := (lookup_live w.uniq).1 h
  obtain ⟨n, hn, _⟩ := w.itm e h1.1
  exact ⟨n, hn, h1.1, (r.loc (k, cf) n).2 ⟨e, h1.1, h1.2, h2, h3, hn⟩, r.val e h1.1 n hn⟩

theorem RelC.miss {c : Core} {s : Cells} (w : c.WF) (r : RelC c s) {k cf : U64} (h : lookup c.items k cf = none) : s.loc (k, cf) = none := by
  cases hl : s.loc (k, cf) with
  | none => rfl
  | some n =>
    obtain ⟨e, h1, h2, h3, h4, h5⟩ := (r.loc (k, cf) n).1 hl
    rw [(lookup_live w.uniq).2 ⟨⟨h1, h2⟩, h3, h4⟩] at h
    cases h

/-- Writing one cell. -/
theorem RelC.put {c : Core} {s : Cells} (w : c.WF) (r : RelC c s) {e : Entry} {n : Nat} (he : e ∈ c.items) (hn : e.ref = .item n) (v : IVal) :
    RelC { c with items := setVal (.item n) v c.items } { s with val := fun m => if m = n then v else s.val m } := by
  have hm : ∀ x, x ∈ setVal (.item n) v c.items ↔ x = { e with val := v } ∨ (x ∈ c.items ∧ x ≠ e) := by
    intro x; rw [← hn]; exact mem_mapAt w.nodup he (fun x => { x with val := v }) x
  refine ⟨r.fn, r.next, ?_, ?_⟩
  · intro kc m
    show s.loc kc = some m ↔ _
    rw [r.loc]
    constructor
    · rintro ⟨x, h1, h2, h3, h4, h5⟩
      by_cases hx : x = e
      · subst hx; exact ⟨_, (hm _).2 (Or.inl rfl), h2, h3, h4, h5⟩
      · exact ⟨x, (hm _).2 (Or.inr ⟨h1, hx⟩), h2, h3, h4, h5⟩
    · rintro ⟨x, h1, h2, h3, h4, h5⟩
      rcases (hm _).1 h1 with rfl | ⟨h1, _⟩
      · exact ⟨e, he, h2, h3, h4, h5⟩
      · exact ⟨x, h1, h2, h3, h4, h5⟩
  · intro x hx m hxm
    rcases (hm _).1 hx with rfl | ⟨h1, h2⟩
    · have : m = n := by simp only at hxm; rw [hn] at hxm; injection hxm with h; exact h.symm
      simp [this]
    · have : m ≠ n := by
        intro hc; subst hc
        exact h2 (List.inj_on_of_nodup_map w.nodup h1 he (hxm.trans hn.symm))
      simp only [if_neg this]
      exact r.val x h1 m hxm

theorem RelC.write {c : Core} {s : Cells} (w : c.WF) (r : RelC c s) {e : Entry} {n : Nat} (he : e ∈ c.items) (hn : e.ref = .item n) (f : Kind) (v : IVal) :
    match setValue f e.val v with
    | .error p => s.write n f v = (s, .panic p)
    | .ok (nv, b) => RelC { c with items := setVal (.item n) nv c.items } (s.write n f v).1 ∧ (s.write n f v).2 = .bool b := by
  have hv := r.val e he n hn
  have hp := fun v => r.put w he hn v
  unfold setValue Cells.write
  rw [hv]
  cases f with
  | entry => exact ⟨hp v, rfl⟩
  | sample =>
    cases v with
    | none =>
      refine ⟨?_, by cases e.val <;> rfl⟩
      have := hp e.val
      have he : (fun m => if m = n then e.val else s.val m) = s.val := by
        funext m; by_cases hm : m = n
        · rw [if_pos hm, hm, hv]
        · rw [if_neg hm]
      rw [he] at this
      revert this
      cases e.val <;> exact fun h => h
    | some v =>
      cases ho : e.val with
      | none => exact ⟨hp (some v), rfl⟩
      | some o =>
        simp only
        by_cases ht : o.ty = v.ty
        · simp only [ht, if_true]; exact ⟨hp (some v), trivial⟩
        · simp only [ht, if_false]

/-- Deleting an item, live or not. -/
theorem RelC.kill {c : Core} {s : Cells} (w : c.WF) (r : RelC c s) {e : Entry} {n : Nat} (he : e ∈ c.items) (hn : e.ref = .item n) (f : Kind) :
    RelC { c with items := markDeleted f (.item n) c.items } (s.drop n) := by
  have hm : ∀ x, x ∈ markDeleted f (.item n) c.items ↔
      x = { e with deleted := true, key := match f with | .entry => .nil | .sample => e.key } ∨ (x ∈ c.items ∧ x ≠ e) := by
    intro x; rw [← hn]
    exact mem_mapAt w.nodup he (fun x => { x with deleted := true, key := match f with | .entry => .nil | .sample => x.key }) x
  refine ⟨r.fn, r.next, ?_, ?_⟩
  · intro kc m
    simp only [Cells.drop]
    constructor
    · intro h
      split at h
      · cases h
      · rename_i hne
        obtain ⟨x, h1, h2, h3, h4, h5⟩ := (r.loc kc m).1 h
        have hx : x ≠ e := by
          intro hc; subst hc
          rw [hn] at h5; injection h5 with h5; subst h5
          exact hne h
        exact ⟨x, (hm _).2 (Or.inr ⟨h1, hx⟩), h2, h3, h4, h5⟩
    · rintro ⟨x, h1, h2, h3, h4, h5⟩
      rcases (hm _).1 h1 with rfl | ⟨hq, hx⟩
      · simp [Entry.ignored] at h2
      · have hloc := (r.loc kc m).2 ⟨x, hq, h2, h3, h4, h5⟩
        have : m ≠ n := by
          intro hc; subst hc
          exact hx (List.inj_on_of_nodup_map w.nodup hq he (h5.trans hn.symm))
        rw [hloc, if_neg]
        intro hc; injection hc with hc; exact this hc
  · intro x hx m hxm
    show s.val m = x.val
    rcases (hm _).1 hx with rfl | ⟨h1, _⟩
    · exact r.val e he m hxm
    · exact r.val x h1 m hxm

/-- A new item. -/
theorem RelC.new {c : Core} {s : Cells} (w : c.WF) (r : RelC c s) {e : Entry} {k cf : U64} (w' : (c.add e).WF)
    (hr : e.ref = .item c.nextId) (hi : e.ignored = false) (hrev : e.rev = rev64 k) (hcf : e.conflict = cf) :
    RelC (c.add e) (s.alloc (k, cf) e.val) := by
  have hm : ∀ x, x ∈ insAt e c.items ↔ x = e ∨ x ∈ c.items := by
    intro x; rw [(insAt_perm e c.items).mem_iff, List.mem_cons]
  have hfresh : ∀ x ∈ c.items, x.ref ≠ e.ref := by
    intro x hx hc
    obtain ⟨n, hn, hlt⟩ := w.itm x hx
    rw [hn, hr] at hc; injection hc with hc; omega
  refine ⟨r.fn, by simp [Cells.alloc, Core.add, r.next], ?_, ?_⟩
  · intro kc m
    simp only [Cells.alloc, Core.add]
    constructor
    · intro h
      split at h
      · rename_i hk; subst hk; injection h with h
        exact ⟨e, (hm _).2 (Or.inl rfl), hi, hrev, hcf, by rw [hr, ← h, r.next]⟩
      · obtain ⟨x, h1, h2⟩ := (r.loc kc m).1 h
        exact ⟨x, (hm _).2 (Or.inr h1), h2⟩
    · rintro ⟨x, h1, h2, h3, h4, h5⟩
      rcases (hm _).1 h1 with hx | hx
      · subst hx
        have hk : kc = (k, cf) := by
          obtain ⟨a, b⟩ := kc
          simp only at h3 h4
          rw [hrev] at h3; rw [hcf] at h4
          have := congrArg rev64 h3
          rw [rev64_rev64, rev64_rev64] at this
          rw [this, h4]
        rw [if_pos hk]
        rw [hr] at h5; injection h5 with h5; rw [r.next, h5]
      · rw [if_neg, (r.loc kc m).2 ⟨x, hx, h2, h3, h4, h5⟩]
        rintro rfl
        have := w'.uniq x ((hm _).2 (Or.inr hx)) e ((hm _).2 (Or.inl rfl)) h2 hi (by rw [h3, hrev])
        exact hfresh x hx (by rw [this])
  · intro x hx m hxm
    simp only [Cells.alloc]
    rcases (hm _).1 hx with rfl | hx
    · rw [hr] at hxm; injection hxm with hxm; rw [if_pos (by rw [r.next, hxm])]
    · rw [if_neg]
      · exact r.val x hx m hxm
      · intro hc
        obtain ⟨n, hn, hlt⟩ := w.itm x hx
        rw [hn] at hxm; injection hxm with hxm
        rw [r.next] at hc; omega

theorem RelC.refn {c : Core} {s : Cells} (r : RelC c s) (f : Kind) : RelC { c with fn := f } { s with fn := f } :=
  ⟨rfl, r.next, r.loc, r.val⟩

theorem RelC.upd {c : Core} {s : Cells} (w : c.WF) (r : RelC c s) {e : Entry} {n : Nat} (he : e ∈ c.items) (hn : e.ref = .item n) (v : IVal) :
    RelC (c.update e v).1 (s.write n s.fn v).1 ∧ ans (c.update e v).2 = (s.write n s.fn v).2 := by
  have := r.write w he hn c.fn v
  unfold Core.update
  rw [r.fn]
  cases hs : setValue c.fn e.val v with
  | error p => rw [hs] at this; simp only at this; rw [this]; exact ⟨r, rfl⟩
  | ok x => obtain ⟨nv, b⟩ := x; rw [hs] at this; rw [hn]; exact ⟨this.1, this.2.symm⟩

/-- One call. -/
theorem RelC.step {H : HashFns} {c : Core} {s : Cells} (w : c.WF) (r : RelC c s) {op : Op} (w' : (c.step H op).1.WF) :
    RelC (c.step H op).1 (s.call H op).1 ∧ ans (c.step H op).2 = (s.call H op).2 := by
  cases op with
  | set key v =>
    simp only [Core.step, Cells.call] at w' ⊢
    cases hk : keyToHash H key with
    | none => exact ⟨r, rfl⟩
    | some kc =>
      obtain ⟨k, cf⟩ := kc
      rw [hk] at w'
      simp only at w' ⊢
      cases hl : lookup c.items k cf with
      | some e =>
        obtain ⟨n, h1, h2, h3, _⟩ := r.hit w hl
        simp only [h3]
        exact r.upd w h2 h1 v
      | none =>
        rw [hl] at w'
        simp only [r.miss w hl]
        cases key with
        | str b =>
          simp only at w' ⊢
          exact ⟨(RelC.new (c := { c with fn := .sample }) (s := { s with fn := .sample }) ⟨w.nodup, w.itm, w.nd, w.uniq⟩ (r.refn .sample) w' rfl rfl rfl rfl), rfl⟩
        | _ => exact ⟨r, rfl⟩
  | storeItem it =>
    simp only [Core.step, Cells.call] at w' ⊢
    cases hk : keyToHash H it.key with
    | none => exact ⟨r, rfl⟩
    | some kc =>
      obtain ⟨k, cf⟩ := kc
      rw [hk] at w'
      simp only at w' ⊢
      cases hl : lookup c.items k cf with
      | some e =>
        obtain ⟨n, h1, h2, h3, _⟩ := r.hit w hl
        simp only [h3]
        exact r.upd w h2 h1 it.val
      | none =>
        rw [hl] at w'
        simp only [r.miss w hl]
        simp only at w' ⊢
        exact ⟨(RelC.new w r w' rfl rfl rfl rfl), rfl⟩
  | get key =>
    simp only [Core.step, Cells.call]
    cases hk : keyToHash H key with
    | none => exact ⟨r, rfl⟩
    | some kc =>
      obtain ⟨k, cf⟩ := kc
      refine ⟨r, ?_⟩
      cases hl : lookup c.items k cf with
      | some e => obtain ⟨n, h1, h2, h3, h4⟩ := r.hit w hl; simp [h3, h4, ans, hl]
      | none => simp [r.miss w hl, ans, hl]
  | getByHash k cf =>
    refine ⟨r, ?_⟩
    simp only [Core.step, Cells.call]
    cases hl : lookup c.items k cf with
    | some e => obtain ⟨n, h1, h2, h3, h4⟩ := r.hit w hl; simp [h3, h4, ans]
    | none => simp [r.miss w hl, ans]
  | loadItem key =>
    simp only [Core.step, Cells.call]
    cases hk : keyToHash H key with
    | none => exact ⟨r, rfl⟩
    | some kc =>
      obtain ⟨k, cf⟩ := kc
      refine ⟨r, ?_⟩
      cases hl : lookup c.items k cf with
      | some e => obtain ⟨n, h1, h2, h3, h4⟩ := r.hit w hl; simp [h3, h4, ans, hl, view]
      | none => simp [r.miss w hl, ans, hl]
  | loadItemByHash k cf =>
    refine ⟨r, ?_⟩
    simp only [Core.step, Cells.call]
    cases hl : lookup c.items k cf with
    | some e => obtain ⟨n, h1, h2, h3, h4⟩ := r.hit w hl; simp [h3, h4, ans, view]
    | none => simp [r.miss w hl, ans]
  | delete key =>
    simp only [Core.step, Cells.call]
    cases hk : keyToHash H key with
    | none => exact ⟨r, rfl⟩
    | some kc =>
      obtain ⟨k, cf⟩ := kc
      simp only
      cases hl : lookup c.items k cf with
      | some e =>
        obtain ⟨n, h1, h2, h3, h4⟩ := r.hit w hl
        simp only [h3]
        rw [h1]
        exact ⟨r.kill w h2 h1 c.fn, rfl⟩
      | none => simp only [r.miss w hl]; exact ⟨r, rfl⟩
  | len => exact ⟨r, rfl⟩
  | range => exact ⟨r, rfl⟩


/-! ### Good states under the methods of items -/

/-- As `Good.mapAt`, also for deleted items. -/
theorem Good.mapAny {st : St} (h : Good st) {e : Entry} {n : Nat} (he : e ∈ st.items) (hn : e.ref = .item n) (g : Entry → Entry)
    (hg : ∀ x, (g x).ref = x.ref ∧ (g x).rev = x.rev ∧ (g x).dummy = x.dummy) (hi : (g e).ignored = false → e.ignored = false) :
    Good { st with items := SLM.mapAt e.ref g st.items } := by
  by_cases hl : e.ignored = false
  · exact h.mapAt ⟨he, hl⟩ g hg
  · have hdead : (g e).ignored ≠ false := fun hc => hl (hi hc)
    have hnd := h.inv.ii.nodup
    have hnp : ∀ p, e.ref ≠ .dummy p := fun p hc => by rw [hn] at hc; cases hc
    refine ⟨⟨h.inv.bi, h.inv.ii.mapItem e.ref hnp g hg, h.inv.lv⟩, ?_, ?_⟩
    · intro a ha b hb ha2 hb2 hab
      rw [mem_mapAt hnd he] at ha hb
      rcases ha with rfl | ⟨ha, hae⟩
      · exact absurd ha2 hdead
      · rcases hb with rfl | ⟨hb, hbe⟩
        · exact absurd hb2 hdead
        · exact h.uniq a ha b hb ha2 hb2 hab
    · intro x hx hxi p hp hpr
      rw [mem_mapAt hnd he] at hx
      rcases hx with rfl | ⟨hx, hxe⟩
      · exact absurd hxi hdead
      · have hne : x.ref ≠ e.ref := fun hc => hxe (List.inj_on_of_nodup_map hnd hx he hc)
        have := (h.pos x hx hxi p hp hpr).map (fun x => if x.ref = e.ref then g x else x)
        simp only [List.map_cons, List.map_nil] at this
        rw [if_neg hne, if_neg (fun hc => hnp p hc.symm)] at this
        exact this

/-- The map and the variables against the cells. -/
structure HRel (h : HSt) (s : Cells) : Prop where
  rel : RelC (core h.st) s
  hand : ∀ i, h.hand i = (s.hand i).map (fun x => (.item x.1, x.2))
  inMap : ∀ i x, s.hand i = some x → ∃ e ∈ h.st.items, e.ref = .item x.1

theorem mem_core {st : St} (g : Good st) {e : Entry} {n : Nat} (he : e ∈ st.items) (hn : e.ref = .item n) : e ∈ (core st).items := by
  simp only [core, List.mem_filter, Bool.not_eq_true']
  exact ⟨he, (g.inv.ii.itm e he n hn).1⟩

theorem write_hand (s : Cells) (n : Nat) (f : Kind) (v : IVal) : (s.write n f v).1.hand = s.hand := by
  unfold Cells.write
  split <;> try rfl
  split <;> rfl

theorem call_hand (H : HashFns) (s : Cells) (op : Op) : (s.call H op).1.hand = s.hand := by
  cases op <;> simp only [Cells.call] <;> (repeat' split) <;> first | rfl | exact write_hand _ _ _ _

/-- Items never leave the list. -/
theorem step_refs (E : Env) {st : St} (h : Inv st) (op : Op) {e : Entry} {n : Nat} (he : e ∈ st.items) (hn : e.ref = .item n) :
    ∃ e' ∈ (step E st op).1.items, e'.ref = .item n := by
  rcases step_eff E h op with x | ⟨e1, nv, b, x⟩ | ⟨key, e1, x⟩ | ⟨st2, k, c, e1, x⟩
  · obtain ⟨b, hb⟩ := x.same
    rw [hb]; exact ⟨e, he, hn⟩
  · rw [x.res]
    refine ⟨_, List.mem_map.2 ⟨e, he, rfl⟩, ?_⟩
    split <;> exact hn
  · rw [x.res]
    refine ⟨_, List.mem_map.2 ⟨e, he, rfl⟩, ?_⟩
    split <;> exact hn
  · exact ⟨e, (x.mem_items (h.ii.itm e he n hn).1).1 he, hn⟩

/-- A step of the history meets the conditions of C01. -/
def HAdm (E : Env) (s : HSt) : HOp → Prop
  | .call op => AdmOp E s.st op ∧ (step E s.st op).2 ≠ .panic .bucketHeadEmpty
  | .store _ it => AdmOp E s.st (.storeItem it) ∧ (step E s.st (.storeItem it)).2 ≠ .panic .bucketHeadEmpty
  | _ => True

theorem find_ref {l : List Entry} (hn : (refs l).Nodup) {e : Entry} {r : Ref} (he : e ∈ l) (hr : e.ref = r) :
    l.find? (fun e => decide (e.ref = r)) = some e := by
  cases hf : l.find? (fun e => decide (e.ref = r)) with
  | none =>
    rw [List.find?_eq_none] at hf
    have := hf e he
    simp [hr] at this
  | some x =>
    have h1 := List.mem_of_find?_eq_some hf
    have h2 := List.find?_some hf
    simp only [decide_eq_true_eq] at h2
    rw [List.inj_on_of_nodup_map hn h1 he (h2.trans hr.symm)]

theorem heldSet_good {st : St} (g : Good st) {e : Entry} {n : Nat} (he : e ∈ st.items) (hn : e.ref = .item n) (v : IVal) :
    Good { st with items := setVal (.item n) v st.items } := by
  rw [← hn]
  exact g.mapAny he hn (fun x => { x with val := v }) (fun x => ⟨rfl, rfl, rfl⟩) (fun h => h)

theorem heldDel_good {st : St} (g : Good st) {e : Entry} {n : Nat} (he : e ∈ st.items) (hn : e.ref = .item n) (f : Kind) :
    Good (heldDelete st (.item n, f)) := by
  unfold heldDelete
  rw [← hn]
  exact g.mapAny he hn (fun x => { x with deleted := true, key := match f with | .entry => .nil | .sample => x.key })
    (fun x => ⟨rfl, rfl, rfl⟩) (fun h => by simp [Entry.ignored] at h)

theorem HRel.callStep {E : Env} {h : HSt} {s : Cells} (g : Good h.st) (r : HRel h s) {op : Op} (ha : AdmOp E h.st op)
    (hp : (SLM.step E h.st op).2 ≠ .panic .bucketHeadEmpty) :
    Good (SLM.step E h.st op).1 ∧ HRel { h with st := (SLM.step E h.st op).1 } (s.call E.H op).1 ∧
      ans (SLM.step E h.st op).2 = (s.call E.H op).2 := by
  have g' := (step_refines g ha hp).1
  have hc := step_core g ha hp
  have h1 : core (SLM.step E h.st op).1 = ((core h.st).step E.H op).1 := congrArg Prod.fst hc
  have h2 : (SLM.step E h.st op).2 = ((core h.st).step E.H op).2 := congrArg Prod.snd hc
  have := RelC.step (H := E.H) (op := op) g.wf r.rel (by rw [← h1]; exact g'.wf)
  refine ⟨g', ⟨by rw [h1]; exact this.1, ?_, ?_⟩, by rw [h2]; exact this.2⟩
  · intro i; rw [call_hand]; exact r.hand i
  · intro i x hx
    rw [call_hand] at hx
    obtain ⟨e, he, hn⟩ := r.inMap i x hx
    exact step_refs E g.inv op he hn

theorem core_setVal (st : St) (n : Nat) (v : IVal) :
    core { st with items := setVal (.item n) v st.items } = { core st with items := setVal (.item n) v (core st).items } := by
  ext1 <;> try rfl
  exact map_core st.items (.item n) (fun x => { x with val := v }) (fun _ => rfl)

theorem core_kill (st : St) (n : Nat) (f : Kind) :
    core (heldDelete st (.item n, f)) = { core st with items := markDeleted f (.item n) (core st).items } := by
  ext1 <;> try rfl
  exact map_core st.items (.item n) (fun x => { x with deleted := true, key := match f with | .entry => .nil | .sample => x.key }) (fun _ => rfl)

theorem HRel.take {h : HSt} {s : Cells} (r : HRel h s) (i : Nat) (x : Option (Nat × Kind))
    (hx : ∀ y, x = some y → ∃ e ∈ h.st.items, e.ref = .item y.1) :
    HRel { h with hand := setHand h.hand i (x.map (fun y => (.item y.1, y.2))) } (s.take i x) := by
  refine ⟨⟨r.rel.fn, r.rel.next, r.rel.loc, r.rel.val⟩, ?_, ?_⟩
  · intro j
    simp only [setHand, Cells.take]
    split
    · rfl
    · exact r.hand j
  · intro j y hy
    simp only [Cells.take] at hy
    split at hy
    · exact hx y hy
    · exact r.inMap j y hy

theorem HRel.step {E : Env} {h : HSt} {s : Cells} (g : Good h.st) (r : HRel h s) {o : HOp} (ha : HAdm E h o) :
    Good (hstep E h o).1.st ∧ HRel (hstep E h o).1 (s.step E.H o).1 ∧ ans (hstep E h o).2 = (s.step E.H o).2 := by
  cases o with
  | call op => exact r.callStep g ha.1 ha.2
  | load i key =>
    simp only [hstep, Cells.step, loadRef]
    cases hk : keyToHash E.H key with
    | none => exact ⟨g, r, rfl⟩
    | some kc =>
      obtain ⟨k, c⟩ := kc
      simp only
      rw [getWithBucket_eq g, ← lookup_core]
      refine ⟨g, ?_⟩
      cases hl : lookup (core h.st).items k c with
      | none =>
        have hm := r.rel.miss g.wf hl
        unfold core at hl
        simp only at hl
        rw [hl]
        simp only [hm]
        exact ⟨r.take i none (fun y hy => by cases hy), rfl⟩
      | some e =>
        obtain ⟨n, h1, h2, h3, h4⟩ := r.rel.hit g.wf hl
        unfold core at hl h2
        simp only at hl h2
        rw [hl]
        simp only [h3, Option.map_some, h1]
        have := r.take i (some (n, s.fn)) (fun y hy => by
          injection hy with hy; subst hy; exact ⟨e, List.mem_of_mem_filter h2, h1⟩)
        rw [Option.map_some, r.rel.fn] at this
        exact ⟨by rw [r.rel.fn]; exact this, rfl⟩
  | store i it =>
    have hc := r.callStep g ha.1 ha.2
    simp only [SLM.step] at hc
    simp only [hstep, Cells.step]
    obtain ⟨g', r', ho⟩ := hc
    refine ⟨g', ?_⟩
    simp only [Cells.call] at r' ho
    have hnext := r'.rel.next
    have hn0 := r.rel.next
    simp only [core] at hnext hn0
    cases hk : keyToHash E.H it.key with
    | none =>
      rw [hk] at r' ho hnext
      simp only at r' ho hnext ⊢
      have : (opStoreItem E h.st it).1.nextId = h.st.nextId := by rw [← hnext, hn0]
      rw [if_pos this]
      exact ⟨r'.take i none (fun y hy => by cases hy), ho⟩
    | some kc =>
      rw [hk] at r' ho hnext
      simp only at r' ho hnext ⊢
      cases hl : s.loc kc with
      | some n =>
        rw [hl] at r' ho hnext
        simp only at r' ho hnext ⊢
        have hw : (s.write n s.fn it.val).1.next = s.next := by
          unfold Cells.write
          split <;> try rfl
          split <;> rfl
        have : (opStoreItem E h.st it).1.nextId = h.st.nextId := by rw [← hnext, ← hn0, hw]
        rw [if_pos this]
        exact ⟨r'.take i none (fun y hy => by cases hy), ho⟩
      | none =>
        rw [hl] at r' ho hnext
        simp only at r' ho hnext ⊢
        have hnx : (opStoreItem E h.st it).1.nextId = h.st.nextId + 1 := by
          rw [← hnext, ← hn0]; rfl
        rw [if_neg (by omega)]
        refine ⟨?_, ho⟩
        have := r'.take i (some (s.next, it.kind)) (fun y hy => by
          injection hy with hy; subst hy
          have hloc : (s.alloc kc it.val).loc kc = some s.next := by simp [Cells.alloc]
          obtain ⟨e, h1, _, _, _, h5⟩ := (r'.rel.loc kc s.next).1 hloc
          exact ⟨e, List.mem_of_mem_filter h1, h5⟩)
        rw [Option.map_some, hn0] at this
        rw [hn0]
        exact this
  | value i =>
    simp only [hstep, Cells.step]
    cases hh : s.hand i with
    | none =>
      have := r.hand i
      rw [hh] at this
      rw [this]
      exact ⟨g, r, rfl⟩
    | some x =>
      have h1 := r.hand i
      rw [hh] at h1
      rw [h1]
      obtain ⟨e, he, hn⟩ := r.inMap i x hh
      refine ⟨g, r, ?_⟩
      simp only [Option.map_some, heldValue]
      rw [find_ref g.inv.ii.nodup he hn]
      simp only [Option.map_some, ans]
      rw [r.rel.val e (mem_core g he hn) x.1 hn]
  | setValue i v =>
    simp only [hstep, Cells.step]
    cases hh : s.hand i with
    | none =>
      have := r.hand i
      rw [hh] at this
      rw [this]
      exact ⟨g, r, rfl⟩
    | some x =>
      have h1 := r.hand i
      rw [hh] at h1
      rw [h1]
      obtain ⟨e, he, hn⟩ := r.inMap i x hh
      simp only [Option.map_some, heldSetValue]
      rw [find_ref g.inv.ii.nodup he hn]
      simp only
      have hw := r.rel.write g.wf (mem_core g he hn) hn x.2 v
      cases hs : setValue x.2 e.val v with
      | error p =>
        rw [hs] at hw
        simp only at hw ⊢
        rw [hw]
        exact ⟨g, r, rfl⟩
      | ok y =>
        obtain ⟨nv, b⟩ := y
        rw [hs] at hw
        simp only at hw ⊢
        refine ⟨heldSet_good g he hn nv, ⟨?_, ?_, ?_⟩, hw.2.symm⟩
        · rw [core_setVal]; exact hw.1
        · intro j; rw [write_hand]; exact r.hand j
        · intro j y hy
          rw [write_hand] at hy
          obtain ⟨e', he', hn'⟩ := r.inMap j y hy
          refine ⟨_, List.mem_map.2 ⟨e', he', rfl⟩, ?_⟩
          split <;> exact hn'
  | delete i =>
    simp only [hstep, Cells.step]
    cases hh : s.hand i with
    | none =>
      have := r.hand i
      rw [hh] at this
      rw [this]
      exact ⟨g, r, rfl⟩
    | some x =>
      have h1 := r.hand i
      rw [hh] at h1
      rw [h1]
      obtain ⟨e, he, hn⟩ := r.inMap i x hh
      simp only [Option.map_some]
      refine ⟨heldDel_good g he hn x.2, ⟨?_, ?_, ?_⟩, rfl⟩
      · rw [core_kill]; exact r.rel.kill g.wf (mem_core g he hn) hn x.2
      · intro j; exact r.hand j
      · intro j y hy
        obtain ⟨e', he', hn'⟩ := r.inMap j y hy
        refine ⟨_, List.mem_map.2 ⟨e', he', rfl⟩, ?_⟩
        split <;> exact hn'

end SLM
