import Verif.Proofs.LConc2
import Verif.Props.Conc
/-!
C87: `Len` under concurrency.

Vocabulary as in Props/Conc.lean.  `LSteps Pk P a b`: an execution of Model/LConc.lean (the machine of Model/Conc.lean with the counter)
every step of which satisfies `P`.  `s.Len` is what a `Len` call answers in state `s`.  `nIt l`: the items in the list `l`,
live or deleted, sentinels not counted.
-/
set_option autoImplicit false
set_option maxRecDepth 100000
namespace SLM.Conc
open History

variable {Pk : CSt → Call → Ref → Prop}

/-- Every interleaving. -/
abbrev Any : LSt → Tid → LSt → Prop := fun _ _ _ => True

abbrev lbegun (E : Env) (cfg : Cfg) (ops : List Op) : LSt := lofSt (run E (initSt cfg) ops).1

theorem begun_ti (E : Env) (cfg : Cfg) (ops : List Op) : TI Pk (lbegun E cfg ops).c (lbegun E cfg ops).c where
  j := begun_j1 E cfg ops
  gs := .refl _
  one := fun u w hu _ => by simp [lofSt, ofSt, busy, PC.newE] at hu
  setB := begun_setB E cfg ops
  top := begun_top E cfg ops
  nl := fun _ => rfl
  pl := fun g e h _ => by simp [lofSt, ofSt, PC.newE] at h

/-- C87 (statement, for an empty map and two goroutines): after two Sets of different keys beside each other have returned, a Range
shows as many items as Len says. -/
def C87_statement : Prop := ∀ (s0 s1 s2 : LSt) (L : List Ref), LSteps (pkExact modeNested) Any (lbegun exE {} []) s0 →
    s0.c.pc 0 = .pick (twoSets 0) → s0.c.pc 1 = .pick (twoSets 1) → IdleFrom 2 s0 →
    LSteps (pkExact modeNested) Any s0 s1 → s1.returned 0 (.bool true) → s1.returned 1 (.bool true) → IdleFrom 2 s1 →
    LSteps (pkExact modeNested) Any s1 s2 → s2.returned 4 (.seen L) → (∀ u, u ≠ 4 → s2.c.pc u = s1.c.pc u ∧ s2.owe u = s1.owe u) →
    s2.Len = L.length

def noCk : LSt → Tid → LSt → Bool := fun _ _ _ => true

/-- The calls of the schedule: two Sets, and goroutine 4 ranges. -/
def lenCalls : Tid → Call
  | 4 => .range
  | g => twoSets g

/-- C87 fails: of two overlapping Sets one is not linked (C33_refuted), but both are counted.  Len is 2, Range shows one item. -/
theorem C87_refuted : ¬ C87_statement := by
  intro h
  have key : ((lsched noCk modeNested lenCalls 2 (lbegun exE {} []) [(0, 1), (1, 1)]).bind (fun s0 =>
      (lsched noCk modeNested lenCalls 2 s0 [(0, 48), (1, 100), (0, 100)]).bind (fun s1 =>
        (lburst noCk modeNested lenCalls 5 s1 4 100).map (fun s2 =>
          (decide (s0.c.pc 0 = .pick (twoSets 0) ∧ s0.c.pc 1 = .pick (twoSets 1)),
           decide (s1.c.pc 0 = .ret (.bool true) ∧ s1.c.pc 1 = .ret (.bool true)) && !s1.owe 0 && !s1.owe 1,
           (match s2.c.pc 4 with | .ret (.seen L) => decide (L.length = 1) | _ => false) && !s2.owe 4, s2.len))))) = some (true, true, true, 2) := by
    decide +kernel
  obtain ⟨s0, h0, h1⟩ := Option.bind_eq_some_iff.1 key
  obtain ⟨s1, h2, h3⟩ := Option.bind_eq_some_iff.1 h1
  obtain ⟨s2, h4, h5⟩ := Option.map_eq_some_iff.1 h3
  simp only [Prod.mk.injEq, decide_eq_true_eq, Bool.and_eq_true, Bool.not_eq_true'] at h5
  obtain ⟨e1, ⟨⟨e2, e3⟩, e4⟩, ⟨e5, e6⟩, e7⟩ := h5
  have hid : ∀ k, IdleFrom k (lbegun exE {} []) := fun k u _ => ⟨rfl, rfl⟩
  have r0 := lsched_sound (P := Any) (fun _ _ _ _ _ => trivial) h0 (hid 2)
  have r1 := lsched_sound (P := Any) (fun _ _ _ _ _ => trivial) h2 r0.2
  have r2 := lburst_sound (P := Any) (fun _ _ _ _ _ => trivial) h4 (fun u hu => r1.2 u (le_trans (by decide) hu))
  have hoth : ∀ u, u ≠ 4 → s2.c.pc u = s1.c.pc u ∧ s2.owe u = s1.owe u := fun u hu => lburst_other h4 hu
  split at e5
  · rename_i L hL
    have := h s0 s1 s2 L r0.1 e1.1 e1.2 r0.2 r1.1 ⟨e2.1, e3⟩ ⟨e2.2, e4⟩ r1.2 r2.1 ⟨hL, e6⟩ hoth
    rw [LSt.Len, e7] at this
    simp only [decide_eq_true_eq] at e5
    rw [e5] at this
    exact absurd this (by decide)
  · cases e5

/-- C87, all schedules: what a finished Range shows is counted, except for the goroutines `O` that have linked an item and not added
their 1 yet (their Set has not returned).  So Len never answers less than the number of keys there. -/
theorem C87_range_partial (pk : PkOk Pk) (E : Env) (cfg : Cfg) (ops : List Op) {s0 s : LSt} {g : Tid} {L : List Ref} {O : List Tid}
    (h0 : LSteps Pk Any (lbegun E cfg ops) s0) (hg : s0.c.pc g = .idle) (h : LSteps Pk Any s0 s) (hr : s.c.pc g = .ret (.seen L))
    (hO : ∀ u, s.owe u = true → u ∈ O) : (L.length : Int) ≤ s.Len + O.length := by
  obtain ⟨hn, _, hl, _⟩ := C53_range pk E cfg ops h0.steps hg h.steps hr
  have h1 : L.length ≤ nIt s.c.items := seen_le_nIt hn hl
  obtain ⟨D, O', i⟩ := (h0.trans h).inv (fun _ => rfl) (fun _ => rfl)
  have h2 : O'.length ≤ O.length := ((List.nodup_append.1 i.nd).2.1.subperm (fun u hu => hO u ((i.owe u).2 hu))).length_le
  have h3 := i.le
  have h4 := run_nIt_le E cfg ops
  have h5 := i.len
  have h6 : (lbegun E cfg ops).len = (run E (initSt cfg) ops).1.len := rfl
  have h7 : nIt (lbegun E cfg ops).c.items = nIt (run E (initSt cfg) ops).1.items := rfl
  rw [h7] at h3
  rw [h6] at h5
  unfold LSt.Len
  omega

/-- C87, all schedules: Len never decreases, and it has grown by exactly the number of goroutines `D`, each of which called Set in this
execution and was answered true. -/
theorem C87_growth (E : Env) (cfg : Cfg) (ops : List Op) {s : LSt} (h : LSteps Pk Any (lbegun E cfg ops) s) :
    (∀ s', LSteps Pk Any s s' → s.Len ≤ s'.Len) ∧
    ∃ D : List Tid, D.Nodup ∧ s.Len = (lbegun E cfg ops).Len + D.length ∧
      ∀ g ∈ D, Called Pk (lbegun E cfg ops).c s.c g ∧ s.returned g (.bool true) := by
  refine ⟨fun s' h' => h'.mono, ?_⟩
  obtain ⟨D, O, i⟩ := h.inv (fun _ => rfl) (fun _ => rfl)
  refine ⟨D, (List.nodup_append.1 i.nd).1, i.len, fun g hg => ⟨i.called g (by simp [hg]), i.ret g (by simp [hg]), ?_⟩⟩
  cases ho : s.owe g with
  | false => rfl
  | true => exact absurd rfl ((List.nodup_append.1 i.nd).2.2 g hg g ((i.owe g).1 ho))

/-- C87 when insertions take turns (`Turns`: any number of goroutines look up, overwrite, delete and range at any time; a Set of a new
key places its item only while no other goroutine places one) after a clean history: whenever no Set is between its link and its
count, Len is the number of items in the map, live or deleted. -/
theorem C87_turns_partial (pk : PkOk Pk) {E : Env} {cfg : Cfg} {ops : List Op} (hcl : Clean E cfg ops) {s : LSt}
    (h : LSteps Pk (fun a g b => a.c = b.c ∨ Turns a.c g b.c) (lbegun E cfg ops) s) (hO : ∀ u, s.owe u = false) :
    s.Len = nIt s.c.items := by
  obtain ⟨_, O, hn, ho, he⟩ := turns_exact pk h (begun_ti E cfg ops) (fun _ => rfl)
  have hO' : O = [] := by
    cases O with
    | nil => rfl
    | cons u O => have := (ho u).2 (by simp); rw [hO u] at this; cases this
  have h1 := clean_nIt hcl
  have h6 : (lbegun E cfg ops).len = (run E (initSt cfg) ops).1.len := rfl
  have h7 : nIt (lbegun E cfg ops).c.items = nIt (run E (initSt cfg) ops).1.items := rfl
  rw [hO', h6, h7, h1] at he
  simp at he
  unfold LSt.Len
  omega

/-- ... so without deleted items, a Range during which Len stays shows exactly Len items. -/
theorem C87_exact_partial (pk : PkOk Pk) {E : Env} {cfg : Cfg} {ops : List Op} (hcl : Clean E cfg ops) {s0 s : LSt} {g : Tid} {L : List Ref}
    (h0 : LSteps Pk (fun a g b => a.c = b.c ∨ Turns a.c g b.c) (lbegun E cfg ops) s0) (hg : s0.c.pc g = .idle)
    (h : LSteps Pk (fun a g b => a.c = b.c ∨ Turns a.c g b.c) s0 s) (hr : s.returned g (.seen L))
    (hO0 : ∀ u, s0.owe u = false) (hO : ∀ u, s.owe u = false) (hlen : s.Len = s0.Len) (hd : ∀ x ∈ s.c.items, x.deleted = false) :
    s.Len = L.length := by
  have e0 := C87_turns_partial pk hcl h0 hO0
  have e1 := C87_turns_partial pk hcl (h0.trans h) hO
  have hle := C87_range_partial pk E cfg ops (O := []) h0.any hg h.any hr.1 (fun u hu => by rw [hO u] at hu; cases hu)
  obtain ⟨hn, _, _, hl⟩ := C53_range pk E cfg ops h0.steps hg h.steps hr.1
  have hsub : ((s0.c.items.filter (fun e => !e.dummy)).map (·.ref)) ⊆ L := by
    intro r hr'
    obtain ⟨x, hx, rfl⟩ := List.mem_map.1 hr'
    simp only [List.mem_filter, Bool.not_eq_true'] at hx
    obtain ⟨y, hy, hs⟩ := h.steps.ext.mem hx.1
    have hyd := hd y hy
    have hxd : x.deleted = false := by
      cases hx' : x.deleted with
      | false => rfl
      | true => rw [hs.2.2.2.2 hx'] at hyd; cases hyd
    exact hl (t := x.rev) (c := x.conflict) ⟨x, hx.1, rfl, rfl, rfl, hx.2, hxd⟩ ⟨y, hy, hs.1, hs.2.1, hs.2.2.1, by rw [hs.2.2.2.1]; exact hx.2, hyd⟩
  have hnd : ((s0.c.items.filter (fun e => !e.dummy)).map (·.ref)).Nodup := by
    have := (h0.steps.j0 pk (begun_j1 E cfg ops).toJ0).nd
    exact this.sublist (List.Sublist.map _ List.filter_sublist)
  have hge := (hnd.subperm hsub).length_le
  rw [List.length_map, ← List.countP_eq_length_filter] at hge
  have hge : nIt s0.c.items ≤ L.length := hge
  simp at hle
  omega

/-- Three keys, one of them put in by StoreItem. -/
def exPlain : List Op := [ .storeItem { kind := .sample, key := sk 1, val := exV 10 }, .set (sk 2) (exV 20), .set (sk 3) (exV 30) ]
theorem exPlain_clean : Clean exE exCfg exPlain := cleanB_sound (by decide +kernel)

/-- Non-vacuity of the theorems above: goroutine 0 sets a new key while goroutine 2 looks one up and goroutine 3 overwrites one, then goroutine 1
sets another new key, then goroutine 4 ranges. -/
def turnCalls : Tid → Call
  | 0 => setCall 7 (exV 1)
  | 1 => setCall 9 (exV 2)
  | 2 => getCall 1
  | 3 => setCall 3 (exV 4)
  | _ => .range

example : ∃ s0 s L, Clean exE exCfg exPlain ∧ LSteps (pkExact modeNested) (fun a g b => a.c = b.c ∨ Turns a.c g b.c) (lbegun exE exCfg exPlain) s0 ∧
    LSteps (pkExact modeNested) (fun a g b => a.c = b.c ∨ Turns a.c g b.c) s0 s ∧ s0.c.pc 4 = .idle ∧ s.returned 4 (.seen L) ∧
    (∀ u, s0.owe u = false) ∧ (∀ u, s.owe u = false) ∧ s.Len = s0.Len ∧ (∀ x ∈ s.c.items, x.deleted = false) ∧
    s.returned 0 (.bool true) ∧ s.returned 1 (.bool true) ∧ s.returned 2 (.val (exV 10) true) ∧ s.returned 3 (.bool true) ∧ s.Len = 5 := by
  have key : ((lsched (turnsB 5) modeNested turnCalls 5 (lbegun exE exCfg exPlain) [(0, 20), (2, 4), (3, 10), (0, 400), (1, 400)]).bind (fun s0 =>
      (lsched (turnsB 5) modeNested turnCalls 5 s0 [(2, 300), (4, 10), (3, 400), (4, 400)]).map (fun s =>
        (decide (s0.c.pc 4 = .idle) && (List.range 5).all (fun u => !s0.owe u && !s.owe u) && s.c.items.all (fun x => !x.deleted),
         (match s.c.pc 4 with | .ret (.seen _) => true | _ => false) && decide (s.len = s0.len),
         decide (s.c.pc 0 = .ret (.bool true) ∧ s.c.pc 1 = .ret (.bool true) ∧ s.c.pc 2 = .ret (.val (exV 10) true) ∧ s.c.pc 3 = .ret (.bool true)), s.len)))) =
      some (true, true, true, 5) := by
    decide +kernel
  obtain ⟨s0, h0, h1⟩ := Option.bind_eq_some_iff.1 key
  obtain ⟨s, h2, h3⟩ := Option.map_eq_some_iff.1 h1
  simp only [Prod.mk.injEq, decide_eq_true_eq, Bool.and_eq_true, Bool.not_eq_true', List.all_eq_true, List.mem_range] at h3
  obtain ⟨⟨⟨e1, e2⟩, e3⟩, ⟨e4, e5⟩, e6, e7⟩ := h3
  have r0 := lsched_sound turnsB_sound h0 (fun u _ => ⟨rfl, rfl⟩)
  have r1 := lsched_sound turnsB_sound h2 r0.2
  have o0 : ∀ u, s0.owe u = false := fun u => by
    by_cases hu : u < 5
    · exact (e2 u hu).1
    · exact (r0.2 u (Nat.le_of_not_lt hu)).2
  have o1 : ∀ u, s.owe u = false := fun u => by
    by_cases hu : u < 5
    · exact (e2 u hu).2
    · exact (r1.2 u (Nat.le_of_not_lt hu)).2
  split at e4
  · rename_i L hL
    exact ⟨s0, s, L, exPlain_clean, r0.1, r1.1, e1, ⟨hL, o1 4⟩, o0, o1, e5, e3, ⟨e6.1, o1 0⟩, ⟨e6.2.1, o1 1⟩, ⟨e6.2.2.1, o1 2⟩, ⟨e6.2.2.2, o1 3⟩, e7⟩
  · cases e4

end SLM.Conc
