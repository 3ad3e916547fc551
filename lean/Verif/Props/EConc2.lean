import Verif.Proofs.EConc4
import Verif.Props.EConc
/-!
C58: Delete against concurrent insertions in one embedded bucket.  Vocabulary as in Props/EConc.lean; `NoSet r s`: no
Set of a key with primary (reversed) hash `r` is running; `NoSetStarts r`: none begins in this step.
-/
set_option autoImplicit false
set_option maxRecDepth 20000
namespace SLM.EConc
open Emb (Slot Pool)

theorem get_gone {r c : U64} {s s' : St} {u : Tid} (h : Gone r s) (hu : s.pc u = .look (.get r c)) (st : XStep s u s') :
    s'.pc u = .done (.val none false) := by
  cases st with
  | start hs => obtain ⟨hid, _, _⟩ := start_eq hs; rw [hu] at hid; cases hid
  | move hx hs =>
    unfold exact at hx
    rw [hu] at hx
    cases hx
    unfold step at hs
    split at hs
    · cases hs
    · rw [hu] at hs
      simp only [Call.rev, Call.conf, h.notFound c] at hs
      rw [← Option.some.inj hs, setPC_same]

/-- C58, from the moment of the mark, in any state whatsoever: if a Delete marks an item of the current array that is not the first
one, no replacement array is being filled at that moment, no other live or first slot carries the hash and no Set of such
a key is running, then Delete answers true and, after every execution in which no Set of such a key begins (any number of
insertions, slots taken over, purges, array replacements), a Get of the key answers "not found". -/
theorem C58_mark_partial {r c : U64} {s s1 s2 s3 : St} {t u : Tid} {i : Nat} (h0 : r ≠ 0) (hp : s.pc t = .mark (.del r c) s.cur i)
    (hi : 0 < i) (hlt : i < cap s) (hr : (slotOf s s.cur i).rev = r)
    (hu : ∀ j, j ≠ i → (slotOf s s.cur j).rev = r → 0 < j ∧ (slotOf s s.cur j).deleted = true)
    (hh : ∀ a, ¬ Hidden s a) (hs : NoSet r s) (st : Step s t s1)
    (h2 : Via (NoSetStarts r) s1 s2) (hg : s2.pc u = .look (.get r c)) (a : XStep s2 u s3) :
    s1.pc t = .done (.bool true) ∧ s3.pc u = .done (.val none false) := by
  obtain ⟨g1, g2⟩ := Gone.mark h0 hp hi hlt hr hu hh hs st
  exact ⟨g2, get_gone (g1.via h2) hg a⟩

/-- C58 from the beginning: after an execution of Sets and Gets in which at most one Set at a time is inserting a new key, a
Delete of a stored key that runs while no array is being replaced, nobody is between taking a slot and writing its hash, no
Set of the key is running and a smaller key is stored, answers true; and after every execution, all schedules and calls,
in which no Set of this key begins, a Get of the key answers "not found". -/
theorem C58_partial {g : U64 → U64} {n : Nat} (hn : 0 < n) {s s1 s2 s3 s4 s5 : St} {t u : Tid} {r c : U64} {v : IVal}
    (h : XVia (Neat g) (init n) s) (hk : Kept s r c v) (hq : Settled s) (hh : ∀ a, ¬ Hidden s a) (hs : NoSet r s)
    (hm : ∃ j, j < s.len ∧ rv s j < r) (b0 : start s t (.del r c) = some s1) (b1 : XStep s1 t s2) (b2 : XStep s2 t s3)
    (h2 : Via (NoSetStarts r) s3 s4) (hg : s4.pc u = .look (.get r c)) (a : XStep s4 u s5) :
    s3.pc t = .done (.bool true) ∧ s5.pc u = .done (.val none false) := by
  have hS := (SI.init g hn).via h
  have hsrt := hS.srt hq
  obtain ⟨i, k1, k2, k3, k4, k5, k6⟩ := hk
  have k2 : rv s i = r := k2
  obtain ⟨m, m1, m2⟩ := hm
  have hpos : 0 < i := by
    rcases Nat.eq_zero_or_pos i with e | e
    · exfalso
      subst e
      rcases Nat.eq_zero_or_pos m with e | e
      · subst e; rw [k2] at m2; bv_omega
      · have := hsrt 0 m e m1; rw [k2] at this; bv_omega
    · exact e
  have h0 : r ≠ 0 := fun e => by subst e; bv_omega
  obtain ⟨hid, hfat, rfl⟩ := start_eq b0
  -- the search finds the slot
  have e1 : s2 = setPC s t (.mark (.del r c) s.cur i) := by
    cases b1 with
    | start hs => obtain ⟨hid, _, _⟩ := start_eq hs; simp at hid
    | move hx hs =>
      unfold exact at hx
      rw [setPC_same] at hx
      cases hx
      unfold step at hs
      split at hs
      · cases hs
      · rw [setPC_same] at hs
        have e : exactItem (setPC s t (.look (.del r c))) r c = some (s.cur, i) := by
          show exactItem s r c = _
          rcases hS.search hsrt r c with ⟨j, j1, j2, j3, _⟩ | ⟨_, j2⟩
          · have : j = i := by
              rcases Nat.lt_trichotomy j i with hl | hl | hl
              · have := hsrt j i hl k1; rw [j3, k2] at this; exact absurd this (by bv_omega)
              · exact hl
              · have := hsrt i j hl j1; rw [j3, k2] at this; exact absurd this (by bv_omega)
            rw [j2, this]
          · exact absurd ⟨k2, k3⟩ (j2 i k1)
        simp only [Call.rev, Call.conf, e] at hs
        rw [← Option.some.inj hs]
        unfold setPC
        simp only [St.mk.injEq, true_and]
        funext u
        split <;> rfl
  subst e1
  have hcur : ∀ j, slotOf (setPC s t (.mark (.del r c) s.cur i)) s.cur j = slotOf s s.cur j := fun _ => rfl
  have hidN : ∀ a, ¬ Hidden (setPC s t (.mark (.del r c) s.cur i)) a := by
    intro a ha
    refine hh a ?_
    rw [hidden_iff] at ha ⊢
    obtain ⟨u, hu⟩ := ha
    by_cases e : u = t
    · subst e; simp [PC.fills] at hu
    · rw [setPC_other _ _ _ e] at hu; exact ⟨u, hu⟩
  have hsN : NoSet r (setPC s t (.mark (.del r c) s.cur i)) := by
    intro u c' v' hu
    by_cases e : u = t
    · subst e; rw [setPC_same] at hu; simp [PC.call] at hu
    · rw [setPC_other _ _ _ e] at hu; exact hs u c' v' hu
  have hcn : ∀ a, ¬ Hidden (setPC s t (.mark (.del r c) s.cur i)) a := hidN
  have st : Step (setPC s t (.mark (.del r c) s.cur i)) t s3 := b2.step hS.pi.cur (hcn _)
  refine C58_mark_partial (s := setPC s t (.mark (.del r c) s.cur i)) h0 (setPC_same _ _ _) hpos
    (Nat.lt_of_lt_of_le k1 hS.pi.room) k2 ?_ hidN hsN st h2 hg a
  intro j hj hrj
  exfalso
  have hrj : rv s j = r := hrj
  by_cases hjl : j < s.len
  · rcases Nat.lt_trichotomy j i with hl | hl | hl
    · have := hsrt j i hl k1; rw [hrj, k2] at this; exact absurd this (by bv_omega)
    · exact hj hl
    · have := hsrt i j hl hjl; rw [hrj, k2] at this; exact absurd this (by bv_omega)
  · have hz := hS.pi.zero j (Nat.le_of_not_lt hjl)
    unfold rv at hrj
    rw [hz] at hrj
    exact h0 hrj.symm

/-- Keys 16, 32 and 48 are there; goroutine 4 has found 48, goroutine 5 is about to insert 40. -/
def g0L : List Cmd :=
  [.start 0 (.set 16 1 (w 1)), .move 0 20, .start 1 (.set 32 1 (w 2)), .move 1 20, .start 2 (.set 48 1 (w 3)), .move 2 20,
   .start 4 (.set 48 1 (w 8)), .start 5 (.set 40 1 (w 9)), .move 4 1, .move 5 3]
def g0 : St := (execC (chk 0) (init 3) g0L).getD (init 3)
theorem g0_run : execC (chk 0) (init 3) g0L = some g0 := getD_run (by decide +kernel)
theorem g0_x {c : U64} : XVia (fun s t s' => Neat g1 s t s' ∧ NoRetry s t s' ∧ Spares 0 c s t s') (init 3) g0 := (chk_run g0_run).1
theorem g0_idle : ∀ u, 8 ≤ u → g0.pc u = .idle := (chk_run (c := 0) g0_run).2
/-- The checks on the steps of the executions below: the search sees the published array; no Set of `r` begins. -/
def chkD (r : U64) (s : St) (t : Tid) (s' : St) : Bool :=
  decide (t < 8) && decide (s.cur < s.next) && (List.range 8).all (fun u => decide ((s.pc u).fills ≠ some s.cur)) &&
  (match s.pc t, s'.pc t with
   | .idle, .look (.set r' _ _) => decide (r' ≠ r)
   | _, _ => true)

theorem chkD_run {r : U64} {s s' : St} {l : List Cmd} (hi : ∀ u, 8 ≤ u → s.pc u = .idle) (e : execC (chkD r) s l = some s') :
    Via (NoSetStarts r) s s' := by
  have h := (execC_fin (Q := fun s t s' => (s.cur < s.next ∧ ¬ Hidden s s.cur) ∧ NoSetStarts r s t s') (N := 8)
    (fun s t s' h => by unfold chkD at h; simp only [Bool.and_eq_true, decide_eq_true_eq] at h; exact h.1.1.1) (by
      intro s t s' hi h
      unfold chkD at h
      simp only [Bool.and_eq_true, decide_eq_true_eq, List.all_eq_true, List.mem_range] at h
      obtain ⟨⟨⟨_, h1⟩, h2⟩, h3⟩ := h
      refine ⟨⟨h1, ?_⟩, ?_⟩
      · rw [hidden_iff]
        rintro ⟨u, hu⟩
        by_cases hu8 : u < 8
        · exact h2 u hu8 hu
        · rw [hi u (Nat.not_lt.1 hu8)] at hu; cases hu
      · intro c v e1 e2
        rw [e1, e2] at h3
        simp at h3) l _ _ hi .refl e).1
  clear e
  induction h with
  | refl => exact .refl
  | tail _ st hp ih => exact .tail ih (st.step hp.1.1 hp.1.2) hp.2

/-- One undisturbed step. -/
def go (s : St) (t : Tid) : St := ((exact s t).bind (fun ch => step ch s t)).getD s
theorem go_x {s : St} {t : Tid} (h : ((exact s t).bind (fun ch => step ch s t)).isSome = true) : XStep s t (go s t) := by
  have e := getD_run (d := s) h
  rw [Option.bind_eq_some_iff] at e
  obtain ⟨ch, h1, h2⟩ := e
  exact .move h1 h2

/-- Goroutine 3 deletes 32. -/
def g1s : St := (start g0 3 (.del 32 1)).getD g0
def g2s : St := go g1s 3
def g3s : St := go g2s 3
/-- Goroutine 5 replaces the array and inserts 40, goroutine 4 returns, goroutine 6 gets 32. -/
def g4L : List Cmd := [.move 5 40, .move 4 9, .start 6 (.get 32 1)]
def g4s : St := (execC (chkD 32) g3s g4L).getD g3s
def g5s : St := go g4s 6
theorem g01 : start g0 3 (.del 32 1) = some g1s := getD_run (by decide +kernel)
theorem g12 : XStep g1s 3 g2s := go_x (by decide +kernel)
theorem g23 : XStep g2s 3 g3s := go_x (by decide +kernel)
theorem g45 : XStep g4s 6 g5s := go_x (by decide +kernel)
theorem g3_idle : ∀ u, 8 ≤ u → g3s.pc u = .idle := by
  intro u hu
  have h3 : u ≠ 3 := by rintro rfl; exact absurd hu (by decide)
  rw [g23.other h3, g12.other h3, (XStep.start g01).other h3]
  exact g0_idle u hu
theorem g4_run : execC (chkD 32) g3s g4L = some g4s := getD_run (by decide +kernel)
theorem g34 : Via (NoSetStarts 32) g3s g4s := chkD_run g3_idle g4_run

theorem noHidden8 {s : St} (hi : ∀ u, 8 ≤ u → s.pc u = .idle) (h : ∀ u ∈ List.range 8, (s.pc u).fills = none) : ∀ a, ¬ Hidden s a := by
  intro a
  rw [hidden_iff]
  rintro ⟨u, hu⟩
  have := all8 (P := fun p => p.fills = none) hi rfl h u
  rw [this] at hu; cases hu

def PC.setsRev (r : U64) (p : PC) : Bool := match p.call with
  | some (.set r' _ _) => decide (r' = r)
  | _ => false

theorem noSet8 {s : St} {r : U64} (hi : ∀ u, 8 ≤ u → s.pc u = .idle) (h : ∀ u ∈ List.range 8, (s.pc u).setsRev r = false) : NoSet r s := by
  intro u c v hu
  have := all8 (P := fun p => p.setsRev r = false) hi rfl h u
  unfold PC.setsRev at this
  rw [hu] at this
  simp at this

/-- The hypotheses of `C58_partial` are met by `g0` … `g5s`: a Set of 48 and one of the new key 40 are under way, and the array has
been replaced before the Get. -/
example : XVia (Neat g1) (init 3) g0 ∧ Kept g0 32 1 (w 2) ∧ Settled g0 ∧ (∀ a, ¬ Hidden g0 a) ∧ NoSet 32 g0 ∧
    (∃ j, j < g0.len ∧ rv g0 j < 32) ∧ start g0 3 (.del 32 1) = some g1s ∧ XStep g1s 3 g2s ∧ XStep g2s 3 g3s ∧
    Via (NoSetStarts 32) g3s g4s ∧ g4s.pc 6 = .look (.get 32 1) ∧ XStep g4s 6 g5s ∧ g4s.cur ≠ g3s.cur ∧
    g4s.pc 5 = .done (.bool true) :=
  ⟨g0_x (c := 1) |>.mono fun _ _ _ h => h.1,
   ⟨1, by decide +kernel, by decide +kernel, by decide +kernel, by decide +kernel, by decide +kernel,
    all8 (P := fun p => p.claimAt ≠ some 1) g0_idle (by decide) (by decide +kernel)⟩,
   settled8 g0_idle (by decide +kernel), noHidden8 g0_idle (by decide +kernel), noSet8 g0_idle (by decide +kernel),
   ⟨0, by decide +kernel, by decide +kernel⟩, g01, g12, g23, g34, by decide +kernel, g45, by decide +kernel, by decide +kernel⟩

/-- Those of `C58_mark_partial` by the state `g2s`. -/
example : (∃ i, g2s.pc 3 = .mark (.del 32 1) g2s.cur i ∧ 0 < i ∧ i < cap g2s ∧ (slotOf g2s g2s.cur i).rev = 32 ∧
    ∀ j, j ≠ i → (slotOf g2s g2s.cur j).rev = 32 → 0 < j ∧ (slotOf g2s g2s.cur j).deleted = true) := by
  refine ⟨1, by decide +kernel, by decide, by decide +kernel, by decide +kernel, ?_⟩
  have hc : (g2s.arrs g2s.cur).length = 3 := by decide +kernel
  have h : ∀ j ∈ List.range 3, j ≠ 1 → (slotOf g2s g2s.cur j).rev ≠ 32 := by decide +kernel
  intro j hj hr
  exfalso
  by_cases hj3 : j < 3
  · exact h j (List.mem_range.2 hj3) hj hr
  · have : slotOf g2s g2s.cur j = {} := by
      unfold slotOf
      rw [List.getD_eq_getElem?_getD, List.getElem?_eq_none (by omega)]; rfl
    rw [this] at hr
    exact absurd hr (by decide)

end SLM.EConc
