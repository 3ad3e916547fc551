import Verif.Proofs.Trie
/-! The lists of buckets of equal level (map.go:868-900, 1211-1241, 1802-1814; bucket.go:215-225). -/
set_option autoImplicit false
namespace SLM

theorem findLevelLoop_mem (m : Path → Bkt) (r : U64) : ∀ (l : List Path) (cnt : Nat) (q : Path),
    findLevelLoop m r cnt l = some q → q ∈ l
  | [], _, _, h => by simp [findLevelLoop] at h
  | [_], _, _, h => by simp [findLevelLoop] at h
  | a :: b :: rest, cnt, q, h => by
    simp only [findLevelLoop] at h
    split at h
    · cases h; simp
    · split at h
      · cases h; simp
      · exact List.mem_cons_of_mem _ (findLevelLoop_mem m r (b :: rest) (cnt + 1) q h)

theorem findNextLevel_mem {le : Bool} {m : Path → Bkt} {bl : List Path} {r : U64} {l : List Path} {q : Path}
    (h : findNextLevel le m bl r l = some q) : q ∈ l := by
  unfold findNextLevel at h
  cases hf : findLevelLoop m r 0 l with
  | some x => rw [hf] at h; cases h; exact findLevelLoop_mem m r l 0 _ hf
  | none =>
    rw [hf] at h
    match l, h with
    | [_], h => cases h; simp
    | a :: b :: _, h =>
      simp only at h
      split at h <;> cases h <;> simp

theorem around {l : List Path} {n : Path} (h : n ∈ l) :
    l.takeWhile (fun q => decide (q ≠ n)) ++ n :: (l.dropWhile (fun q => decide (q ≠ n))).drop 1 = l := by
  induction l with
  | nil => simp at h
  | cons a l ih =>
    by_cases ha : a = n
    · subst ha; simp
    · have hn : n ∈ l := by
        rcases List.mem_cons.1 h with h | h
        · exact absurd h.symm ha
        · exact h
      simp only [ne_eq, ha, not_false_eq_true, decide_true, List.takeWhile_cons_of_pos, List.dropWhile_cons_of_pos,
        List.cons_append, List.cons.injEq, true_and]
      exact ih hn

theorem mem_levelInsert {le : Bool} {m : Path → Bkt} {bl : List Path} {b : Path} {l : List Path} {p : Path}
    (h : p ∈ levelInsert le m bl b l) : p = b ∨ p ∈ l := by
  unfold levelInsert at h
  cases hf : findNextLevel le m bl (m b).rev l with
  | none => rw [hf] at h; left; simpa using h
  | some n =>
    rw [hf] at h
    have ha := around (findNextLevel_mem hf)
    simp only at h
    have key : p = b ∨ p ∈ l.takeWhile (fun q => decide (q ≠ n)) ++ n :: (l.dropWhile (fun q => decide (q ≠ n))).drop 1 := by
      split at h
      · simp only [List.mem_append, List.mem_cons] at h ⊢; tauto
      · split at h
        · simp only [List.mem_append, List.mem_cons] at h ⊢; tauto
        · right; rw [ha]; exact h
    rwa [ha] at key

theorem levelInsert_keeps {le : Bool} {m : Path → Bkt} {bl : List Path} {b : Path} {l : List Path} {p : Path}
    (h : p ∈ l) : p ∈ levelInsert le m bl b l := by
  unfold levelInsert
  cases hf : findNextLevel le m bl (m b).rev l with
  | none =>
    unfold findNextLevel at hf
    match l, h, hf with
    | [_], _, hf => simp [findLevelLoop] at hf
    | a :: c :: _, _, hf =>
      split at hf
      · cases hf
      · simp only at hf; split at hf <;> cases hf
  | some n =>
    have ha := around (findNextLevel_mem hf)
    simp only
    rw [← ha] at h
    split
    · simp only [List.mem_append, List.mem_cons] at h ⊢; tauto
    · split
      · simp only [List.mem_append, List.mem_cons] at h ⊢; tauto
      · rw [← ha]; exact h

theorem mem_aliasInsert {m : Path → Bkt} {r : U64} {a p : Path} : ∀ {l : List Path}, p ∈ aliasInsert m r a l ↔ p = a ∨ p ∈ l
  | [] => by simp [aliasInsert]
  | [q] => by simp [aliasInsert]
  | q :: q' :: rest => by
    simp only [aliasInsert]
    split
    · simp
    · rw [List.mem_cons, mem_aliasInsert]; simp only [List.mem_cons]; tauto

/-! ### buckets once initialised stay so -/

theorem V_upd {m : Path → Bkt} {p q : Path} {x : Bkt} (h : V m p) (hx : V m q → x.level ≠ 0) : V (upd m q x) p := by
  unfold V upd
  split
  · next e => subst e; exact hx h
  · exact h

theorem V_activate {m : Path → Bkt} {p q : Path} (h : V m p) : V (activate m q) p := by
  unfold activate; split
  · exact V_upd h (fun h => h)
  · exact h

theorem V_runOk {m : Path → Bkt} {p : Path} (ok : OkFn) (h : V m p) : V (runOk m ok) p := by
  cases ok with
  | none => exact h
  | activate q => exact V_activate h
  | extend b i =>
    simp only [runOk]
    apply V_activate
    split
    · exact h
    · exact V_upd h (fun h => h)

theorem V_allocDowns {m : Path → Bkt} {p b : Path} (h : V m p) : V (allocDowns m b) p := by
  unfold allocDowns; split
  · exact V_upd (V_upd h (fun h => h)) (fun _ => by simp)
  · exact h

theorem V_moveLen {m : Path → Bkt} {b c p : Path} {n : Nat} (h : V m p) : V (moveLen m b c n) p :=
  V_upd (V_upd h (fun h => h)) (fun h => h)

theorem bfpLoop_V (r : U64) : ∀ (f l : Nat) (m : Path → Bkt) (b : Path) (m1 : Path → Bkt) (b1 : Path) (ok : OkFn),
    bfpLoop r f l m b = some (m1, b1, ok) → ∀ p, V m p → V m1 p
  | 0, l, m, b, m1, b1, ok, h, p, hp => by simp only [bfpLoop, Option.some.injEq, Prod.mk.injEq] at h; rw [← h.1]; exact hp
  | f + 1, l, m, b, m1, b1, ok, h, p, hp => by
    have h1 : V (allocDowns m b) p := V_allocDowns hp
    simp only [bfpLoop] at h
    split at h
    · cases h
    · split at h
      · split at h
        · simp only [Option.some.injEq, Prod.mk.injEq] at h
          rw [← h.1]
          exact V_upd (V_upd h1 (fun h => h)) (fun _ => by simp)
        · cases h
      · split at h
        · cases h
        · split at h
          · simp only [Option.some.injEq, Prod.mk.injEq] at h
            rw [← h.1]
            exact V_upd h1 (fun _ => by simp)
          · exact bfpLoop_V r f (l + 1) _ _ _ _ _ h p h1

theorem V_runOk_iff {m : Path → Bkt} {p : Path} (ok : OkFn) : V (runOk m ok) p ↔ V m p := by
  have hu : ∀ (m : Path → Bkt) (q : Path) (x : Bkt), x.level = (m q).level → (V (upd m q x) p ↔ V m p) := by
    intro m q x hx
    unfold V upd
    split
    · next e => subst e; rw [hx]
    · rfl
  have ha : ∀ (m : Path → Bkt) (q : Path), V (activate m q) p ↔ V m p := by
    intro m q
    unfold activate
    split
    · exact hu _ _ _ rfl
    · rfl
  cases ok with
  | none => rfl
  | activate q => exact ha m q
  | extend b i =>
    simp only [runOk]
    rw [ha]
    split
    · rfl
    · exact hu _ _ _ rfl

/-- The lists hold initialised buckets only, and every child 0 is in the list of its level. -/
structure LvOk (m : Path → Bkt) (lv : Nat → List Path) : Prop where
  val : ∀ l, ∀ p ∈ lv l, V m p
  child : ∀ p, V m (0 :: p) → 0 :: p ∈ lv (p.length + 1)

theorem LvOk.alloc {m : Path → Bkt} {lv : Nat → List Path} {b : Path} (h : LvOk m lv) :
    LvOk (allocDowns m b) (allocLv m lv b (b.length + 1)) := by
  unfold allocLv
  by_cases hc : (m b).cnt = 0
  · rw [if_pos hc]
    constructor
    · intro l p hp
      unfold setLv at hp
      split at hp
      · rcases mem_aliasInsert.1 hp with rfl | hp
        · unfold allocDowns; rw [if_pos hc]; unfold V upd; simp
        · exact V_allocDowns (h.val _ p hp)
      · exact V_allocDowns (h.val _ p hp)
    · intro p hp
      by_cases hpb : p = b
      · subst hpb; unfold setLv; rw [if_pos rfl]; exact mem_aliasInsert.2 (Or.inl rfl)
      · have hp' : V m (0 :: p) := by
          unfold allocDowns at hp
          rw [if_pos hc] at hp
          unfold V at hp ⊢; unfold upd at hp
          simp only [List.cons.injEq, true_and, hpb, if_false] at hp
          split at hp
          · next e => rw [e]; exact hp
          · exact hp
        unfold setLv
        split
        · next e => exact mem_aliasInsert.2 (Or.inr (e ▸ h.child p hp'))
        · exact h.child p hp'
  · rw [if_neg hc]
    have : allocDowns m b = m := by unfold allocDowns; rw [if_neg hc]
    rw [this]; exact h

theorem LvOk.mono {m m' : Path → Bkt} {lv : Nat → List Path} (h : LvOk m lv) (h1 : ∀ p, V m p → V m' p)
    (h2 : ∀ p, V m' (0 :: p) → V m (0 :: p)) : LvOk m' lv :=
  ⟨fun l p hp => h1 p (h.val l p hp), fun p hp => h.child p (h2 p hp)⟩

theorem allocDowns_cnt (m : Path → Bkt) (b : Path) : (allocDowns m b b).cnt ≠ 0 := by
  unfold allocDowns
  split
  · unfold upd; simp
  · assumption

theorem bfpLevels_ok (r : U64) : ∀ (f l : Nat) (m : Path → Bkt) (b : Path) (lv : Nat → List Path)
    (m1 : Path → Bkt) (b1 : Path) (ok : OkFn), l = b.length + 1 → bfpLoop r f l m b = some (m1, b1, ok) → LvOk m lv →
    LvOk m1 (bfpLevels r f l m b lv)
  | 0, l, m, b, lv, m1, b1, ok, _, h, hl => by
    simp only [bfpLoop, Option.some.injEq, Prod.mk.injEq] at h
    rw [← h.1]; exact hl
  | f + 1, l, m, b, lv, m1, b1, ok, hlen, h, hl => by
    subst hlen
    have h1 := hl.alloc (b := b)
    have hc := allocDowns_cnt m b
    simp only [bfpLoop] at h
    simp only [bfpLevels]
    split at h
    · cases h
    · next g1 =>
      split at h
      · next g2 =>
        split at h
        · simp only [Option.some.injEq, Prod.mk.injEq] at h
          rw [if_pos (Or.inr (Or.inl g2)), ← h.1]
          refine h1.mono (fun p hp => V_upd (V_upd hp (fun h => h)) (fun _ => by simp)) ?_
          intro p hp
          have hi : ¬ nib r (b.length + 1) = 0 := by omega
          have e1 : ¬ 0 :: p = nib r (b.length + 1) :: b := by
            intro e; exact hi (List.cons.inj e).1.symm
          unfold V at hp ⊢; unfold upd at hp
          simp only [if_neg e1] at hp
          split at hp
          · next e => rw [e]; exact hp
          · exact hp
        · cases h
      · next g2 =>
        split at h
        · cases h
        · next g3 =>
          split at h
          · next g4 =>
            simp only [Option.some.injEq, Prod.mk.injEq] at h
            rw [if_pos (Or.inr (Or.inr (Or.inr g4))), ← h.1]
            refine h1.mono (fun p hp => V_upd hp (fun _ => by simp)) ?_
            intro p hp
            have e1 : ¬ 0 :: p = nib r (b.length + 1) :: b := by
              intro e; exact g4.1 (List.cons.inj e).1.symm
            unfold V at hp ⊢; unfold upd at hp
            simpa only [if_neg e1] using hp
          · next g4 =>
            rw [if_neg (by tauto)]
            exact bfpLevels_ok r f _ _ _ _ _ _ _ (by simp) h h1

theorem bfpLevels_walk {m : Path → Bkt} (t : TI m) (r : U64) (lv : Nat → List Path) (g : Nat) : ∀ (f l : Nat), 1 ≤ l →
    (∀ j, l < j → j ≤ l + f → V m (pref r j)) →
    bfpLevels r (f + g) (l + 1) m (pref r l) lv = bfpLevels r g (l + f + 1) m (pref r (l + f)) lv := by
  intro f
  induction f with
  | zero => intro l _ _; simp
  | succ f ih =>
    intro l hl hv
    have hv1 := hv (l + 1) (by omega) (by omega)
    have hne := pref_ne_nil r l hl
    have hp := t.parent (nib r (l + 1)) (pref r l) hne hv1
    have hd := t.down _ hne hp.1
    have hs := (t.val _ (pref_ne_nil r (l + 1) (by omega)) hv1).2.2.2.1
    have hcnt : ¬ (m (pref r l)).cnt = 0 := by omega
    have ha : allocDowns m (pref r l) = m := by unfold allocDowns; rw [if_neg hcnt]
    have hal : allocLv m lv (pref r l) (l + 1) = lv := by unfold allocLv; rw [if_neg hcnt]
    rw [show f + 1 + g = (f + g) + 1 by omega]
    simp only [bfpLevels, ha, hal]
    rw [if_neg (by
      rintro (h | h | h | ⟨_, h⟩)
      · omega
      · omega
      · omega
      · exact hs h)]
    have := ih (l + 1) (by omega) (fun j h1 h2 => hv j (by omega) (by omega))
    rw [show l + (f + 1) = l + 1 + f by omega]
    exact this

theorem poolLevels_ok {m : Path → Bkt} {r : U64} {lv : Nat → List Path} {m1 : Path → Bkt} {b1 : Path} {ok : OkFn}
    (h : bucketFromPool m r = some (m1, b1, ok)) (hl : LvOk m lv) : LvOk m1 (poolLevels m r lv) :=
  bfpLevels_ok r _ _ m _ lv m1 b1 ok (by simp) h hl

theorem LvOk.insert {m : Path → Bkt} {lv : Nat → List Path} (h : LvOk m lv) {b : Path} (hb : V m b) (le : Bool)
    (bl : List Path) (l : Nat) : LvOk m (setLv lv l (levelInsert le m bl b (lv l))) := by
  constructor
  · intro l' p hp
    unfold setLv at hp
    split at hp
    · rcases mem_levelInsert hp with rfl | hp
      · exact hb
      · exact h.val _ p hp
    · exact h.val _ p hp
  · intro p hp
    unfold setLv
    split
    · next e => exact levelInsert_keeps (e ▸ h.child p hp)
    · exact h.child p hp

/-- The list of a level that has a bucket holds at least a child 0, so map.go:1236-1240 never looks at the terminator of
an empty list. -/
theorem level_list_nonempty {m : Path → Bkt} {lv : Nat → List Path} (t : TI m) (h : LvOk m lv) {i : Nat} {q : Path}
    (hp : V m (i :: q)) : lv (q.length + 1) ≠ [] := by
  have h0 : V m (0 :: q) := by
    by_cases hq : q = []
    · subst hq; exact t.top 0 (by omega)
    · have h1 := t.parent i q hq hp
      exact ((t.down q hq h1.1).2.2.2 (by omega)).2
  intro hc
  have := h.child q h0
  rw [hc] at this
  simp at this

/-- `NextOnLevel` of an initialised bucket is an initialised bucket. -/
theorem LvOk.next {st : St} (h : LvOk st.mem st.lv) {b : Path} (hb : V st.mem b) : V st.mem (st.nextOnLevel b) := by
  unfold St.nextOnLevel
  split
  · next x n rest heq =>
    apply h.val (st.mem b).level
    apply (List.dropWhile_sublist _).subset
    rw [heq]; simp
  · exact hb

/-! ### what the lists hold -/

theorem aliasInsert_perm (m : Path → Bkt) (r : U64) (a : Path) : ∀ l : List Path, (aliasInsert m r a l).Perm (a :: l)
  | [] => by simp [aliasInsert]
  | [q] => by simp [aliasInsert]
  | q :: q' :: rest => by
    simp only [aliasInsert]
    split
    · exact .refl _
    · exact ((aliasInsert_perm m r a (q' :: rest)).cons q).trans (.swap _ _ _)

theorem levelInsert_perm {le : Bool} {m : Path → Bkt} {bl : List Path} {b : Path} {l : List Path} (h : ∀ q ∈ l, (m q).rev ≠ (m b).rev) :
    (levelInsert le m bl b l).Perm (b :: l) := by
  unfold levelInsert
  cases hf : findNextLevel le m bl (m b).rev l with
  | none =>
    unfold findNextLevel at hf
    match l, hf with
    | [], _ => exact .refl _
    | [_], hf => simp [findLevelLoop] at hf
    | a :: c :: _, hf =>
      split at hf
      · cases hf
      · simp only at hf; split at hf <;> cases hf
  | some n =>
    have hn := findNextLevel_mem hf
    have ha := around hn
    simp only
    split
    · conv => rhs; rw [← ha]
      exact List.perm_middle
    · rw [if_pos (h n hn)]
      conv => rhs; rw [← ha]
      refine List.Perm.trans ?_ List.perm_middle
      exact List.Perm.append_left _ (.swap _ _ _)

theorem runOk_fields (m : Path → Bkt) (ok : OkFn) (p : Path) : (runOk m ok p).level = (m p).level ∧ (runOk m ok p).rev = (m p).rev := by
  have hu : ∀ (m : Path → Bkt) (q : Path) (x : Bkt), x.level = (m q).level → x.rev = (m q).rev →
      (upd m q x p).level = (m p).level ∧ (upd m q x p).rev = (m p).rev := by
    intro m q x h1 h2
    unfold upd
    split
    · next e => subst e; exact ⟨h1, h2⟩
    · exact ⟨rfl, rfl⟩
  have ha : ∀ (m : Path → Bkt) (q : Path), (activate m q p).level = (m p).level ∧ (activate m q p).rev = (m p).rev := by
    intro m q
    unfold activate
    split
    · exact hu _ _ _ rfl rfl
    · exact ⟨rfl, rfl⟩
  cases ok with
  | none => exact ⟨rfl, rfl⟩
  | activate q => exact ha m q
  | extend b i =>
    simp only [runOk]
    rw [(ha _ _).1, (ha _ _).2]
    split
    · exact ⟨rfl, rfl⟩
    · exact hu _ _ _ rfl rfl

/-- The last round of `bucketFromPool` makes child 0 if it was not there. -/
theorem bfpLevels_last {m : Path → Bkt} (t : TI m) (r : U64) (lv : Nat → List Path) {b : Path} (hb : b ≠ []) (hv : V m b) (l : Nat) (hl : l = b.length + 1) (j : Nat) :
    (V m (0 :: b) → bfpLevels r 1 l m b lv j = lv j) ∧
    (¬ V m (0 :: b) → (bfpLevels r 1 l m b lv j).Perm (if j = l then (0 :: b) :: lv j else lv j)) := by
  have hd := t.down b hb hv
  have e : bfpLevels r 1 l m b lv = allocLv m lv b l := by
    simp only [bfpLevels]
    split <;> rfl
  rw [e]
  unfold allocLv
  refine ⟨?_, ?_⟩
  · intro h0
    have := (t.parent 0 b hb h0).2
    rw [if_neg (by omega)]
  · intro h0
    have : (m b).cnt = 0 := by
      by_contra hc
      exact h0 (hd.2.2.2 (by omega)).2
    rw [if_pos this]
    unfold setLv
    split
    · next e => subst e; exact aliasInsert_perm ..
    · exact .refl _

end SLM
