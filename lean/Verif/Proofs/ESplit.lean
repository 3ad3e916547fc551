import Verif.Model.ESplit
set_option autoImplicit false
namespace SLM.ESplit

/-! ### Small facts -/

theorem fold_max (l : List U64) : ∀ a : U64, let f := l.foldl (fun a b => if a < b then b else a) a
    (f = a ∨ f ∈ l) ∧ a ≤ f ∧ ∀ y ∈ l, y ≤ f := by
  induction l with
  | nil => intro a; simp
  | cons b l ih =>
    intro a
    simp only [List.foldl_cons]
    obtain ⟨h1, h2, h3⟩ := ih (if a < b then b else a)
    by_cases hab : a < b
    · rw [if_pos hab] at h1 h2 h3 ⊢
      refine ⟨?_, ?_, ?_⟩
      · rcases h1 with h1 | h1
        · exact .inr (by rw [h1]; exact List.mem_cons_self)
        · exact .inr (List.mem_cons_of_mem _ h1)
      · bv_omega
      · intro y hy
        rcases List.mem_cons.mp hy with rfl | hy
        · exact h2
        · exact h3 y hy
    · rw [if_neg hab] at h1 h2 h3 ⊢
      refine ⟨?_, h2, ?_⟩
      · rcases h1 with h1 | h1
        · exact .inl h1
        · exact .inr (List.mem_cons_of_mem _ h1)
      · intro y hy
        rcases List.mem_cons.mp hy with rfl | hy
        · bv_omega
        · exact h3 y hy

theorem fold_min (l : List U64) : ∀ a : U64, let f := l.foldl (fun a b => if b < a then b else a) a
    f ≤ a ∧ ∀ y ∈ l, f ≤ y := by
  induction l with
  | nil => intro a; simp
  | cons b l ih =>
    intro a
    simp only [List.foldl_cons]
    obtain ⟨h2, h3⟩ := ih (if b < a then b else a)
    by_cases hab : b < a
    · rw [if_pos hab] at h2 h3 ⊢
      refine ⟨by bv_omega, ?_⟩
      intro y hy
      rcases List.mem_cons.mp hy with rfl | hy
      · exact h2
      · exact h3 y hy
    · rw [if_neg hab] at h2 h3 ⊢
      refine ⟨h2, ?_⟩
      intro y hy
      rcases List.mem_cons.mp hy with rfl | hy
      · bv_omega
      · exact h3 y hy

/-- `f` is the greatest reachable boundary that is not above `r`. -/
structure IsFind (l : List U64) (r f : U64) : Prop where
  mem : f ∈ l
  le : f ≤ r
  max : ∀ y ∈ l, y ≤ r → y ≤ f

theorem IsFind.uniq {l : List U64} {r f g : U64} (a : IsFind l r f) (b : IsFind l r g) : f = g := by
  have h1 := a.max g b.mem b.le
  have h2 := b.max f a.mem a.le
  bv_omega

theorem find_is {s : St} (h0 : (0 : U64) ∈ s.reach) (r : U64) : IsFind s.reach r (find s r) := by
  obtain ⟨h1, h2, h3⟩ := fold_max (s.reach.filter (fun b => decide (b ≤ r))) 0
  have hin : (0 : U64) ∈ s.reach.filter (fun b => decide (b ≤ r)) := List.mem_filter.mpr ⟨h0, by simp only [decide_eq_true_eq]; bv_omega⟩
  have hm : find s r ∈ s.reach.filter (fun b => decide (b ≤ r)) := by
    rcases h1 with h1 | h1
    · unfold find; rw [h1]; exact hin
    · exact h1
  refine ⟨(List.mem_filter.mp hm).1, by simpa using (List.mem_filter.mp hm).2, ?_⟩
  intro y hy hyr
  exact h3 y (List.mem_filter.mpr ⟨hy, by simpa using hyr⟩)

theorem find_eq {s : St} (h0 : (0 : U64) ∈ s.reach) {r f : U64} (h : IsFind s.reach r f) : find s r = f :=
  (find_is h0 r).uniq h

theorem next_le {s : St} {x y : U64} (hy : y ∈ s.listed) (hxy : x < y) : next s x ≤ y :=
  (fold_min (s.listed.filter (fun b => decide (x < b))) maxU64).2 y (List.mem_filter.mpr ⟨hy, by simpa using hxy⟩)

/-- With at least four values between a bucket and the next one, the new boundary lies strictly between them. -/
theorem newRev_between {x n : U64} (h : x.toNat + 4 ≤ n.toNat) : x < Emb.newRevE n x ∧ Emb.newRevE n x < n := by
  have hn := n.isLt
  have e : (n / 2 + x / 2).toNat = n.toNat / 2 + x.toNat / 2 := by
    rw [BitVec.toNat_add, BitVec.toNat_udiv, BitVec.toNat_udiv]
    have : (2 : U64).toNat = 2 := rfl
    rw [this]; omega
  unfold Emb.newRevE
  simp only
  rw [BitVec.lt_def, BitVec.lt_def]
  split
  · rw [BitVec.toNat_add, e]
    have : (1 : U64).toNat = 1 := rfl
    rw [this]; omega
  · rw [e]; omega

theorem mem_ins {r a : U64} {l : List U64} : a ∈ ins r l ↔ a = r ∨ a ∈ l := by
  induction l with
  | nil => simp [ins]
  | cons b l ih =>
    unfold ins
    split
    · simp
    · simp [ih, or_left_comm]

def Sorted (l : List U64) : Prop := l.Pairwise (· ≤ ·)

theorem Sorted.ins {r : U64} {l : List U64} (h : Sorted l) : Sorted (ins r l) := by
  induction l with
  | nil => simp [ESplit.ins, Sorted]
  | cons b l ih =>
    unfold ESplit.ins
    have hb := List.pairwise_cons.mp h
    split
    · rename_i hr
      refine List.pairwise_cons.mpr ⟨?_, h⟩
      intro a ha
      rcases List.mem_cons.mp ha with rfl | ha
      · exact hr
      · have := hb.1 a ha; bv_omega
    · rename_i hr
      refine List.pairwise_cons.mpr ⟨?_, ih hb.2⟩
      intro a ha
      rcases mem_ins.mp ha with rfl | ha
      · bv_omega
      · exact hb.1 a ha

theorem take_lt {m : U64} {l : List U64} : ∀ a ∈ l.take (findIdx m l), a < m := by
  induction l with
  | nil => simp
  | cons b l ih =>
    unfold findIdx
    rw [List.takeWhile_cons]
    split
    · rename_i hb
      intro a ha
      simp only [List.length_cons, List.take_succ_cons, List.mem_cons] at ha
      rcases ha with rfl | ha
      · simpa using hb
      · exact ih a ha
    · simp

theorem drop_ge {m : U64} {l : List U64} (hs : Sorted l) : ∀ a ∈ l.drop (findIdx m l), m ≤ a := by
  induction l with
  | nil => simp
  | cons b l ih =>
    have hb := List.pairwise_cons.mp hs
    unfold findIdx
    rw [List.takeWhile_cons]
    split
    · intro a ha
      simp only [List.length_cons, List.drop_succ_cons] at ha
      exact ih hb.2 a ha
    · rename_i hbm
      intro a ha
      simp only [List.length_nil, List.drop_zero, List.mem_cons] at ha
      have hm : m ≤ b := by simp only [decide_eq_true_eq] at hbm; bv_omega
      rcases ha with rfl | ha
      · exact hm
      · have := hb.1 a ha; bv_omega

theorem mem_take_drop {a : U64} {l : List U64} {i : Nat} (h : a ∈ l) : a ∈ l.take i ∨ a ∈ l.drop i := by
  have := List.take_append_drop i l
  rw [← this] at h
  exact List.mem_append.mp h

/-! ### What a goroutine is doing -/

/-- The bucket whose lock it holds. -/
def PC.held : PC → Option U64
  | .added _ h | .pub _ h _ | .idx _ h _ _ | .cut _ h _ _ _ | .setP _ h _ _ _ | .lst _ h _ _ | .again _ h _ _ | .unl _ h => some h
  | _ => none

/-- The bucket it is splitting and the new one, from publication until the new one is linked. -/
def PC.work : PC → Option (U64 × U64)
  | .idx _ _ x m | .cut _ _ x m _ | .setP _ _ x m _ | .lst _ _ x m => some (x, m)
  | _ => none

/-- The same, while the keys are still in the old bucket. -/
def PC.src : PC → Option (U64 × U64)
  | .idx _ _ x m | .cut _ _ x m _ => some (x, m)
  | _ => none

/-- The new bucket and the keys on their way to it. -/
def PC.fly : PC → Option (U64 × List U64)
  | .setP _ _ _ m (some l) => some (m, l)
  | _ => none

/-- The new bucket, while it has no pool. -/
def PC.bare : PC → Option U64
  | .idx _ _ _ m | .cut _ _ _ m _ | .setP _ _ _ m _ => some m
  | _ => none

/-- The key, once a Set has found or inserted it. -/
def PC.has : PC → Option U64
  | .uLock r _ | .added r _ | .pub r _ _ | .idx r _ _ _ | .cut r _ _ _ _ | .setP r _ _ _ _ | .lst r _ _ _ | .again r _ _ _ | .unl r _ => some r
  | _ => none

/-- The bucket a goroutine has chosen and not locked yet. -/
def PC.chosen : PC → Option (U64 × U64)
  | .gRead r b | .sLook r b | .uLock r b | .sLock r b => some (r, b)
  | _ => none

/-- No listed bucket between `x` and `m`. -/
structure Gap (s : St) (x m : U64) : Prop where
  mem : x ∈ s.listed
  lt : x < m
  gap : ∀ y ∈ s.listed, x < y → m < y

theorem Gap.uniq {s : St} {x x' m m' : U64} (a : Gap s x m) (b : Gap s x' m') (h1 : x < m') (h2 : m' ≤ m) : x = x' := by
  by_cases h : x < x'
  · have := a.gap x' b.mem h; have := b.lt; bv_omega
  · by_cases h' : x' < x
    · have := b.gap x a.mem h'; bv_omega
    · bv_omega

/-! ### Conditions on an execution -/

/-- Splits as they are meant: a bucket with at least four values of room is split by the holder of its lock, and has keys on both sides of the new boundary. -/
def Tame (s : St) : Move → Prop
  | .call _ _ => True
  | .step t =>
    match s.pc t with
    | .pub _ h x => x = h ∧ x ∈ s.listed ∧ x.toNat + 4 ≤ (next s x).toNat
    | .idx _ _ x m => ∀ l, s.pool x = some l → findIdx m l ≠ 0 ∧ findIdx m l < l.length
    | _ => True

/-- A Set of a new key that gets the lock of the bucket it has chosen still has the right bucket. -/
def Fresh (s : St) : Move → Prop
  | .call _ _ => True
  | .step t =>
    match s.pc t with
    | .sLock r b => s.lock b = false → find s r = b
    | _ => True

/-- Nobody inserts `r`. -/
def NoInsert (r : U64) (s : St) : Move → Prop
  | .call _ _ => True
  | .step t => ∀ b, s.pc t = .sLock r b → s.lock b = true

/-! ### The invariant of tame executions -/

structure Inv (s : St) : Prop where
  zero : (0 : U64) ∈ s.listed
  sub : ∀ b ∈ s.listed, b ∈ s.reach
  lpool : ∀ b ∈ s.listed, s.pool b ≠ none
  held : ∀ t h, (s.pc t).held = some h → s.lock h = true
  one : ∀ t u h, (s.pc t).held = some h → (s.pc u).held = some h → t = u
  work : ∀ t x m, (s.pc t).work = some (x, m) → (s.pc t).held = some x ∧ Gap s x m ∧ m ∈ s.reach
  bare : ∀ t m, (s.pc t).bare = some m → s.pool m = none
  cut : ∀ t r h x m i, s.pc t = .cut r h x m i → ∃ l, s.pool x = some l ∧ i = findIdx m l ∧ i ≠ 0 ∧ i < l.length
  nil : ∀ t r h x m, s.pc t ≠ .setP r h x m none
  fly : ∀ t m l, (s.pc t).fly = some (m, l) → Sorted l ∧ ∀ a ∈ l, m ≤ a
  made : ∀ m ∈ s.reach, m ∈ s.listed ∨ ∃ t x, (s.pc t).work = some (x, m)
  pool : ∀ b l, s.pool b = some l → b ∈ s.reach ∧ Sorted l ∧ ∀ a ∈ l, b ≤ a
  chosen : ∀ t r b, (s.pc t).chosen = some (r, b) → b ≤ r
  lstP : ∀ t r h x m, s.pc t = .lst r h x m → s.pool m ≠ none
  ok : s.broken = false

theorem Inv.reach0 {s : St} (i : Inv s) : (0 : U64) ∈ s.reach := i.sub 0 i.zero

theorem work_held {s : St} (i : Inv s) {t u : Tid} {x m m' : U64} (a : (s.pc t).work = some (x, m)) (b : (s.pc u).work = some (x, m')) : t = u :=
  i.one t u x (i.work t x m a).1 (i.work u x m' b).1

/-- No reachable boundary lies between a bucket about to be split and the new boundary, and the new one is not reachable yet. -/
theorem no_between {s : St} (i : Inv s) {t : Tid} {x m : U64} (hh : (s.pc t).held = some x) (hw : (s.pc t).work = none) (g : Gap s x m) :
    ∀ y ∈ s.reach, x < y → y ≤ m → False := by
  intro y hy h1 h2
  rcases i.made y hy with h | ⟨u, x', h⟩
  · have := g.gap y h h1; bv_omega
  · obtain ⟨a, b, -⟩ := i.work u x' y h
    have := g.uniq b h1 h2
    subst this
    have := i.one t u x hh a
    subst this
    rw [hw] at h; cases h

theorem setPC_pc (s : St) (t u : Tid) (p : PC) : (setPC s t p).pc u = if u = t then p else s.pc u := rfl


theorem work_none {p : PC} (h : p.work = none) : p.bare = none ∧ p.src = none ∧ p.fly = none := by
  cases p <;> simp_all [PC.work, PC.bare, PC.src, PC.fly]

/-- Steps that change nothing but where the goroutine is, outside a split. -/
theorem Inv.setPC {s : St} (i : Inv s) (t : Tid) (p : PC) (hh : p.held = none ∨ p.held = (s.pc t).held) (hw : p.work = none)
    (hk : (s.pc t).work = none) (hc : ∀ r b, p.chosen = some (r, b) → b ≤ r) : Inv (setPC s t p) := by
  obtain ⟨w1, w2, w3⟩ := work_none hw
  have hheld : ∀ u h, ((ESplit.setPC s t p).pc u).held = some h → (s.pc u).held = some h := by
    intro u h; rw [setPC_pc]; split
    · rename_i e; subst e; intro e
      rcases hh with hh | hh
      · rw [hh] at e; cases e
      · rw [← hh]; exact e
    · exact id
  have hwork : ∀ u x, ((ESplit.setPC s t p).pc u).work = some x → u ≠ t ∧ (s.pc u).work = some x := by
    intro u x; rw [setPC_pc]; split
    · intro e; rw [hw] at e; cases e
    · rename_i e; exact fun h => ⟨e, h⟩
  refine ⟨i.zero, i.sub, i.lpool, fun u h e => i.held u h (hheld u h e), fun u v h a b => i.one u v h (hheld u h a) (hheld v h b), ?_, ?_, ?_, ?_, ?_, ?_, i.pool, ?_, ?_, i.ok⟩
  · intro u x m e
    obtain ⟨e1, e2⟩ := hwork u _ e
    obtain ⟨a, b, c⟩ := i.work u x m e2
    refine ⟨?_, ⟨b.mem, b.lt, b.gap⟩, c⟩
    rw [setPC_pc, if_neg e1]; exact a
  · intro u m; rw [setPC_pc]; split
    · intro e; rw [w1] at e; cases e
    · exact i.bare u m
  · intro u r h x m j; rw [setPC_pc]; split
    · intro e; rw [e] at hw; cases hw
    · exact i.cut u r h x m j
  · intro u r h x m; rw [setPC_pc]; split
    · intro e; rw [e] at hw; cases hw
    · exact i.nil u r h x m
  · intro u m l; rw [setPC_pc]; split
    · intro e; rw [w3] at e; cases e
    · exact i.fly u m l
  · intro m hm
    rcases i.made m hm with h | ⟨u, x, h⟩
    · exact .inl h
    · refine .inr ⟨u, x, ?_⟩
      rw [setPC_pc, if_neg]
      · exact h
      · intro e; subst e; rw [hk] at h; cases h
  · intro u r b; rw [setPC_pc]; split
    · exact hc r b
    · exact i.chosen u r b
  · intro u r h x m; rw [setPC_pc]; split
    · intro e; rw [e] at hw; cases hw
    · exact i.lstP u r h x m

/-- Taking a free lock. -/
theorem Inv.lockOn {s : St} (i : Inv s) (t : Tid) (p : PC) {b : U64} (hl : s.lock b = false) (hp : p.held = some b) (hw : p.work = none)
    (hk : (s.pc t).work = none) (hc : p.chosen = none) : Inv (ESplit.setPC (setLock s b true) t p) := by
  obtain ⟨w1, w2, w3⟩ := work_none hw
  have hfree : ∀ u, (s.pc u).held ≠ some b := by
    intro u e; have := i.held u b e; rw [hl] at this; cases this
  have hheld : ∀ u h, ((ESplit.setPC (setLock s b true) t p).pc u).held = some h → (u = t ∧ h = b) ∨ (u ≠ t ∧ h ≠ b ∧ (s.pc u).held = some h) := by
    intro u h; rw [setPC_pc]; split
    · rename_i e; intro e2; rw [hp] at e2; cases e2; exact .inl ⟨e, rfl⟩
    · rename_i e; intro e2
      refine .inr ⟨e, ?_, e2⟩
      intro e3; subst e3; exact hfree u e2
  refine ⟨i.zero, i.sub, i.lpool, ?_, ?_, ?_, ?_, ?_, ?_, ?_, ?_, i.pool, ?_, ?_, i.ok⟩
  · intro u h e
    show (if h = b then true else s.lock h) = true
    rcases hheld u h e with ⟨-, e⟩ | ⟨-, e, e2⟩
    · rw [if_pos e]
    · rw [if_neg e]; exact i.held u h e2
  · intro u v h a c
    rcases hheld u h a with ⟨e, e'⟩ | ⟨-, e, e2⟩ <;> rcases hheld v h c with ⟨f, f'⟩ | ⟨-, f, f2⟩
    · exact e.trans f.symm
    · exact absurd e' f
    · exact absurd f' e
    · exact i.one u v h e2 f2
  · intro u x m; rw [setPC_pc]; split
    · intro e; rw [hw] at e; cases e
    · intro e
      obtain ⟨a, g, c⟩ := i.work u x m e
      exact ⟨a, ⟨g.mem, g.lt, g.gap⟩, c⟩
  · intro u m; rw [setPC_pc]; split
    · intro e; rw [w1] at e; cases e
    · exact i.bare u m
  · intro u r h x m j; rw [setPC_pc]; split
    · intro e; rw [e] at hw; cases hw
    · exact i.cut u r h x m j
  · intro u r h x m; rw [setPC_pc]; split
    · intro e; rw [e] at hw; cases hw
    · exact i.nil u r h x m
  · intro u m l; rw [setPC_pc]; split
    · intro e; rw [w3] at e; cases e
    · exact i.fly u m l
  · intro m hm
    rcases i.made m hm with h | ⟨u, x, h⟩
    · exact .inl h
    · refine .inr ⟨u, x, ?_⟩
      rw [setPC_pc, if_neg]
      · exact h
      · intro e; subst e; rw [hk] at h; cases h
  · intro u r c; rw [setPC_pc]; split
    · intro e; rw [hc] at e; cases e
    · exact i.chosen u r c
  · intro u r h x m; rw [setPC_pc]; split
    · intro e; rw [e] at hw; cases hw
    · exact i.lstP u r h x m

/-- The holder of a lock that has not begun a split changes the array of its bucket. -/
theorem Inv.insert {s : St} (i : Inv s) {t : Tid} {b : U64} {l l' : List U64} (hp : (s.pc t).held = some b) (hk : (s.pc t).work = none)
    (hb : s.pool b = some l) (hs : Sorted l') (hge : ∀ a ∈ l', b ≤ a) : Inv (setPool s b l') := by
  have hpool : ∀ c, (setPool s b l').pool c = none ↔ s.pool c = none := by
    intro c
    show (if c = b then some l' else s.pool c) = none ↔ _
    by_cases e : c = b
    · rw [if_pos e, e, hb]; simp
    · rw [if_neg e]
  refine ⟨i.zero, i.sub, fun c hc e => i.lpool c hc ((hpool c).mp e), i.held, i.one, ?_, fun u m e => (hpool m).mpr (i.bare u m e), ?_, i.nil, i.fly, i.made, ?_, i.chosen,
    fun u r h x m e e2 => i.lstP u r h x m e ((hpool m).mp e2), i.ok⟩
  · intro u x m e
    obtain ⟨a, g, c⟩ := i.work u x m e
    exact ⟨a, ⟨g.mem, g.lt, g.gap⟩, c⟩
  · intro u r h x m j e
    have hx := (i.work u x m (by rw [show s.pc u = _ from e]; rfl)).1
    have hxb : x ≠ b := by
      intro e2; subst e2
      have := i.one u t x hx hp
      subst this
      rw [show s.pc u = _ from e] at hk; cases hk
    show ∃ l0, (if x = b then some l' else s.pool x) = some l0 ∧ _
    rw [if_neg hxb]
    exact i.cut u r h x m j e
  · intro c l0 e
    replace e : (if c = b then some l' else s.pool c) = some l0 := e
    by_cases e2 : c = b
    · rw [if_pos e2] at e; cases e; subst e2
      exact ⟨(i.pool c l hb).1, hs, hge⟩
    · rw [if_neg e2] at e; exact i.pool c l0 e

theorem Inv.unlock {s : St} (i : Inv s) {t : Tid} {r h : U64} (hp : s.pc t = .unl r h) (q : List U64) :
    Inv { ESplit.setPC (setLock s h false) t (.done true) with acked := q } := by
  have hheld : ∀ u g, (if u = t then PC.done true else s.pc u).held = some g → u ≠ t ∧ g ≠ h ∧ (s.pc u).held = some g := by
    intro u g; split
    · intro e; cases e
    · rename_i e; intro e2
      refine ⟨e, ?_, e2⟩
      intro e3; subst e3
      exact e (i.one u t g e2 (by rw [hp]; rfl))
  refine ⟨i.zero, i.sub, i.lpool, ?_, ?_, ?_, ?_, ?_, ?_, ?_, ?_, i.pool, ?_, ?_, i.ok⟩
  · intro u g e
    obtain ⟨-, e2, e3⟩ := hheld u g e
    show (if g = h then false else s.lock g) = true
    rw [if_neg e2]; exact i.held u g e3
  · intro u v g a c
    exact i.one u v g (hheld u g a).2.2 (hheld v g c).2.2
  · intro u x m e
    replace e : (if u = t then PC.done true else s.pc u).work = some (x, m) := e
    split at e
    · cases e
    · rename_i ne
      obtain ⟨a, g, c⟩ := i.work u x m e
      refine ⟨?_, ⟨g.mem, g.lt, g.gap⟩, c⟩
      show (if u = t then PC.done true else s.pc u).held = some x
      rw [if_neg ne]; exact a
  · intro u m e
    replace e : (if u = t then PC.done true else s.pc u).bare = some m := e
    split at e
    · cases e
    · exact i.bare u m e
  · intro u r h x m j e
    replace e : (if u = t then PC.done true else s.pc u) = .cut r h x m j := e
    split at e
    · cases e
    · exact i.cut u r h x m j e
  · intro u r h x m e
    replace e : (if u = t then PC.done true else s.pc u) = .setP r h x m none := e
    split at e
    · cases e
    · exact i.nil u r h x m e
  · intro u m l e
    replace e : (if u = t then PC.done true else s.pc u).fly = some (m, l) := e
    split at e
    · cases e
    · exact i.fly u m l e
  · intro m hm
    rcases i.made m hm with h | ⟨u, x, h⟩
    · exact .inl h
    · refine .inr ⟨u, x, ?_⟩
      show (if u = t then PC.done true else s.pc u).work = _
      rw [if_neg]
      · exact h
      · intro e; subst e; rw [hp] at h; cases h
  · intro u r b e
    replace e : (if u = t then PC.done true else s.pc u).chosen = some (r, b) := e
    split at e
    · cases e
    · exact i.chosen u r b e
  · intro u r h x m e
    replace e : (if u = t then PC.done true else s.pc u) = .lst r h x m := e
    split at e
    · cases e
    · exact i.lstP u r h x m e


/-- map_embedded.go:64-84: the new bucket becomes reachable. -/
theorem Inv.publish {s : St} (i : Inv s) {t : Tid} {r x m : U64} (hp : s.pc t = .pub r x x) (g : Gap s x m) :
    Inv { ESplit.setPC s t (.idx r x x m) with reach := m :: s.reach } := by
  have hh : (s.pc t).held = some x := by rw [hp]; rfl
  have hw : (s.pc t).work = none := by rw [hp]; rfl
  have hm : m ∉ s.reach := fun h => no_between i hh hw g m h g.lt (by bv_omega)
  have hmp : s.pool m = none := by
    cases e : s.pool m with
    | none => rfl
    | some l => exact absurd (i.pool m l e).1 hm
  have key : ∀ u, u ≠ t → (if u = t then PC.idx r x x m else s.pc u) = s.pc u := fun u h => if_neg h
  have keyt : (if t = t then PC.idx r x x m else s.pc t) = .idx r x x m := if_pos rfl
  have hheld : ∀ u c, (if u = t then PC.idx r x x m else s.pc u).held = some c → (s.pc u).held = some c := by
    intro u c; split
    · rename_i e; subst e; rw [hp]; exact id
    · exact id
  refine ⟨i.zero, fun b hb => List.mem_cons_of_mem _ (i.sub b hb), i.lpool, fun u h e => i.held u h (hheld u h e), fun u v h a b => i.one u v h (hheld u h a) (hheld v h b), ?_, ?_, ?_, ?_, ?_, ?_, ?_, ?_, ?_, i.ok⟩
  · intro u y n e
    replace e : (if u = t then PC.idx r x x m else s.pc u).work = some (y, n) := e
    show (if u = t then PC.idx r x x m else s.pc u).held = some y ∧ _
    split at e
    · rename_i e2
      rw [if_pos e2]; cases e
      exact ⟨rfl, ⟨g.mem, g.lt, g.gap⟩, List.mem_cons_self⟩
    · rename_i e2
      rw [if_neg e2]
      obtain ⟨a, b, c⟩ := i.work u y n e
      exact ⟨a, ⟨b.mem, b.lt, b.gap⟩, List.mem_cons_of_mem _ c⟩
  · intro u n e
    replace e : (if u = t then PC.idx r x x m else s.pc u).bare = some n := e
    split at e
    · cases e; exact hmp
    · exact i.bare u n e
  · intro u r' h y n j e
    replace e : (if u = t then PC.idx r x x m else s.pc u) = .cut r' h y n j := e
    split at e
    · cases e
    · exact i.cut u r' h y n j e
  · intro u r' h y n e
    replace e : (if u = t then PC.idx r x x m else s.pc u) = .setP r' h y n none := e
    split at e
    · cases e
    · exact i.nil u r' h y n e
  · intro u n l e
    replace e : (if u = t then PC.idx r x x m else s.pc u).fly = some (n, l) := e
    split at e
    · cases e
    · exact i.fly u n l e
  · intro n hn
    rcases List.mem_cons.mp hn with rfl | hn
    · exact .inr ⟨t, x, by show (if t = t then PC.idx r x x n else s.pc t).work = _; rw [if_pos rfl]; rfl⟩
    rcases i.made n hn with h | ⟨u, y, h⟩
    · exact .inl h
    · refine .inr ⟨u, y, ?_⟩
      show (if u = t then PC.idx r x x m else s.pc u).work = _
      rw [if_neg]
      · exact h
      · intro e; subst e; rw [hw] at h; cases h
  · intro b l e
    obtain ⟨a, c⟩ := i.pool b l e
    exact ⟨List.mem_cons_of_mem _ a, c⟩
  · intro u r' b e
    replace e : (if u = t then PC.idx r x x m else s.pc u).chosen = some (r', b) := e
    split at e
    · cases e
    · exact i.chosen u r' b e
  · intro u r' h y n e
    replace e : (if u = t then PC.idx r x x m else s.pc u) = .lst r' h y n := e
    split at e
    · cases e
    · exact i.lstP u r' h y n e

/-- map_embedded.go:86-92: the index has been found. -/
theorem Inv.index {s : St} (i : Inv s) {t : Tid} {r h x m : U64} {l : List U64} (hp : s.pc t = .idx r h x m) (hx : s.pool x = some l)
    (h0 : findIdx m l ≠ 0) (h1 : findIdx m l < l.length) : Inv (ESplit.setPC s t (.cut r h x m (findIdx m l))) := by
  have hheld : ∀ u, ((ESplit.setPC s t (.cut r h x m (findIdx m l))).pc u).held = (s.pc u).held := by
    intro u; rw [setPC_pc]; split
    · rename_i e; subst e; rw [hp]; rfl
    · rfl
  have hwork : ∀ u, ((ESplit.setPC s t (.cut r h x m (findIdx m l))).pc u).work = (s.pc u).work := by
    intro u; rw [setPC_pc]; split
    · rename_i e; subst e; rw [hp]; rfl
    · rfl
  have hbare : ∀ u, ((ESplit.setPC s t (.cut r h x m (findIdx m l))).pc u).bare = (s.pc u).bare := by
    intro u; rw [setPC_pc]; split
    · rename_i e; subst e; rw [hp]; rfl
    · rfl
  refine ⟨i.zero, i.sub, i.lpool, ?_, ?_, ?_, ?_, ?_, ?_, ?_, ?_, i.pool, ?_, ?_, i.ok⟩
  · intro u; rw [hheld]; exact i.held u
  · intro u v; rw [hheld, hheld]; exact i.one u v
  · intro u y n; rw [hheld, hwork]; intro e
    obtain ⟨a, b, c⟩ := i.work u y n e
    exact ⟨a, ⟨b.mem, b.lt, b.gap⟩, c⟩
  · intro u n; rw [hbare]; exact i.bare u n
  · intro u r' h' y n j; rw [setPC_pc]; split
    · intro e; cases e; exact ⟨l, hx, rfl, h0, h1⟩
    · exact i.cut u r' h' y n j
  · intro u r' h' y n; rw [setPC_pc]; split
    · intro e; cases e
    · exact i.nil u r' h' y n
  · intro u n k; rw [setPC_pc]; split
    · intro e; cases e
    · exact i.fly u n k
  · intro n hn
    rcases i.made n hn with h | ⟨u, y, h⟩
    · exact .inl h
    · exact .inr ⟨u, y, by rw [hwork]; exact h⟩
  · intro u r' b; rw [setPC_pc]; split
    · intro e; cases e
    · exact i.chosen u r' b
  · intro u r' h' y n; rw [setPC_pc]; split
    · intro e; cases e
    · exact i.lstP u r' h' y n

/-- map_embedded.go:92, 647-680: the keys from the boundary on are taken out of the old bucket. -/
theorem Inv.split {s : St} (i : Inv s) {t : Tid} {r h x m : U64} {l : List U64} (hp : s.pc t = .cut r h x m (findIdx m l)) (hx : s.pool x = some l) :
    Inv (ESplit.setPC (setPool s x (l.take (findIdx m l))) t (.setP r h x m (some (l.drop (findIdx m l))))) := by
  obtain ⟨hb, hs, hge⟩ := i.pool x l hx
  obtain ⟨wh, wg, wm⟩ := i.work t x m (by rw [hp]; rfl)
  let k := findIdx m l
  let l1 := l.take k
  have hpool : ∀ c, (setPool s x l1).pool c = none ↔ s.pool c = none := by
    intro c
    show (if c = x then some l1 else s.pool c) = none ↔ _
    by_cases e : c = x
    · rw [if_pos e, e, hx]; simp
    · rw [if_neg e]
  have hheld : ∀ u, ((ESplit.setPC (setPool s x l1) t (.setP r h x m (some (l.drop k)))).pc u).held = (s.pc u).held := by
    intro u; rw [setPC_pc]; split
    · rename_i e; subst e; rw [hp]; rfl
    · rfl
  have hwork : ∀ u, ((ESplit.setPC (setPool s x l1) t (.setP r h x m (some (l.drop k)))).pc u).work = (s.pc u).work := by
    intro u; rw [setPC_pc]; split
    · rename_i e; subst e; rw [hp]; rfl
    · rfl
  have hbare : ∀ u, ((ESplit.setPC (setPool s x l1) t (.setP r h x m (some (l.drop k)))).pc u).bare = (s.pc u).bare := by
    intro u; rw [setPC_pc]; split
    · rename_i e; subst e; rw [hp]; rfl
    · rfl
  refine ⟨i.zero, i.sub, fun c hc e => i.lpool c hc ((hpool c).mp e), ?_, ?_, ?_, ?_, ?_, ?_, ?_, ?_, ?_, ?_, ?_, i.ok⟩
  · intro u; rw [hheld]; exact i.held u
  · intro u v; rw [hheld, hheld]; exact i.one u v
  · intro u y n; rw [hheld, hwork]; intro e
    obtain ⟨a, b, c⟩ := i.work u y n e
    exact ⟨a, ⟨b.mem, b.lt, b.gap⟩, c⟩
  · intro u n; rw [hbare]; intro e; exact (hpool n).mpr (i.bare u n e)
  · intro u r' h' y n j; rw [setPC_pc]; split
    · intro e; cases e
    · rename_i ne; intro e
      have hy : y ≠ x := by
        intro e2; subst e2
        exact ne (work_held i (m := n) (m' := m) (by rw [show s.pc u = _ from e]; rfl) (by rw [hp]; rfl))
      show ∃ l0, (if y = x then some l1 else s.pool y) = some l0 ∧ _
      rw [if_neg hy]
      exact i.cut u r' h' y n j e
  · intro u r' h' y n; rw [setPC_pc]; split
    · intro e; cases e
    · exact i.nil u r' h' y n
  · intro u n l0; rw [setPC_pc]; split
    · intro e; cases e
      exact ⟨hs.sublist (List.drop_sublist _ _), drop_ge hs⟩
    · exact i.fly u n l0
  · intro n hn
    rcases i.made n hn with h | ⟨u, y, h⟩
    · exact .inl h
    · exact .inr ⟨u, y, by rw [hwork]; exact h⟩
  · intro c l0 e
    replace e : (if c = x then some l1 else s.pool c) = some l0 := e
    by_cases e2 : c = x
    · rw [if_pos e2] at e; cases e; subst e2
      exact ⟨hb, hs.sublist (List.take_sublist _ _), fun a ha => hge a (List.mem_of_mem_take ha)⟩
    · rw [if_neg e2] at e; exact i.pool c l0 e
  · intro u r' b; rw [setPC_pc]; split
    · intro e; cases e
    · exact i.chosen u r' b
  · intro u r' h' y n; rw [setPC_pc]; split
    · intro e; cases e
    · intro e e2; exact i.lstP u r' h' y n e ((hpool n).mp e2)

/-- map_embedded.go:94: the new bucket gets its pool. -/
theorem Inv.setP {s : St} (i : Inv s) {t : Tid} {r h x m : U64} {l : List U64} (hp : s.pc t = .setP r h x m (some l)) :
    Inv (ESplit.setPC (setPool s m l) t (.lst r h x m)) := by
  obtain ⟨wh, wg, wm⟩ := i.work t x m (by rw [hp]; rfl)
  obtain ⟨fs, fg⟩ := i.fly t m l (by rw [hp]; rfl)
  have hnone := i.bare t m (by rw [hp]; rfl)
  have hpool : ∀ c, c ≠ m → (setPool s m l).pool c = s.pool c := fun c hc => if_neg hc
  have hpm : (setPool s m l).pool m = some l := if_pos rfl
  have hheld : ∀ u, ((ESplit.setPC (setPool s m l) t (.lst r h x m)).pc u).held = (s.pc u).held := by
    intro u; rw [setPC_pc]; split
    · rename_i e; subst e; rw [hp]; rfl
    · rfl
  have hwork : ∀ u, ((ESplit.setPC (setPool s m l) t (.lst r h x m)).pc u).work = (s.pc u).work := by
    intro u; rw [setPC_pc]; split
    · rename_i e; subst e; rw [hp]; rfl
    · rfl
  have huniq : ∀ u y, (s.pc u).work = some (y, m) → u = t := by
    intro u y e
    obtain ⟨a, b, c⟩ := i.work u y m e
    have := wg.uniq b wg.lt (by bv_omega)
    subst this
    exact i.one u t x a wh
  have hbw : ∀ {p : PC} {n : U64}, p.bare = some n → ∃ y, p.work = some (y, n) := by
    intro p n e; cases p <;> simp_all [PC.bare, PC.work]
  refine ⟨i.zero, i.sub, ?_, ?_, ?_, ?_, ?_, ?_, ?_, ?_, ?_, ?_, ?_, ?_, i.ok⟩
  · intro c hc e
    by_cases e2 : c = m
    · subst e2; rw [show (ESplit.setPC (setPool s c l) t (.lst r h x c)).pool c = some l from hpm] at e; cases e
    · exact i.lpool c hc (by rw [← hpool c e2]; exact e)
  · intro u; rw [hheld]; exact i.held u
  · intro u v; rw [hheld, hheld]; exact i.one u v
  · intro u y n; rw [hheld, hwork]; intro e
    obtain ⟨a, b, c⟩ := i.work u y n e
    exact ⟨a, ⟨b.mem, b.lt, b.gap⟩, c⟩
  · intro u n; rw [setPC_pc]; split
    · intro e; cases e
    · rename_i ne; intro e
      obtain ⟨y, hy⟩ := hbw e
      have : n ≠ m := fun e2 => ne (huniq u y (e2 ▸ hy))
      show (setPool s m l).pool n = none
      rw [hpool n this]
      exact i.bare u n e
  · intro u r' h' y n j; rw [setPC_pc]; split
    · intro e; cases e
    · intro e
      obtain ⟨l0, a, b⟩ := i.cut u r' h' y n j e
      refine ⟨l0, ?_, b⟩
      show (setPool s m l).pool y = some l0
      rw [hpool]; exact a
      intro e2; subst e2; rw [hnone] at a; cases a
  · intro u r' h' y n; rw [setPC_pc]; split
    · intro e; cases e
    · exact i.nil u r' h' y n
  · intro u n l0; rw [setPC_pc]; split
    · intro e; cases e
    · exact i.fly u n l0
  · intro n hn
    rcases i.made n hn with h | ⟨u, y, h⟩
    · exact .inl h
    · exact .inr ⟨u, y, by rw [hwork]; exact h⟩
  · intro c l0 e
    by_cases e2 : c = m
    · subst e2
      rw [show (ESplit.setPC (setPool s c l) t (.lst r h x c)).pool c = some l from hpm] at e
      cases e
      exact ⟨wm, fs, fg⟩
    · exact i.pool c l0 (by rw [← hpool c e2]; exact e)
  · intro u r' b; rw [setPC_pc]; split
    · intro e; cases e
    · exact i.chosen u r' b
  · intro u r' h' y n; rw [setPC_pc]; split
    · intro e; cases e
      show (setPool s m l).pool m ≠ none
      rw [hpm]; simp
    · intro e e2
      by_cases e3 : n = m
      · subst e3; rw [show (ESplit.setPC (setPool s n l) t (.lst r h x n)).pool n = some l from hpm] at e2; cases e2
      · exact i.lstP u r' h' y n e (by rw [← hpool n e3]; exact e2)

/-- map_embedded.go:98: the new bucket is linked. -/
theorem Inv.list {s : St} (i : Inv s) {t : Tid} {r h x m : U64} (hp : s.pc t = .lst r h x m) :
    Inv { ESplit.setPC s t (.again r h x m) with listed := m :: s.listed } := by
  obtain ⟨wh, wg, wm⟩ := i.work t x m (by rw [hp]; rfl)
  have hxh : h = x := by rw [hp] at wh; exact Option.some.inj wh
  subst hxh
  have hheld : ∀ u, (if u = t then PC.again r h h m else s.pc u).held = (s.pc u).held := by
    intro u; split
    · rename_i e; subst e; rw [hp]; rfl
    · rfl
  refine ⟨List.mem_cons_of_mem _ i.zero, ?_, ?_, ?_, ?_, ?_, ?_, ?_, ?_, ?_, ?_, i.pool, ?_, ?_, i.ok⟩
  · intro b hb
    rcases List.mem_cons.mp hb with rfl | hb
    · exact wm
    · exact i.sub b hb
  · intro b hb
    rcases List.mem_cons.mp hb with rfl | hb
    · exact i.lstP t _ _ _ _ hp
    · exact i.lpool b hb
  · intro u c e; exact i.held u c (by rw [← hheld u]; exact e)
  · intro u v c e e2; exact i.one u v c (by rw [← hheld u]; exact e) (by rw [← hheld v]; exact e2)
  · intro u y n e
    replace e : (if u = t then PC.again r h h m else s.pc u).work = some (y, n) := e
    show (if u = t then PC.again r h h m else s.pc u).held = some y ∧ _
    rw [hheld]
    split at e
    · cases e
    · rename_i ne
      obtain ⟨a, b, c⟩ := i.work u y n e
      refine ⟨a, ⟨List.mem_cons_of_mem _ b.mem, b.lt, ?_⟩, c⟩
      intro z hz hyz
      rcases List.mem_cons.mp hz with rfl | hz
      · -- `z` is the new bucket: between `h` and the next listed one, so not between `y` and `n`
        by_cases hn : n < z
        · exact hn
        · have := b.uniq wg hyz (by bv_omega)
          subst this
          exact absurd (i.one u t y a wh) ne
      · exact b.gap z hz hyz
  · intro u n e
    replace e : (if u = t then PC.again r h h m else s.pc u).bare = some n := e
    split at e
    · cases e
    · exact i.bare u n e
  · intro u r' h' y n j e
    replace e : (if u = t then PC.again r h h m else s.pc u) = .cut r' h' y n j := e
    split at e
    · cases e
    · exact i.cut u r' h' y n j e
  · intro u r' h' y n e
    replace e : (if u = t then PC.again r h h m else s.pc u) = .setP r' h' y n none := e
    split at e
    · cases e
    · exact i.nil u r' h' y n e
  · intro u n l0 e
    replace e : (if u = t then PC.again r h h m else s.pc u).fly = some (n, l0) := e
    split at e
    · cases e
    · exact i.fly u n l0 e
  · intro n hn
    rcases i.made n hn with e | ⟨u, y, e⟩
    · exact .inl (List.mem_cons_of_mem _ e)
    · by_cases ne : u = t
      · subst ne; rw [hp] at e; cases e; exact .inl List.mem_cons_self
      · refine .inr ⟨u, y, ?_⟩
        show (if u = t then PC.again r h h m else s.pc u).work = _
        rw [if_neg ne]; exact e
  · intro u r' b e
    replace e : (if u = t then PC.again r h h m else s.pc u).chosen = some (r', b) := e
    split at e
    · cases e
    · exact i.chosen u r' b e
  · intro u r' h' y n e
    replace e : (if u = t then PC.again r h h m else s.pc u) = .lst r' h' y n := e
    split at e
    · cases e
    · exact i.lstP u r' h' y n e

theorem gap_mid {s : St} {x : U64} (hx : x ∈ s.listed) (h4 : x.toNat + 4 ≤ (next s x).toNat) : Gap s x (mid s x) := by
  have := newRev_between h4
  unfold mid
  rw [if_pos hx]
  refine ⟨hx, this.1, ?_⟩
  intro y hy hxy
  have h2 := next_le hy hxy
  have := this.2
  bv_omega

theorem exec_call {max : Nat} {s s' : St} {t : Tid} {c : Call} (h : exec max s (.call t c) = some s') :
    (s.pc t = .idle ∨ ∃ b, s.pc t = .done b) ∧ s' = setPC s t c.start := by
  unfold exec at h
  simp only at h
  split at h
  · exact ⟨.inl ‹_›, (Option.some.inj h).symm⟩
  · exact ⟨.inr ⟨_, ‹_›⟩, (Option.some.inj h).symm⟩
  · cases h

theorem Inv.exec {max : Nat} {s s' : St} {mv : Move} (i : Inv s) (tm : Tame s mv) (h : exec max s mv = some s') : Inv s' := by
  cases mv with
  | call t c =>
    obtain ⟨hpc, rfl⟩ := exec_call h
    refine i.setPC t _ (.inl (by cases c <;> rfl)) (by cases c <;> rfl) (by rcases hpc with e | ⟨b, e⟩ <;> rw [e] <;> rfl) ?_
    intro r b e; cases c <;> cases e
  | step t =>
    unfold ESplit.exec at h; simp only at h
    unfold go at h
    unfold Tame at tm; simp only at tm
    cases hp : s.pc t <;> simp only [hp] at h tm
    case idle => cases h
    case done => cases h
    case gFind r =>
      cases h
      exact i.setPC t _ (.inl rfl) rfl (by rw [hp]; rfl) (by intro r' b e; cases e; exact (find_is i.reach0 r).le)
    case gRead r b =>
      obtain ⟨l, -, rfl⟩ := Option.map_eq_some_iff.mp h
      exact i.setPC t _ (.inl rfl) rfl (by rw [hp]; rfl) (by intro r' b e; cases e)
    case sFind r =>
      cases h
      exact i.setPC t _ (.inl rfl) rfl (by rw [hp]; rfl) (by intro r' b e; cases e; exact (find_is i.reach0 r).le)
    case sLook r b =>
      obtain ⟨l, -, rfl⟩ := Option.map_eq_some_iff.mp h
      have hb := i.chosen t r b (by rw [hp]; rfl)
      refine i.setPC t _ (.inl (by split <;> rfl)) (by split <;> rfl) (by rw [hp]; rfl) ?_
      intro r' b' e
      split at e <;> cases e <;> exact hb
    case uLock r b =>
      cases h
      split
      · exact i.setPC t _ (.inl rfl) rfl (by rw [hp]; rfl) (by intro r' b e; cases e)
      · rename_i hl
        exact i.lockOn t _ (by simpa using hl) rfl rfl (by rw [hp]; rfl) rfl
    case sLock r b =>
      split at h
      · cases h
      rename_i hl
      obtain ⟨l, hx, rfl⟩ := Option.map_eq_some_iff.mp h
      have hb := i.chosen t r b (by rw [hp]; rfl)
      have j := i.lockOn t (.added r b) (by simpa using hl) rfl rfl (by rw [hp]; rfl) rfl
      obtain ⟨-, hs, hge⟩ := i.pool b l hx
      refine j.insert (t := t) (l := l) (by rw [setPC_pc, if_pos rfl]; rfl) (by rw [setPC_pc, if_pos rfl]; rfl) hx hs.ins ?_
      intro a ha
      rcases mem_ins.mp ha with rfl | ha
      · exact hb
      · exact hge a ha
    case added r h' =>
      obtain ⟨l, -, rfl⟩ := Option.map_eq_some_iff.mp h
      refine i.setPC t _ (.inr (by rw [hp]; split <;> rfl)) (by split <;> rfl) (by rw [hp]; rfl) ?_
      intro r' b e; split at e <;> cases e
    case pub r h' x =>
      obtain ⟨rfl, hx, h4⟩ := tm
      cases h
      have g := gap_mid hx h4
      have : (s.broken || (decide (mid s x ≠ x) && decide (mid s x ∈ s.listed))) = s.broken := by
        have : mid s x ∉ s.listed := by
          intro e; have := g.gap _ e g.lt; bv_omega
        simp [this]
      simp only [this]
      exact i.publish hp g
    case idx r h' x m =>
      obtain ⟨l, hx, rfl⟩ := Option.map_eq_some_iff.mp h
      obtain ⟨h0, h1⟩ := tm l hx
      rw [if_neg (by omega)]
      exact i.index hp hx h0 h1
    case cut r h' x m j =>
      obtain ⟨l, hx, rfl⟩ := Option.map_eq_some_iff.mp h
      obtain ⟨l0, a, rfl, c, d⟩ := i.cut t _ _ _ _ _ hp
      rw [hx] at a; cases a
      rw [if_neg (by omega)]
      exact i.split hp hx
    case setP r h' x m l =>
      cases l with
      | none => exact absurd hp (i.nil t _ _ _ _)
      | some l =>
        have hn := i.bare t m (by rw [hp]; rfl)
        simp only [hn] at h
        cases h
        exact i.setP hp
    case lst r h' x m =>
      cases h
      exact i.list hp
    case again r h' x m =>
      cases h
      refine i.setPC t _ (.inr (by rw [hp]; split; rfl; split <;> rfl)) (by split; rfl; split <;> rfl) (by rw [hp]; rfl) ?_
      intro r' b e; split at e
      · cases e
      · split at e <;> cases e
    case unl r h' =>
      cases h
      exact i.unlock hp _

theorem init_inv : Inv init := by
  have h0 : (0 : U64) ∈ tops := by decide +kernel
  refine ⟨h0, fun b h => h, ?_, ?_, ?_, ?_, ?_, ?_, ?_, ?_, ?_, ?_, ?_, ?_, rfl⟩
  · intro b hb
    show (if b ∈ tops then some [] else none) ≠ none
    rw [if_pos (show b ∈ tops from hb)]; simp
  · intro t h e; cases e
  · intro t u h e; cases e
  · intro t x m e; cases e
  · intro t m e; cases e
  · intro t r h x m j e; cases e
  · intro t r h x m e; cases e
  · intro t m l e; cases e
  · intro m hm; exact .inl hm
  · intro b l e
    replace e : (if b ∈ tops then some [] else none) = some l := e
    split at e
    · cases e; exact ⟨‹_›, List.Pairwise.nil, by simp⟩
    · cases e
  · intro t r b e; cases e
  · intro t r h x m e; cases e

theorem run_inv {max : Nat} {P : St → Move → Prop} (hP : ∀ s mv, P s mv → Tame s mv) {s s' : St} (i : Inv s) (h : Run max P s s') : Inv s' := by
  induction h with
  | refl => exact i
  | step mv _ p e ih => exact ih.exec (hP _ _ p) e

end SLM.ESplit
