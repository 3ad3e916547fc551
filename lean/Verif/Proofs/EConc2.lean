import Verif.Proofs.EConc
/-! What the array keeps while many goroutines work on it (no deleted slot taken over, no Purge). -/
set_option autoImplicit false
namespace SLM.EConc
open Emb (Slot Pool)

/-- Hashes are non-zero and the call is not a Purge. -/
def Call.plain (cl : Call) : Prop := cl.rev ≠ 0 ∧ cl.conf ≠ 0 ∧ ∀ r c, cl ≠ .purge r c

/-- The item pointer a goroutine carries from its search. -/
def PC.item : PC → Option (Call × Nat × Nat)
  | .lockUpd cl a i | .upd cl a i | .getV cl a i | .mark cl a i => some (cl, a, i)
  | _ => none

/-- `x` is a copy of `y`, which may have been marked deleted since. -/
structure Cp (x y : Slot) : Prop where
  rev : x.rev = y.rev
  conf : x.conflict = y.conflict
  val : x.val = y.val
  del : x.deleted = true → y.deleted = true

theorem Cp.refl (x : Slot) : Cp x x := ⟨rfl, rfl, rfl, id⟩

structure CopyIns (s : St) (n i : Nat) : Prop where
  lt : i < s.len
  room : s.len < (s.arrs n).length
  lo : ∀ j, j < i → Cp (slotOf s n j) (slotOf s s.cur j)
  hi : ∀ j, i ≤ j → j < s.len → Cp (slotOf s n (j + 1)) (slotOf s s.cur j)
  mid : slotOf s n i = {}
  zero : ∀ j, s.len < j → slotOf s n j = {}

structure CopyExp (s : St) (n : Nat) : Prop where
  room : s.len ≤ (s.arrs n).length
  lo : ∀ j, j < s.len → Cp (slotOf s n j) (slotOf s s.cur j)
  zero : ∀ j, s.len ≤ j → slotOf s n j = {}

structure PI (s : St) : Prop where
  li : LI s
  shape : ∀ t, (s.pc t).shape = true
  calls : ∀ t cl, (s.pc t).call = some cl → cl.plain
  cur : s.cur < s.next
  room : s.len ≤ cap s
  hid : ∀ a, Hidden s a → a < s.next ∧ a ≠ s.cur
  item : ∀ t cl a i, (s.pc t).item = some (cl, a, i) →
    a < s.next ∧ ¬ Hidden s a ∧ (slotOf s a i).rev = cl.rev ∧ (slotOf s a i).conflict = cl.conf
  zero : ∀ i, s.len ≤ i → slotOf s s.cur i = {}
  clR : ∀ t f fn a i, s.pc t = .clR f fn a i → a = s.cur ∧ i < s.len ∧ (slotOf s a i).rev = 0 ∧ (slotOf s a i).conflict = 0
  clC : ∀ t f fn a i, s.pc t = .clC f fn a i → a = s.cur ∧ i < s.len ∧ (slotOf s a i).rev = f.r ∧ (slotOf s a i).conflict = 0
  wr : ∀ t f fn a i, s.pc t = .wr f fn a i → a = s.cur ∧ i < s.len ∧ (slotOf s a i).rev = f.r ∧ (slotOf s a i).conflict = f.c
  ins3 : ∀ t f n i, s.pc t = .ins3 f n i → CopyIns s n i
  exp3 : ∀ t f n, s.pc t = .exp3 f n → CopyExp s n

theorem PI.init (n : Nat) : PI (EConc.init n) := by
  have hs : ∀ i, slotOf (EConc.init n) 0 i = {} := by
    intro i
    simp only [slotOf, EConc.init, if_pos, List.getD_eq_getElem?_getD, List.getElem?_replicate]
    split <;> rfl
  refine ⟨LI.init n, fun _ => rfl, ?_, Nat.one_pos, Nat.zero_le _, ?_, ?_, fun i _ => hs i, ?_, ?_, ?_, ?_, ?_⟩
  · intro t cl h; cases h
  · rintro a ⟨u, f, ⟨i, h⟩ | h⟩ <;> cases h
  · intro t cl a i h; cases h
  · intro t f fn a i h; cases h
  · intro t f fn a i h; cases h
  · intro t f fn a i h; cases h
  · intro t f a i h; cases h
  · intro t f a h; cases h

theorem slotOf_congr {s s' : St} (h : s'.arrs = s.arrs) (a i : Nat) : slotOf s' a i = slotOf s a i := by
  unfold slotOf; rw [h]

theorem slotOf_setArr_ne {s : St} {n : Nat} {l : List Slot} {a : Nat} (h : a ≠ n) (i : Nat) :
    slotOf (setArr s n l) a i = slotOf s a i := by
  unfold slotOf setArr; simp [h]

theorem slot_insertAt {p : Pool} {n : Nat} (hl : p.len = n) (hc : n ≤ p.arr.length) {i : Nat} (hi : i < n) (j : Nat) :
    (p.insertAt i).arr.getD j {} =
      if j < i then p.arr.getD j {} else if j = i then {} else if j ≤ n then p.arr.getD (j - 1) {} else {} := by
  have hn : p.len.toNat = n := by omega
  simp only [Pool.insertAt, hn, List.getD_eq_getElem?_getD]
  have l1 : (p.arr.take i).length = i := by rw [List.length_take]; omega
  have l2 : ((p.arr.take n).drop i).length = n - i := by rw [List.length_drop, List.length_take]; omega
  rw [List.append_assoc]
  by_cases h1 : j < i
  · rw [if_pos h1, List.getElem?_append_left (by omega), List.getElem?_take, if_pos h1]
  · rw [if_neg h1, List.getElem?_append_right (by omega), l1]
    by_cases h2 : j = i
    · subst h2; simp
    · rw [if_neg h2]
      obtain ⟨k, rfl⟩ : ∃ k, j = i + 1 + k := ⟨j - i - 1, by omega⟩
      rw [show i + 1 + k - i = k + 1 by omega, List.cons_append, List.getElem?_cons_succ]
      by_cases h3 : i + 1 + k ≤ n
      · rw [if_pos h3, List.getElem?_append_left (by omega), List.getElem?_drop, List.getElem?_take,
          if_pos (by omega), show i + 1 + k - 1 = i + k by omega]
      · rw [if_neg h3, List.getElem?_append_right (by omega), List.getElem?_replicate]
        split <;> rfl

theorem length_insertAt {p : Pool} {n : Nat} (hl : p.len = n) (hc : n ≤ p.arr.length) {i : Nat} (hi : i < n) :
    n < (p.insertAt i).arr.length := by
  have hn : p.len.toNat = n := by omega
  simp only [Pool.insertAt, hn, List.length_append, List.length_take, List.length_cons, List.length_drop,
    List.length_replicate]
  omega

theorem slot_expand {p q : Pool} {n : Nat} (hl : p.len = n) (hc : n ≤ p.arr.length) (hq : p.expand = .ok q) (j : Nat) :
    q.arr.getD j {} = if j < n then p.arr.getD j {} else {} := by
  have hn : p.len.toNat = n := by omega
  unfold Pool.expand at hq
  simp only at hq
  split at hq
  · cases hq
  · injection hq with hq
    rw [← hq]
    simp only [hn, List.getD_eq_getElem?_getD]
    by_cases h1 : j < n
    · rw [if_pos h1, List.getElem?_append_left (by rw [List.length_take]; omega), List.getElem?_take, if_pos h1]
    · rw [if_neg h1, List.getElem?_append_right (by rw [List.length_take]; omega), List.getElem?_replicate]
      split <;> rfl

theorem length_expand {p q : Pool} {n : Nat} (hl : p.len = n) (hc : n ≤ p.arr.length) (hq : p.expand = .ok q) :
    n ≤ q.arr.length := by
  have hn : p.len.toNat = n := by omega
  unfold Pool.expand at hq
  simp only at hq
  split at hq
  · cases hq
  · injection hq with hq
    rw [← hq]
    simp only [hn, List.length_append, List.length_take, List.length_replicate]
    omega

theorem slotOf_setSlot_rev (s : St) (a i b j : Nat) (x : Slot) (h : x.rev = (slotOf s a i).rev) :
    (slotOf (setSlot s a i x) b j).rev = (slotOf s b j).rev := by
  rw [slotOf_setSlot]; split
  · rename_i hh; obtain ⟨rfl, rfl, _⟩ := hh; exact h
  · rfl

theorem slotOf_setSlot_conf (s : St) (a i b j : Nat) (x : Slot) (h : x.conflict = (slotOf s a i).conflict) :
    (slotOf (setSlot s a i x) b j).conflict = (slotOf s b j).conflict := by
  rw [slotOf_setSlot]; split
  · rename_i hh; obtain ⟨rfl, rfl, _⟩ := hh; exact h
  · rfl

theorem slotOf_setSlot_ne (s : St) {a i b j : Nat} (x : Slot) (h : ¬ (b = a ∧ j = i)) :
    slotOf (setSlot s a i x) b j = slotOf s b j := by
  rw [slotOf_setSlot, if_neg]; rintro ⟨rfl, rfl, _⟩; exact h ⟨rfl, rfl⟩

/-- Hashes in place stay. -/
theorem Mv.hash_keep {ch : Choice} {s s1 : St} {t : Tid} {p : PC} (h : Mv ch s t s1 p) (hf : (s.pc t).isFree = false)
    {a : Nat} (ha : a < s.next) {i : Nat} (h1 : (slotOf s a i).rev ≠ 0) (h2 : (slotOf s a i).conflict ≠ 0) :
    (slotOf s1 a i).rev = (slotOf s a i).rev ∧ (slotOf s1 a i).conflict = (slotOf s a i).conflict := by
  cases h <;> rw [‹s.pc t = _›] at hf <;> first
    | exact ⟨rfl, rfl⟩
    | (cases hf; done)
    | (unfold release; split <;> exact ⟨rfl, rfl⟩)
    | exact ⟨slotOf_setSlot_rev _ _ _ _ _ _ rfl, slotOf_setSlot_conf _ _ _ _ _ _ rfl⟩
    | (rw [show ∀ (b : St) n, slotOf { b with next := n } a i = slotOf b a i from fun _ _ => rfl,
         slotOf_setArr_ne (Nat.ne_of_lt ha)]; exact ⟨rfl, rfl⟩)
    | skip
  case clR f fn b j hp =>
    refine ⟨?_, slotOf_setSlot_conf _ _ _ _ _ _ rfl⟩
    rw [slotOf_setSlot]; split
    · rename_i hh; obtain ⟨rfl, rfl, _⟩ := hh; simp only [if_neg h1]
    · rfl
  case clC f fn b j hp =>
    refine ⟨slotOf_setSlot_rev _ _ _ _ _ _ rfl, ?_⟩
    rw [slotOf_setSlot]; split
    · rename_i hh; obtain ⟨rfl, rfl, _⟩ := hh; simp only [if_neg h2]
    · rfl

/-- A goroutine that does not rely on the lock changes nothing but the deleted mark of the item it found. -/
theorem Mv.light {ch : Choice} {s s1 : St} {t : Tid} {p : PC} (h : Mv ch s t s1 p) (hf : (s.pc t).isFree = false)
    (hl : (s.pc t).locked = false) : s1.cur = s.cur ∧ s1.len = s.len ∧ s1.next = s.next ∧
    (s1.arrs = s.arrs ∨ ∃ cl a i, s.pc t = .mark cl a i ∧
      s1.arrs = (setSlot s a i { slotOf s a i with deleted := true }).arrs) := by
  cases h <;> rw [‹s.pc t = _›] at hf hl <;> first
    | exact ⟨rfl, rfl, rfl, .inl rfl⟩
    | (cases hf; done)
    | (cases hl; done)
    | exact ⟨rfl, rfl, rfl, .inr ⟨_, _, _, ‹_›, rfl⟩⟩

/-- The array a goroutine is filling. -/
def PC.fills : PC → Option Nat
  | .ins3 _ n _ | .exp3 _ n => some n
  | _ => none

def PC.claims : PC → Bool
  | .clR .. | .clC .. | .wr .. => true
  | _ => false

theorem hidden_iff {s : St} {a : Nat} : Hidden s a ↔ ∃ u, (s.pc u).fills = some a := by
  constructor
  · rintro ⟨u, f, ⟨i, h⟩ | h⟩ <;> exact ⟨u, by rw [h]; rfl⟩
  · rintro ⟨u, h⟩
    cases hp : s.pc u <;> rw [hp] at h <;> simp [PC.fills] at h
    · subst h; exact ⟨u, _, .inl ⟨_, hp⟩⟩
    · subst h; exact ⟨u, _, .inr hp⟩

theorem fills_locked {p : PC} {a : Nat} (h : p.fills = some a) : p.locked = true := by
  cases p <;> simp [PC.fills, PC.locked] at h ⊢

theorem claims_locked {p : PC} (h : p.claims = true) : p.locked = true := by
  cases p <;> simp [PC.claims, PC.locked] at h ⊢

/-- The change a goroutine without the lock can make. -/
structure Soft (s s1 : St) : Prop where
  cur : s1.cur = s.cur
  len : s1.len = s.len
  next : s1.next = s.next
  length : ∀ a, (s1.arrs a).length = (s.arrs a).length
  cp : ∀ a i, Cp (slotOf s a i) (slotOf s1 a i)
  hidden : ∀ a, Hidden s a → s1.arrs a = s.arrs a
  zero : ∀ a i, (slotOf s a i).rev = 0 → slotOf s1 a i = slotOf s a i

theorem PI.soft_of {s s1 : St} {ch : Choice} {t : Tid} {p : PC} (h : PI s) (mv : Mv ch s t s1 p)
    (hl : (s.pc t).locked = false) : Soft s s1 := by
  obtain ⟨h1, h2, h3, h4⟩ := mv.light (h.li.noFree t) hl
  rcases h4 with h4 | ⟨cl, a, i, hp, h4⟩
  · exact ⟨h1, h2, h3, fun a => by rw [h4], fun a i => by rw [slotOf_congr h4]; exact .refl _, fun a _ => by rw [h4],
      fun a i _ => slotOf_congr h4 a i⟩
  · obtain ⟨g1, g2, g3, g4⟩ := h.item t cl a i (by rw [hp]; rfl)
    have hpl := h.calls t cl (by rw [hp]; rfl)
    refine ⟨h1, h2, h3, ?_, ?_, ?_, ?_⟩
    · intro b; rw [h4]; unfold setSlot setArr; simp only; split
      · rename_i e; subst e; simp
      · rfl
    · intro b j
      rw [slotOf_congr h4, slotOf_setSlot]
      split
      · rename_i hh; obtain ⟨rfl, rfl, _⟩ := hh; exact ⟨rfl, rfl, rfl, fun _ => rfl⟩
      · exact .refl _
    · intro b hb
      rw [h4]; unfold setSlot setArr; simp only; rw [if_neg]; rintro rfl; exact g2 hb
    · intro b j hz
      rw [slotOf_congr h4, slotOf_setSlot_ne]
      rintro ⟨rfl, rfl⟩
      exact hpl.1 (g3.symm.trans hz)

theorem PI.soft {s s1 : St} {t : Tid} {p : PC} (h : PI s) (hs : Soft s s1) (hpc : s1.pc = s.pc)
    (hl : (s.pc t).locked = false) (hli : LI (setPC s1 t p)) (hsh : ∀ u, ((setPC s1 t p).pc u).shape = true)
    (hca : ∀ u cl, ((setPC s1 t p).pc u).call = some cl → cl.plain) (hpf : p.fills = none) (hpcl : p.claims = false)
    (hit : ∀ cl a i, p.item = some (cl, a, i) →
      a < s.next ∧ ¬ Hidden s a ∧ (slotOf s a i).rev = cl.rev ∧ (slotOf s a i).conflict = cl.conf) :
    PI (setPC s1 t p) := by
  have hsl : ∀ a i, slotOf (setPC s1 t p) a i = slotOf s1 a i := fun _ _ => rfl
  have hhid : ∀ a, Hidden (setPC s1 t p) a ↔ Hidden s a := by
    intro a
    rw [hidden_iff, hidden_iff]
    constructor
    · rintro ⟨u, hu⟩
      by_cases e : u = t
      · subst e; simp [hpf] at hu
      · rw [setPC_other _ _ _ e, hpc] at hu; exact ⟨u, hu⟩
    · rintro ⟨u, hu⟩
      by_cases e : u = t
      · subst e; rw [fills_locked hu] at hl; cases hl
      · exact ⟨u, by rw [setPC_other _ _ _ e, hpc]; exact hu⟩
  have hpcs : ∀ u q, (q.claims = true ∨ ∃ a, q.fills = some a) → (setPC s1 t p).pc u = q → s.pc u = q := by
    intro u q hq hu
    by_cases e : u = t
    · subst e; simp at hu; subst hu
      rcases hq with hq | ⟨a, hq⟩
      · rw [hpcl] at hq; cases hq
      · rw [hpf] at hq; cases hq
    · rw [setPC_other _ _ _ e, hpc] at hu; exact hu
  refine ⟨hli, hsh, hca, by simpa [hs.cur, hs.next] using h.cur, ?_, ?_, ?_, ?_, ?_, ?_, ?_, ?_, ?_⟩
  · show s1.len ≤ (s1.arrs s1.cur).length
    rw [hs.len, hs.cur, hs.length]; exact h.room
  · intro a ha
    rw [hhid] at ha
    simpa [hs.cur, hs.next] using h.hid a ha
  · intro u cl a i hu
    have key : a < s.next ∧ ¬ Hidden s a ∧ (slotOf s a i).rev = cl.rev ∧ (slotOf s a i).conflict = cl.conf := by
      by_cases e : u = t
      · subst e; simp at hu; exact hit cl a i hu
      · rw [setPC_other _ _ _ e, hpc] at hu; exact h.item u cl a i hu
    rw [hhid, hsl, setPC_next, hs.next, ← (hs.cp a i).rev, ← (hs.cp a i).conf]
    exact key
  · intro i hi
    simp only [setPC_len, setPC_cur, hs.len, hs.cur, hsl] at hi ⊢
    rw [hs.zero _ _ (by rw [h.zero i hi])]; exact h.zero i hi
  · intro u f fn a i hu
    have := h.clR u f fn a i (hpcs u _ (.inl rfl) hu)
    simp only [setPC_len, setPC_cur, hs.len, hs.cur, hsl]
    rw [← (hs.cp a i).rev, ← (hs.cp a i).conf]; exact this
  · intro u f fn a i hu
    have := h.clC u f fn a i (hpcs u _ (.inl rfl) hu)
    simp only [setPC_len, setPC_cur, hs.len, hs.cur, hsl]
    rw [← (hs.cp a i).rev, ← (hs.cp a i).conf]; exact this
  · intro u f fn a i hu
    have := h.wr u f fn a i (hpcs u _ (.inl rfl) hu)
    simp only [setPC_len, setPC_cur, hs.len, hs.cur, hsl]
    rw [← (hs.cp a i).rev, ← (hs.cp a i).conf]; exact this
  · intro u f n i hu
    have hu' := hpcs u _ (.inr ⟨n, rfl⟩) hu
    have hc := h.ins3 u f n i hu'
    have hh : s1.arrs n = s.arrs n := hs.hidden n ⟨u, f, .inl ⟨i, hu'⟩⟩
    have hn : ∀ j, slotOf s1 n j = slotOf s n j := fun j => by unfold slotOf; rw [hh]
    have tr : ∀ {x a j}, Cp x (slotOf s a j) → Cp x (slotOf s1 a j) := fun {x a j} hx =>
      ⟨hx.rev.trans (hs.cp a j).rev, hx.conf.trans (hs.cp a j).conf, hx.val.trans (hs.cp a j).val,
       fun hd => (hs.cp a j).del (hx.del hd)⟩
    refine ⟨?_, ?_, ?_, ?_, ?_, ?_⟩
    · simpa [hs.len] using hc.lt
    · simpa [hs.len, hh] using hc.room
    · intro j hj; simp only [hsl, setPC_cur, hs.cur, hn]; exact tr (hc.lo j hj)
    · intro j h1 h2; simp only [setPC_len, hs.len] at h2; simp only [hsl, setPC_cur, hs.cur, hn]; exact tr (hc.hi j h1 h2)
    · simp only [hsl, hn]; exact hc.mid
    · intro j hj; simp only [setPC_len, hs.len] at hj; simp only [hsl, hn]; exact hc.zero j hj
  · intro u f n hu
    have hu' := hpcs u _ (.inr ⟨n, rfl⟩) hu
    have hc := h.exp3 u f n hu'
    have hh : s1.arrs n = s.arrs n := hs.hidden n ⟨u, f, .inr hu'⟩
    have hn : ∀ j, slotOf s1 n j = slotOf s n j := fun j => by unfold slotOf; rw [hh]
    have tr : ∀ {x a j}, Cp x (slotOf s a j) → Cp x (slotOf s1 a j) := fun {x a j} hx =>
      ⟨hx.rev.trans (hs.cp a j).rev, hx.conf.trans (hs.cp a j).conf, hx.val.trans (hs.cp a j).val,
       fun hd => (hs.cp a j).del (hx.del hd)⟩
    refine ⟨?_, ?_, ?_⟩
    · simpa [hs.len, hh] using hc.room
    · intro j hj; simp only [setPC_len, hs.len] at hj; simp only [hsl, setPC_cur, hs.cur, hn]; exact tr (hc.lo j hj)
    · intro j hj; simp only [setPC_len, hs.len] at hj; simp only [hsl, hn]; exact hc.zero j hj

/-- Only one goroutine relies on the lock. -/
theorem LI.unique {s : St} (h : LI s) {t u : Tid} (ht : (s.pc t).locked = true) (hu : (s.pc u).locked = true) : u = t := by
  have := h.held t ht
  rw [h.held u hu] at this
  cases this; rfl

theorem PI.heavy {s s1 : St} {ch : Choice} {t : Tid} {p : PC} (h : PI s) (mv : Mv ch s t s1 p)
    (hl : (s.pc t).locked = true) (hli : LI (setPC s1 t p)) (hsh : ∀ u, ((setPC s1 t p).pc u).shape = true)
    (hca : ∀ u cl, ((setPC s1 t p).pc u).call = some cl → cl.plain)
    (hit : p.item = none) (hnext : s.next ≤ s1.next) (hcur : s1.cur < s1.next) (hroom : s1.len ≤ cap s1)
    (hfill : ∀ n, p.fills = some n → n = s.next ∧ s1.next = s.next + 1 ∧ n ≠ s1.cur)
    (hzero : ∀ i, s1.len ≤ i → slotOf s1 s1.cur i = {})
    (hclR : ∀ f fn a i, p = .clR f fn a i → a = s1.cur ∧ i < s1.len ∧ (slotOf s1 a i).rev = 0 ∧ (slotOf s1 a i).conflict = 0)
    (hclC : ∀ f fn a i, p = .clC f fn a i → a = s1.cur ∧ i < s1.len ∧ (slotOf s1 a i).rev = f.r ∧ (slotOf s1 a i).conflict = 0)
    (hwr : ∀ f fn a i, p = .wr f fn a i → a = s1.cur ∧ i < s1.len ∧ (slotOf s1 a i).rev = f.r ∧ (slotOf s1 a i).conflict = f.c)
    (hins : ∀ f n i, p = .ins3 f n i → CopyIns s1 n i) (hexp : ∀ f n, p = .exp3 f n → CopyExp s1 n) :
    PI (setPC s1 t p) := by
  have hpc := mv.pc_eq
  have others : ∀ u, u ≠ t → (s.pc u).locked = false := by
    intro u e
    by_contra hc
    exact e (h.li.unique hl (by simpa using hc))
  have hpcs : ∀ u q, q.locked = true → (setPC s1 t p).pc u = q → p = q := by
    intro u q hq hu
    by_cases e : u = t
    · subst e; simpa using hu
    · rw [setPC_other _ _ _ e, hpc] at hu
      have := others u e; rw [hu, hq] at this; cases this
  have hhid : ∀ a, Hidden (setPC s1 t p) a → p.fills = some a := by
    intro a ha
    rw [hidden_iff] at ha
    obtain ⟨u, hu⟩ := ha
    by_cases e : u = t
    · subst e; simpa using hu
    · rw [setPC_other _ _ _ e, hpc] at hu
      have := others u e; rw [fills_locked hu] at this; cases this
  refine ⟨hli, hsh, hca, hcur, hroom, ?_, ?_, hzero, ?_, ?_, ?_, ?_, ?_⟩
  · intro a ha
    obtain ⟨h1, h2, h3⟩ := hfill a (hhid a ha)
    exact ⟨by simp only [setPC_next]; omega, h3⟩
  · intro u cl a i hu
    by_cases e : u = t
    · subst e; simp [hit] at hu
    · rw [setPC_other _ _ _ e, hpc] at hu
      obtain ⟨g1, g2, g3, g4⟩ := h.item u cl a i hu
      have hpl := h.calls u cl (by
        cases hp : s.pc u <;> rw [hp] at hu <;> simp [PC.item] at hu <;> obtain ⟨rfl, _, _⟩ := hu <;> rfl)
      have hk := mv.hash_keep (h.li.noFree t) g1 (by rw [g3]; exact hpl.1) (by rw [g4]; exact hpl.2.1)
      refine ⟨Nat.lt_of_lt_of_le g1 hnext, ?_, hk.1.trans g3, hk.2.trans g4⟩
      intro ha
      have := (hfill a (hhid a ha)).1
      omega
  · intro u f fn a i hu; exact hclR f fn a i (hpcs u _ rfl hu)
  · intro u f fn a i hu; exact hclC f fn a i (hpcs u _ rfl hu)
  · intro u f fn a i hu; exact hwr f fn a i (hpcs u _ rfl hu)
  · intro u f n i hu
    have c := hins f n i (hpcs u _ rfl hu)
    exact ⟨c.lt, c.room, c.lo, c.hi, c.mid, c.zero⟩
  · intro u f n hu
    have c := hexp f n (hpcs u _ rfl hu)
    exact ⟨c.room, c.lo, c.zero⟩

theorem cap_setSlot (s : St) (a i : Nat) (x : Slot) : cap (setSlot s a i x) = cap s := by
  unfold cap setSlot setArr
  simp only
  split
  · rename_i e; subst e; simp
  · rfl

theorem PI.same {s s1 : St} {ch : Choice} {t : Tid} {p : PC} (h : PI s) (mv : Mv ch s t s1 p)
    (hl : (s.pc t).locked = true) (hli : LI (setPC s1 t p)) (hsh : ∀ u, ((setPC s1 t p).pc u).shape = true)
    (hca : ∀ u cl, ((setPC s1 t p).pc u).call = some cl → cl.plain) (hit : p.item = none) (hf : p.fills = none)
    (hc : p.claims = false) (e1 : s1.cur = s.cur) (e2 : s1.len = s.len) (e3 : s1.next = s.next) (e4 : s1.arrs = s.arrs) :
    PI (setPC s1 t p) := by
  refine h.heavy mv hl hli hsh hca hit (le_of_eq e3.symm) (by rw [e1, e3]; exact h.cur)
    (by unfold cap; rw [e1, e2, e4]; exact h.room) (by rw [hf]; simp) ?_ ?_ ?_ ?_ ?_ ?_
  · intro i hi; rw [e2] at hi; rw [slotOf_congr e4, e1]; exact h.zero i hi
  · rintro f fn a i rfl; cases hc
  · rintro f fn a i rfl; cases hc
  · rintro f fn a i rfl; cases hc
  · rintro f n i rfl; cases hf
  · rintro f n rfl; cases hf

/-- Steps of schedules in which no deleted slot is taken over, nobody purges, and hashes are non-zero. -/
def Plain (s : St) (t : Tid) (s' : St) : Prop := NoFree s t s' ∧ Calls Call.plain s t s'

theorem PI.step {s s' : St} {t : Tid} (h : PI s) (st : Step s t s') (hn : Plain s t s') : PI s' := by
  have hli := h.li.step st hn.1
  have hsh := shape_step h.shape st
  have hca := calls_step h.calls st hn.2
  cases st with
  | start hs =>
    obtain ⟨hid, _, rfl⟩ := start_eq hs
    exact h.soft ⟨rfl, rfl, rfl, fun _ => rfl, fun _ _ => .refl _, fun _ _ => rfl, fun _ _ _ => rfl⟩ rfl (by rw [hid]; rfl)
      hli hsh hca rfl rfl (fun cl a i hu => by cases hu)
  | move hseen hs =>
    obtain ⟨_, s1, p, mv, rfl⟩ := step_mv hs
    have hpc := mv.pc_eq
    have hplain := h.calls t
    have hshape := h.shape t
    cases hl : (s.pc t).locked with
    | false =>
      have hsoft := h.soft_of mv hl
      refine h.soft hsoft hpc hl hli hsh hca ?_ ?_ ?_
      · cases mv <;> first
          | rfl
          | (rw [‹s.pc t = _›] at hl; cases hl; done)
      · cases mv <;> first
          | rfl
          | (rw [‹s.pc t = _›] at hl; cases hl; done)
          | (have := h.li.noFree t; rw [‹s.pc t = _›] at this; cases this)
      · intro cl a i hu
        cases mv <;> first
          | (cases hu; done)
          | (cases hu; exact hseen.item _ _ _ ‹_› ‹_›)
          | (cases hu; exact h.item t _ _ _ (by rw [‹s.pc t = _›]; rfl))
    | true =>
      have hwf : (s.pc t).isFree = false := h.li.noFree t
      have hL : (s.pc t).locked = true := hl
      have hmv := mv
      have hclen : ∀ {a i : Nat}, (slotOf s a i).rev ≠ 0 → a = s.cur → i < s.len := by
        intro a i hr ha
        by_contra hc
        rw [ha, h.zero i (by omega)] at hr
        exact hr rfl
      cases mv <;> rw [‹s.pc t = _›] at hl hwf hplain hshape <;> first
        | (cases hl; done)
        | (cases hwf; done)
        | exact h.same hmv hL hli hsh hca rfl rfl rfl rfl rfl rfl rfl
        | skip
      case upd r c v a i hp =>
        have hit := h.item t _ a i (by rw [hp]; rfl)
        have hpl := hplain _ rfl
        refine h.heavy hmv hL hli hsh hca rfl (le_refl _) h.cur ?_ (by simp [PC.fills]) ?_ (by simp) (by simp) (by simp) (by simp) (by simp)
        · rw [cap_setSlot]; exact h.room
        · intro j hj
          have hj : s.len ≤ j := hj
          show slotOf (setSlot s a i _) s.cur j = {}
          rw [slotOf_setSlot_ne _ _ (by
            rintro ⟨rfl, rfl⟩
            have := hclen (by rw [hit.2.2.1]; exact hpl.1) rfl; omega)]
          exact h.zero j hj
      case purgeLast cl a i hp hc ha hi =>
        exfalso
        have hpl := (hplain _ rfl).2.2
        cases cl <;> simp_all [PC.shape]
      case purge cl a i hp hc ha =>
        exfalso
        have hpl := (hplain _ rfl).2.2
        cases cl <;> simp_all [PC.shape]
      case app2 f hp hc =>
        refine h.heavy hmv hL hli hsh hca rfl (le_refl _) h.cur (Nat.succ_le_of_lt hc) (by simp [PC.fills]) ?_ ?_ (by simp) (by simp) (by simp) (by simp)
        · intro j hj
          have hj : s.len + 1 ≤ j := hj
          exact h.zero j (by omega)
        · intro f' fn a i e
          cases e
          refine ⟨rfl, Nat.lt_succ_self _, ?_⟩
          show (slotOf s s.cur s.len).rev = 0 ∧ (slotOf s s.cur s.len).conflict = 0
          rw [h.zero _ (le_refl _)]; exact ⟨rfl, rfl⟩
      case ins2 f i hp hg =>
        have hi : i < s.len := by
          have := List.mem_of_find?_eq_some hg
          simpa [pool] using this
        have hne : s.cur ≠ s.next := Nat.ne_of_lt h.cur
        have hsl := slot_insertAt (p := pool s) (n := s.len) rfl h.room hi
        have hnew : ∀ j, slotOf ({ setArr s s.next ((pool s).insertAt i).arr with next := s.next + 1 } : St) s.next j =
            ((pool s).insertAt i).arr.getD j {} := by
          intro j; simp [slotOf, setArr]
        have hold : ∀ j, slotOf ({ setArr s s.next ((pool s).insertAt i).arr with next := s.next + 1 } : St) s.cur j =
            slotOf s s.cur j := fun j => slotOf_setArr_ne hne j
        refine h.heavy hmv hL hli hsh hca rfl (Nat.le_succ _) (Nat.lt_succ_of_lt h.cur) ?_ ?_ ?_ (by simp) (by simp) (by simp) ?_ (by simp)
        · show s.len ≤ (if s.cur = s.next then _ else s.arrs s.cur).length
          rw [if_neg hne]; exact h.room
        · intro n hn; cases hn; exact ⟨rfl, rfl, Ne.symm hne⟩
        · intro j hj; exact (hold j).trans (h.zero j hj)
        · intro f' n i' e
          cases e
          refine ⟨hi, ?_, ?_, ?_, ?_, ?_⟩
          · show s.len < (if s.next = s.next then _ else s.arrs s.next).length
            rw [if_pos rfl]; exact length_insertAt rfl h.room hi
          · intro j hj
            rw [hnew, hsl, if_pos hj]
            show Cp _ (slotOf _ s.cur j)
            rw [hold]; exact .refl _
          · intro j h1 h2
            have h2 : j < s.len := h2
            rw [hnew, hsl, if_neg (by omega), if_neg (by omega), if_pos (by omega)]
            show Cp _ (slotOf _ s.cur j)
            rw [hold]; exact .refl _
          · rw [hnew, hsl, if_neg (by omega), if_pos rfl]
          · intro j hj
            have hj : s.len < j := hj
            rw [hnew, hsl, if_neg (by omega), if_neg (by omega), if_neg (by omega)]
      case ins3 f n i hp =>
        have hc := h.ins3 t f n i hp
        have hh := h.hid n ⟨t, f, .inl ⟨i, hp⟩⟩
        refine h.heavy hmv hL hli hsh hca rfl (le_refl _) hh.1 hc.room (by simp [PC.fills]) ?_ ?_ (by simp) (by simp) (by simp) (by simp)
        · intro j hj
          have hj : s.len + 1 ≤ j := hj
          exact hc.zero j (by omega)
        · intro f' fn a i' e
          cases e
          refine ⟨rfl, Nat.lt_succ_of_lt hc.lt, ?_⟩
          show (slotOf s n i).rev = 0 ∧ (slotOf s n i).conflict = 0
          rw [hc.mid]; exact ⟨rfl, rfl⟩
      case exp2 f q hp hq =>
        have hne : s.cur ≠ s.next := Nat.ne_of_lt h.cur
        have hsl := slot_expand (p := pool s) (n := s.len) rfl h.room hq
        have hnew : ∀ j, slotOf ({ setArr s s.next q.arr with next := s.next + 1 } : St) s.next j = q.arr.getD j {} := by
          intro j; simp [slotOf, setArr]
        have hold : ∀ j, slotOf ({ setArr s s.next q.arr with next := s.next + 1 } : St) s.cur j =
            slotOf s s.cur j := fun j => slotOf_setArr_ne hne j
        refine h.heavy hmv hL hli hsh hca rfl (Nat.le_succ _) (Nat.lt_succ_of_lt h.cur) ?_ ?_ ?_ (by simp) (by simp) (by simp) (by simp) ?_
        · show s.len ≤ (if s.cur = s.next then _ else s.arrs s.cur).length
          rw [if_neg hne]; exact h.room
        · intro n hn; cases hn; exact ⟨rfl, rfl, Ne.symm hne⟩
        · intro j hj; exact (hold j).trans (h.zero j hj)
        · intro f' n e
          cases e
          refine ⟨?_, ?_, ?_⟩
          · show s.len ≤ (if s.next = s.next then _ else s.arrs s.next).length
            rw [if_pos rfl]; exact length_expand (p := pool s) rfl h.room hq
          · intro j hj
            have hj : j < s.len := hj
            rw [hnew, hsl, if_pos hj]
            show Cp _ (slotOf _ s.cur j)
            rw [hold]; exact .refl _
          · intro j hj
            have hj : s.len ≤ j := hj
            rw [hnew, hsl, if_neg (by omega)]
      case exp3 f n hp =>
        have hc := h.exp3 t f n hp
        have hh := h.hid n ⟨t, f, .inr hp⟩
        exact h.heavy hmv hL hli hsh hca rfl (le_refl _) hh.1 hc.room (by simp [PC.fills]) hc.zero (by simp) (by simp) (by simp) (by simp) (by simp)
      case clR f fn a i hp =>
        obtain ⟨rfl, g2, g3, g4⟩ := h.clR t f fn a i hp
        have hcap : i < (s.arrs s.cur).length := Nat.lt_of_lt_of_le g2 h.room
        refine h.heavy hmv hL hli hsh hca rfl (le_refl _) h.cur ?_ (by simp [PC.fills]) ?_ (by simp) ?_ (by simp) (by simp) (by simp)
        · rw [cap_setSlot]; exact h.room
        · intro j hj
          have hj : s.len ≤ j := hj
          show slotOf (setSlot s s.cur i _) s.cur j = {}
          rw [slotOf_setSlot_ne _ _ (by rintro ⟨_, rfl⟩; omega)]
          exact h.zero j hj
        · intro f' fn' a' i' e
          cases e
          refine ⟨rfl, g2, ?_⟩
          rw [slotOf_setSlot, if_pos ⟨rfl, rfl, hcap⟩]
          simp only [g3, if_pos]
          exact ⟨trivial, g4⟩
      case clC f fn a i hp =>
        obtain ⟨rfl, g2, g3, g4⟩ := h.clC t f fn a i hp
        have hcap : i < (s.arrs s.cur).length := Nat.lt_of_lt_of_le g2 h.room
        refine h.heavy hmv hL hli hsh hca rfl (le_refl _) h.cur ?_ (by simp [PC.fills]) ?_ (by simp) (by simp) ?_ (by simp) (by simp)
        · rw [cap_setSlot]; exact h.room
        · intro j hj
          have hj : s.len ≤ j := hj
          show slotOf (setSlot s s.cur i _) s.cur j = {}
          rw [slotOf_setSlot_ne _ _ (by rintro ⟨_, rfl⟩; omega)]
          exact h.zero j hj
        · intro f' fn' a' i' e
          cases e
          refine ⟨rfl, g2, ?_⟩
          rw [slotOf_setSlot, if_pos ⟨rfl, rfl, hcap⟩]
          simp only [g4, if_pos]
          exact ⟨g3, trivial⟩
      case wr f fn a i hp =>
        obtain ⟨rfl, g2, g3, g4⟩ := h.wr t f fn a i hp
        refine h.heavy hmv hL hli hsh hca rfl (le_refl _) h.cur ?_ (by simp [PC.fills]) ?_ (by simp) (by simp) (by simp) (by simp) (by simp)
        · rw [cap_setSlot]; exact h.room
        · intro j hj
          have hj : s.len ≤ j := hj
          show slotOf (setSlot s s.cur i _) s.cur j = {}
          rw [slotOf_setSlot_ne _ _ (by rintro ⟨_, rfl⟩; omega)]
          exact h.zero j hj
      case retUnlock res hp =>
        refine h.same hmv hL hli hsh hca rfl rfl rfl ?_ ?_ ?_ ?_ <;> (unfold release; split <;> rfl)

theorem PI.via {s s' : St} (h : PI s) (v : Via Plain s s') : PI s' := by
  induction v with
  | refl => exact h
  | tail _ st hp ih => exact ih.step st hp

/-! ### A stored value stays -/

def PC.claimAt : PC → Option Nat
  | .clR _ _ _ i | .clC _ _ _ i | .wr _ _ _ i => some i
  | _ => none

/-- The current array holds the value `v` under the hashes `r`, `c`, in a slot nobody is claiming. -/
def Kept (s : St) (r c : U64) (v : IVal) : Prop :=
  ∃ i, i < s.len ∧ (slotOf s s.cur i).rev = r ∧ (slotOf s s.cur i).conflict = c ∧ (slotOf s s.cur i).val = v ∧
    (slotOf s s.cur i).deleted = false ∧ ∀ t, (s.pc t).claimAt ≠ some i

/-- The step is not the write of a Set of this key to a slot it found, nor the mark of a Delete of this key. -/
def Spares (r c : U64) (s : St) (t : Tid) (_ : St) : Prop :=
  ∀ cl a i, (s.pc t = .upd cl a i ∨ s.pc t = .mark cl a i) → ¬ (cl.rev = r ∧ cl.conf = c)

theorem kept_step {s s' : St} {t : Tid} {r c : U64} {v : IVal} (h : PI s) (st : Step s t s') (hn : Plain s t s')
    (hs : Spares r c s t s') (hk : Kept s r c v) : Kept s' r c v := by
  obtain ⟨i, h1, h2, h3, h4, h5, h6⟩ := hk
  cases st with
  | start hst =>
    obtain ⟨hid, _, rfl⟩ := start_eq hst
    refine ⟨i, h1, h2, h3, h4, h5, ?_⟩
    intro u
    by_cases e : u = t
    · subst e; simp [PC.claimAt]
    · rw [setPC_other _ _ _ e]; exact h6 u
  | move hseen hst =>
    obtain ⟨_, s1, p, mv, rfl⟩ := step_mv hst
    have hpc := mv.pc_eq
    have hwf : (s.pc t).isFree = false := h.li.noFree t
    have hown := h6 t
    have oth : ∀ u, u ≠ t → ∀ k, ((setPC s1 t p).pc u).claimAt = some k → (s.pc u).claimAt = some k := by
      intro u e k hu; rw [setPC_other _ _ _ e, hpc] at hu; exact hu
    have others : (s.pc t).locked = true → ∀ u, u ≠ t → ∀ k, ((setPC s1 t p).pc u).claimAt ≠ some k := by
      intro hl u e k hu
      have hu := oth u e k hu
      refine e (h.li.unique hl ?_)
      cases hp : s.pc u <;> rw [hp] at hu <;> simp [PC.claimAt, PC.locked] at hu ⊢
    -- the same slot, unchanged
    have keep : s1.cur = s.cur → s.len ≤ s1.len → slotOf s1 s.cur i = slotOf s s.cur i → p.claimAt ≠ some i →
        Kept (setPC s1 t p) r c v := by
      intro e1 e2 e3 e4
      have e3' : slotOf (setPC s1 t p) (setPC s1 t p).cur i = slotOf s s.cur i := by
        show slotOf s1 s1.cur i = _
        rw [e1]; exact e3
      refine ⟨i, Nat.lt_of_lt_of_le h1 e2, by rw [e3', h2], by rw [e3', h3], by rw [e3', h4], by rw [e3', h5], ?_⟩
      intro u
      by_cases e : u = t
      · subst e; simpa using e4
      · intro hu; exact h6 u (oth u e i hu)
    cases mv <;> rw [‹s.pc t = _›] at hwf hown <;> first
      | (cases hwf; done)
      | exact keep rfl (le_refl _) rfl (by simp [PC.claimAt])
      | skip
    case upd r' c' v' a j hp =>
      have hit := h.item t _ a j (by rw [hp]; rfl)
      refine keep rfl (le_refl _) (slotOf_setSlot_ne _ _ ?_) (by simp [PC.claimAt])
      rintro ⟨rfl, rfl⟩
      exact hs _ _ _ (.inl hp) ⟨hit.2.2.1.symm.trans h2, hit.2.2.2.symm.trans h3⟩
    case purgeLast cl a j hp hc ha hi =>
      exfalso
      have hpl := (h.calls t _ (by rw [hp]; rfl)).2.2
      have hshape := h.shape t
      rw [hp] at hshape
      cases cl <;> simp_all [PC.shape]
    case purge cl a j hp hc ha =>
      exfalso
      have hpl := (h.calls t _ (by rw [hp]; rfl)).2.2
      have hshape := h.shape t
      rw [hp] at hshape
      cases cl <;> simp_all [PC.shape]
    case mark cl a j hp =>
      have hit := h.item t _ a j (by rw [hp]; rfl)
      refine keep rfl (le_refl _) (slotOf_setSlot_ne _ _ ?_) (by simp [PC.claimAt])
      rintro ⟨rfl, rfl⟩
      exact hs _ _ _ (.inr hp) ⟨hit.2.2.1.symm.trans h2, hit.2.2.2.symm.trans h3⟩
    case app2 f hp hc =>
      refine keep rfl (Nat.le_succ _) rfl ?_
      simp only [PC.claimAt, ne_eq, Option.some.injEq]; omega
    case ins2 f j hp hg =>
      exact keep rfl (le_refl _) (slotOf_setArr_ne (Nat.ne_of_lt h.cur) i) (by simp [PC.claimAt])
    case exp2 f q hp hq =>
      exact keep rfl (le_refl _) (slotOf_setArr_ne (Nat.ne_of_lt h.cur) i) (by simp [PC.claimAt])
    case ins3 f n j hp =>
      have hc := h.ins3 t f n j hp
      have hoth := others (by rw [hp]; rfl)
      by_cases hij : i < j
      · have g := hc.lo i hij
        refine ⟨i, Nat.lt_succ_of_lt h1, g.rev.trans h2, g.conf.trans h3, g.val.trans h4, ?_, ?_⟩
        · show (slotOf s n i).deleted = false
          by_contra hd
          rw [g.del (by simpa using hd)] at h5; cases h5
        · intro u
          by_cases e : u = t
          · subst e; simp [PC.claimAt]; omega
          · exact hoth u e i
      · have g := hc.hi i (by omega) h1
        refine ⟨i + 1, Nat.succ_lt_succ h1, g.rev.trans h2, g.conf.trans h3, g.val.trans h4, ?_, ?_⟩
        · show (slotOf s n (i + 1)).deleted = false
          by_contra hd
          rw [g.del (by simpa using hd)] at h5; cases h5
        · intro u
          by_cases e : u = t
          · subst e; simp [PC.claimAt]; omega
          · exact hoth u e _
    case exp3 f n hp =>
      have hc := h.exp3 t f n hp
      have hoth := others (by rw [hp]; rfl)
      have g := hc.lo i h1
      refine ⟨i, h1, g.rev.trans h2, g.conf.trans h3, g.val.trans h4, ?_, ?_⟩
      · show (slotOf s n i).deleted = false
        by_contra hd
        rw [g.del (by simpa using hd)] at h5; cases h5
      · intro u
        by_cases e : u = t
        · subst e; simp [PC.claimAt]
        · exact hoth u e i
    case clR f fn a j hp =>
      simp only [PC.claimAt, ne_eq, Option.some.injEq] at hown
      exact keep rfl (le_refl _) (slotOf_setSlot_ne _ _ (fun hh => hown hh.2.symm)) (by simpa [PC.claimAt] using hown)
    case clC f fn a j hp =>
      simp only [PC.claimAt, ne_eq, Option.some.injEq] at hown
      exact keep rfl (le_refl _) (slotOf_setSlot_ne _ _ (fun hh => hown hh.2.symm)) (by simpa [PC.claimAt] using hown)
    case wr f fn a j hp =>
      simp only [PC.claimAt, ne_eq, Option.some.injEq] at hown
      exact keep rfl (le_refl _) (slotOf_setSlot_ne _ _ (fun hh => hown hh.2.symm)) (by simp [PC.claimAt])
    case retUnlock res hp =>
      refine keep ?_ ?_ ?_ (by simp [PC.claimAt]) <;> (unfold release; split <;> first | rfl | exact le_refl _)

theorem kept_via {s s' : St} {r c : U64} {v : IVal} (h : PI s) (hk : Kept s r c v)
    (w : Via (fun s t s' => Plain s t s' ∧ Spares r c s t s') s s') : PI s' ∧ Kept s' r c v := by
  induction w with
  | refl => exact ⟨h, hk⟩
  | tail _ st hp ih => exact ⟨ih.1.step st hp.1, kept_step ih.1 st hp.1 hp.2 ih.2⟩

/-- The write of a Set that found its key in the array that is still current. -/
theorem kept_upd {s s' : St} {t : Tid} {r c : U64} {v : IVal} {i : Nat} (h : PI s) (hp : s.pc t = .upd (.set r c v) s.cur i)
    (hd : (slotOf s s.cur i).deleted = false) (st : Step s t s') : Kept s' r c v := by
  have hit := h.item t _ _ _ (by rw [hp]; rfl)
  have hpl := h.calls t _ (by rw [hp]; rfl)
  have hi : i < s.len := by
    by_contra hc
    have := hit.2.2.1
    rw [h.zero i (by omega)] at this
    exact hpl.1 this.symm
  have hcap : i < (s.arrs s.cur).length := Nat.lt_of_lt_of_le hi h.room
  cases st with
  | start hs => obtain ⟨hid, _, _⟩ := start_eq hs; rw [hp] at hid; cases hid
  | move _ hs =>
    obtain ⟨_, s1, p, mv, rfl⟩ := step_mv hs
    have hpc := mv.pc_eq
    cases mv <;> (try (simp_all; done))
    rename_i hp'
    rw [hp] at hp'
    injection hp' with e1 e2 e3
    injection e1 with e4 e5 e6
    subst e2 e3 e4 e5 e6
    have hsl : slotOf (setSlot s s.cur i { slotOf s s.cur i with val := v }) s.cur i = { slotOf s s.cur i with val := v } := by
      rw [slotOf_setSlot, if_pos ⟨rfl, rfl, hcap⟩]
    refine ⟨i, hi, ?_, ?_, ?_, ?_, ?_⟩
    · show (slotOf (setSlot s s.cur i _) s.cur i).rev = _
      rw [hsl]; exact hit.2.2.1
    · show (slotOf (setSlot s s.cur i _) s.cur i).conflict = _
      rw [hsl]; exact hit.2.2.2
    · show (slotOf (setSlot s s.cur i _) s.cur i).val = _
      rw [hsl]
    · show (slotOf (setSlot s s.cur i _) s.cur i).deleted = _
      rw [hsl]; exact hd
    · intro u hu
      by_cases e : u = t
      · subst e; simp [PC.claimAt] at hu
      · rw [setPC_other _ _ _ e, hpc] at hu
        refine e (h.li.unique (by rw [hp]; rfl) ?_)
        cases hq : s.pc u <;> rw [hq] at hu <;> simp [PC.claimAt, PC.locked] at hu ⊢

/-- The last write of a Set that put its key into a new slot. -/
theorem kept_wr {s s' : St} {t : Tid} {f : Fr} {fn : Bool} {a i : Nat} (h : PI s) (hp : s.pc t = .wr f fn a i)
    (hd : (slotOf s a i).deleted = false) (st : Step s t s') : Kept s' f.r f.c f.v := by
  obtain ⟨rfl, hi, g3, g4⟩ := h.wr t f fn a i hp
  have hcap : i < (s.arrs s.cur).length := Nat.lt_of_lt_of_le hi h.room
  cases st with
  | start hs => obtain ⟨hid, _, _⟩ := start_eq hs; rw [hp] at hid; cases hid
  | move _ hs =>
    obtain ⟨_, s1, p, mv, rfl⟩ := step_mv hs
    have hpc := mv.pc_eq
    cases mv <;> (try (simp_all; done))
    rename_i hp'
    rw [hp] at hp'
    injection hp' with e1 e2 e3 e4
    subst e1 e2 e3 e4
    have hsl : slotOf (setSlot s s.cur i { slotOf s s.cur i with val := f.v }) s.cur i = { slotOf s s.cur i with val := f.v } := by
      rw [slotOf_setSlot, if_pos ⟨rfl, rfl, hcap⟩]
    refine ⟨i, hi, ?_, ?_, ?_, ?_, ?_⟩
    · show (slotOf (setSlot s s.cur i _) s.cur i).rev = _
      rw [hsl]; exact g3
    · show (slotOf (setSlot s s.cur i _) s.cur i).conflict = _
      rw [hsl]; exact g4
    · show (slotOf (setSlot s s.cur i _) s.cur i).val = _
      rw [hsl]
    · show (slotOf (setSlot s s.cur i _) s.cur i).deleted = _
      rw [hsl]; exact hd
    · intro u hu
      by_cases e : u = t
      · subst e; simp [PC.claimAt] at hu
      · rw [setPC_other _ _ _ e, hpc] at hu
        refine e (h.li.unique (by rw [hp]; rfl) ?_)
        cases hq : s.pc u <;> rw [hq] at hu <;> simp [PC.claimAt, PC.locked] at hu ⊢

end SLM.EConc
