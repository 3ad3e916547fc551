import Verif.Proofs.Held
import Verif.Proofs.Example
/-!
C59: no read ever shows a value or a key nobody stored, for every configuration, hash function, environment and history
(no side condition at all: collisions, pre-set hashes, keys on a boundary and crashed calls included).
-/
set_option autoImplicit false
namespace SLM
open History

/-- The hash pair an item handed to the map is filed under: the hashes of its key, unless `Setup()` has preset them
(map.go:728-743). -/
def filedAs (H : HashFns) : Op → Option (U64 × U64)
  | .set key _ => keyToHash H key
  | .storeItem it => (keyToHash H it.key).map fun kc =>
      (if it.rev0 = 0 then kc.1 else rev64 it.rev0, if it.conflict0 = 0 then kc.2 else it.conflict0)
  | _ => none

/-- The operation stores value `v` for hash pair `(k, c)`: its key hashes to it, or it creates an item filed under it. -/
def Supplies (H : HashFns) (op : Op) (k c : U64) (v : IVal) : Prop :=
  opVal op = some v ∧ (storeHash H op = some (k, c) ∨ filedAs H op = some (k, c))

def opKey : Op → Option Key
  | .set key _ => some key
  | .storeItem it => some it.key
  | _ => none

/-- The operation handed over `key` and it is filed under `(k, c)`. -/
def SuppliesKey (H : HashFns) (op : Op) (k c : U64) (key : Key) : Prop := opKey op = some key ∧ filedAs H op = some (k, c)

/-- At some point of the history `ops` on a map made with `cfg`, an operation with property `P` was called and answered
true. -/
def Acked (E : Env) (cfg : Cfg) (ops : List Op) (P : Op → Prop) : Prop :=
  ∃ a op b, ops = a ++ op :: b ∧ P op ∧ (step E (run E (initSt cfg) a).1 op).2 = .bool true

theorem Acked.snoc {E : Env} {cfg : Cfg} {ops : List Op} {P : Op → Prop} (h : Acked E cfg ops P) (op : Op) :
    Acked E cfg (ops ++ [op]) P := by
  obtain ⟨a, o, b, h1, h2, h3⟩ := h
  exact ⟨a, o, b ++ [op], by rw [h1]; simp, h2, h3⟩

theorem Acked.last {E : Env} {cfg : Cfg} {ops : List Op} {P : Op → Prop} {op : Op} (hp : P op)
    (ho : (step E (run E (initSt cfg) ops).1 op).2 = .bool true) : Acked E cfg (ops ++ [op]) P :=
  ⟨ops, op, [], rfl, hp, ho⟩

/-- Every item's value and key were stored by the history. -/
def Prov (E : Env) (cfg : Cfg) (ops : List Op) (st : St) : Prop :=
  ∀ e ∈ st.items, e.dummy = false →
    Acked E cfg ops (fun op => Supplies E.H op (rev64 e.rev) e.conflict e.val) ∧
    (e.deleted = false → Acked E cfg ops (fun op => SuppliesKey E.H op (rev64 e.rev) e.conflict e.key))

theorem EffNew.supplies {E : Env} {st st2 : St} {op : Op} {r : St × Out} {k c : U64} {e : Entry}
    (h : EffNew E st op r st2 k c e) :
    Supplies E.H op (rev64 e.rev) e.conflict e.val ∧ SuppliesKey E.H op (rev64 e.rev) e.conflict e.key := by
  have hh := h.hash
  rcases h.pre with ⟨s, v, rfl, _, rfl⟩ | ⟨it, rfl, _, rfl⟩
  · simp only [storeHash] at hh
    refine ⟨⟨rfl, Or.inl ?_⟩, rfl, ?_⟩ <;> simp only [storeHash, filedAs, hh, newSetEntry, rev64_rev64]
  · simp only [storeHash] at hh
    have hf : filedAs E.H (.storeItem it) = some (rev64 (newItemEntry st it k c).rev, (newItemEntry st it k c).conflict) := by
      simp only [filedAs, hh, newItemEntry, Option.map_some]
      congr 1
      congr 1
      split
      · rw [rev64_rev64]
      · rfl
    exact ⟨⟨rfl, Or.inr hf⟩, rfl, hf⟩

theorem step_prov {E : Env} {cfg : Cfg} {ops : List Op} {op : Op} (hi : Inv (run E (initSt cfg) ops).1)
    (h : Prov E cfg ops (run E (initSt cfg) ops).1) :
    Prov E cfg (ops ++ [op]) (step E (run E (initSt cfg) ops).1 op).1 := by
  intro e he hd
  have old : ∀ e ∈ (run E (initSt cfg) ops).1.items, e.dummy = false →
      Acked E cfg (ops ++ [op]) (fun op => Supplies E.H op (rev64 e.rev) e.conflict e.val) ∧
      (e.deleted = false → Acked E cfg (ops ++ [op]) (fun op => SuppliesKey E.H op (rev64 e.rev) e.conflict e.key)) :=
    fun e he hd => ⟨(h e he hd).1.snoc op, fun hx => ((h e he hd).2 hx).snoc op⟩
  rcases step_eff E hi op with x | ⟨e1, nv, b, x⟩ | ⟨key, e1, x⟩ | ⟨st2, k, c, e1, x⟩
  · obtain ⟨b, hb⟩ := x.same
    rw [hb] at he
    exact old e he hd
  · rw [x.res] at he
    obtain ⟨e0, h0, rfl⟩ := List.mem_map.1 he
    by_cases hr : e0.ref = e1.ref
    · have := ref_inj hi.ii.nodup h0 x.mem hr
      subst this
      have hl : e0.dummy = false := by have := x.live; unfold Entry.ignored at this; simp at this; exact this.1
      have hv := old e0 h0 hl
      rw [if_pos rfl]
      refine ⟨?_, hv.2⟩
      rcases x.val with hx | ⟨hx, hb⟩
      · rw [show ({ e0 with val := nv } : Entry) = e0 by rw [hx]]
        exact hv.1
      · exact Acked.last ⟨hx, Or.inl x.hash⟩ (by rw [x.res, hb])
    · rw [if_neg hr] at hd ⊢
      exact old e0 h0 hd
  · rw [x.res] at he
    obtain ⟨e0, h0, rfl⟩ := List.mem_map.1 he
    by_cases hr : e0.ref = e1.ref
    · rw [if_pos hr] at hd ⊢
      exact ⟨(old e0 h0 hd).1, fun hx => by cases hx⟩
    · rw [if_neg hr] at hd ⊢
      exact old e0 h0 hd
  · rcases (x.mem_items hd).2 he with rfl | he
    · exact ⟨Acked.last x.supplies.1 x.out, fun _ => Acked.last x.supplies.2 x.out⟩
    · exact old e he hd

theorem run_prov (E : Env) (cfg : Cfg) (ops : List Op) : Prov E cfg ops (run E (initSt cfg) ops).1 := by
  induction ops using List.reverseRecOn with
  | nil =>
    intro e he hd
    exfalso
    have := initSt_dummy cfg e he
    rw [this] at hd; cases hd
  | append_singleton ops op ih =>
    have h := step_prov (op := op) (run_inv E (inv_init cfg) ops) ih
    rw [run_append]
    exact h

/-- C59, `Get`, `GetByHash`: a value answered with ok was handed to an acknowledged store for exactly these hashes. -/
theorem C59_get (E : Env) (cfg : Cfg) (ops : List Op) (k c : U64) (v : IVal)
    (h : opGetByHash E (run E (initSt cfg) ops).1 k c = .val v true) : Acked E cfg ops (fun op => Supplies E.H op k c v) := by
  unfold opGetByHash at h
  cases hg : getEntry E (run E (initSt cfg) ops).1 k c with
  | none => rw [hg] at h; cases h
  | some e =>
    rw [hg] at h
    simp only [Out.val.injEq, and_true] at h
    subst h
    obtain ⟨h1, h2, h3, h4⟩ := getEntry_mem hg
    have hd : e.dummy = false := by unfold Entry.ignored at h2; simp at h2; exact h2.1
    have := (run_prov E cfg ops e h1 hd).1
    rwa [h3, h4, rev64_rev64] at this

/-- C59, by key. -/
theorem C59_get_key (E : Env) (cfg : Cfg) (ops : List Op) (key : Key) (v : IVal)
    (h : opGet E (run E (initSt cfg) ops).1 key = .val v true) :
    ∃ k c, keyToHash E.H key = some (k, c) ∧ Acked E cfg ops (fun op => Supplies E.H op k c v) := by
  unfold opGet at h
  cases hk : keyToHash E.H key with
  | none => rw [hk] at h; cases h
  | some kc => rw [hk] at h; exact ⟨kc.1, kc.2, rfl, C59_get E cfg ops _ _ v h⟩

theorem view_prov {E : Env} {cfg : Cfg} {ops : List Op} {fn : Kind} {e : Entry} (he : e ∈ (run E (initSt cfg) ops).1.items)
    (hl : e.ignored = false) :
    Acked E cfg ops (fun op => Supplies E.H op (rev64 e.rev) e.conflict (view fn e).2) ∧
    (∀ key, (view fn e).1 = some key → Acked E cfg ops (fun op => SuppliesKey E.H op (rev64 e.rev) e.conflict key)) := by
  have hd : e.dummy = false ∧ e.deleted = false := by unfold Entry.ignored at hl; simp at hl; exact hl
  have h := run_prov E cfg ops e he hd.1
  refine ⟨h.1, fun key hk => ?_⟩
  unfold view viewKey at hk
  simp only at hk
  split at hk
  · cases hk; exact h.2 hd.2
  · cases hk

/-- C59, `LoadItem`, `LoadItemByHash`: the value and, where the item's own type shows it, the key. -/
theorem C59_loadItemByHash (E : Env) (cfg : Cfg) (ops : List Op) (k c : U64) (key : Option Key) (v : IVal)
    (h : opLoadItemByHash E (run E (initSt cfg) ops).1 k c = .item (some (key, v))) :
    Acked E cfg ops (fun op => Supplies E.H op k c v) ∧
    (∀ x, key = some x → Acked E cfg ops (fun op => SuppliesKey E.H op k c x)) := by
  unfold opLoadItemByHash at h
  simp only [Out.item.injEq, Option.map_eq_some_iff] at h
  obtain ⟨e, hg, hv⟩ := h
  obtain ⟨h1, h2, h3, h4⟩ := getEntry_mem hg
  have := view_prov (fn := (run E (initSt cfg) ops).1.itemFn) h1 h2
  rwa [h3, h4, rev64_rev64, hv] at this

theorem C59_loadItem (E : Env) (cfg : Cfg) (ops : List Op) (q : Key) (key : Option Key) (v : IVal)
    (h : opLoadItem E (run E (initSt cfg) ops).1 q = .item (some (key, v))) :
    ∃ k c, keyToHash E.H q = some (k, c) ∧ Acked E cfg ops (fun op => Supplies E.H op k c v) ∧
      (∀ x, key = some x → Acked E cfg ops (fun op => SuppliesKey E.H op k c x)) := by
  unfold opLoadItem at h
  cases hk : keyToHash E.H q with
  | none => rw [hk] at h; cases h
  | some kc =>
    rw [hk] at h
    refine ⟨kc.1, kc.2, rfl, ?_⟩
    simp only [Out.item.injEq, Option.map_eq_some_iff] at h
    obtain ⟨e, hg, hv⟩ := h
    have h2 : getWithBucket E (run E (initSt cfg) ops).1 kc.1 kc.2 = (some e, (getWithBucket E (run E (initSt cfg) ops).1 kc.1 kc.2).2) := by
      rw [← hg]
    obtain ⟨h1, h2, h3, h4⟩ := getWithBucket_mem h2
    have := view_prov (fn := (run E (initSt cfg) ops).1.itemFn) h1 h2
    rwa [h3, h4, rev64_rev64, hv] at this

theorem rangeItems_mem {f : List Entry → Entry → Bool} {l seen : List Entry} {e : Entry} (h : e ∈ rangeItems f seen l) :
    e ∈ seen ∨ (e ∈ l ∧ e.ignored = false) := by
  induction l generalizing seen with
  | nil => exact Or.inl h
  | cons x l ih =>
    unfold rangeItems at h
    split at h
    · rcases ih h with h | h
      · exact Or.inl h
      · exact Or.inr ⟨by simp [h.1], h.2⟩
    · rename_i hx
      have key : e ∈ seen ++ [x] → e ∈ seen ∨ (e ∈ x :: l ∧ e.ignored = false) := by
        intro h
        rcases List.mem_append.1 h with h | h
        · exact Or.inl h
        · rw [List.mem_singleton] at h
          subst h
          exact Or.inr ⟨by simp, by simpa using hx⟩
      split at h
      · rcases ih h with h | h
        · exact key h
        · exact Or.inr ⟨by simp [h.1], h.2⟩
      · exact key h

/-- C59, `Range`, `RangeItem`: whatever the callback answers, every visited item was stored. -/
theorem C59_range (E : Env) (cfg : Cfg) (ops : List Op) (f : List Entry → Entry → Bool) (e : Entry)
    (h : e ∈ (run E (initSt cfg) ops).1.rangeItem f) (key : Option Key) (v : IVal)
    (hv : view (run E (initSt cfg) ops).1.itemFn e = (key, v)) :
    ∃ k c, Acked E cfg ops (fun op => Supplies E.H op k c v) ∧
      (∀ x, key = some x → Acked E cfg ops (fun op => SuppliesKey E.H op k c x)) := by
  have h1 : e ∈ (run E (initSt cfg) ops).1.items ∧ e.ignored = false := by
    rcases rangeItems_mem h with h | h
    · cases h
    · exact h
  have := view_prov (fn := (run E (initSt cfg) ops).1.itemFn) h1.1 h1.2
  rw [hv] at this
  exact ⟨_, _, this⟩

/-! ### Counting: every delete removes a store -/

/-- How many live items are filed under `(k, c)`. -/
def filedLive (st : St) (k c : U64) : Nat :=
  st.items.countP (fun e => !e.ignored && decide (e.rev = rev64 k) && decide (e.conflict = c))

/-- `LoadItem` does not find the key the operation brings along. -/
def absentBefore (E : Env) (st : St) (op : Op) : Prop := ∃ key, opKey op = some key ∧ opLoadItem E st key = .item none

instance (E : Env) (st : St) (op : Op) : Decidable (absentBefore E st op) :=
  match h : opKey op with
  | none => isFalse (fun ⟨k, hk, _⟩ => by rw [h] at hk; cases hk)
  | some key =>
    if h2 : opLoadItem E st key = .item none then isTrue ⟨key, h, h2⟩
    else isFalse (fun ⟨k, hk, h3⟩ => by rw [h] at hk; cases hk; exact h2 h3)

/-- Acknowledged stores of absent keys filed under `(k, c)`, and acknowledged deletes of `(k, c)`, in the history `ops` from `st`. -/
def newStores (E : Env) (k c : U64) : St → List Op → Nat
  | _, [] => 0
  | st, op :: ops =>
    (if filedAs E.H op = some (k, c) ∧ absentBefore E st op ∧ (step E st op).2 = .bool true then 1 else 0) + newStores E k c (step E st op).1 ops

def delHash (H : HashFns) : Op → Option (U64 × U64)
  | .delete key => keyToHash H key
  | _ => none

def ackedDeletes (E : Env) (k c : U64) : St → List Op → Nat
  | _, [] => 0
  | st, op :: ops =>
    (if delHash E.H op = some (k, c) ∧ (step E st op).2 = .bool true then 1 else 0) + ackedDeletes E k c (step E st op).1 ops

theorem countP_mark {fn : Kind} {l : List Entry} {e : Entry} (P : Entry → Bool) (hnd : (l.map (·.ref)).Nodup) (he : e ∈ l)
    (hp : P e = true) (hq : ∀ x : Entry, x.deleted = true → P x = false) :
    (markDeleted fn e.ref l).countP P + 1 = l.countP P := by
  induction l with
  | nil => cases he
  | cons x l ih =>
    rw [List.map_cons, List.nodup_cons] at hnd
    unfold markDeleted at ih ⊢
    rw [List.map_cons, List.countP_cons, List.countP_cons]
    by_cases hx : x.ref = e.ref
    · have hxe : x = e := by
        rcases List.mem_cons.1 he with h | h
        · exact h.symm
        · exact absurd (List.mem_map.2 ⟨e, h, hx.symm⟩) hnd.1
      subst hxe
      rw [if_pos rfl, hq _ rfl, hp]
      rw [List.map_congr_left (g := id) (fun y hy => by
        rw [if_neg (fun hc => hnd.1 (List.mem_map.2 ⟨y, hy, hc⟩))]; rfl), List.map_id]
      simp
    · rw [if_neg hx]
      rcases List.mem_cons.1 he with h | h
      · exact absurd (by rw [h]) hx
      · have := ih hnd.2 h
        omega

theorem countP_setVal {l : List Entry} {r : Ref} {v : IVal} (P : Entry → Bool) (hq : ∀ x : Entry, P { x with val := v } = P x) :
    (setVal r v l).countP P = l.countP P := by
  unfold setVal
  rw [List.countP_map]
  congr 1
  funext x
  simp only [Function.comp]
  split
  · exact hq x
  · rfl

theorem countP_ins {e : Entry} {l l' : List Entry} (P : Entry → Bool) (h : Ins e l l') :
    l'.countP P ≤ l.countP P + (if P e then 1 else 0) := by
  rcases h with rfl | ⟨pre, d, post, rfl, rfl⟩
  · omega
  · simp only [List.countP_append, List.countP_cons]
    omega

theorem countP_grow {st st' : St} (P : Entry → Bool) (hq : ∀ x : Entry, x.dummy = true → P x = false) (h : Grow st st') :
    st'.items.countP P = st.items.countP P := by
  rcases h with rfl | ⟨A, B, n, b, c, hb⟩
  · rfl
  · rw [hb.items, (insAt_perm _ _).countP_eq, List.countP_cons, hq _ rfl]
    simp

theorem EffNew.absent {E : Env} {st st2 : St} {op : Op} {r : St × Out} {k c : U64} {e : Entry}
    (h : EffNew E st op r st2 k c e) : absentBefore E st op := by
  have hh := h.hash
  rcases h.pre with ⟨s, v, rfl, _, _⟩ | ⟨it, rfl, _, _⟩ <;>
    exact ⟨_, rfl, by simp only [storeHash] at hh; unfold opLoadItem; rw [hh]; simp only; rw [h.none]; rfl⟩

theorem step_filed (E : Env) {st : St} (h : Inv st) (op : Op) (k c : U64) :
    filedLive (step E st op).1 k c + (if delHash E.H op = some (k, c) ∧ (step E st op).2 = .bool true then 1 else 0) ≤
      filedLive st k c + (if filedAs E.H op = some (k, c) ∧ absentBefore E st op ∧ (step E st op).2 = .bool true then 1 else 0) := by
  unfold filedLive
  set P : Entry → Bool := fun e => !e.ignored && decide (e.rev = rev64 k) && decide (e.conflict = c) with hP
  rcases step_eff E h op with x | ⟨e1, nv, b, x⟩ | ⟨key, e1, x⟩ | ⟨st2, k2, c2, e1, x⟩
  · obtain ⟨b, hb⟩ := x.same
    rw [hb, if_neg (fun hc => x.quiet hc.2)]
    show st.items.countP P + 0 ≤ _
    omega
  · have hd : delHash E.H op = none := by
      have := x.hash
      cases op <;> first | rfl | cases this
    rw [x.res, hd, if_neg (fun hc => by cases hc.1)]
    show (setVal e1.ref nv st.items).countP P + 0 ≤ _
    rw [countP_setVal P (fun y => rfl)]
    omega
  · rw [x.res, x.op]
    have hdel : ∀ y : Entry, y.deleted = true → P y = false := by
      intro y hy
      simp only [hP, Entry.ignored, hy]; simp
    by_cases hc : keyToHash E.H key = some (k, c)
    · rw [if_pos ⟨hc, rfl⟩]
      have h1 := x.hash
      rw [hc] at h1
      simp only [Option.some.injEq, Prod.mk.injEq] at h1
      have hp : P e1 = true := by
        simp only [hP, x.live, h1.1, h1.2, rev64_rev64]; simp
      have := countP_mark (fn := st.itemFn) P h.ii.nodup x.mem hp hdel
      show (markDeleted st.itemFn e1.ref st.items).countP P + 1 ≤ _
      omega
    · rw [if_neg (fun h => hc h.1)]
      show (markDeleted st.itemFn e1.ref st.items).countP P + 0 ≤ _
      have hle : (markDeleted st.itemFn e1.ref st.items).countP P ≤ st.items.countP P := by
        unfold markDeleted
        rw [List.countP_map]
        apply List.countP_mono_left
        intro y _ hy
        simp only [Function.comp] at hy
        split at hy
        · rw [hdel _ rfl] at hy; cases hy
        · exact hy
      omega
  · have hd : delHash E.H op = none := by
      have := x.hash
      cases op <;> first | rfl | cases this
    rw [hd, if_neg (fun hc => by cases hc.1), countP_grow P (fun y hy => by simp [hP, Entry.ignored, hy]) x.grow]
    have hi : Ins e1 st2.items (setMid st2 k2 (findBucket st.mem (rev64 k2)) e1).items := setInsert_ins
    rw [x.items] at hi
    have h1 := countP_ins P hi
    have h2 : P e1 = true → filedAs E.H op = some (k, c) := by
      intro hp
      simp only [hP, Bool.and_eq_true, decide_eq_true_eq] at hp
      have := x.supplies.2.2
      rw [hp.1.2, hp.2, rev64_rev64] at this
      exact this
    by_cases hp : P e1 = true
    · rw [if_pos ⟨h2 hp, x.absent, x.out⟩]
      rw [if_pos hp] at h1
      omega
    · rw [if_neg hp] at h1
      omega

theorem run_filed (E : Env) (k c : U64) (ops : List Op) {st : St} (h : Inv st) :
    filedLive (run E st ops).1 k c + ackedDeletes E k c st ops ≤ filedLive st k c + newStores E k c st ops := by
  induction ops generalizing st with
  | nil => exact Nat.le_refl _
  | cons op ops ih =>
    have h1 := step_filed E h op k c
    have h2 := ih (step_inv E h op)
    show filedLive (run E (step E st op).1 ops).1 k c + _ ≤ _
    unfold ackedDeletes newStores
    omega

/-- C60: a pair of hashes with as many acknowledged deletes as acknowledged stores of an absent key is absent, whatever happened. -/
theorem C60_absent (E : Env) (cfg : Cfg) (ops : List Op) (k c : U64)
    (h : newStores E k c (initSt cfg) ops ≤ ackedDeletes E k c (initSt cfg) ops) :
    opGetByHash E (run E (initSt cfg) ops).1 k c = .val none false ∧
    opLoadItemByHash E (run E (initSt cfg) ops).1 k c = .item none ∧
    ∀ f, ∀ e ∈ (run E (initSt cfg) ops).1.rangeItem f, ¬ (e.rev = rev64 k ∧ e.conflict = c) := by
  have h1 := run_filed E k c ops (inv_init cfg)
  have h0 : filedLive (initSt cfg) k c = 0 := by
    unfold filedLive
    rw [List.countP_eq_zero]
    intro e he
    have := initSt_dummy cfg e he
    simp [Entry.ignored, this]
  have hz : filedLive (run E (initSt cfg) ops).1 k c = 0 := by omega
  unfold filedLive at hz
  rw [List.countP_eq_zero] at hz
  have hn : getEntry E (run E (initSt cfg) ops).1 k c = none := by
    cases hg : getEntry E (run E (initSt cfg) ops).1 k c with
    | none => rfl
    | some e =>
      obtain ⟨a1, a2, a3, a4⟩ := getEntry_mem hg
      exact absurd (by simp [a2, a3, a4]) (hz e a1)
  refine ⟨by unfold opGetByHash; rw [hn], by unfold opLoadItemByHash; rw [hn]; rfl, ?_⟩
  intro f e he hx
  rcases rangeItems_mem he with h | h
  · cases h
  · exact hz e h.1 (by simp [h.2, hx.1, hx.2])

/-- C60: deletes never outnumber the stores. -/
theorem C60_deletes (E : Env) (cfg : Cfg) (ops : List Op) (k c : U64) :
    ackedDeletes E k c (initSt cfg) ops ≤ newStores E k c (initSt cfg) ops := by
  have h1 := run_filed E k c ops (inv_init cfg)
  have h0 : filedLive (initSt cfg) k c = 0 := by
    unfold filedLive
    rw [List.countP_eq_zero]
    intro e he
    have := initSt_dummy cfg e he
    simp [Entry.ignored, this]
  omega

/-! ### Concrete histories -/

/-- Hash functions under which all strings share the primary hash: every pair of keys collides. -/
def clashE : Env := { H := { mem := fun _ => 0x123456789ABCDEF#64, xx := exH.xx } }

def clashOps : List Op :=
  [.set (sk 1) (exV 10), .set (sk 2) (exV 20), .set (sk 1) (exV 11), .delete (sk 1), .set (sk 3) (exV 30), .set (sk 2) (exV 21),
   .storeItem { kind := .sample, key := sk 4, val := exV 40, conflict0 := 9 }, .delete (sk 2), .set (sk 3) (exV 31)]

def clashK : U64 := 0x123456789ABCDEF#64

set_option maxRecDepth 100000 in
/-- The hypotheses of `C59_get`, `C59_get_key`, `C59_loadItem`, `C59_loadItemByHash` and `C60_absent` are met by a history
in which all keys collide. -/
example : opGetByHash clashE (run clashE (initSt {}) clashOps).1 clashK (exH.xx [3]) = .val (exV 31) true ∧
    opLoadItem clashE (run clashE (initSt {}) clashOps).1 (sk 3) = .item (some (some (sk 3), exV 31)) ∧
    newStores clashE clashK (exH.xx [1]) (initSt {}) clashOps = 1 ∧ ackedDeletes clashE clashK (exH.xx [1]) (initSt {}) clashOps = 1 ∧
    newStores clashE clashK (exH.xx [2]) (initSt {}) clashOps = 1 ∧ ackedDeletes clashE clashK (exH.xx [2]) (initSt {}) clashOps = 1 := by decide +kernel

end SLM
