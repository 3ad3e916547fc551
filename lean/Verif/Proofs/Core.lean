import Verif.Proofs.Count
/-!
The bucket-free machine: a sorted list of items (deleted ones included), with `len`, item type and identity counter.
`step_core`: in a good state every admissible operation of the map behaves exactly (all outputs, Range and Len included)
like this machine, whatever the configuration and the buckets.
-/
set_option autoImplicit false
namespace SLM
open History

@[ext] structure Core where
  items : List Entry
  len : Int
  fn : Kind
  nextId : Nat

def Core.add (s : Core) (e : Entry) : Core := { s with items := insAt e s.items, len := s.len + 1, nextId := s.nextId + 1 }

def Core.update (s : Core) (e : Entry) (v : IVal) : Core × Out :=
  match setValue s.fn e.val v with
  | .error p => (s, .panic p)
  | .ok (nv, b) => ({ s with items := setVal e.ref nv s.items }, .bool b)

def Core.step (H : HashFns) (s : Core) : Op → Core × Out
  | .set key v =>
    match keyToHash H key with
    | none => (s, .panic .unsupportedKey)
    | some (k, c) =>
      match lookup s.items k c with
      | some e => s.update e v
      | none =>
        match key with
        | .str _ => ({ s with fn := .sample }.add
            { ref := .item s.nextId, kind := .sample, key := key, val := v, rev := rev64 k, conflict := c, dummy := false, deleted := false }, .bool true)
        | _ => (s, .panic .keyNotString)
  | .storeItem it =>
    match keyToHash H it.key with
    | none => (s, .panic .unsupportedKey)
    | some (k, c) =>
      match lookup s.items k c with
      | some e => s.update e it.val
      | none => (s.add { ref := .item s.nextId, kind := it.kind, key := it.key, val := it.val, rev := rev64 k, conflict := c,
                         dummy := false, deleted := false }, .bool true)
  | .get key =>
    match keyToHash H key with
    | none => (s, .panic .unsupportedKey)
    | some (k, c) => (s, match lookup s.items k c with | none => .val none false | some e => .val e.val true)
  | .getByHash k c => (s, match lookup s.items k c with | none => .val none false | some e => .val e.val true)
  | .loadItem key =>
    match keyToHash H key with
    | none => (s, .panic .unsupportedKey)
    | some (k, c) => (s, .item ((lookup s.items k c).map (view s.fn)))
  | .loadItemByHash k c => (s, .item ((lookup s.items k c).map (view s.fn)))
  | .delete key =>
    match keyToHash H key with
    | none => (s, .panic .unsupportedKey)
    | some (k, c) =>
      match lookup s.items k c with
      | none => (s, .bool false)
      | some e => ({ s with items := markDeleted s.fn e.ref s.items }, .bool true)
  | .len => (s, .num s.len)
  | .range => (s, .seq ((s.items.filter (fun e => !e.ignored)).map (view s.fn)))

def Core.run (H : HashFns) (s : Core) : List Op → Core × List Out
  | [] => (s, [])
  | op :: ops => (((s.step H op).1.run H ops).1, (s.step H op).2 :: ((s.step H op).1.run H ops).2)

/-- What is left of a map when buckets and configuration are forgotten. -/
def core (st : St) : Core := { items := st.items.filter (fun e => !e.dummy), len := st.len, fn := st.itemFn, nextId := st.nextId }

theorem lookup_core (l : List Entry) (k c : U64) : lookup (l.filter (fun e => !e.dummy)) k c = lookup l k c := by
  unfold lookup liveAt
  congr 1
  rw [List.find?_filter]
  congr 1
  funext e
  unfold Entry.ignored
  cases e.dummy <;> simp

theorem map_core (l : List Entry) (r : Ref) (g : Entry → Entry) (hg : ∀ x, (g x).dummy = x.dummy) :
    (l.map (fun x => if x.ref = r then g x else x)).filter (fun e => !e.dummy) =
      (l.filter (fun e => !e.dummy)).map (fun x => if x.ref = r then g x else x) := by
  rw [List.filter_map]
  congr 1
  apply List.filter_congr
  intro x _
  simp only [Function.comp]
  split <;> simp [hg]

theorem insAt_core {l : List Entry} (hs : Sorted l) (e : Entry) (he : e.dummy = false) :
    (insAt e l).filter (fun e => !e.dummy) = insAt e (l.filter (fun e => !e.dummy)) := by
  induction l with
  | nil => simp [insAt, he]
  | cons x xs ih =>
    have hs' := List.pairwise_cons.1 hs
    have ih := ih hs'.2
    unfold insAt at ih ⊢
    by_cases hx : x.rev ≤ e.rev
    · cases hd : x.dummy with
      | true => simp [List.takeWhile_cons, List.dropWhile_cons, hx, hd] at ih ⊢; exact ih
      | false => simp [List.takeWhile_cons, List.dropWhile_cons, hx, hd] at ih ⊢; exact ih
    · -- everything from here on is beyond e
      have hall : ∀ y ∈ (x :: xs), ¬ y.rev ≤ e.rev := by
        intro y hy hc
        rcases List.mem_cons.1 hy with rfl | hy
        · exact hx hc
        · exact hx (BitVec.le_trans (hs'.1 y hy) hc)
      have h1 : ∀ l' : List Entry, (∀ y ∈ l', ¬ y.rev ≤ e.rev) →
          l'.takeWhile (fun x => decide (x.rev ≤ e.rev)) = [] ∧ l'.dropWhile (fun x => decide (x.rev ≤ e.rev)) = l' := by
        intro l' hl'
        cases l' with
        | nil => simp
        | cons y ys => simp [List.takeWhile_cons, List.dropWhile_cons, hl' y (by simp)]
      obtain ⟨a1, a2⟩ := h1 (x :: xs) hall
      obtain ⟨b1, b2⟩ := h1 ((x :: xs).filter (fun e => !e.dummy)) (fun y hy => hall y (List.mem_of_mem_filter hy))
      rw [a1, a2, b1, b2]
      simp [List.filter_cons, he]

theorem insAt_core_dummy (l : List Entry) (d : Entry) (hd : d.dummy = true) :
    (insAt d l).filter (fun e => !e.dummy) = l.filter (fun e => !e.dummy) := by
  unfold insAt
  rw [List.filter_append, List.filter_cons]
  simp only [hd, Bool.not_true, Bool.false_eq_true, if_false]
  rw [← List.filter_append, List.takeWhile_append_dropWhile]

theorem core_grow {mid st' : St} (h : Grow mid st') : core st' = core mid := by
  rcases h with rfl | ⟨A, B, n, b, c, hb⟩
  · rfl
  · obtain ⟨_, _, h3, _, h5, h6⟩ := hb.same
    unfold core
    rw [h3, h5, h6, hb.items, insAt_core_dummy _ _ rfl]

theorem core_new {st st2 : St} {k : U64} {e : Entry} (h : Good st)
    (hm : st2.mem = st.mem) (hbl : st2.blist = st.blist) (hit : st2.items = st.items) (hn : st2.nextId = st.nextId + 1)
    (hlv : st2.lv = st.lv) (hlen : st2.len = st.len) (hr : e.ref = .item st.nextId) (hi : e.ignored = false) (hrev : e.rev = rev64 k)
    (hfree : ∀ x, Live st.items x → x.rev ≠ rev64 k)
    (hoff : ∀ p ∈ st.blist, bvRev p ≠ rev64 k) {st' : St}
    (hs : setNew st2 k (findBucket st.mem (rev64 k)) e = .ok st') :
    core st' = { core st with fn := st2.itemFn }.add e := by
  obtain ⟨g, hits⟩ := h.insert (st2 := st2) rfl hm hbl hit hn hlv hr hi hrev hfree hoff
  have hed : e.dummy = false := by unfold Entry.ignored at hi; simp at hi; exact hi.1
  rcases setNew_spec g.inv with ⟨st'', h1, _, h3⟩ | ⟨h1, _⟩
  · rw [hs] at h1
    injection h1 with h1
    subst h1
    rw [core_grow h3]
    unfold core Core.add
    rw [hits, insAt_core h.inv.ii.sorted e hed]
    simp [setMid, hlen, hn]
  · rw [hs] at h1; cases h1

theorem core_update {st : St} (e : Entry) (v : IVal) :
    (core (update st e v).1, (update st e v).2) = (core st).update e v := by
  unfold update Core.update
  show _ = match setValue st.itemFn e.val v with
    | .error p => (core st, Out.panic p)
    | .ok (nv, b) => ({ core st with items := setVal e.ref nv (core st).items }, Out.bool b)
  cases setValue st.itemFn e.val v with
  | error p => rfl
  | ok x =>
    obtain ⟨nv, b⟩ := x
    simp only [Prod.mk.injEq, and_true]
    ext1 <;> try rfl
    exact map_core st.items e.ref (fun x => { x with val := nv }) (fun _ => rfl)

theorem rangeItems_true (seen l : List Entry) : rangeItems (fun _ _ => true) seen l = seen ++ l.filter (fun e => !e.ignored) := by
  induction l generalizing seen with
  | nil => simp [rangeItems]
  | cons e es ih =>
    unfold rangeItems
    cases he : e.ignored with
    | true => simp only [he, if_true]; rw [ih]; simp [List.filter_cons, he]
    | false => simp only [he]; simp only [Bool.false_eq_true, if_false, if_true]; rw [ih]; simp [List.filter_cons, he]

/-- In a good state an admissible operation that does not crash acts as on the bucket-free machine. -/
theorem step_core {E : Env} {st : St} (h : Good st) {op : Op} (ha : AdmOp E st op)
    (hp : (step E st op).2 ≠ .panic .bucketHeadEmpty) :
    (core (step E st op).1, (step E st op).2) = (core st).step E.H op := by
  have hget : ∀ k c, (getWithBucket E st k c).1 = lookup (core st).items k c := fun k c => by
    rw [getWithBucket_eq h]; exact (lookup_core _ _ _).symm
  have hget2 : ∀ k c, getEntry E st k c = lookup (core st).items k c := fun k c => by
    rw [getEntry_eq h]; exact (lookup_core _ _ _).symm
  have hlk : ∀ k c, lookup st.items k c = lookup (core st).items k c := fun k c => (lookup_core _ _ _).symm
  cases op with
  | set key v =>
    simp only [step, Core.step] at hp ⊢
    cases hk : keyToHash E.H key with
    | none => unfold opSet; simp only [hk]
    | some kc =>
      obtain ⟨k, c⟩ := kc
      simp only
      rw [← hget]
      cases hf : (getWithBucket E st k c).1 with
      | some e =>
        have h2 : getWithBucket E st k c = (some e, (getWithBucket E st k c).2) := by rw [← hf]
        have hop : opSet E st key v = update st e v := by unfold opSet; simp only [hk]; rw [h2]
        rw [hop]
        exact core_update e v
      | none =>
        obtain ⟨hfree, hoff⟩ := (ha k c hk).spec h (by rw [hlk, ← hget]; exact hf)
        by_cases hs : ∃ s, key = .str s
        · obtain ⟨s, rfl⟩ := hs
          have hop := opSet_new (v := v) hk hf
          rw [hop] at hp ⊢
          cases hsn : setNew (setPre st) k (findBucket st.mem (rev64 k)) (newSetEntry st (.str s) v k c) with
          | ok st' =>
            have := core_new (st2 := setPre st) h rfl rfl rfl rfl rfl rfl rfl rfl rfl hfree hoff hsn
            simp only [this]
            rfl
          | error p =>
            rcases setNew_refines (st2 := setPre st) (e := newSetEntry st (.str s) v k c) h rfl rfl rfl rfl rfl rfl rfl rfl rfl rfl
              hfree hoff with ⟨st', h1, h2, h3⟩ | h1
            · rw [hsn] at h1; cases h1
            · rw [h1] at hp; exact absurd rfl hp
        · have h2 : getWithBucket E st k c = (none, (getWithBucket E st k c).2) := by rw [← hf]
          unfold opSet
          simp only [hk]
          rw [h2]
          have ha' : core (if st.pool = false ∧ st.mode = modeCombine4 then { st with pool := true } else st) = core st := by
            split <;> rfl
          cases key with
          | str s => exact absurd ⟨s, rfl⟩ hs
          | _ => simp only [ha']
  | storeItem it =>
    simp only [step, Core.step] at hp ⊢
    obtain ⟨hr0, hc0, ha⟩ := ha
    cases hk : keyToHash E.H it.key with
    | none => unfold opStoreItem NewItem.keyHash; simp only [hk]
    | some kc =>
      obtain ⟨k, c⟩ := kc
      simp only
      rw [← hget]
      cases hf : (getWithBucket E st k c).1 with
      | some e =>
        have h2 : getWithBucket E st k c = (some e, (getWithBucket E st k c).2) := by rw [← hf]
        have hop : opStoreItem E st it = update st e it.val := by
          unfold opStoreItem NewItem.keyHash; simp only [hk]; rw [h2]
        rw [hop]
        exact core_update e it.val
      | none =>
        obtain ⟨hfree, hoff⟩ := (ha k c hk).spec h (by rw [hlk, ← hget]; exact hf)
        have hop := opStoreItem_new hk hf
        have hrev : (newItemEntry st it k c).rev = rev64 k := by simp [newItemEntry, hr0]
        rw [hop] at hp ⊢
        cases hsn : setNew (storePre st) k (findBucket st.mem (rev64 k)) (newItemEntry st it k c) with
        | ok st' =>
          have := core_new (st2 := storePre st) h rfl rfl rfl rfl rfl rfl rfl rfl hrev hfree hoff hsn
          simp only [this]
          simp only [newItemEntry, hr0, hc0, if_true]
          rfl
        | error p =>
          rcases setNew_refines (st2 := storePre st) (e := newItemEntry st it k c) (c := c) h rfl rfl rfl rfl rfl rfl rfl rfl
            hrev (by simp [newItemEntry, hc0]) hfree hoff with ⟨st', h1, h2, h3⟩ | h1
          · rw [hsn] at h1; cases h1
          · rw [h1] at hp; exact absurd rfl hp
  | get key =>
    simp only [step, Core.step, opGet]
    cases hk : keyToHash E.H key with
    | none => rfl
    | some kc =>
      obtain ⟨k, c⟩ := kc
      simp only [opGetByHash, hget2]
      cases lookup (core st).items k c <;> rfl
  | getByHash k c =>
    simp only [step, Core.step, opGetByHash, hget2]
    cases lookup (core st).items k c <;> rfl
  | loadItem key =>
    simp only [step, Core.step, opLoadItem]
    cases hk : keyToHash E.H key with
    | none => rfl
    | some kc =>
      obtain ⟨k, c⟩ := kc
      simp only [hget]
      rfl
  | loadItemByHash k c =>
    simp only [step, Core.step, opLoadItemByHash, hget2]
    rfl
  | delete key =>
    simp only [step, Core.step, opDelete]
    cases hk : keyToHash E.H key with
    | none => rfl
    | some kc =>
      obtain ⟨k, c⟩ := kc
      simp only [hget]
      cases lookup (core st).items k c with
      | none => rfl
      | some e =>
        simp only [Prod.mk.injEq, and_true]
        ext1 <;> try rfl
        exact map_core st.items e.ref (fun x => { x with deleted := true, key := match st.itemFn with | .entry => .nil | .sample => x.key }) (fun _ => rfl)
  | len => rfl
  | range =>
    simp only [step, Core.step, opRange, St.rangeItem, rangeItems_true, core, Prod.mk.injEq, true_and, Out.seq.injEq, List.nil_append]
    rw [List.filter_filter]
    congr 1
    apply List.filter_congr
    intro e _
    unfold Entry.ignored
    cases e.dummy <;> simp

theorem run_core {E : Env} {ops : List Op} {st : St} (g : Good st) (h : AdmRun E st ops) :
    (core (run E st ops).1, (run E st ops).2) = (core st).run E.H ops := by
  induction ops generalizing st with
  | nil => rfl
  | cons op ops ih =>
    have h1 := step_core g h.1 h.2.1
    have h2 := ih (h.step_good g) h.2.2
    rw [run_cons]
    unfold Core.run
    rw [← h1, ← h2]

end SLM
