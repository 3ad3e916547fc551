import Verif.Proofs.Run
/-! What one operation can do to the state, whatever its arguments. -/
set_option autoImplicit false
namespace SLM
open History

/-- Nothing but possibly the pool flag changed. -/
structure EffIdle (st : St) (op : Op) (r : St × Out) : Prop where
  same : ∃ b, r.1 = { st with pool := b }
  live : r.2 ≠ .panic .livelock
  nil : r.2 ≠ .panic .nilBucket
  crash : r.2 = .panic .bucketHeadEmpty → ∃ p ∈ st.blist, (st.mem p).rev = maxU64 - 1
  quiet : r.2 ≠ .bool true

/-- The value an operation brings along. -/
def opVal : Op → Option IVal
  | .set _ v => some v
  | .storeItem it => some it.val
  | _ => none

theorem setValue_val {fn : Kind} {old new nv : IVal} {b : Bool} (h : setValue fn old new = .ok (nv, b)) : nv = old ∨ (nv = new ∧ b = true) := by
  unfold setValue at h
  cases fn with
  | entry => simp at h; exact Or.inr ⟨h.1.symm, h.2⟩
  | sample =>
    cases new with
    | none => simp at h; exact Or.inl h.1.symm
    | some w =>
      cases old with
      | none => simp at h; exact Or.inr ⟨h.1.symm, h.2⟩
      | some o =>
        simp only at h
        split at h
        · simp at h; exact Or.inr ⟨h.1.symm, h.2⟩
        · cases h

/-- A live item got another value (or its own). -/
structure EffUpdate (E : Env) (st : St) (op : Op) (r : St × Out) (e : Entry) (nv : IVal) (b : Bool) : Prop where
  mem : e ∈ st.items
  live : e.ignored = false
  hash : storeHash E.H op = some (rev64 e.rev, e.conflict)
  res : r = ({ st with items := setVal e.ref nv st.items }, .bool b)
  val : nv = e.val ∨ (opVal op = some nv ∧ b = true)

structure EffDelete (E : Env) (st : St) (op : Op) (r : St × Out) (key : Key) (e : Entry) : Prop where
  op : op = .delete key
  mem : e ∈ st.items
  live : e.ignored = false
  hash : keyToHash E.H key = some (rev64 e.rev, e.conflict)
  res : r = ({ st with items := markDeleted st.itemFn e.ref st.items }, .bool true)

/-- A new item was handed to `_set`, followed by at most one bucket creation. -/
structure EffNew (E : Env) (st : St) (op : Op) (r : St × Out) (st2 : St) (k c : U64) (e : Entry) : Prop where
  hash : storeHash E.H op = some (k, c)
  none : (getWithBucket E st k c).1 = none
  mem : st2.mem = st.mem
  blist : st2.blist = st.blist
  items : st2.items = st.items
  len : st2.len = st.len
  maxPer : st2.maxPer = st.maxPer
  nextId : st2.nextId = st.nextId + 1
  ref : e.ref = .item st.nextId
  nodummy : e.dummy = false
  nodel : e.deleted = false
  pre : (∃ s v, op = .set (.str s) v ∧ st2 = setPre st ∧ e = newSetEntry st (.str s) v k c) ∨
    (∃ it, op = .storeItem it ∧ st2 = storePre st ∧ e = newItemEntry st it k c)
  setNew : SLM.setNew st2 k (findBucket st.mem (rev64 k)) e = .ok r.1
  midinv : Inv (setMid st2 k (findBucket st.mem (rev64 k)) e)
  grow : Grow (setMid st2 k (findBucket st.mem (rev64 k)) e) r.1
  inv : Inv r.1
  out : r.2 = .bool true

theorem EffNew.lv {E : Env} {st : St} {op : Op} {r : St × Out} {st2 : St} {k c : U64} {e : Entry}
    (x : EffNew E st op r st2 k c e) : st2.lv = st.lv := by
  rcases x.pre with ⟨_, _, _, rfl, _⟩ | ⟨_, _, rfl, _⟩ <;> rfl

theorem update_eff {E : Env} {st : St} {op : Op} {e : Entry} (v : IVal) (he : e ∈ st.items) (hl : e.ignored = false)
    (hs : storeHash E.H op = some (rev64 e.rev, e.conflict)) (ho : opVal op = some v) :
    EffIdle st op (update st e v) ∨ ∃ nv b, EffUpdate E st op (update st e v) e nv b := by
  unfold update
  cases hv : setValue st.itemFn e.val v with
  | error p =>
    left
    have hp : p = .valueType := by
      unfold setValue at hv
      cases hf : st.itemFn with
      | entry => rw [hf] at hv; simp at hv
      | sample =>
        rw [hf] at hv
        cases v with
        | none => simp at hv
        | some w =>
          simp only at hv
          cases ho : e.val with
          | none => rw [ho] at hv; simp at hv
          | some o =>
            rw [ho] at hv
            simp only at hv
            split at hv
            · simp at hv
            · injection hv with hv; exact hv.symm
    subst hp
    exact ⟨⟨st.pool, rfl⟩, by simp, by simp, by simp, by simp⟩
  | ok x =>
    obtain ⟨nv, b⟩ := x
    exact Or.inr ⟨nv, b, he, hl, hs, rfl, (setValue_val hv).imp id (fun h => ⟨by rw [h.1]; exact ho, h.2⟩)⟩

theorem step_eff (E : Env) {st : St} (h : Inv st) (op : Op) :
    EffIdle st op (step E st op) ∨ (∃ e nv b, EffUpdate E st op (step E st op) e nv b) ∨
    (∃ key e, EffDelete E st op (step E st op) key e) ∨ ∃ st2 k c e, EffNew E st op (step E st op) st2 k c e := by
  cases op with
  | set key v =>
    simp only [step]
    cases hk : keyToHash E.H key with
    | none =>
      left
      unfold opSet; simp only [hk]
      exact ⟨⟨st.pool, rfl⟩, by simp, by simp, by simp, by simp⟩
    | some kc =>
      obtain ⟨k, c⟩ := kc
      cases hf : (getWithBucket E st k c).1 with
      | some e =>
        have h2 : getWithBucket E st k c = (some e, (getWithBucket E st k c).2) := by rw [← hf]
        have hm := getWithBucket_mem h2
        have hop : opSet E st key v = update st e v := by unfold opSet; simp only [hk]; rw [h2]
        rw [hop]
        rcases update_eff (op := .set key v) v hm.1 hm.2.1 (by simp only [storeHash]; rw [hk, hm.2.2.1, hm.2.2.2, rev64_rev64]) rfl with h | ⟨nv, b, h⟩
        · exact Or.inl h
        · exact Or.inr (Or.inl ⟨e, nv, b, h⟩)
      | none =>
        by_cases hs : ∃ s, key = .str s
        · obtain ⟨s, rfl⟩ := hs
          have hop := opSet_new (v := v) hk hf
          rw [hop]
          have hmid : Inv (setMid (setPre st) k (findBucket st.mem (rev64 k)) (newSetEntry st (.str s) v k c)) :=
            setMid_inv h rfl rfl rfl rfl rfl rfl rfl
          rcases setNew_spec hmid with ⟨st', h1, h2, h3⟩ | ⟨h1, p, hp, h2⟩
          · right; right; right
            rw [h1]
            exact ⟨setPre st, k, c, _, hk, hf, rfl, rfl, rfl, rfl, rfl, rfl, rfl, rfl, rfl, Or.inl ⟨s, v, rfl, rfl, rfl⟩, h1, hmid, h3, h2, rfl⟩
          · left
            rw [h1]
            exact ⟨⟨_, rfl⟩, by simp, by simp, fun _ => ⟨p, hp, h2⟩, by simp⟩
        · left
          have h2 : getWithBucket E st k c = (none, (getWithBucket E st k c).2) := by rw [← hf]
          unfold opSet
          simp only [hk]
          rw [h2]
          have hb : ∃ b, (if st.pool = false ∧ st.mode = modeCombine4 then { st with pool := true } else st) = { st with pool := b } := by
            split
            · exact ⟨true, rfl⟩
            · exact ⟨st.pool, rfl⟩
          cases key with
          | str s => exact absurd ⟨s, rfl⟩ hs
          | _ => exact ⟨hb, by simp, by simp, by simp, by simp⟩
  | storeItem it =>
    simp only [step]
    cases hk : keyToHash E.H it.key with
    | none =>
      left
      unfold opStoreItem NewItem.keyHash; simp only [hk]
      exact ⟨⟨st.pool, rfl⟩, by simp, by simp, by simp, by simp⟩
    | some kc =>
      obtain ⟨k, c⟩ := kc
      cases hf : (getWithBucket E st k c).1 with
      | some e =>
        have h2 : getWithBucket E st k c = (some e, (getWithBucket E st k c).2) := by rw [← hf]
        have hm := getWithBucket_mem h2
        have hop : opStoreItem E st it = update st e it.val := by
          unfold opStoreItem NewItem.keyHash; simp only [hk]; rw [h2]
        rw [hop]
        rcases update_eff (op := .storeItem it) it.val hm.1 hm.2.1 (by simp only [storeHash]; rw [hk, hm.2.2.1, hm.2.2.2, rev64_rev64]) rfl with h | ⟨nv, b, h⟩
        · exact Or.inl h
        · exact Or.inr (Or.inl ⟨e, nv, b, h⟩)
      | none =>
        have hop := opStoreItem_new hk hf
        rw [hop]
        have hmid : Inv (setMid (storePre st) k (findBucket st.mem (rev64 k)) (newItemEntry st it k c)) :=
          setMid_inv h rfl rfl rfl rfl rfl rfl rfl
        rcases setNew_spec hmid with ⟨st', h1, h2, h3⟩ | ⟨h1, p, hp, h2⟩
        · right; right; right
          rw [h1]
          exact ⟨storePre st, k, c, _, hk, hf, rfl, rfl, rfl, rfl, rfl, rfl, rfl, rfl, rfl, Or.inr ⟨it, rfl, rfl, rfl⟩, h1, hmid, h3, h2, rfl⟩
        · left
          rw [h1]
          exact ⟨⟨_, rfl⟩, by simp, by simp, fun _ => ⟨p, hp, h2⟩, by simp⟩
  | delete key =>
    simp only [step, opDelete]
    cases hk : keyToHash E.H key with
    | none => exact Or.inl ⟨⟨st.pool, rfl⟩, by simp, by simp, by simp, by simp⟩
    | some kc =>
      obtain ⟨k, c⟩ := kc
      simp only
      cases hf : (getWithBucket E st k c).1 with
      | none => exact Or.inl ⟨⟨st.pool, rfl⟩, by simp, by simp, by simp, by simp⟩
      | some e =>
        have h2 : getWithBucket E st k c = (some e, (getWithBucket E st k c).2) := by rw [← hf]
        have hm := getWithBucket_mem h2
        exact Or.inr (Or.inr (Or.inl ⟨key, e, rfl, hm.1, hm.2.1, by rw [hk, hm.2.2.1, hm.2.2.2, rev64_rev64], rfl⟩))
  | get key =>
    left; simp only [step]; unfold opGet opGetByHash
    refine ⟨⟨st.pool, rfl⟩, ?_, ?_, ?_, ?_⟩ <;> (split <;> [simp; (split <;> simp)])
  | getByHash k c =>
    left; simp only [step]; unfold opGetByHash
    refine ⟨⟨st.pool, rfl⟩, ?_, ?_, ?_, ?_⟩ <;> split <;> simp
  | loadItem key =>
    left; simp only [step]; unfold opLoadItem
    refine ⟨⟨st.pool, rfl⟩, ?_, ?_, ?_, ?_⟩ <;> split <;> simp
  | loadItemByHash k c => left; exact ⟨⟨st.pool, rfl⟩, by simp [step, opLoadItemByHash], by simp [step, opLoadItemByHash], by simp [step, opLoadItemByHash], by simp [step, opLoadItemByHash]⟩
  | len => left; exact ⟨⟨st.pool, rfl⟩, by simp [step], by simp [step], by simp [step], by simp [step]⟩
  | range => left; exact ⟨⟨st.pool, rfl⟩, by simp [step, opRange], by simp [step, opRange], by simp [step, opRange], by simp [step, opRange]⟩

end SLM
