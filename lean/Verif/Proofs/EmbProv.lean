import Verif.Proofs.EmbPool
/-!
Maps with `UseEmbeddedPool(true)`: what every slot in use carries, for histories without Purge.  No condition on the hashes, on
the order of the slots, on splits, crashes or reuse of deleted slots.
-/
set_option autoImplicit false
namespace SLM.Emb

variable {H : HashFns} {V : U64 → U64 → IVal → Prop}

/-- A slot in use carries a key with the slot's hashes, and a value that `V` allows for them. -/
structure OKS (H : HashFns) (V : U64 → U64 → IVal → Prop) (s : Slot) : Prop where
  mem : rev64 (H.mem s.key) = s.rev
  xx : H.xx s.key = s.conflict
  val : V (H.mem s.key) (H.xx s.key) s.val

/-- Slots in use, then untouched ones. -/
structure PKey (H : HashFns) (V : U64 → U64 → IVal → Prop) (p : Pool) (us : List Slot) (z : Nat) : Prop where
  arr : p.arr = us ++ List.replicate z ({} : Slot)
  len : p.len = us.length
  ok : ∀ s ∈ us, OKS H V s

def KeyInv (H : HashFns) (V : U64 → U64 → IVal → Prop) (st : St) : Prop := ∀ b p, st.pools b = some p → ∃ us z, PKey H V p us z

theorem OKS.mono {V' : U64 → U64 → IVal → Prop} (hV : ∀ k c v, V k c v → V' k c v) {s : Slot} (h : OKS H V s) : OKS H V' s :=
  ⟨h.mem, h.xx, hV _ _ _ h.val⟩

theorem KeyInv.mono {V' : U64 → U64 → IVal → Prop} (hV : ∀ k c v, V k c v → V' k c v) {st : St} (h : KeyInv H V st) : KeyInv H V' st := by
  intro b p hp
  obtain ⟨us, z, h1⟩ := h b p hp
  exact ⟨us, z, h1.arr, h1.len, fun s hs => (h1.ok s hs).mono hV⟩

theorem lastActive_lt {arr : List Slot} : ∀ {n t : Nat}, lastActive arr n = some t → t < n := by
  intro n
  induction n with
  | zero => intro t h; cases h
  | succ n ih =>
    intro t h
    simp only [lastActive] at h
    split at h
    · exact Nat.lt_succ_of_lt (ih h)
    · injection h with h; omega

theorem firstGE_lt {p : Pool} {r : U64} {i : Nat} (h : p.firstGE r = some i) : i < p.len.toNat := by
  have := List.mem_of_find?_eq_some h
  simpa using this

theorem findFree_lt {p : Pool} {r : U64} {tail : Option Nat} {n i : Nat} (ht : ∀ t, tail = some t → t < n)
    (h : p.findFree r tail = some i) : i < n := by
  unfold Pool.findFree at h
  cases tail with
  | none => cases h
  | some t =>
    simp only at h
    have := ht t rfl
    split at h
    · cases h
    · split at h
      · injection h with h; omega
      · cases h

theorem skipBack_le (arr : List Slot) : ∀ i, skipBack arr i ≤ i := by
  intro i
  induction i with
  | zero => exact Nat.le_refl _
  | succ i ih =>
    simp only [skipBack]
    split
    · omega
    · omega

theorem lookup_lt {p : Pool} {r c : U64} {i : Nat} (h : p.lookup r c = some i) : (i : Int) < p.len ∧ (p.slot i).rev = r ∧ (p.slot i).conflict = c := by
  unfold Pool.lookup at h
  split at h
  · cases h
  · rename_i j hj
    split at h
    · rename_i hc
      injection h with h
      subst h
      unfold Pool.bsearch at hj
      simp only at hj
      split at hj
      · rename_i hb
        injection hj with hj
        subst hj
        have := skipBack_le p.arr (goSearch (fun i => decide (r ≤ (p.slot (skipBack p.arr i)).rev)) p.len.toNat 0 p.len.toNat)
        refine ⟨by omega, hc.1, hc.2⟩
      · cases hj
    · cases h

variable {p q : Pool} {us : List Slot} {z : Nat}

theorem PKey.slot_mem (h : PKey H V p us z) {i : Nat} (hi : i < us.length) : p.slot i ∈ us := by
  unfold Pool.slot
  rw [h.arr, List.getD_eq_getElem?_getD, List.getElem?_append_left hi, List.getElem?_eq_getElem hi]
  exact List.getElem_mem hi

/-- Writing a good slot over one in use. -/
theorem PKey.set (h : PKey H V p us z) {i : Nat} (hi : i < us.length) {s : Slot} (hs : OKS H V s) :
    PKey H V { p with arr := p.arr.set i s } (us.set i s) z := by
  refine ⟨?_, by simp [h.len], ?_⟩
  · simp only [h.arr]; rw [List.set_append_left _ _ hi]
  · intro x hx
    rcases List.mem_or_eq_of_mem_set hx with hx | rfl
    · exact h.ok x hx
    · exact hs

/-- What `getSlot` hands out: a place for a good slot, cleared, with the value nil or one that was in the array. -/
structure Room (H : HashFns) (V : U64 → U64 → IVal → Prop) (us : List Slot) (q : Pool) (i : Nat) : Prop where
  rev : (q.slot i).rev = 0
  conflict : (q.slot i).conflict = 0
  val : (q.slot i).val = none ∨ ∃ s ∈ us, (q.slot i).val = s.val
  put : ∀ s, OKS H V s → ∃ us' z', PKey H V { q with arr := q.arr.set i s } us' z'

theorem PKey.append (h : PKey H V p us z) {i : Nat} (he : p.appendLast = some (q, i)) : Room H V us q i := by
  unfold Pool.appendLast Pool.cap at he
  split at he
  · cases he
  · rename_i hlt
    injection he with he
    injection he with he1 he2
    subst he1 he2
    rw [h.len, h.arr] at hlt
    simp only [List.length_append, List.length_replicate] at hlt
    have hz : 0 < z := by omega
    obtain ⟨w, rfl⟩ : ∃ w, z = w + 1 := ⟨z - 1, by omega⟩
    have hn : p.len.toNat = us.length := by rw [h.len]; rfl
    have hslot : ({ p with len := p.len + 1 } : Pool).slot p.len.toNat = {} := by
      unfold Pool.slot
      simp only [h.arr, hn]
      rw [List.getD_eq_getElem?_getD, List.getElem?_append_right (Nat.le_refl _)]
      simp [List.replicate_succ]
    refine ⟨by rw [hslot], by rw [hslot], by rw [hslot]; exact Or.inl rfl, ?_⟩
    intro s hs
    refine ⟨us ++ [s], w, ?_, ?_, ?_⟩
    · simp only [h.arr, hn]
      rw [List.set_append_right _ _ (Nat.le_refl _)]
      simp [List.replicate_succ]
    · simp [h.len]
    · intro x hx
      rcases List.mem_append.1 hx with hx | hx
      · exact h.ok x hx
      · rw [List.mem_singleton.1 hx]; exact hs

theorem PKey.getSlot (n : Nat) : ∀ {p : Pool} {us : List Slot} {z : Nat} {r : U64} {i : Nat}, PKey H V p us z →
    Pool.getSlot n p r = .ok (q, i) → Room H V us q i := by
  induction n with
  | zero => intro p us z r i h he; cases he
  | succ n ih =>
    intro p us z r i h he
    have hn : p.len.toNat = us.length := by rw [h.len]; rfl
    have happ : ∀ {q i}, (match p.appendLast with
      | some x => (Except.ok x : Except Crash (Pool × Nat))
      | none => .error .livelock) = .ok (q, i) → Room H V us q i := by
      intro q i he
      cases ha : p.appendLast with
      | none => rw [ha] at he; cases he
      | some x =>
        rw [ha] at he
        injection he with he
        subst he
        exact h.append ha
    simp only [Pool.getSlot] at he
    split at he
    · exact happ he
    · split at he
      · rename_i j hj
        injection he with he
        injection he with he1 he2
        subst he1 he2
        have hlt : j < us.length := by
          refine findFree_lt ?_ hj
          intro t ht; rw [← hn]; exact lastActive_lt ht
        have hlen : j < p.arr.length := by rw [h.arr]; simp; omega
        have hslot : ({ p with arr := p.arr.set j { p.slot j with rev := 0, conflict := 0, deleted := false } } : Pool).slot j
            = { p.slot j with rev := 0, conflict := 0, deleted := false } := by
          show (p.arr.set j _).getD j {} = _
          rw [List.getD_eq_getElem?_getD, List.getElem?_set_self hlen]; rfl
        refine ⟨by rw [hslot], by rw [hslot], ?_, ?_⟩
        · rw [hslot]; exact Or.inr ⟨p.slot j, h.slot_mem hlt, rfl⟩
        · intro s hs
          refine ⟨us.set j s, z, ?_⟩
          simp only [List.set_set]
          exact h.set hlt hs
      · split at he
        · cases hx : p.expand with
          | error c => rw [hx] at he; cases he
          | ok q1 =>
            rw [hx] at he
            simp only at he
            unfold Pool.expand at hx
            simp only at hx
            split at hx
            · cases hx
            · injection hx with hx
              subst hx
              have hk : PKey H V { arr := p.arr.take p.len.toNat ++ List.replicate (poolCap p.len - p.len).toNat {}, len := p.len } us
                  (poolCap p.len - p.len).toNat := by
                refine ⟨?_, h.len, h.ok⟩
                simp only [hn, h.arr, List.take_left']
              exact ih hk he
        · split at he
          · cases he
          · split at he
            · exact happ he
            · split at he
              · rename_i j hj
                injection he with he
                injection he with he1 he2
                subst he1 he2
                have hlt : j < us.length := by rw [← hn]; exact firstGE_lt hj
                have e1 : p.arr.take j = us.take j := by rw [h.arr, List.take_append_of_le_length (by omega)]
                have e2 : (p.arr.take us.length).drop j = us.drop j := by rw [h.arr, List.take_left' rfl]
                have harr : (p.insertAt j).arr = us.take j ++ ({} : Slot) :: us.drop j ++ List.replicate (max p.cap (us.length + 1) - (us.length + 1)) ({} : Slot) := by
                  unfold Pool.insertAt
                  simp only [hn, e1, e2]
                have htl : (us.take j).length = j := by simp; omega
                have hslot : (p.insertAt j).slot j = {} := by
                  unfold Pool.slot
                  rw [harr, List.getD_eq_getElem?_getD, List.append_assoc, List.getElem?_append_right (by omega)]
                  simp [htl]
                refine ⟨by rw [hslot], by rw [hslot], by rw [hslot]; exact Or.inl rfl, ?_⟩
                intro s hs
                refine ⟨us.take j ++ s :: us.drop j, max p.cap (us.length + 1) - (us.length + 1), ?_, ?_, ?_⟩
                · simp only [harr]
                  rw [List.append_assoc, List.set_append_right _ _ (by omega), htl]
                  simp
                · simp [Pool.insertAt, h.len]; omega
                · intro x hx
                  rcases List.mem_append.1 hx with hx | hx
                  · exact h.ok x (List.mem_of_mem_take hx)
                  · rcases List.mem_cons.1 hx with rfl | hx
                    · exact hs
                    · exact h.ok x (List.mem_of_mem_drop hx)
              · cases he

theorem PKey.split (h : PKey H V p us z) {i : Nat} (hi : i ≤ us.length) :
    PKey H V (p.split i).1 (us.take i) 0 ∧ PKey H V (p.split i).2 (us.drop i) z := by
  refine ⟨⟨?_, ?_, fun s hs => h.ok s (List.mem_of_mem_take hs)⟩, ⟨?_, ?_, fun s hs => h.ok s (List.mem_of_mem_drop hs)⟩⟩
  · simp only [Pool.split, h.arr]
    rw [List.take_append_of_le_length hi]; simp
  · simp [Pool.split]; omega
  · simp only [Pool.split, h.arr]
    rw [List.drop_append_of_le_length hi]
  · simp [Pool.split, h.len]; omega

theorem keyInv_upool {st : St} (h : KeyInv H V st) {b : Path} (hp : ∃ us z, PKey H V p us z) :
    ∀ b' p', upool st.pools b p b' = some p' → ∃ us z, PKey H V p' us z := by
  intro b' p' hp'
  unfold upool at hp'
  split at hp'
  · injection hp' with hp'; subst hp'; exact hp
  · exact h _ _ hp'

theorem makeBucket2_key : ∀ (n : Nat) {st st' : St} {c : Path}, KeyInv H V st → makeBucket2 n st c = .ok st' → KeyInv H V st' := by
  intro n
  induction n with
  | zero => intro st st' c h he; cases he
  | succ n ih =>
    intro st st' c h he
    simp only [makeBucket2] at he
    split at he
    · cases he
    · split at he
      · injection he with he; subst he; exact h
      · split at he
        · cases he
        · split at he
          · cases he
          · rename_i p hp
            split at he
            · injection he with he; subst he; exact h
            · injection he with he; subst he; exact h
            · rename_i i hi
              obtain ⟨us, z, hk⟩ := h _ _ hp
              have hlt := firstGE_lt hi
              rw [hk.len] at hlt
              have hle : i + 1 ≤ us.length := by have : ((us.length : Int)).toNat = us.length := rfl; omega
              obtain ⟨h1, h2⟩ := hk.split hle
              have key : ∀ (m1 : Path → Bkt) (b1 b2 : Path) (bl : List Path),
                  KeyInv H V { st with mem := m1, blist := bl, pools := upool (upool st.pools b1 (p.split (i + 1)).1) b2 (p.split (i + 1)).2 } := by
                intro m1 b1 b2 bl
                refine keyInv_upool (st := { st with pools := upool st.pools b1 (p.split (i + 1)).1 }) ?_ ⟨_, _, h2⟩
                exact keyInv_upool h ⟨_, _, h1⟩
              split at he
              · exact ih (key _ _ _ _) he
              · split at he
                · exact ih (key _ _ _ _) he
                · injection he with he; subst he; exact key _ _ _ _

theorem link_key {st st' : St} {b : Path} {r : U64} {ign : Bool} (h : KeyInv H V st) (he : link st b r ign = .ok st') : KeyInv H V st' := by
  unfold link at he
  simp only at he
  split at he
  · cases he
  · rename_i st1 hs
    injection he with he
    subst he
    have : KeyInv H V st1 := by
      split at hs
      · exact makeBucket2_key _ h hs
      · injection hs with hs; subst hs; exact h
    exact this

theorem finish_key {st : St} {x : Except Crash St} (h : KeyInv H V st) (hx : ∀ st', x = .ok st' → KeyInv H V st') : KeyInv H V (finish st x).1 := by
  cases x with
  | error c => exact h
  | ok st' => exact hx _ rfl

/-- `V` allows what a store of `v` under these hashes can leave behind. -/
def Allows (V : U64 → U64 → IVal → Prop) (k c : U64) (v : IVal) : Prop :=
  ∀ old, (old = none ∨ ∃ k' c', V k' c' old) → match setValue .sample old v with
    | .ok (nv, _) => V k c nv
    | .error _ => V k c old

/-- The calls the invariant allows: no Purge, Set with string keys. -/
def KeyOp (H : HashFns) (V : U64 → U64 → IVal → Prop) : Op → Prop
  | .purge _ => False
  | .set (.str str) v => Allows V (H.mem str) (H.xx str) v
  | .set key _ => keyToHash H key = none
  | .storeItem str v _ => Allows V (H.mem str) (H.xx str) v
  | _ => True

theorem find_pool {st : St} {k c : U64} {b : Path} {P : Pool} {x : Option Nat} (h : find st k c = some (b, P, x)) :
    st.pools b = some P ∧ P.lookup (rev64 k) c = x := by
  unfold find at h
  simp only at h
  split at h
  · cases h
  · rename_i p hp
    injection h with h
    injection h with h1 h2
    injection h2 with h2 h3
    subst h1 h2 h3
    exact ⟨hp, rfl⟩

theorem update_key {st : St} (h : KeyInv H V st) {k c : U64} {b : Path} {P : Pool} {i : Nat} (hf : find st k c = some (b, P, some i))
    {v : IVal} (hA : Allows V k c v) : KeyInv H V (update st b P i v).1 := by
  obtain ⟨h1, h2⟩ := find_pool hf
  obtain ⟨hl, hr, hc⟩ := lookup_lt h2
  obtain ⟨us, z, hk⟩ := h _ _ h1
  have hlt : i < us.length := by rw [hk.len] at hl; omega
  have ho := hk.ok _ (hk.slot_mem hlt)
  have ek : H.mem (P.slot i).key = k := by have := ho.mem; rw [hr] at this; exact rev64_inj this
  have ec : H.xx (P.slot i).key = c := by rw [ho.xx, hc]
  unfold update
  have hA := hA (P.slot i).val (Or.inr ⟨_, _, ho.val⟩)
  split
  · exact h
  · rename_i nv b' hs
    rw [hs] at hA
    refine keyInv_upool h ⟨_, _, hk.set hlt ⟨ho.mem, ho.xx, ?_⟩⟩
    simp only [ek, ec]; exact hA

theorem claim_key {s : Slot} {r c : U64} (h1 : s.rev = 0) (h2 : s.conflict = 0) : (claim s r c).rev = r ∧ (claim s r c).conflict = c := by
  simp [claim, h1, h2]

theorem step_key {st : St} (h : KeyInv H V st) (op : Op) (ho : KeyOp H V op) : KeyInv H V (step H st op).1 := by
  cases op with
  | get key => exact h
  | getByHash k c => exact h
  | loadItem key => exact h
  | loadItemByHash k c => exact h
  | len => exact h
  | purge key => exact ho.elim
  | delete key =>
    simp only [step, opDelete]
    split
    · exact h
    · rename_i k c hk
      split
      · exact h
      · exact h
      · rename_i b P i hf
        obtain ⟨h1, h2⟩ := find_pool hf
        obtain ⟨us, z, hk⟩ := h _ _ h1
        have hlt : i < us.length := by
          have := (lookup_lt h2).1
          rw [hk.len] at this; omega
        have ho := hk.ok _ (hk.slot_mem hlt)
        exact keyInv_upool h ⟨_, _, hk.set hlt ⟨ho.mem, ho.xx, ho.val⟩⟩
  | storeItem str v r =>
    simp only [step, opStoreItem]
    split
    · exact h
    · rename_i b P i hf; exact update_key h hf ho
    · exact finish_key h (fun st' he => link_key h he)
  | set key v =>
    simp only [step, opSet]
    split
    · exact h
    · rename_i k c hkc
      have ho' : ∃ str, key = .str str := by
        cases key <;> first | exact ⟨_, rfl⟩ | (simp only [KeyOp] at ho; rw [ho] at hkc; cases hkc)
      obtain ⟨str, rfl⟩ := ho'
      simp only [keyToHash] at hkc
      injection hkc with hkc
      injection hkc with hk1 hk2
      subst hk1 hk2
      split
      · exact h
      · rename_i b P i hf; exact update_key h hf ho
      · rename_i b P hf
        obtain ⟨h1, h2⟩ := find_pool hf
        obtain ⟨us, z, hk⟩ := h _ _ h1
        split
        · exact h
        · rename_i q i hg
          have hroom := hk.getSlot 2 hg
          obtain ⟨c1, c2⟩ := claim_key (r := rev64 (H.mem str)) (c := H.xx str) hroom.rev hroom.conflict
          have hA := ho (q.slot i).val (by
            rcases hroom.val with hv | ⟨s, hs, hv⟩
            · exact Or.inl hv
            · exact Or.inr ⟨_, _, by rw [hv]; exact (hk.ok s hs).val⟩)
          have hval : (claim (q.slot i) (rev64 (H.mem str)) (H.xx str)).val = (q.slot i).val := rfl
          simp only [hval]
          split
          · rename_i e hs
            rw [hs] at hA
            exact keyInv_upool h (hroom.put _ ⟨c1.symm, c2.symm, hA⟩)
          · rename_i nv b' hs
            rw [hs] at hA
            refine finish_key h (fun st' he => link_key ?_ he)
            exact keyInv_upool h (hroom.put _ ⟨c1.symm, c2.symm, hA⟩)

theorem init_key (mp : Nat) : KeyInv H V (initSt mp) := by
  intro b p hp
  simp only [initSt] at hp
  split at hp
  · injection hp with hp
    subst hp
    exact ⟨[], mp * 3 / 2, by simp, by simp, by simp⟩
  · cases hp

theorem run_key {st : St} (h : KeyInv H V st) (ops : List Op) (ho : ∀ op ∈ ops, KeyOp H V op) : KeyInv H V (run H st ops).1 := by
  induction ops generalizing st with
  | nil => exact h
  | cons op ops ih =>
    simp only [run]
    exact ih (step_key h op (ho op (by simp))) (fun o hm => ho o (by simp [hm]))

/-! ### the length stays inside the array, in every reachable state -/

def Bd (p : Pool) : Prop := p.len ≤ p.arr.length
def BdInv (st : St) : Prop := ∀ b p, st.pools b = some p → Bd p

theorem bd_set (h : Bd p) (i : Nat) (s : Slot) : Bd { p with arr := p.arr.set i s } := by
  unfold Bd at *; simpa using h

theorem bdInv_upool {st : St} (h : BdInv st) {b : Path} (hp : Bd p) : ∀ b' p', upool st.pools b p b' = some p' → Bd p' := by
  intro b' p' hp'
  unfold upool at hp'
  split at hp'
  · injection hp' with hp'; subst hp'; exact hp
  · exact h _ _ hp'

theorem append_bd (h : Bd p) {i : Nat} (he : p.appendLast = some (q, i)) : Bd q := by
  unfold Pool.appendLast Pool.cap at he
  split at he
  · cases he
  · injection he with he
    injection he with he1 he2
    subst he1
    unfold Bd; simp only; omega

theorem getSlot_bd (n : Nat) : ∀ {p q : Pool} {r : U64} {i : Nat}, Bd p → Pool.getSlot n p r = .ok (q, i) → Bd q := by
  induction n with
  | zero => intro p q r i h he; cases he
  | succ n ih =>
    intro p q r i h he
    have happ : ∀ {q i}, (match p.appendLast with
      | some x => (Except.ok x : Except Crash (Pool × Nat))
      | none => .error .livelock) = .ok (q, i) → Bd q := by
      intro q i he
      cases ha : p.appendLast with
      | none => rw [ha] at he; cases he
      | some x =>
        rw [ha] at he
        injection he with he
        subst he
        exact append_bd h ha
    simp only [Pool.getSlot] at he
    split at he
    · exact happ he
    · split at he
      · injection he with he
        injection he with he1 he2
        subst he1
        exact bd_set h _ _
      · split at he
        · cases hx : p.expand with
          | error c => rw [hx] at he; cases he
          | ok q1 =>
            rw [hx] at he
            simp only at he
            unfold Pool.expand at hx
            simp only at hx
            split at hx
            · cases hx
            · injection hx with hx
              subst hx
              refine ih ?_ he
              unfold Bd at *
              simp only [List.length_append, List.length_take, List.length_replicate]
              omega
        · split at he
          · cases he
          · split at he
            · exact happ he
            · split at he
              · rename_i j hj
                injection he with he
                injection he with he1 he2
                subst he1
                have hlt := firstGE_lt hj
                unfold Bd at *
                simp only [Pool.insertAt, List.length_append, List.length_take, List.length_cons, List.length_drop, List.length_replicate, Pool.cap]
                omega
              · cases he

theorem split_bd (h : Bd p) {i : Nat} (hi : i ≤ p.len.toNat) : Bd (p.split i).1 ∧ Bd (p.split i).2 := by
  unfold Bd at *
  simp only [Pool.split, List.length_take, List.length_drop]
  omega

theorem makeBucket2_bd : ∀ (n : Nat) {st st' : St} {c : Path}, BdInv st → makeBucket2 n st c = .ok st' → BdInv st' := by
  intro n
  induction n with
  | zero => intro st st' c h he; cases he
  | succ n ih =>
    intro st st' c h he
    simp only [makeBucket2] at he
    split at he
    · cases he
    · split at he
      · injection he with he; subst he; exact h
      · split at he
        · cases he
        · split at he
          · cases he
          · rename_i p hp
            split at he
            · injection he with he; subst he; exact h
            · injection he with he; subst he; exact h
            · rename_i i hi
              obtain ⟨h1, h2⟩ := split_bd (h _ _ hp) (i := i + 1) (by have := firstGE_lt hi; omega)
              have key : ∀ (m1 : Path → Bkt) (b1 b2 : Path) (bl : List Path),
                  BdInv { st with mem := m1, blist := bl, pools := upool (upool st.pools b1 (p.split (i + 1)).1) b2 (p.split (i + 1)).2 } := by
                intro m1 b1 b2 bl
                refine bdInv_upool (st := { st with pools := upool st.pools b1 (p.split (i + 1)).1 }) ?_ h2
                exact bdInv_upool h h1
              split at he
              · exact ih (key _ _ _ _) he
              · split at he
                · exact ih (key _ _ _ _) he
                · injection he with he; subst he; exact key _ _ _ _

theorem finish_bd {st : St} {st1 : St} {b : Path} {r : U64} {ign : Bool} (h : BdInv st) (h1 : BdInv st1) :
    BdInv (finish st (link st1 b r ign)).1 := by
  cases hx : link st1 b r ign with
  | error c => exact h
  | ok st' =>
    show BdInv st'
    unfold link at hx
    simp only at hx
    split at hx
    · cases hx
    · rename_i st2 hs
      injection hx with hx
      subst hx
      have : BdInv st2 := by
        split at hs
        · exact makeBucket2_bd _ h1 hs
        · injection hs with hs; subst hs; exact h1
      exact this

theorem update_bd {st : St} (h : BdInv st) {k c : U64} {b : Path} {P : Pool} {i : Nat} (hf : find st k c = some (b, P, some i)) (v : IVal) :
    BdInv (update st b P i v).1 := by
  unfold update
  split
  · exact h
  · exact bdInv_upool h (bd_set (h _ _ (find_pool hf).1) _ _)

theorem shrink_bd (h : Bd p) : Bd p.shrinkLen := by
  unfold Pool.shrinkLen Bd at *
  split
  · simp only; omega
  · exact h

theorem step_bd {st : St} (h : BdInv st) (op : Op) : BdInv (step H st op).1 := by
  cases op with
  | get key => exact h
  | getByHash k c => exact h
  | loadItem key => exact h
  | loadItemByHash k c => exact h
  | len => exact h
  | purge key =>
    simp only [step, opPurge]
    split
    · exact h
    · split
      · exact h
      · exact h
      · rename_i b P i hf
        have hb := h _ _ (find_pool hf).1
        split
        · refine bdInv_upool h (shrink_bd ?_)
          unfold Bd at *; simp; omega
        · exact bdInv_upool h (bd_set hb _ _)
  | delete key =>
    simp only [step, opDelete]
    split
    · exact h
    · split
      · exact h
      · exact h
      · rename_i b P i hf
        exact bdInv_upool h (bd_set (h _ _ (find_pool hf).1) _ _)
  | storeItem str v r =>
    simp only [step, opStoreItem]
    split
    · exact h
    · rename_i b P i hf; exact update_bd h hf v
    · exact finish_bd h h
  | set key v =>
    simp only [step, opSet]
    split
    · exact h
    · split
      · exact h
      · rename_i b P i hf; exact update_bd h hf v
      · rename_i b P hf
        split
        · exact h
        · rename_i q i hg
          have hq := getSlot_bd 2 (h _ _ (find_pool hf).1) hg
          split
          · split
            · exact bdInv_upool h (bd_set hq _ _)
            · exact finish_bd h (bdInv_upool h (bd_set hq _ _))
          · exact bdInv_upool h (bd_set hq _ _)

theorem run_bd {st : St} (h : BdInv st) (ops : List Op) : BdInv (run H st ops).1 := by
  induction ops generalizing st with
  | nil => exact h
  | cons op ops ih => simp only [run]; exact ih (step_bd h op)

theorem init_bd (mp : Nat) : BdInv (initSt mp) := by
  intro b p hp
  simp only [initSt] at hp
  split at hp
  · injection hp with hp
    subst hp
    unfold Bd; simp only [List.length_replicate]; omega
  · cases hp

/-! ### every value in any array was handed over, in every reachable state -/

def VOk (W : IVal → Prop) (p : Pool) : Prop := ∀ s ∈ p.arr, s.val = none ∨ W s.val
def VInv (W : IVal → Prop) (st : St) : Prop := ∀ b p, st.pools b = some p → VOk W p

variable {W : IVal → Prop}

theorem VInv.mono {W' : IVal → Prop} (hW : ∀ v, W v → W' v) {st : St} (h : VInv W st) : VInv W' st :=
  fun b p hp s hs => (h b p hp s hs).imp id (hW _)

theorem vok_slot (h : VOk W p) (i : Nat) : (p.slot i).val = none ∨ W (p.slot i).val := by
  unfold Pool.slot
  rw [List.getD_eq_getElem?_getD]
  cases hx : p.arr[i]? with
  | none => left; rfl
  | some s => exact h s (List.mem_of_getElem? hx)

theorem vok_set (h : VOk W p) (i : Nat) {s : Slot} (hs : s.val = none ∨ W s.val) {l : Int} : VOk W { arr := p.arr.set i s, len := l } := by
  intro x hx
  rcases List.mem_or_eq_of_mem_set hx with hx | rfl
  · exact h x hx
  · exact hs

theorem vok_set' (h : VOk W p) (i j : Nat) {s : Slot} (hs : s.val = (p.slot j).val) {l : Int} : VOk W { arr := p.arr.set i s, len := l } :=
  vok_set h i (by rw [hs]; exact vok_slot h j)

theorem vok_sub (h : VOk W p) (hq : ∀ s ∈ q.arr, s ∈ p.arr ∨ s.val = none) : VOk W q := by
  intro s hs
  rcases hq s hs with h1 | h1
  · exact h s h1
  · exact Or.inl h1

theorem vInv_upool {st : St} (h : VInv W st) {b : Path} (hp : VOk W p) : ∀ b' p', upool st.pools b p b' = some p' → VOk W p' := by
  intro b' p' hp'
  unfold upool at hp'
  split at hp'
  · injection hp' with hp'; subst hp'; exact hp
  · exact h _ _ hp'

theorem append_v (h : VOk W p) {i : Nat} (he : p.appendLast = some (q, i)) : VOk W q := by
  unfold Pool.appendLast at he
  split at he
  · cases he
  · injection he with he
    injection he with he1 he2
    subst he1
    exact h

theorem getSlot_v (n : Nat) : ∀ {p q : Pool} {r : U64} {i : Nat}, VOk W p → Pool.getSlot n p r = .ok (q, i) → VOk W q := by
  induction n with
  | zero => intro p q r i h he; cases he
  | succ n ih =>
    intro p q r i h he
    have happ : ∀ {q i}, (match p.appendLast with
      | some x => (Except.ok x : Except Crash (Pool × Nat))
      | none => .error .livelock) = .ok (q, i) → VOk W q := by
      intro q i he
      cases ha : p.appendLast with
      | none => rw [ha] at he; cases he
      | some x =>
        rw [ha] at he
        injection he with he
        subst he
        exact append_v h ha
    simp only [Pool.getSlot] at he
    split at he
    · exact happ he
    · split at he
      · rename_i j hj
        injection he with he
        injection he with he1 he2
        subst he1
        exact vok_set' h _ j (by rfl)
      · split at he
        · cases hx : p.expand with
          | error c => rw [hx] at he; cases he
          | ok q1 =>
            rw [hx] at he
            simp only at he
            unfold Pool.expand at hx
            simp only at hx
            split at hx
            · cases hx
            · injection hx with hx
              subst hx
              refine ih (vok_sub h ?_) he
              intro s hs
              rcases List.mem_append.1 hs with hs | hs
              · exact Or.inl (List.mem_of_mem_take hs)
              · right; rw [(List.mem_replicate.1 hs).2]
        · split at he
          · cases he
          · split at he
            · exact happ he
            · split at he
              · rename_i j hj
                injection he with he
                injection he with he1 he2
                subst he1
                refine vok_sub h ?_
                intro s hs
                simp only [Pool.insertAt, List.append_assoc, List.mem_append, List.mem_cons] at hs
                rcases hs with hs | hs
                · exact Or.inl (List.mem_of_mem_take hs)
                · rcases hs with (rfl | hs) | hs
                  · exact Or.inr rfl
                  · exact Or.inl (List.mem_of_mem_take (List.mem_of_mem_drop hs))
                  · right; rw [(List.mem_replicate.1 hs).2]
              · cases he

theorem makeBucket2_v : ∀ (n : Nat) {st st' : St} {c : Path}, VInv W st → makeBucket2 n st c = .ok st' → VInv W st' := by
  intro n
  induction n with
  | zero => intro st st' c h he; cases he
  | succ n ih =>
    intro st st' c h he
    simp only [makeBucket2] at he
    split at he
    · cases he
    · split at he
      · injection he with he; subst he; exact h
      · split at he
        · cases he
        · split at he
          · cases he
          · rename_i p hp
            split at he
            · injection he with he; subst he; exact h
            · injection he with he; subst he; exact h
            · rename_i i hi
              have h1 : VOk W (p.split (i + 1)).1 := fun s hs => h _ _ hp s (List.mem_of_mem_take hs)
              have h2 : VOk W (p.split (i + 1)).2 := fun s hs => h _ _ hp s (List.mem_of_mem_drop hs)
              have key : ∀ (m1 : Path → Bkt) (b1 b2 : Path) (bl : List Path),
                  VInv W { st with mem := m1, blist := bl, pools := upool (upool st.pools b1 (p.split (i + 1)).1) b2 (p.split (i + 1)).2 } := by
                intro m1 b1 b2 bl
                refine vInv_upool (st := { st with pools := upool st.pools b1 (p.split (i + 1)).1 }) ?_ h2
                exact vInv_upool h h1
              split at he
              · exact ih (key _ _ _ _) he
              · split at he
                · exact ih (key _ _ _ _) he
                · injection he with he; subst he; exact key _ _ _ _

theorem finish_v {st : St} {st1 : St} {b : Path} {r : U64} {ign : Bool} (h : VInv W st)
    (h1 : (finish st (link st1 b r ign)).2 = .bool true → VInv W st1) : VInv W (finish st (link st1 b r ign)).1 := by
  cases hx : link st1 b r ign with
  | error c => exact h
  | ok st' =>
    rw [hx] at h1
    replace h1 := h1 rfl
    show VInv W st'
    unfold link at hx
    simp only at hx
    split at hx
    · cases hx
    · rename_i st2 hs
      injection hx with hx
      subst hx
      have : VInv W st2 := by
        split at hs
        · exact makeBucket2_v _ h1 hs
        · injection hs with hs; subst hs; exact h1
      exact this

/-- `setValue` stores the new value and answers true, or keeps the old one. -/
theorem setValue_sample {old v nv : IVal} {b : Bool} (h : setValue .sample old v = .ok (nv, b)) :
    (nv = v ∧ b = true) ∨ (nv = old ∧ b = false ∧ v = none) := by
  unfold setValue at h
  cases v with
  | none => injection h with h; injection h with h1 h2; subst h1 h2; exact Or.inr ⟨rfl, rfl, rfl⟩
  | some v =>
    cases old with
    | none => injection h with h; injection h with h1 h2; subst h1 h2; exact Or.inl ⟨rfl, rfl⟩
    | some o =>
      simp only at h
      split at h
      · injection h with h; injection h with h1 h2; subst h1 h2; exact Or.inl ⟨rfl, rfl⟩
      · cases h

/-- The value an operation stores, and what it is filed under. -/
def opVal : Op → Option IVal
  | .set _ v => some v
  | .storeItem _ v _ => some v
  | _ => none

theorem update_v {st : St} (h : VInv W st) {k c : U64} {b : Path} {P : Pool} {i : Nat} (hf : find st k c = some (b, P, some i)) {v : IVal}
    (hW : (update st b P i v).2 = .bool true → W v) : VInv W (update st b P i v).1 := by
  unfold update at hW ⊢
  split
  · exact h
  · rename_i nv r hs
    rw [hs] at hW
    have hp := h _ _ (find_pool hf).1
    refine vInv_upool h (vok_set hp _ ?_)
    rcases setValue_sample hs with ⟨rfl, rfl⟩ | ⟨rfl, rfl, _⟩
    · exact Or.inr (hW rfl)
    · exact vok_slot hp i

theorem step_v {st : St} (h : VInv W st) (op : Op) (hW : ∀ v, opVal op = some v → v ≠ none → (step H st op).2 = .bool true → W v) :
    VInv W (step H st op).1 := by
  have hn : ∀ v, opVal op = some v → (step H st op).2 = .bool true → v = none ∨ W v := by
    intro v h1 h2
    cases v with
    | none => exact Or.inl rfl
    | some v => exact Or.inr (hW _ h1 (by simp) h2)
  have hup : ∀ {k c : U64} {b : Path} {P : Pool} {i : Nat}, find st k c = some (b, P, some i) → ∀ v,
      opVal op = some v → (step H st op).2 = (update st b P i v).2 → VInv W (update st b P i v).1 := by
    intro k c b P i hf v h1 h2
    cases v with
    | none =>
      unfold update setValue
      exact vInv_upool h (vok_set' (h _ _ (find_pool hf).1) _ i (by rfl))
    | some v => exact update_v h hf (fun h3 => hW _ h1 (by simp) (by rw [h2]; exact h3))
  cases op with
  | get key => exact h
  | getByHash k c => exact h
  | loadItem key => exact h
  | loadItemByHash k c => exact h
  | len => exact h
  | purge key =>
    simp only [step, opPurge]
    split
    · exact h
    · split
      · exact h
      · exact h
      · rename_i b P i hf
        have hb := h _ _ (find_pool hf).1
        split
        · refine vInv_upool h ?_
          unfold Pool.shrinkLen
          split <;> exact vok_set' hb _ i (by rfl)
        · exact vInv_upool h (vok_set' hb _ i (by rfl))
  | delete key =>
    simp only [step, opDelete]
    split
    · exact h
    · split
      · exact h
      · exact h
      · rename_i b P i hf
        have hb := h _ _ (find_pool hf).1
        exact vInv_upool h (vok_set' hb _ i (by rfl))
  | storeItem str v r =>
    simp only [step, opStoreItem]
    split
    · exact h
    · rename_i b P i hf
      exact hup hf v rfl (by simp only [step, opStoreItem, hf])
    · exact finish_v h (fun _ => h)
  | set key v =>
    simp only [step, opSet] at hn hup ⊢
    split
    · exact h
    · rename_i k c hkc
      simp only [hkc] at hn hup
      split
      · exact h
      · rename_i b P i hf
        exact hup hf v rfl (by simp only [hf])
      · rename_i b P hf
        simp only [hf] at hn
        split
        · exact h
        · rename_i q i hg
          simp only [hg] at hn
          have hq := getSlot_v 2 (h _ _ (find_pool hf).1) hg
          split
          · rename_i str
            simp only at hn
            have hval : (claim (q.slot i) (rev64 k) c).val = (q.slot i).val := rfl
            simp only [hval] at hn ⊢
            split
            · exact vInv_upool h (vok_set' hq _ i (by rfl))
            · rename_i nv r hs
              simp only [hs] at hn
              refine finish_v h (fun hb => vInv_upool h (vok_set hq _ ?_))
              rcases setValue_sample hs with ⟨rfl, rfl⟩ | ⟨rfl, rfl, _⟩
              · exact hn _ rfl hb
              · exact vok_slot hq i
          · exact vInv_upool h (vok_set' hq _ i (by rfl))

theorem init_v (mp : Nat) : VInv W (initSt mp) := by
  intro b p hp
  simp only [initSt] at hp
  split at hp
  · injection hp with hp
    subst hp
    intro s hs
    left; rw [(List.mem_replicate.1 hs).2]
  · cases hp

/-! ### writing a value changes no lookup -/

theorem skipBack_congr {a a' : List Slot} (h : ∀ i, (a.getD i {}).deleted = (a'.getD i {}).deleted) : ∀ i, skipBack a i = skipBack a' i := by
  intro i
  induction i with
  | zero => rfl
  | succ i ih => simp only [skipBack, h, ih]

theorem lookup_congr (hl : p.len = q.len) (h : ∀ i, (p.slot i).rev = (q.slot i).rev ∧ (p.slot i).conflict = (q.slot i).conflict ∧
    (p.slot i).deleted = (q.slot i).deleted) (r c : U64) : p.lookup r c = q.lookup r c := by
  have hs : ∀ i, skipBack p.arr i = skipBack q.arr i := skipBack_congr (fun i => (h i).2.2)
  unfold Pool.lookup Pool.bsearch
  simp only [hl, hs, fun i => (h i).1, fun i => (h i).2.1]

end SLM.Emb
