import Verif.Proofs.EmbRun
import Verif.Proofs.Example
import Mathlib.Data.List.Dedup
/-!
C22–C29: maps with `UseEmbeddedPool(true)`.

Most of these properties are false of the code; each `_refuted` theorem is a history of the model that shows it, and the
`_partial` theorems say what holds of all histories that avoid those situations.
-/
set_option maxRecDepth 100000
set_option autoImplicit false
namespace SLM.Emb
open Spec (PMap Ans)

/-! ### vocabulary -/

/-- What the histories of the positive theorems avoid.  Everything else is arbitrary: hash functions, keys, values,
the bucket size (at least 1), the order and number of operations. -/
structure Clean (H : HashFns) (mp : Nat) (ops : List Op) : Prop where
  /-- `MaxPefBucket` is at least 1 -/
  one : 1 ≤ mp
  /-- only Set with string keys, Get, GetByHash, LoadItem, LoadItemByHash and Len -/
  plain : ∀ op ∈ ops, Plain op
  /-- no two keys share the primary hash but not the conflict hash -/
  coll : ∀ a ∈ ops, ∀ b ∈ ops, ∀ k c c', setHash H a = some (k, c) → setHash H b = some (k, c') → c = c'
  /-- at most `mp` keys have primary hashes that agree in the lowest 60 bits (always so if `mp ≥ 16`) -/
  sparse : ∀ L : List U64, L.Nodup → (∀ k ∈ L, ∃ op ∈ ops, ∃ c, setHash H op = some (k, c)) →
    (∀ k ∈ L, ∀ k' ∈ L, k.toNat % 2 ^ 60 = k'.toNat % 2 ^ 60) → L.length ≤ mp
  small : (ops.length : Int) < 2 ^ 62

/-- No operation crashed, looped or exhausted the stack. -/
def NoCrash (H : HashFns) (mp : Nat) (ops : List Op) : Prop := ∀ c, Out.crash c ∉ (run H (initSt mp) ops).2

theorem mod_of_rev {r r' : U64} {j : Nat} (hj : j ≤ 64) (h : r.toNat / 2 ^ j = r'.toNat / 2 ^ j) :
    (rev64 r).toNat % 2 ^ (64 - j) = (rev64 r').toNat % 2 ^ (64 - j) := by
  have hb : ∀ (x : U64) (i : Nat), i < 64 → (rev64 x).getLsbD i = x.getLsbD (63 - i) := by
    intro x i h
    simp only [rev64, BitVec.getLsbD_reverse, BitVec.getMsbD_eq_getLsbD, h, decide_true, Bool.true_and]
  apply Nat.eq_of_testBit_eq
  intro i
  rw [Nat.testBit_mod_two_pow, Nat.testBit_mod_two_pow]
  by_cases hi : i < 64 - j
  · simp only [hi, decide_true, Bool.true_and, BitVec.testBit_toNat]
    rw [hb r i (by omega), hb r' i (by omega)]
    have h1 := congrArg (fun x => x.testBit (63 - i - j)) h
    simp only [Nat.testBit_div_two_pow] at h1
    rw [show 63 - i - j + j = 63 - i by omega] at h1
    simpa [BitVec.testBit_toNat] using h1
  · simp [hi]

theorem nodup_rev {L : List U64} (h : L.Nodup) : (L.map rev64).Nodup := by
  rw [List.Nodup, List.pairwise_map]
  exact h.imp (fun {a b} hne hc => hne (rev64_inj hc))

/-- The hash pairs of a history. -/
def hashes (H : HashFns) (ops : List Op) : List (U64 × U64) := ops.filterMap (setHash H)

theorem mem_hashes {H : HashFns} {ops : List Op} {kc : U64 × U64} : kc ∈ hashes H ops ↔ ∃ op ∈ ops, setHash H op = some kc := by
  simp [hashes]

theorem Clean.kok {H : HashFns} {mp : Nat} {ops : List Op} (h : Clean H mp ops) : KOK mp (hashes H ops) := by
  refine ⟨?_, ?_, ?_⟩
  · intro k c c' h1 h2
    obtain ⟨a, ha, ha'⟩ := mem_hashes.1 h1
    obtain ⟨b, hb, hb'⟩ := mem_hashes.1 h2
    exact h.coll a ha b hb k c c' ha' hb'
  · intro L hL hin hsame
    have := h.sparse (L.map rev64) (nodup_rev hL) (by
      intro k hk
      obtain ⟨r, hr, rfl⟩ := List.mem_map.1 hk
      obtain ⟨c, hc⟩ := hin r hr
      obtain ⟨op, ho, ho'⟩ := mem_hashes.1 hc
      exact ⟨op, ho, c, ho'⟩) (by
      intro k hk k' hk'
      obtain ⟨r, hr, rfl⟩ := List.mem_map.1 hk
      obtain ⟨r', hr', rfl⟩ := List.mem_map.1 hk'
      exact mod_of_rev (j := 4) (by omega) (hsame r hr r' hr'))
    simpa using this
  · have : (hashes H ops).length ≤ ops.length := List.length_filterMap_le _ _
    have := h.small
    omega

theorem Clean.rel {H : HashFns} {mp : Nat} {ops : List Op} (h : Clean H mp ops) (hc : NoCrash H mp ops) :
    (∃ gl', RelE H (hashes H ops) (run H (initSt mp) ops).1 gl' ((PMap.empty .sample).run H (ops.map toOp)).1) ∧
      (run H (initSt mp) ops).1.maxPer = mp ∧
      (run H (initSt mp) ops).2.map ansE = ((PMap.empty .sample).run H (ops.map toOp)).2.map some :=
  RelE.run (st := initSt mp) h.kok ops (initSt mp) _ _ (init_rel H _ mp h.one) rfl h.plain
    (fun op ho kc hk => mem_hashes.2 ⟨op, ho, hk⟩) hc

/-- `Clean` of a longer history. -/
theorem Clean.prefix {H : HashFns} {mp : Nat} {ops ops' : List Op} (h : Clean H mp (ops ++ ops')) : Clean H mp ops := by
  refine ⟨h.one, fun o ho => h.plain o (by simp [ho]), fun a ha b hb => h.coll a (by simp [ha]) b (by simp [hb]), ?_, ?_⟩
  · intro L h1 h2 h3
    refine h.sparse L h1 (fun k hk => ?_) h3
    obtain ⟨op, ho, c, hc⟩ := h2 k hk
    exact ⟨op, by simp [ho], c, hc⟩
  · have := h.small
    simp at this; omega

/-! ### a concrete environment -/

/-- Hash functions that read the string as a big-endian number; the primary hash is its bit reversal, so that keys with
given positions are easy to write down. -/
def hR : HashFns where
  mem s := rev64 (s.foldl (fun a b => a * 256#64 + b.zeroExtend 64) 0)
  xx s := s.foldl (fun a b => a * 31#64 + b.zeroExtend 64 + 7) 5#64

/-- Eight bytes. -/
def key8 (n : U64) : List (BitVec 8) := (List.range 8).map (fun j => (n >>> (8 * (7 - j))).setWidth 8)

def exOps : List Op :=
  [.set (sk 10) (exV 1), .set (sk 20) (exV 2), .get (sk 10), .set (.str (key8 0x0800000000000000)) (exV 3), .set (sk 10) (exV 4),
   .set (.str (key8 0x0900000000000000)) (exV 5), .get (sk 10), .get (sk 20), .get (sk 30), .get (.str (key8 0x0800000000000000)),
   .loadItem (.str (key8 0x0900000000000000)), .set (.str (key8 0x0400000000000000)) (exV 6), .set (sk 20) none,
   .set (sk 20) (some ⟨1, 0⟩), .get (.other 7), .len]

theorem exOps_out : (run hR (initSt 3) exOps).2 =
    [.bool true, .bool true, .val (exV 1) true, .bool true, .bool true, .bool true, .val (exV 4) true, .val (exV 2) true,
     .val none false, .val (exV 3) true, .item (some (key8 0x0900000000000000, exV 5)), .bool true, .bool false,
     .panic .valueType, .panic .unsupportedKey, .num 5] := by
  decide +kernel

/-- Executable form of `Clean` for small histories. -/
def cleanB (H : HashFns) (mp : Nat) (ops : List Op) : Bool :=
  decide (1 ≤ mp) && ops.all (fun op => match op with
    | .set (.str _) _ => true
    | .set _ _ => false | .storeItem _ _ _ => false | .delete _ => false | .purge _ => false | _ => true) &&
  (hashes H ops).all (fun a => (hashes H ops).all (fun b => decide (a.1 = b.1 → a.2 = b.2))) &&
  (hashes H ops).all (fun a => decide ((((hashes H ops).map (·.1)).dedup.filter (fun b => decide (b.toNat % 2 ^ 60 = a.1.toNat % 2 ^ 60))).length ≤ mp)) &&
  decide ((ops.length : Int) < 2 ^ 62)

theorem cleanB_sound {H : HashFns} {mp : Nat} {ops : List Op} (h : cleanB H mp ops = true) : Clean H mp ops := by
  simp only [cleanB, Bool.and_eq_true, List.all_eq_true, decide_eq_true_eq] at h
  obtain ⟨⟨⟨⟨h1, h2⟩, h3⟩, h4⟩, h5⟩ := h
  refine ⟨h1, ?_, ?_, ?_, h5⟩
  · intro op ho
    have := h2 op ho
    cases op with
    | set k v => cases k <;> simp_all [Plain]
    | _ => simp_all [Plain]
  · intro a ha b hb k c c' h6 h7
    exact h3 (k, c) (mem_hashes.2 ⟨a, ha, h6⟩) (k, c') (mem_hashes.2 ⟨b, hb, h7⟩) rfl
  · intro L hL hin hsame
    cases hL0 : L with
    | nil => simp
    | cons k0 L0 =>
      rw [← hL0]
      have hk0 : k0 ∈ L := by rw [hL0]; simp
      obtain ⟨op, ho, c, hc⟩ := hin k0 hk0
      refine le_trans ?_ (h4 (k0, c) (mem_hashes.2 ⟨op, ho, hc⟩))
      apply List.Subperm.length_le
      apply List.subperm_of_subset hL
      intro k hk
      obtain ⟨op', ho', c', hc'⟩ := hin k hk
      rw [List.mem_filter, List.mem_dedup]
      exact ⟨List.mem_map.2 ⟨(k, c'), mem_hashes.2 ⟨op', ho', hc'⟩, rfl⟩, by simpa using hsame k hk k0 hk0⟩

theorem exClean : Clean hR 3 exOps := cleanB_sound (by decide +kernel)
theorem exNoCrash : NoCrash hR 3 exOps := by
  unfold NoCrash; rw [exOps_out]; intro c; simp

/-! ### C22 -/

/-- C22: every answer is the one of a plain map. -/
def C22_statement (H : HashFns) (mp : Nat) (ops : List Op) : Prop :=
  (run H (initSt mp) ops).2.map ansE = ((PMap.empty .sample).run H (ops.map toOp)).2.map some

/-- Set and Get only. -/
def SetGet : Op → Prop
  | .set _ _ => True
  | .get _ => True
  | _ => False

instance (op : Op) : Decidable (SetGet op) := by cases op <;> unfold SetGet <;> infer_instance

/-- C22 for clean histories without a crash. -/
theorem C22_partial {H : HashFns} {mp : Nat} {ops : List Op} (h : Clean H mp ops) (hc : NoCrash H mp ops) :
    C22_statement H mp ops := (h.rel hc).2.2

example : C22_statement hR 3 exOps := C22_partial exClean exNoCrash

/-- With `MaxPefBucket(1)` sixty-odd splits reach the last trie level, which lookups never enter: the last key is lost. -/
theorem C22_refuted_deep : ∃ ops, (∀ op ∈ ops, SetGet op) ∧ NoCrash hR 1 ops ∧ ¬ C22_statement hR 1 ops := by
  let ops : List Op := Op.set (sk 0) (exV 0) ::
    (List.range 57).map (fun i => Op.set (.str (key8 (BitVec.ofNat 64 (2 ^ (59 - i))))) (exV i)) ++
    [.get (.str (key8 8))]
  have hout : (run hR (initSt 1) ops).2 = List.replicate 58 (.bool true) ++ [.val none false] := by decide +kernel
  refine ⟨ops, by decide +kernel, ?_, ?_⟩
  · unfold NoCrash; rw [hout]; intro c; simp
  · unfold C22_statement; rw [hout]; decide +kernel

/-- Two keys with one primary hash: after the second Set the first is not found any more. -/
theorem C22_refuted_collision : ∃ H ops, (∀ op ∈ ops, SetGet op) ∧ NoCrash H 4 ops ∧ ¬ C22_statement H 4 ops := by
  let H : HashFns := { hR with mem := fun s => rev64 (BitVec.ofNat 64 s.length) }
  let ops : List Op := [.set (sk 1) (exV 1), .set (sk 2) (exV 2), .get (sk 1), .get (sk 2)]
  have hout : (run H (initSt 4) ops).2 = [.bool true, .bool true, .val none false, .val (exV 2) true] := by decide +kernel
  refine ⟨H, ops, by decide +kernel, ?_, ?_⟩
  · unfold NoCrash; rw [hout]; intro c; simp
  · unfold C22_statement; rw [hout]; decide +kernel

/-- A Set that panics because the key is no string has already taken a slot: a later Get answers (nil, true). -/
theorem C22_refuted_panic : ∃ ops, (∀ op ∈ ops, SetGet op) ∧ NoCrash hR 4 ops ∧ ¬ C22_statement hR 4 ops := by
  let ops : List Op := [.set (.int 77) (exV 1), .get (.int 77)]
  have hout : (run hR (initSt 4) ops).2 = [.panic .keyNotString, .val none true] := by decide +kernel
  refine ⟨ops, by decide +kernel, ?_, ?_⟩
  · unfold NoCrash; rw [hout]; intro c; simp
  · unfold C22_statement; rw [hout]; decide +kernel

/-! ### C23 -/

/-- C23: after Delete(k) or Purge(k) answered true, Get(k) right afterwards reports not found. -/
def C23_statement (H : HashFns) (mp : Nat) (ops : List Op) : Prop :=
  ∀ key, ∀ op ∈ [Op.delete key, Op.purge key], (step H (run H (initSt mp) ops).1 op).2 = .bool true →
    (step H (step H (run H (initSt mp) ops).1 op).1 (.get key)).2 = .val none false

/-- The first key of a bucket stays visible after Delete. -/
theorem C23_refuted_delete : ∃ ops, (∀ op ∈ ops, SetGet op) ∧ NoCrash hR 4 ops ∧ ¬ C23_statement hR 4 ops := by
  refine ⟨[.set (sk 10) (exV 1)], by decide +kernel, ?_, ?_⟩
  · have : (run hR (initSt 4) [.set (sk 10) (exV 1)]).2 = [.bool true] := by decide +kernel
    unfold NoCrash; rw [this]; simp
  · intro h
    exact absurd (h (sk 10) (.delete (sk 10)) (by simp) (by decide +kernel)) (by decide +kernel)

/-- Also after Purge, when the bucket holds a second key. -/
theorem C23_refuted_purge : ∃ ops, (∀ op ∈ ops, SetGet op) ∧ NoCrash hR 4 ops ∧ ¬ C23_statement hR 4 ops := by
  refine ⟨[.set (sk 10) (exV 1), .set (sk 20) (exV 2)], by decide +kernel, ?_, ?_⟩
  · have : (run hR (initSt 4) [.set (sk 10) (exV 1), .set (sk 20) (exV 2)]).2 = [.bool true, .bool true] := by decide +kernel
    unfold NoCrash; rw [this]; simp
  · intro h
    exact absurd (h (sk 10) (.purge (sk 10)) (by simp) (by decide +kernel)) (by decide +kernel)

/-! ### C24 -/

/-- C24: Purge(k) does not change what Get answers for a key with other hashes. -/
def C24_statement (H : HashFns) (mp : Nat) (ops : List Op) : Prop :=
  ∀ key key', keyToHash H key ≠ keyToHash H key' →
    (step H (step H (run H (initSt mp) ops).1 (.purge key)).1 (.get key')).2 = (step H (run H (initSt mp) ops).1 (.get key')).2

/-- Three keys, the middle one deleted: Purge of the last one takes the first one away too. -/
theorem C24_refuted : ∃ ops, NoCrash hR 4 ops ∧ ¬ C24_statement hR 4 ops := by
  let ops : List Op := [.set (sk 10) (exV 1), .set (sk 20) (exV 2), .set (sk 30) (exV 3), .delete (sk 20)]
  have hout : (run hR (initSt 4) ops).2 = [.bool true, .bool true, .bool true, .bool true] := by decide +kernel
  refine ⟨ops, ?_, ?_⟩
  · unfold NoCrash; rw [hout]; simp
  · intro h
    exact absurd (h (sk 30) (sk 10) (by decide +kernel)) (by decide +kernel)

/-! ### C25 -/

/-- C25: Set of a key does not change what Get answers for a key with other hashes. -/
def C25_statement (H : HashFns) (mp : Nat) (ops : List Op) : Prop :=
  ∀ key v key', keyToHash H key ≠ keyToHash H key' → (∀ c, (step H (run H (initSt mp) ops).1 (.set key v)).2 ≠ .crash c) →
    (step H (step H (run H (initSt mp) ops).1 (.set key v)).1 (.get key')).2 = (step H (run H (initSt mp) ops).1 (.get key')).2

/-- A deleted slot is taken for a key that belongs elsewhere: the array is no longer sorted and key 20 is lost. -/
theorem C25_refuted : ∃ ops, NoCrash hR 4 ops ∧ ¬ C25_statement hR 4 ops := by
  let ops : List Op := [.set (sk 10) (exV 1), .set (sk 15) (exV 2), .set (sk 50) (exV 3), .delete (sk 15), .delete (sk 50),
    .set (sk 20) (exV 4)]
  have hout : (run hR (initSt 4) ops).2 = List.replicate 6 (.bool true) := by decide +kernel
  refine ⟨ops, ?_, ?_⟩
  · unfold NoCrash; rw [hout]; intro c; simp
  · intro h
    exact absurd (h (sk 30) (exV 5) (sk 20) (by decide +kernel) (by
      have : (step hR (run hR (initSt 4) ops).1 (.set (sk 30) (exV 5))).2 = .bool true := by decide +kernel
      rw [this]; simp)) (by decide +kernel)

theorem run_append (H : HashFns) (st : St) (a b : List Op) :
    run H st (a ++ b) = ((run H (run H st a).1 b).1, (run H st a).2 ++ (run H (run H st a).1 b).2) := by
  induction a generalizing st with
  | nil => rfl
  | cons op a ih => simp only [List.cons_append, run, ih]

/-- What one more operation does after a clean history without a crash. -/
theorem Clean.last {H : HashFns} {mp : Nat} {ops : List Op} {op : Op} (h : Clean H mp (ops ++ [op])) (hc : NoCrash H mp ops) :
    (∃ gl s, RelE H (hashes H (ops ++ [op])) (run H (initSt mp) ops).1 gl s) ∧ (run H (initSt mp) ops).1.maxPer = mp := by
  obtain ⟨⟨gl, g1⟩, g2, _⟩ := RelE.run (st := initSt mp) h.kok ops (initSt mp) _ _ (init_rel H _ mp h.one) rfl
    (fun o ho => h.plain o (by simp [ho])) (fun o ho kc hk => mem_hashes.2 ⟨o, by simp [ho], hk⟩) hc
  exact ⟨⟨gl, _, g1⟩, g2⟩

/-! ### C26 -/

/-- C26: no operation of the history crashes, loops or exhausts the stack. -/
def C26_statement (H : HashFns) (mp : Nat) (ops : List Op) : Prop := NoCrash H mp ops

/-- With `MaxPefBucket(1)`, two keys on one side of the middle of a bucket leave a bucket without slots behind: a Get of a
hash in the other half exhausts the stack. -/
theorem C26_refuted_overflow : ∃ ops, (∀ op ∈ ops, SetGet op) ∧ cleanB hR 1 ops = true ∧ ¬ C26_statement hR 1 ops := by
  refine ⟨[.set (sk 1) (exV 1), .set (sk 100) (exV 2), .get (.str (key8 0x0800000000000000))], by decide +kernel, by decide +kernel, ?_⟩
  intro h
  exact h .stackOverflow (by decide +kernel)

/-- The same with the default-sized bucket: 33 keys with small hashes. -/
theorem C26_refuted_overflow32 : ∃ ops, (∀ op ∈ ops, SetGet op) ∧ cleanB hR 32 ops = true ∧ ¬ C26_statement hR 32 ops := by
  refine ⟨(List.range 33).map (fun i => .set (sk (BitVec.ofNat 8 (7 * i))) (exV i)) ++ [.get (.str (key8 0x0800000000000000))],
    by decide +kernel, by decide +kernel, ?_⟩
  intro h
  exact h .stackOverflow (by decide +kernel)

/-- With `MaxPefBucket(0)` the first Set never returns. -/
theorem C26_refuted_zero : ∃ ops, (∀ op ∈ ops, SetGet op) ∧ ¬ C26_statement hR 0 ops := by
  refine ⟨[.set (sk 1) (exV 1)], by decide +kernel, ?_⟩
  intro h
  exact h .livelock (by decide +kernel)

/-- C26, part: after a clean history the only way an operation can fail to return is the exhausted stack.  In particular
no retry loop runs forever, no slice is made with a negative size, and no slot index is out of range. -/
theorem C26_partial {H : HashFns} {mp : Nat} {ops : List Op} {op : Op} (h : Clean H mp (ops ++ [op])) (hc : NoCrash H mp ops)
    {c : Crash} (hx : (step H (run H (initSt mp) ops).1 op).2 = .crash c) : c = .stackOverflow := by
  obtain ⟨⟨gl, s, g1⟩, g2⟩ := h.last hc
  rcases g1.step (by rw [g2]; exact h.kok) (h.plain op (by simp)) (fun kc hk => mem_hashes.2 ⟨op, by simp, hk⟩) with ⟨hcr, _⟩ | ⟨_, _, g3⟩
  · rw [hcr] at hx; injection hx with hx; exact hx.symm
  · rw [hx] at g3; cases g3

example : Clean hR 1 ([.set (sk 1) (exV 1), .set (sk 100) (exV 2)] ++ [.get (.str (key8 0x0800000000000000))]) :=
  cleanB_sound (by decide +kernel)

/-- C26, part: as long as at most `mp` keys share the lowest four hash bits, nothing crashes at all. -/
theorem C26_partial_few {H : HashFns} {mp : Nat} {ops : List Op} (one : 1 ≤ mp) (plain : ∀ op ∈ ops, Plain op)
    (coll : ∀ a ∈ ops, ∀ b ∈ ops, ∀ k c c', setHash H a = some (k, c) → setHash H b = some (k, c') → c = c')
    (few : ∀ L : List U64, L.Nodup → (∀ k ∈ L, ∃ op ∈ ops, ∃ c, setHash H op = some (k, c)) →
      (∀ k ∈ L, ∀ k' ∈ L, k.toNat % 16 = k'.toNat % 16) → L.length ≤ mp)
    (small : (ops.length : Int) < 2 ^ 62) : NoCrash H mp ops ∧ C22_statement H mp ops := by
  have h : Clean H mp ops := by
    refine ⟨one, plain, coll, ?_, small⟩
    intro L h1 h2 h3
    refine few L h1 h2 (fun k hk k' hk' => ?_)
    have := h3 k hk k' hk'
    omega
  have hF : Few (initSt mp).maxPer (hashes H ops) := by
    intro L hL hin hsame
    have := few (L.map rev64) (nodup_rev hL) (by
      intro k hk
      obtain ⟨r, hr, rfl⟩ := List.mem_map.1 hk
      obtain ⟨c, hc⟩ := hin r hr
      obtain ⟨op, ho, ho'⟩ := mem_hashes.1 hc
      exact ⟨op, ho, c, ho'⟩) (by
      intro k hk k' hk'
      obtain ⟨r, hr, rfl⟩ := List.mem_map.1 hk
      obtain ⟨r', hr', rfl⟩ := List.mem_map.1 hk'
      exact mod_of_rev (j := 60) (by omega) (hsame r hr r' hr'))
    rw [List.length_map] at this
    exact this
  have hn : NoCrash H mp ops := RelE.total (st := initSt mp) h.kok hF ops (initSt mp) _ (init_rel H _ mp one) rfl plain
    (fun op ho kc hk => mem_hashes.2 ⟨op, ho, hk⟩)
  exact ⟨hn, C22_partial h hn⟩

/-! ### C27 -/

/-- C27: no operation uses a slot index outside the array. -/
def C27_statement (H : HashFns) (mp : Nat) (ops : List Op) : Prop := Out.crash .oob ∉ (run H (initSt mp) ops).2

/-- Set a, Delete a, Set b in one bucket: the last live slot is number -1. -/
theorem C27_refuted : ∃ ops, ¬ C27_statement hR 4 ops ∧ ∀ c, Out.crash c ∈ (run hR (initSt 4) ops).2 → c = .oob := by
  refine ⟨[.set (sk 1) (exV 1), .delete (sk 1), .set (sk 2) (exV 2)], by unfold C27_statement; decide +kernel, ?_⟩
  have : (run hR (initSt 4) [.set (sk 1) (exV 1), .delete (sk 1), .set (sk 2) (exV 2)]).2 = [.bool true, .bool true, .crash .oob] := by
    decide +kernel
  rw [this]; intro c; simp

/-- C27 for clean histories (no deletions). -/
theorem C27_partial {H : HashFns} {mp : Nat} {ops : List Op} {op : Op} (h : Clean H mp (ops ++ [op])) (hc : NoCrash H mp ops) :
    (step H (run H (initSt mp) ops).1 op).2 ≠ .crash .oob := by
  intro hx
  have := C26_partial h hc hx
  cases this

/-! ### C28 -/

theorem largestDown_congr {m m' : Path → Bkt} (hE : EqL m m') (f : Nat) (p : Path) : largestDown m' f p = largestDown m f p := by
  induction f generalizing p with
  | zero => rfl
  | succ f ih => simp only [largestDown, (hE.fields _).1, (hE.fields _).2.1, (hE.fields _).2.2.2.1, ih]

theorem findBucket_congr {m m' : Path → Bkt} (hE : EqL m m') (r : U64) : findBucket m' r = findBucket m r := by
  have : ∀ f l b, descend m' r f l b = descend m r f l b := by
    intro f
    induction f with
    | zero => intro l b; rfl
    | succ f ih =>
      intro l b
      simp only [descend, (hE.fields _).1, (hE.fields _).2.2.2.1, (hE.fields _).2.2.2.2.1, ih, largestDown_congr hE]
  exact this _ _ _


/-- C28: after StoreItem answered true, LoadItem finds the item. -/
def C28_statement (H : HashFns) (mp : Nat) (ops : List Op) : Prop :=
  ∀ str v r, (step H (run H (initSt mp) ops).1 (.storeItem str v r)).2 = .bool true →
    (step H (step H (run H (initSt mp) ops).1 (.storeItem str v r)).1 (.loadItem (.str str))).2 = .item (some (str, v))

/-- C28 fails at once. -/
theorem C28_refuted : ¬ C28_statement hR 4 [] := by
  intro h
  exact absurd (h [1] (exV 1) 0 (by decide +kernel)) (by decide +kernel)

/-- Worse: no StoreItem of an absent key, with whatever hash fields, on any state whatsoever, makes the key retrievable if
it splits no bucket: lookups answer exactly what they answered before. -/
theorem C28_refuted_always {H : HashFns} {st st' : St} {str : List (BitVec 8)} {v : IVal} {r : U64}
    (habs : ∀ x, opLoadItemByHash st (H.mem str) (H.xx str) ≠ .item (some x))
    (hns : blen st.pools st.mem (findBucket st.mem (rev64 (H.mem str))) ≤ st.maxPer)
    (h : step H st (.storeItem str v r) = (st', .bool true)) (k c : U64) :
    opGetByHash st' k c = opGetByHash st k c := by
  simp only [step, opStoreItem] at h
  have hfind : ∀ b p i, find st (H.mem str) (H.xx str) ≠ some (b, p, some i) := by
    intro b p i hf
    apply habs ((p.slot i).key, (p.slot i).val)
    simp [opLoadItemByHash, hf]
  generalize hb : findBucket st.mem (rev64 (H.mem str)) = b at h hns
  have key : ∀ m', EqL st.mem m' → ∀ l, opGetByHash { st with len := l, mem := m' } k c = opGetByHash st k c := by
    intro m' hE l
    have : find { st with len := l, mem := m' } k c = find st k c := by
      unfold find
      simp only
      rw [basePath_congr hE, findBucket_congr hE]
    unfold opGetByHash
    rw [this]
  cases hf : find st (H.mem str) (H.xx str) with
  | none => rw [hf] at h; cases h
  | some x =>
    obtain ⟨b', p, o⟩ := x
    cases o with
    | some i => exact absurd hf (hfind _ _ _)
    | none =>
      rw [hf] at h
      simp only [link] at h
      rw [if_neg (by rintro ⟨_, _, h3⟩; omega)] at h
      simp only [finish, Prod.mk.injEq, and_true] at h
      rw [← h]
      apply key
      split
      · exact EqL.len _ _ _
      · exact EqL.refl _

end SLM.Emb
