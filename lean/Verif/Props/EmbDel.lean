import Verif.Proofs.EmbDel4
import Verif.Props.Embedded2
/-!
C23–C27, C51: maps with `UseEmbeddedPool(true)` and deletions.

The properties are false in general (see Props/Embedded.lean).  Here: all histories in which every call is `gentle`
(Proofs/EmbDel4.lean), any number of keys, splits, deletions, purges and reused slots.
-/
set_option maxRecDepth 100000
set_option autoImplicit false
namespace SLM.Emb
open Spec (PMap Ans)

/-- What the histories of the theorems about deletions avoid. -/
structure CleanD (H : HashFns) (mp : Nat) (ops : List Op) : Prop where
  /-- `MaxPefBucket` is at least 1 -/
  one : 1 ≤ mp
  /-- every call is harmless in the state in which it is made -/
  gentle : gentleRun H (initSt mp) ops = true
  /-- no two keys share the primary hash but not the conflict hash -/
  coll : ∀ a ∈ ops, ∀ b ∈ ops, ∀ k c c', setHash H a = some (k, c) → setHash H b = some (k, c') → c = c'
  /-- at most `mp` keys have primary hashes that agree in the lowest 60 bits (always so if `mp ≥ 16`) -/
  sparse : ∀ L : List U64, L.Nodup → (∀ k ∈ L, ∃ op ∈ ops, ∃ c, setHash H op = some (k, c)) →
    (∀ k ∈ L, ∀ k' ∈ L, k.toNat % 2 ^ 60 = k'.toNat % 2 ^ 60) → L.length ≤ mp
  small : (ops.length : Int) < 2 ^ 62

theorem kok_of {H : HashFns} {mp : Nat} {ops : List Op}
    (coll : ∀ a ∈ ops, ∀ b ∈ ops, ∀ k c c', setHash H a = some (k, c) → setHash H b = some (k, c') → c = c')
    (sparse : ∀ L : List U64, L.Nodup → (∀ k ∈ L, ∃ op ∈ ops, ∃ c, setHash H op = some (k, c)) →
      (∀ k ∈ L, ∀ k' ∈ L, k.toNat % 2 ^ 60 = k'.toNat % 2 ^ 60) → L.length ≤ mp)
    (small : (ops.length : Int) < 2 ^ 62) : KOK mp (hashes H ops) := by
  refine ⟨?_, ?_, ?_⟩
  · intro k c c' h1 h2
    obtain ⟨a, ha, ha'⟩ := mem_hashes.1 h1
    obtain ⟨b, hb, hb'⟩ := mem_hashes.1 h2
    exact coll a ha b hb k c c' ha' hb'
  · intro L hL hin hsame
    have := sparse (L.map rev64) (nodup_rev hL) (by
      intro k hk
      obtain ⟨r, hr, rfl⟩ := List.mem_map.1 hk
      obtain ⟨c, hc⟩ := hin r hr
      obtain ⟨op, ho, ho'⟩ := mem_hashes.1 hc
      exact ⟨op, ho, c, ho'⟩) (by
      intro k hk k' hk'
      obtain ⟨r, hr, rfl⟩ := List.mem_map.1 hk
      obtain ⟨r', hr', rfl⟩ := List.mem_map.1 hk'
      exact mod_of_rev (j := 4) (by omega) (hsame r hr r' hr'))
    simpa using this
  · have : (hashes H ops).length ≤ ops.length := List.length_filterMap_le _ _
    omega

theorem CleanD.kok {H : HashFns} {mp : Nat} {ops : List Op} (h : CleanD H mp ops) : KOK mp (hashes H ops) :=
  kok_of h.coll h.sparse h.small

theorem gentleRun_append {H : HashFns} : ∀ (a b : List Op) (st : St), gentleRun H st (a ++ b) = true →
    gentleRun H st a = true ∧ gentleRun H (run H st a).1 b = true := by
  intro a
  induction a with
  | nil => intro b st h; exact ⟨rfl, h⟩
  | cons op a ih =>
    intro b st h
    simp only [List.cons_append, gentleRun, Bool.and_eq_true, run] at h ⊢
    obtain ⟨h1, h2⟩ := ih b _ h.2
    exact ⟨⟨h.1, h1⟩, h2⟩

/-- The state after a prefix, related to the plain map's. -/
theorem CleanD.at {H : HashFns} {mp : Nat} {ops ops' : List Op} (h : CleanD H mp (ops ++ ops')) (hc : NoCrash H mp ops) :
    (∃ gl, RelD H (hashes H (ops ++ ops')) (run H (initSt mp) ops).1 gl ((PMap.empty .sample).run H (ops.map toOp)).1) ∧
      (run H (initSt mp) ops).1.maxPer = mp ∧ gentleRun H (run H (initSt mp) ops).1 ops' = true ∧
      (run H (initSt mp) ops).2.map ansE = ((PMap.empty .sample).run H (ops.map toOp)).2.map some := by
  obtain ⟨g1, g2⟩ := gentleRun_append ops ops' _ h.gentle
  obtain ⟨a1, a2, a3⟩ := RelD.run (st := initSt mp) h.kok ops (initSt mp) _ _ (init_relD H _ mp h.one) rfl g1
    (fun op ho kc hk => mem_hashes.2 ⟨op, by simp [ho], hk⟩) hc
  exact ⟨a1, a2, g2, a3⟩

/-- Every answer of a gentle history with deletions is the one of a plain map. -/
theorem C22_del_partial {H : HashFns} {mp : Nat} {ops : List Op} (h : CleanD H mp ops) (hc : NoCrash H mp ops) :
    C22_statement H mp ops := by
  have h' : CleanD H mp (ops ++ []) := by simpa using h
  exact (h'.at hc).2.2.2

/-! ### a concrete history -/

/-- Executable form of `CleanD`. -/
def cleanDB (H : HashFns) (mp : Nat) (ops : List Op) : Bool :=
  decide (1 ≤ mp) && gentleRun H (initSt mp) ops &&
  (hashes H ops).all (fun a => (hashes H ops).all (fun b => decide (a.1 = b.1 → a.2 = b.2))) &&
  (hashes H ops).all (fun a => decide ((((hashes H ops).map (·.1)).dedup.filter (fun b => decide (b.toNat % 2 ^ 60 = a.1.toNat % 2 ^ 60))).length ≤ mp)) &&
  decide ((ops.length : Int) < 2 ^ 62)

theorem cleanDB_sound {H : HashFns} {mp : Nat} {ops : List Op} (h : cleanDB H mp ops = true) : CleanD H mp ops := by
  simp only [cleanDB, Bool.and_eq_true, decide_eq_true_eq, List.all_eq_true] at h
  obtain ⟨⟨⟨⟨h1, h2⟩, h3⟩, h4⟩, h5⟩ := h
  refine ⟨h1, h2, ?_, ?_, h5⟩
  · intro a ha b hb k c c' e1 e2
    exact h3 (k, c) (mem_hashes.2 ⟨a, ha, e1⟩) (k, c') (mem_hashes.2 ⟨b, hb, e2⟩) rfl
  · intro L hL hin hs
    cases L with
    | nil => simp
    | cons x L =>
      obtain ⟨op, ho, c, hoc⟩ := hin x (by simp)
      have hx := h4 (x, c) (mem_hashes.2 ⟨op, ho, hoc⟩)
      refine le_trans (List.Subperm.length_le (List.subperm_of_subset hL ?_)) hx
      intro k hk
      obtain ⟨op', ho', c', hoc'⟩ := hin k hk
      rw [List.mem_filter, List.mem_dedup]
      refine ⟨List.mem_map.2 ⟨(k, c'), mem_hashes.2 ⟨op', ho', hoc'⟩, rfl⟩, ?_⟩
      simp only [decide_eq_true_eq]
      exact hs k hk x (by simp)

/-- Deletion in the middle, a new key in the freed slot, the old key again, purges at the end, splits. -/
def exDel : List Op :=
  [.set (sk 10) (exV 1), .set (sk 20) (exV 2), .set (sk 30) (exV 3), .delete (sk 20), .get (sk 20), .get (sk 30),
   .set (sk 25) (exV 7), .get (sk 25), .get (sk 20), .get (sk 10), .purge (sk 30), .get (sk 30), .get (sk 25), .delete (sk 25),
   .set (sk 10) (exV 5), .get (sk 10), .delete (sk 30),
   .set (.str (key8 0x2800000000000000)) (exV 3), .set (.str (key8 0x2100000000000000)) (exV 4), .set (.str (key8 0x2900000000000000)) (exV 5),
   .set (.str (key8 0x2A00000000000000)) (exV 6), .set (.str (key8 0x2200000000000000)) (exV 7),
   .purge (.str (key8 0x2900000000000000)), .get (.str (key8 0x2A00000000000000)), .loadItem (.str (key8 0x2200000000000000)),
   .get (.str (key8 0x2900000000000000))]

theorem exDel_out : (run hR (initSt 4) exDel).2 =
    [.bool true, .bool true, .bool true, .bool true, .val none false, .val (exV 3) true,
     .bool true, .val (exV 7) true, .val none false, .val (exV 1) true, .bool true, .val none false, .val (exV 7) true, .bool true,
     .bool true, .val (exV 5) true, .bool false,
     .bool true, .bool true, .bool true, .bool true, .bool true,
     .bool true, .val (exV 6) true, .item (some (key8 0x2200000000000000, exV 7)), .val none false] := by
  decide +kernel

theorem exDel_clean : CleanD hR 4 exDel := cleanDB_sound (by decide +kernel)
theorem exDel_nocrash : NoCrash hR 4 exDel := by unfold NoCrash; rw [exDel_out]; intro c; simp
/-- The bucket was split on the way. -/
theorem exDel_split : (run hR (initSt 4) exDel).1.blist.length = 18 := by decide +kernel

example : C22_statement hR 4 exDel := C22_del_partial exDel_clean exDel_nocrash

/-! ### C23 -/

theorem none_step {H : HashFns} {st : St} {s : PMap} {op : Op} {kc : U64 × U64} (hg : gentle H st op = true)
    (h : s.m kc = none) (hn : setHash H op ≠ some kc) : (s.step H (toOp op)).1.m kc = none := by
  cases op with
  | set key v =>
    cases key with
    | str str =>
      have hne : kc ≠ (H.mem str, H.xx str) := fun hc => hn (by rw [hc]; rfl)
      simp only [toOp, PMap.step, keyToHash]
      cases hm : s.m (H.mem str, H.xx str) with
      | none => simp [PMap.put, hne, h]
      | some old =>
        simp only [PMap.overwrite]
        repeat' split
        all_goals first | exact h | (simp [PMap.put, hne, h]; done)
    | _ => exact absurd hg (by simp [Emb.gentle])
  | get key => simp only [toOp, PMap.step]; cases keyToHash H key <;> exact h
  | getByHash k c => exact h
  | loadItem key => simp only [toOp, PMap.step]; cases keyToHash H key <;> exact h
  | loadItemByHash k c => exact h
  | storeItem _ _ _ => exact absurd hg (by simp [Emb.gentle])
  | delete key =>
    simp only [toOp, PMap.step]
    cases keyToHash H key with
    | none => exact h
    | some kc' =>
      simp only
      cases s.m kc' with
      | none => exact h
      | some _ => simp only [PMap.del]; split <;> first | rfl | exact h
  | purge key =>
    simp only [toOp, PMap.step]
    cases keyToHash H key with
    | none => exact h
    | some kc' =>
      simp only
      cases s.m kc' with
      | none => exact h
      | some _ => simp only [PMap.del]; split <;> first | rfl | exact h
  | len => exact h

theorem none_run {H : HashFns} {kc : U64 × U64} : ∀ (ops : List Op) (st : St) (s : PMap), gentleRun H st ops = true → s.m kc = none →
    (∀ op ∈ ops, setHash H op ≠ some kc) → (s.run H (ops.map toOp)).1.m kc = none := by
  intro ops
  induction ops with
  | nil => intro st s _ h _; exact h
  | cons op ops ih =>
    intro st s hg h hn
    simp only [gentleRun, Bool.and_eq_true] at hg
    simp only [List.map_cons, PMap.run]
    exact ih _ _ hg.2 (none_step hg.1 h (hn op (by simp))) (fun o ho => hn o (by simp [ho]))

/-- C23 for gentle histories: after Delete(k) or Purge(k) answered true, Get(k) reports not found (or exhausts the stack),
whatever gentle calls are made in between, as long as none of them is a Set of a key with k's hashes. -/
theorem C23_partial {H : HashFns} {mp : Nat} {ops ops' : List Op} {key : Key} {op : Op} (hop : op ∈ [Op.delete key, Op.purge key])
    (h : CleanD H mp (ops ++ op :: ops')) (hc : NoCrash H mp (ops ++ op :: ops'))
    (ht : (step H (run H (initSt mp) ops).1 op).2 = .bool true) (hn : ∀ o ∈ ops', setHash H o ≠ keyToHash H key ∨ setHash H o = none) :
    (step H (run H (initSt mp) (ops ++ op :: ops')).1 (.get key)).2 = .val none false ∨
    (step H (run H (initSt mp) (ops ++ op :: ops')).1 (.get key)).2 = .crash .stackOverflow := by
  have hc1 : NoCrash H mp ops := by
    intro c hx
    exact hc c (by rw [run_append]; exact List.mem_append_left _ hx)
  obtain ⟨⟨gl, g1⟩, g2, g3, _⟩ := h.at hc1
  simp only [gentleRun, Bool.and_eq_true] at g3
  obtain ⟨g3, g4⟩ := g3
  have hto : toOp op = .delete key := by
    simp only [List.mem_cons, List.mem_singleton, List.not_mem_nil, or_false] at hop
    rcases hop with rfl | rfl <;> rfl
  rcases g1.step (by rw [g2]; exact h.kok) g3 (fun kc hk => mem_hashes.2 ⟨op, by simp, hk⟩) with ⟨h1, _⟩ | ⟨⟨gl', g5, _⟩, _, g6⟩
  · rw [ht] at h1; cases h1
  rw [hto] at g5 g6
  rw [ht] at g6
  simp only [PMap.step] at g5 g6
  cases hk : keyToHash H key with
  | none => rw [hk] at g6; cases g6
  | some kc =>
    rw [hk] at g6 g5 hn
    simp only at g5 g6
    have hnone : ∀ s : PMap, (match s.m kc with | some _ => (s.del kc, Ans.bool true) | none => (s, Ans.bool false)).1.m kc = none := by
      intro s
      cases hm : s.m kc with
      | none => exact hm
      | some v => simp [PMap.del]
    have hd : (((PMap.empty .sample).run H ((ops ++ [op]).map toOp)).1).m kc = none := by
      have hrun : ∀ (l : List SLM.Op) (s : PMap) (o : SLM.Op), (s.run H (l ++ [o])).1 = ((s.run H l).1.step H o).1 := by
        intro l
        induction l with
        | nil => intro s o; rfl
        | cons x l ih => intro s o; simp only [List.cons_append, PMap.run]; exact ih _ o
      rw [List.map_append, List.map_cons, List.map_nil, hrun, hto]
      simp only [PMap.step, hk]
      exact hnone _
    have h' : CleanD H mp ((ops ++ op :: ops') ++ []) := by simpa using h
    obtain ⟨⟨gl2, k1⟩, k2, _, _⟩ := h'.at hc
    have hfin : ((PMap.empty .sample).run H ((ops ++ op :: ops').map toOp)).1.m kc = none := by
      have hrun2 : ∀ (l l' : List SLM.Op) (s : PMap), (s.run H (l ++ l')).1 = ((s.run H l).1.run H l').1 := by
        intro l
        induction l with
        | nil => intro l' s; rfl
        | cons x l ih => intro l' s; simp only [List.cons_append, PMap.run]; exact ih l' _
      have e : (ops ++ op :: ops').map toOp = (ops ++ [op]).map toOp ++ ops'.map toOp := by simp
      rw [e, hrun2]
      refine none_run ops' _ _ g4 hd ?_
      intro o ho hx
      rcases hn o ho with h1 | h1
      · exact h1 hx
      · rw [h1] at hx; cases hx
    obtain ⟨k, c⟩ := kc
    simp only [step, opGet, hk]
    rcases k1.getByHash k c with ⟨h1, _⟩ | h1
    · exact Or.inr h1
    · left; rw [h1, hfin]

example : (step hR (run hR (initSt 4) (exDel.take 3)).1 (.delete (sk 20))).2 = .bool true ∧
    exDel = exDel.take 3 ++ .delete (sk 20) :: exDel.drop 4 ∧ (∀ o ∈ exDel.drop 4, setHash hR o ≠ keyToHash hR (sk 20)) := by
  decide +kernel

/-! ### C24 -/

/-- C24 for gentle histories: Purge(k) does not change what Get answers for a key with other hashes. -/
theorem C24_partial {H : HashFns} {mp : Nat} {ops : List Op} {key key' : Key} (h : CleanD H mp (ops ++ [.purge key]))
    (hc : NoCrash H mp ops) (hne : keyToHash H key ≠ keyToHash H key') :
    (step H (step H (run H (initSt mp) ops).1 (.purge key)).1 (.get key')).2 = (step H (run H (initSt mp) ops).1 (.get key')).2 := by
  obtain ⟨⟨gl, g1⟩, g2, g3, _⟩ := h.at hc
  simp only [gentleRun, Bool.and_eq_true] at g3
  generalize ((PMap.empty .sample).run H (ops.map toOp)).1 = s at g1
  generalize hst : (run H (initSt mp) ops).1 = st at *
  rcases g1.step (by rw [g2]; exact h.kok) g3.1 (fun kc hk => by cases hk) with ⟨h1, _⟩ | ⟨⟨gl', g5, _⟩, _, g6⟩
  · -- nothing changes when the purge itself exhausts the stack
    have : (step H st (.purge key)).1 = st := by
      simp only [step, opPurge] at h1 ⊢
      cases hk : keyToHash H key with
      | none => rfl
      | some kc =>
        obtain ⟨k, c⟩ := kc
        rw [hk] at h1
        simp only at h1 ⊢
        cases hf : find st k c with
        | none => rfl
        | some x =>
          obtain ⟨b, P, o⟩ := x
          rw [hf] at h1
          cases o with
          | none => rfl
          | some i => simp only at h1; split at h1 <;> cases h1
    rw [this]
  · have hsame : (∀ p, ((step H st (.purge key)).1.pools p).isSome = (st.pools p).isSome) ∧ (step H st (.purge key)).1.mem = st.mem := by
      simp only [step, opPurge]
      cases hk : keyToHash H key with
      | none => exact ⟨fun p => rfl, rfl⟩
      | some kc =>
        obtain ⟨k, c⟩ := kc
        simp only
        cases hf : find st k c with
        | none => exact ⟨fun p => rfl, rfl⟩
        | some x =>
          obtain ⟨b, P, o⟩ := x
          cases o with
          | none => exact ⟨fun p => rfl, rfl⟩
          | some i =>
            have hb : (st.pools b).isSome := by
              unfold find at hf
              simp only at hf
              cases hp : st.pools (basePath st.mem (findBucket st.mem (rev64 k))) with
              | none => rw [hp] at hf; cases hf
              | some P' =>
                rw [hp] at hf
                simp only [Option.some.injEq, Prod.mk.injEq] at hf
                rw [hf.1] at hp; rw [hp]; rfl
            simp only
            split
            · refine ⟨fun p => ?_, rfl⟩
              simp only [upool]; split <;> simp_all
            · refine ⟨fun p => ?_, rfl⟩
              simp only [upool]; split <;> simp_all
    simp only [step, opGet]
    cases hk' : keyToHash H key' with
    | none => rfl
    | some kc' =>
      obtain ⟨k', c'⟩ := kc'
      simp only
      have hm : (s.step H (toOp (.purge key))).1.m (k', c') = s.m (k', c') := by
        simp only [toOp, PMap.step]
        cases hk : keyToHash H key with
        | none => rfl
        | some kc =>
          simp only
          cases s.m kc with
          | none => rfl
          | some v =>
            simp only [PMap.del]
            rw [if_neg]
            intro he
            exact hne (by rw [hk, hk', he])
      have e2 := g5.getByHash k' c'
      have e1 := g1.getByHash k' c'
      rw [hm] at e2
      have hcr : ∀ st : St, opGetByHash st k' c' = .crash .stackOverflow ↔ st.pools (basePath st.mem (findBucket st.mem (rev64 k'))) = none := by
        intro st
        unfold opGetByHash find
        simp only
        cases hp : st.pools (basePath st.mem (findBucket st.mem (rev64 k'))) with
        | none => simp
        | some P => cases hl : P.lookup (rev64 k') c' <;> simp [hl]
      have hiff : opGetByHash (step H st (.purge key)).1 k' c' = .crash .stackOverflow ↔ opGetByHash st k' c' = .crash .stackOverflow := by
        rw [hcr, hcr, hsame.2]
        have := hsame.1 (basePath st.mem (findBucket st.mem (rev64 k')))
        rw [← Option.isNone_iff_eq_none, ← Option.isNone_iff_eq_none, ← Option.not_isSome, ← Option.not_isSome, this]
      have hsn : ∀ st : St, step H st (.purge key) = opPurge H st key := fun _ => rfl
      rw [hsn] at e2 hiff
      rcases e1 with ⟨e1, _⟩ | e1
      · rw [e1, hiff.2 e1]
      · rcases e2 with ⟨e2, _⟩ | e2
        · rw [e2, hiff.1 e2]
        · rw [e1, e2]

example : CleanD hR 4 (exDel.take 10 ++ [.purge (sk 30)]) := cleanDB_sound (by decide +kernel)

/-! ### C25 -/

/-- C25 for gentle histories: a gentle Set, be it an update, a new slot or a reused one, does not change what Get answers
for a key with other hashes (or that Get exhausts the stack). -/
theorem C25_partial {H : HashFns} {mp : Nat} {ops : List Op} {key key' : Key} {v : IVal} (h : CleanD H mp (ops ++ [.set key v]))
    (hc : NoCrash H mp (ops ++ [.set key v])) (hne : keyToHash H key ≠ keyToHash H key') :
    (step H (step H (run H (initSt mp) ops).1 (.set key v)).1 (.get key')).2 = (step H (run H (initSt mp) ops).1 (.get key')).2 ∨
    (step H (step H (run H (initSt mp) ops).1 (.set key v)).1 (.get key')).2 = .crash .stackOverflow ∨
    (step H (run H (initSt mp) ops).1 (.get key')).2 = .crash .stackOverflow := by
  have hc1 : NoCrash H mp ops := by
    intro c hx
    exact hc c (by rw [run_append]; exact List.mem_append_left _ hx)
  obtain ⟨⟨gl, g1⟩, g2, g3, _⟩ := h.at hc1
  have hcl : ∀ c, (step H (run H (initSt mp) ops).1 (.set key v)).2 ≠ .crash c := by
    intro c hx
    refine hc c ?_
    rw [run_append]
    apply List.mem_append_right
    simp only [run]; rw [hx]; simp
  simp only [gentleRun, Bool.and_eq_true] at g3
  generalize ((PMap.empty .sample).run H (ops.map toOp)).1 = s at g1
  generalize hst : (run H (initSt mp) ops).1 = st at *
  rcases g1.step (by rw [g2]; exact h.kok) g3.1 (fun kc hk => mem_hashes.2 ⟨_, by simp, hk⟩) with ⟨h1, _⟩ | ⟨⟨gl', g5, _⟩, _, g6⟩
  · exact absurd h1 (hcl _)
  · cases hk' : keyToHash H key' with
    | none => left; simp only [step, opGet, hk']
    | some kc' =>
      obtain ⟨k', c'⟩ := kc'
      have hm : (s.step H (toOp (.set key v))).1.m (k', c') = s.m (k', c') := by
        cases key with
        | str str =>
          have hne' : (k', c') ≠ (H.mem str, H.xx str) := by
            intro he; apply hne; rw [hk', he]; rfl
          simp only [toOp, PMap.step, keyToHash]
          cases hm : s.m (H.mem str, H.xx str) with
          | none => simp [PMap.put, hne']
          | some old =>
            simp only [PMap.overwrite]
            repeat' split
            all_goals first | rfl | (simp [PMap.put, hne']; done)
        | _ => exact absurd g3.1 (by simp [Emb.gentle])
      have e2 := g5.getByHash k' c'
      have e1 := g1.getByHash k' c'
      rw [hm] at e2
      have hget : ∀ st : St, (step H st (.get key')).2 = opGetByHash st k' c' := by
        intro st; simp only [step, opGet, hk']
      rw [hget, hget]
      rcases e1 with ⟨e1, _⟩ | e1
      · exact Or.inr (Or.inr e1)
      · rcases e2 with ⟨e2, _⟩ | e2
        · exact Or.inr (Or.inl e2)
        · left; rw [e1, e2]

example : CleanD hR 4 (exDel.take 6 ++ [.set (sk 25) (exV 7)]) := cleanDB_sound (by decide +kernel)

/-! ### C26, C27 -/

/-- C26, part: after a gentle history with deletions, too, the only way an operation can fail to return is the exhausted stack. -/
theorem C26_del_partial {H : HashFns} {mp : Nat} {ops : List Op} {op : Op} (h : CleanD H mp (ops ++ [op])) (hc : NoCrash H mp ops)
    {c : Crash} (hx : (step H (run H (initSt mp) ops).1 op).2 = .crash c) : c = .stackOverflow := by
  obtain ⟨⟨gl, g1⟩, g2, g3, _⟩ := h.at hc
  simp only [gentleRun, Bool.and_eq_true] at g3
  rcases g1.step (by rw [g2]; exact h.kok) g3.1 (fun kc hk => mem_hashes.2 ⟨op, by simp, hk⟩) with ⟨hcr, _⟩ | ⟨_, _, g3⟩
  · rw [hcr] at hx; injection hx with hx; exact hx.symm
  · rw [hx] at g3; cases g3

/-- C26, part: as long as at most `mp` keys share the lowest four hash bits, a gentle history with deletions never crashes, and
every answer is the plain map's. -/
theorem C26_del_partial_few {H : HashFns} {mp : Nat} {ops : List Op} (one : 1 ≤ mp) (gentle : gentleRun H (initSt mp) ops = true)
    (coll : ∀ a ∈ ops, ∀ b ∈ ops, ∀ k c c', setHash H a = some (k, c) → setHash H b = some (k, c') → c = c')
    (few : ∀ L : List U64, L.Nodup → (∀ k ∈ L, ∃ op ∈ ops, ∃ c, setHash H op = some (k, c)) →
      (∀ k ∈ L, ∀ k' ∈ L, k.toNat % 16 = k'.toNat % 16) → L.length ≤ mp)
    (small : (ops.length : Int) < 2 ^ 62) : NoCrash H mp ops ∧ C22_statement H mp ops := by
  have h : CleanD H mp ops := by
    refine ⟨one, gentle, coll, ?_, small⟩
    intro L h1 h2 h3
    refine few L h1 h2 (fun k hk k' hk' => ?_)
    have := h3 k hk k' hk'
    omega
  have hF : Few (initSt mp).maxPer (hashes H ops) := by
    intro L hL hin hsame
    have := few (L.map rev64) (nodup_rev hL) (by
      intro k hk
      obtain ⟨r, hr, rfl⟩ := List.mem_map.1 hk
      obtain ⟨c, hc⟩ := hin r hr
      obtain ⟨op, ho, ho'⟩ := mem_hashes.1 hc
      exact ⟨op, ho, c, ho'⟩) (by
      intro k hk k' hk'
      obtain ⟨r, hr, rfl⟩ := List.mem_map.1 hk
      obtain ⟨r', hr', rfl⟩ := List.mem_map.1 hk'
      exact mod_of_rev (j := 60) (by omega) (hsame r hr r' hr'))
    rw [List.length_map] at this
    exact this
  have hn : NoCrash H mp ops := RelD.total (st := initSt mp) h.kok hF ops (initSt mp) _ (init_relD H _ mp one) rfl gentle
    (fun op ho kc hk => mem_hashes.2 ⟨op, ho, hk⟩)
  exact ⟨hn, C22_del_partial h hn⟩

/-- C27 for gentle histories with deletions. -/
theorem C27_del_partial {H : HashFns} {mp : Nat} {ops : List Op} {op : Op} (h : CleanD H mp (ops ++ [op])) (hc : NoCrash H mp ops) :
    (step H (run H (initSt mp) ops).1 op).2 ≠ .crash .oob := by
  intro hx
  have := C26_del_partial h hc hx
  cases this

/-! ### C51, C52 -/

/-- C51 for gentle histories with deletions: a gentle Set that answers true is seen by the next Get, or that Get exhausts
the stack. -/
theorem C51_del_partial {H : HashFns} {mp : Nat} {ops : List Op} {str : List (BitVec 8)} {v : IVal}
    (h : CleanD H mp (ops ++ [.set (.str str) v])) (hc : NoCrash H mp ops)
    (ht : (step H (run H (initSt mp) ops).1 (.set (.str str) v)).2 = .bool true) :
    (step H (step H (run H (initSt mp) ops).1 (.set (.str str) v)).1 (.get (.str str))).2 = .val v true ∨
    (step H (step H (run H (initSt mp) ops).1 (.set (.str str) v)).1 (.get (.str str))).2 = .crash .stackOverflow := by
  obtain ⟨⟨gl, g1⟩, g2, g3, _⟩ := h.at hc
  simp only [gentleRun, Bool.and_eq_true] at g3
  generalize ((PMap.empty .sample).run H (ops.map toOp)).1 = s at g1
  rcases g1.step (op := .set (.str str) v) (by rw [g2]; exact h.kok) g3.1 (fun kc hk => mem_hashes.2 ⟨.set (.str str) v, by simp, hk⟩)
    with ⟨hcr, _⟩ | ⟨⟨gl', g4, _⟩, _, g3⟩
  · rw [hcr] at ht; cases ht
  · rw [ht] at g3
    have hm : (s.step H (toOp (.set (.str str) v))).1.m (H.mem str, H.xx str) = some v := by
      simp only [toOp, PMap.step, keyToHash, ansE, Option.some.injEq] at g3 ⊢
      cases hm : s.m (H.mem str, H.xx str) with
      | none => simp [PMap.put]
      | some old =>
        rw [hm] at g3
        simp only [PMap.overwrite, g1.fn] at g3 ⊢
        cases v with
        | none => simp at g3
        | some v =>
          cases old with
          | none => simp [PMap.put]
          | some o =>
            simp only at g3 ⊢
            by_cases hty : o.ty = v.ty
            · simp [hty, PMap.put]
            · simp [hty] at g3
    rcases g4.getByHash (H.mem str) (H.xx str) with ⟨h1, _⟩ | h1
    · right
      exact h1
    · left
      rw [hm] at h1
      exact h1

example : (step hR (run hR (initSt 4) (exDel.take 6)).1 (.set (sk 25) (exV 7))).2 = .bool true := by decide +kernel

/-- C52 for gentle histories with deletions: the item that LoadItem answers for a string carries a key with the hashes of
that string. -/
theorem C52_key_del_partial {H : HashFns} {mp : Nat} {ops : List Op} (h : CleanD H mp ops) (hc : NoCrash H mp ops)
    {str str' : List (BitVec 8)} {v : IVal}
    (hl : (step H (run H (initSt mp) ops).1 (.loadItem (.str str))).2 = .item (some (str', v))) :
    H.mem str' = H.mem str ∧ H.xx str' = H.xx str := by
  have h' : CleanD H mp (ops ++ []) := by simpa using h
  obtain ⟨⟨gl, g⟩, _⟩ := h'.at hc
  simp only [step, opLoadItem, keyToHash] at hl
  rcases g.loadByHash (H.mem str) (H.xx str) with ⟨h1, _⟩ | ⟨r, h1, _, h3⟩
  · rw [h1] at hl; cases hl
  · rw [h1] at hl
    injection hl with hl
    exact h3 (str', v) (by rw [hl]; rfl)

end SLM.Emb
