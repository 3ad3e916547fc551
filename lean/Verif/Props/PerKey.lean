import Verif.Proofs.PerKey
import Verif.Props.Sequential
import Verif.Props.Static
/-!
C80: C01, C02, C04, C05 for one key at a time: the side conditions of `Clean` are needed for the key in question only. Other
keys may collide with each other, sit on bucket boundaries, be stored through items with hash fields already set, change
value types — the calls addressing this key are answered as by a plain map that sees only these calls.
-/
set_option maxRecDepth 20000
set_option autoImplicit false
namespace SLM
open Spec (PMap ans Ans)
open History

/-- Side conditions on a history for the key with primary hash `k` and conflict hash `c`: stores with primary hash `k` are
of this key and with fresh items; no other item is brought along with the reversed hash of this key already set; a store of
this key that is not in the map does not find its reversed hash among the bucket boundaries; no call crashed. -/
structure CleanKey (E : Env) (cfg : Cfg) (k c : U64) (ops : List Op) : Prop where
  ok : ∀ op ∈ ops, KeyOk E.H k c op
  off : KeyOff E k c (initSt cfg) ops
  crash : NoCrash E (initSt cfg) ops

/-- The type of the items made by the map does not matter to this key: `WithItem(SampleItem)`, or the key is never given to
StoreItem, or Set is never called. -/
def OneType (H : HashFns) (cfg : Cfg) (k c : U64) (ops : List Op) : Prop :=
  cfg.itemFn = .sample ∨ (∀ it, Op.storeItem it ∈ ops → keyToHash H it.key ≠ some (k, c)) ∨ (∀ key v, Op.set key v ∉ ops)

/-- The calls of a history that address the hash pair, with their answers. -/
def answersAbout (H : HashFns) (k c : U64) (ops : List Op) (outs : List Out) : List Ans :=
  ((ops.zip outs).filter (fun p => decide (addr H p.1 = some (k, c)))).map (fun p => ans p.2)

/-- The calls of a history that address the hash pair. -/
def callsAbout (H : HashFns) (k c : U64) (ops : List Op) : List Op := ops.filter (fun op => decide (addr H op = some (k, c)))

/-- C80, answers: the answers to the calls addressing it are those of a plain map given just these calls. -/
theorem C80_answers {E : Env} {cfg : Cfg} {k c : U64} {ops : List Op} (h : CleanKey E cfg k c ops) (ht : OneType E.H cfg k c ops) :
    answersAbout E.H k c ops (run E (initSt cfg) ops).2 = ((PMap.empty cfg.itemFn).run E.H (callsAbout E.H k c ops)).2 := by
  have hm : (PMap.empty cfg.itemFn).m (k, c) = (absM (initSt cfg)).m (k, c) := by rw [absM_init]
  have hfn : (initSt cfg).itemFn = cfg.itemFn := by
    have := congrArg PMap.fn (absM_init cfg); exact this
  rcases ht with ht | ht | ht
  · exact (run_key (i := 0) (kgood_init cfg k c) hm ⟨ht, by rw [hfn]; exact ht⟩ h.ok (fun _ _ => trivial) h.off h.crash).2.2
  · exact (run_key (i := 1) (kgood_init cfg k c) hm (fun hn => absurd rfl hn) h.ok (fun op ho it hop => ht it (hop ▸ ho)) h.off h.crash).2.2
  · exact (run_key (i := 2) (kgood_init cfg k c) hm hfn.symm h.ok (fun op ho key v hop => ht key v (hop ▸ ho)) h.off h.crash).2.2

theorem keyOff_append {E : Env} {k c : U64} {st : St} {a b : List Op} (h : KeyOff E k c st (a ++ b)) :
    KeyOff E k c st a ∧ KeyOff E k c (run E st a).1 b := by
  induction a generalizing st with
  | nil => exact ⟨trivial, h⟩
  | cons o a ih =>
    obtain ⟨h1, h2⟩ := h
    have := ih h2
    refine ⟨⟨h1, this.1⟩, ?_⟩
    rw [run_cons]; exact this.2

theorem run_kgood {E : Env} {k c : U64} {ops : List Op} {st : St} (g : KGood st k c) (hok : ∀ op ∈ ops, KeyOk E.H k c op)
    (hoff : KeyOff E k c st ops) (hcr : NoCrash E st ops) : KGood (run E st ops).1 k c := by
  induction ops generalizing st with
  | nil => exact g
  | cons op ops ih =>
    rw [NoCrash, run_cons] at hcr
    simp only [List.mem_cons, not_or] at hcr
    rw [run_cons]
    refine ih ?_ (fun o ho => hok o (by simp [ho])) hoff.2 hcr.2
    by_cases ha : addr E.H op = some (k, c)
    · exact (step_self_key g (hok op (by simp)) ha (fun hs hn => g.off (hoff.1 hs) hn) (fun h => hcr.1 h.symm)).1
    · exact (step_other_key g (hok op (by simp)) ha).1

theorem CleanKey.split {E : Env} {cfg : Cfg} {k c : U64} {ops : List Op} {op : Op} {ops2 : List Op} (h : CleanKey E cfg k c (ops ++ op :: ops2)) :
    KGood (run E (initSt cfg) ops).1 k c ∧ KeyOk E.H k c op ∧
    (storeHash E.H op = some (k, c) → lookup (run E (initSt cfg) ops).1.items k c = none → ∀ p ∈ (run E (initSt cfg) ops).1.blist, bvRev p ≠ rev64 k) ∧
    (step E (run E (initSt cfg) ops).1 op).2 ≠ .panic .bucketHeadEmpty := by
  obtain ⟨o1, o2⟩ := keyOff_append h.off
  have hc := h.crash
  unfold NoCrash at hc
  rw [run_append] at hc
  simp only [List.mem_append, not_or, run_cons, List.mem_cons] at hc
  have g := run_kgood (kgood_init cfg k c) (fun o ho => h.ok o (by simp [ho])) o1 hc.1
  exact ⟨g, h.ok op (by simp), fun hs hn => g.off (o2.1 hs) hn, fun h => hc.2.1 h.symm⟩

/-- C80: after an acknowledged store Get and LoadItem find the value, whatever was done to other keys. -/
theorem C80_stored {E : Env} {cfg : Cfg} {k c : U64} {ops : List Op} {op : Op} {key : Key} {v : IVal}
    (h : CleanKey E cfg k c (ops ++ [op])) (ha : storeArgs op = some (key, v)) (hkc : keyToHash E.H key = some (k, c))
    (ht : (step E (run E (initSt cfg) ops).1 op).2 = .bool true) :
    opGet E (step E (run E (initSt cfg) ops).1 op).1 key = .val v true ∧
    ∃ k', opLoadItem E (step E (run E (initSt cfg) ops).1 op).1 key = .item (some (k', v)) := by
  obtain ⟨g, hok, hoff, hp⟩ := h.split
  have haddr : addr E.H op = some (k, c) := by
    cases op <;> simp only [storeArgs, Option.some.injEq, Prod.mk.injEq, reduceCtorEq] at ha <;> (rw [← ha.1] at hkc; exact hkc)
  obtain ⟨g', he⟩ := step_self_key g hok haddr hoff hp
  simp only [Prod.mk.injEq] at he
  obtain ⟨h1, _, h2⟩ := he
  rw [ht] at h2
  obtain ⟨kc', hk, hm⟩ := PMap.store_true ha h2.symm
  rw [hkc] at hk; cases hk
  rw [← h1, absM_m] at hm
  obtain ⟨e, he, hv⟩ := Option.map_eq_some_iff.1 hm
  constructor
  · unfold opGet
    simp only [hkc, opGetByHash, getEntry_key g', he, hv]
  · refine ⟨viewKey (step E (run E (initSt cfg) ops).1 op).1.itemFn e, ?_⟩
    unfold opLoadItem
    simp only [hkc, getWithBucket_key g', he, Option.map_some, view, hv]

theorem getByHash_key {E : Env} {st : St} {k c : U64} (g : KGood st k c) :
    opGetByHash E st k c = match (absM st).m (k, c) with | some v => .val v true | none => .val none false := by
  unfold opGetByHash
  rw [getEntry_key g, absM_m]
  cases lookup st.items k c <;> rfl

theorem addr_of_write {H : HashFns} {op : Op} {kc : U64 × U64} (hne : ∀ key, writeKey op = some key → keyToHash H key ≠ some kc) :
    addr H op ≠ some kc ∨ ∀ E : Env, E.H = H → ∀ st, (step E st op).1 = st := by
  cases op with
  | set key v => exact Or.inl (hne key rfl)
  | storeItem it => exact Or.inl (hne it.key rfl)
  | delete key => exact Or.inl (hne key rfl)
  | _ => exact Or.inr (fun _ _ _ => rfl)

/-- C80: a call that does not write it — store or deletion of any other key, colliding, on a boundary, crashing or
not — leaves the answer of GetByHash unchanged. -/
theorem C80_untouched {E : Env} {cfg : Cfg} {k c : U64} {ops : List Op} {op : Op} (h : CleanKey E cfg k c (ops ++ [op]))
    (hne : ∀ key, writeKey op = some key → keyToHash E.H key ≠ some (k, c)) :
    opGetByHash E (step E (run E (initSt cfg) ops).1 op).1 k c = opGetByHash E (run E (initSt cfg) ops).1 k c := by
  obtain ⟨g, hok, hoff, hp⟩ := h.split
  rcases addr_of_write hne with ha | ha
  · obtain ⟨g', he⟩ := step_other_key g hok ha
    rw [getByHash_key g', getByHash_key g, he]
  · rw [ha E rfl]

/-- C80: once deleted it is not found until it is stored again. -/
theorem C80_deleted {E : Env} {cfg : Cfg} {k c : U64} {ops ops2 : List Op} {key : Key} (h : CleanKey E cfg k c (ops ++ .delete key :: ops2))
    (hk : keyToHash E.H key = some (k, c)) (hno : ∀ op ∈ ops2, storeHash E.H op ≠ some (k, c)) :
    opGet E (run E (initSt cfg) (ops ++ .delete key :: ops2)).1 key = .val none false := by
  have base : KGood (run E (initSt cfg) (ops ++ [.delete key])).1 k c ∧ (absM (run E (initSt cfg) (ops ++ [.delete key])).1).m (k, c) = none := by
    obtain ⟨g, hok, hoff, hp⟩ := h.split
    obtain ⟨g', he⟩ := step_self_key g hok (show addr E.H (.delete key) = _ from hk) hoff hp
    simp only [Prod.mk.injEq] at he
    rw [run_append]
    refine ⟨g', ?_⟩
    show (absM (step E (run E (initSt cfg) ops).1 (.delete key)).1).m (k, c) = none
    rw [he.1]
    simp only [PMap.step, hk]
    split
    · simp [PMap.del]
    · assumption
  have key2 : ∀ (l : List Op) (st : St), KGood st k c → (absM st).m (k, c) = none → (∀ op ∈ l, KeyOk E.H k c op) → KeyOff E k c st l →
      NoCrash E st l → (∀ op ∈ l, storeHash E.H op ≠ some (k, c)) → KGood (run E st l).1 k c ∧ (absM (run E st l).1).m (k, c) = none := by
    intro l
    induction l with
    | nil => intro st g hm _ _ _ _; exact ⟨g, hm⟩
    | cons o l ih =>
      intro st g hm hok hoff hcr hno
      rw [NoCrash, run_cons] at hcr
      simp only [List.mem_cons, not_or] at hcr
      rw [run_cons]
      have hs := hno o (by simp)
      have : KGood (step E st o).1 k c ∧ (absM (step E st o).1).m (k, c) = none := by
        by_cases ha : addr E.H o = some (k, c)
        · obtain ⟨g', he⟩ := step_self_key g (hok o (by simp)) ha (fun hs' => absurd hs' hs) (fun h => hcr.1 h.symm)
          simp only [Prod.mk.injEq] at he
          refine ⟨g', ?_⟩
          rw [he.1]
          by_contra hc
          rcases PMap.step_present hc with h | h
          · exact h hm
          · exact hs h
        · obtain ⟨g', he⟩ := step_other_key g (hok o (by simp)) ha
          exact ⟨g', by rw [he, hm]⟩
      exact ih _ this.1 this.2 (fun x hx => hok x (by simp [hx])) hoff.2 hcr.2 (fun x hx => hno x (by simp [hx]))
  have e1 : ops ++ .delete key :: ops2 = (ops ++ [.delete key]) ++ ops2 := by simp
  have hoff := h.off
  have hcr := h.crash
  have hok := h.ok
  unfold NoCrash at hcr
  rw [e1] at hoff hcr hok ⊢
  rw [run_append] at hcr ⊢
  obtain ⟨_, o2⟩ := keyOff_append hoff
  have := key2 ops2 _ base.1 base.2 (fun o ho => hok o (by simp only [List.mem_append]; exact Or.inr ho)) o2
    (fun hh => hcr (by simp only [List.mem_append]; exact Or.inr hh)) hno
  unfold opGet
  simp only [hk]
  rw [getByHash_key this.1, this.2]

/-- Conditions on the arguments only: few enough stores, and this key's primary hash is not too small. -/
theorem static_key {E : Env} {k c : U64} {ops : List Op} {st : St} {n t : Nat} {m : Int} (hi : Inv st) (hd : DepthInv st n) (hm : st.maxPer = m)
    (hn : n + stores E.H ops ≤ t) (hD : ((t : Int) - m).toNat ≤ 58)
    (hk : 2 ^ (4 + ((t : Int) - m).toNat) ≤ k.toNat ∧ k ≠ maxU64) :
    KeyOff E k c st ops ∧ NoCrash E st ops := by
  induction ops generalizing st n with
  | nil => exact ⟨trivial, by simp [NoCrash, run]⟩
  | cons op ops ih =>
    rw [stores_cons] at hn
    have hs := few_splits hd hm (show n ≤ t by omega)
    have hc : Coarse st.blist ((t : Int) - m).toNat := (hd.coarse (by omega)).mono hs
    obtain ⟨hd', hm'⟩ := step_depth E hi hd op
    have := ih (step_inv E hi op) hd' (hm'.trans hm) (by omega)
    constructor
    · exact ⟨fun _ => Or.inr (boundary_large hi.bi hc.dvd (by omega) hk.1 hk.2), this.1⟩
    · rw [NoCrash, run_cons]
      simp only [List.mem_cons, not_or]
      refine ⟨?_, this.2⟩
      intro hcr
      have hb := no_max_pred hi.bi hc.dvd hD
      rcases step_eff E hi op with x | ⟨e, nv, b, x⟩ | ⟨key, e, x⟩ | ⟨st2, k, c, e, x⟩
      · exact hb (x.crash hcr.symm)
      · rw [x.res] at hcr; cases hcr
      · rw [x.res] at hcr; cases hcr
      · rw [x.out] at hcr; cases hcr

/-- C80, answers, with conditions on the arguments only: at most `MaxPefBucket + 58` stores of any keys, `D` the excess over
`MaxPefBucket`, this key's primary hash at least `2^(4+D)` and not `2^64-1`; nothing is asked of the other keys but not to
have the same primary hash. -/
theorem C80_static {E : Env} {cfg : Cfg} {k c : U64} {ops : List Op} (hok : ∀ op ∈ ops, KeyOk E.H k c op)
    (hD : maxSplits E.H cfg ops ≤ 58) (hk : 2 ^ (4 + maxSplits E.H cfg ops) ≤ k.toNat) (hmax : k ≠ maxU64) (ht : OneType E.H cfg k c ops) :
    answersAbout E.H k c ops (run E (initSt cfg) ops).2 = ((PMap.empty cfg.itemFn).run E.H (callsAbout E.H k c ops)).2 := by
  have := static_key (E := E) (c := c) (ops := ops) (t := stores E.H ops) (m := cfg.maxPer) (inv_init cfg) (depth_init cfg) (initSt_maxPer cfg)
    (by omega) hD ⟨hk, hmax⟩
  exact C80_answers ⟨hok, this.1, this.2⟩ ht

/-! #### A history that is clean for one key only -/

/-- Keys 3 (on a boundary), "\x01" and the integer equal to its primary hash (collision), an item already set up for another
key, and between them the key "\x02". -/
def mixOps : List Op :=
  [ .storeItem { kind := .entry, key := .int 3, val := exV 1 }, .set (sk 2) (exV 20), .storeItem { kind := .sample, key := sk 1, val := exV 1 },
    .storeItem { kind := .entry, key := .u64 (exH.mem [1]), val := exV 2 }, .get (sk 1), .get (sk 2), .set (sk 2) (exV 21), .get (.int 3),
    .storeItem { kind := .entry, key := .int 77, val := exV 5, rev0 := 9, conflict0 := 4 }, .delete (sk 1), .loadItem (sk 2), .delete (sk 2), .get (sk 2),
    .set (sk 2) (exV 22), .get (sk 2) ]

def keyOkB (H : HashFns) (k c : U64) (op : Op) : Bool :=
  (match storeHash H op with | some (k', c') => k' != k || c' == c | none => true) &&
  (match op with
   | .storeItem it => (keyToHash H it.key != some (k, c) || (it.rev0 == 0 && it.conflict0 == 0)) && (it.rev0 == 0 || it.rev0 != rev64 k)
   | _ => true)

theorem keyOkB_sound {H : HashFns} {k c : U64} {op : Op} (h : keyOkB H k c op = true) : KeyOk H k c op := by
  simp only [keyOkB, Bool.and_eq_true] at h
  refine ⟨?_, ?_, ?_⟩
  · intro c' hs
    have := h.1
    rw [hs] at this
    simpa using this
  · rintro it rfl hk
    have := h.2
    simp only [Bool.and_eq_true, Bool.or_eq_true, hk, bne_self_eq_false, Bool.false_eq_true, false_or, beq_iff_eq] at this
    exact this.1
  · rintro it rfl hr
    have := h.2
    simp only [Bool.and_eq_true, Bool.or_eq_true, beq_iff_eq, hr, false_or, bne_iff_ne] at this
    exact this.2

/-- It meets the conditions for the key "\x02", is not clean, and loses both colliding keys and the key on the boundary. -/
example : (∀ op ∈ mixOps, KeyOk exE.H (exH.mem [2]) (exH.xx [2]) op) ∧ maxSplits exE.H exCfg mixOps ≤ 58 ∧
    2 ^ (4 + maxSplits exE.H exCfg mixOps) ≤ (exH.mem [2]).toNat ∧ exH.mem [2] ≠ maxU64 ∧
    OneType exE.H exCfg (exH.mem [2]) (exH.xx [2]) mixOps ∧ ¬ C01_statement exE exCfg mixOps ∧
    answersAbout exE.H (exH.mem [2]) (exH.xx [2]) mixOps (run exE (initSt exCfg) mixOps).2 =
      [.bool true, .val (exV 20) true, .bool true, .item (some (exV 21)), .bool true, .val none false, .bool true, .val (exV 22) true] := by
  refine ⟨fun op ho => keyOkB_sound (List.all_eq_true.1 (show mixOps.all (keyOkB exE.H (exH.mem [2]) (exH.xx [2])) = true by decide +kernel) op ho),
    by decide +kernel, by decide +kernel, by decide +kernel, Or.inl rfl, by unfold C01_statement; decide +kernel, by decide +kernel⟩

end SLM
