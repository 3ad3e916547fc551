import Verif.Proofs.EmbWork
import Verif.Props.EmbDel
import Verif.Props.EmbList
/-!
C82: embedded mode, "load, then work".

First all keys are stored.  After that, keys that stand (in the order of the reversed hash) between two keys of the same
first-level bucket that are never deleted may be deleted, stored again and updated in any order.  The condition speaks about
the calls of the program only, not about states: it implies that every call is `gentle` (Proofs/EmbDel4.lean).
-/
set_option maxRecDepth 100000
set_option autoImplicit false
namespace SLM.Emb
open Spec (PMap Ans)

theorem div_of_mod {k k' : U64} (h : k.toNat % 16 = k'.toNat % 16) : (rev64 k).toNat / 2 ^ 60 = (rev64 k').toNat / 2 ^ 60 := by
  have hb : ∀ (x : U64) (i : Nat), i < 64 → (rev64 x).getLsbD i = x.getLsbD (63 - i) := by
    intro x i h
    simp only [rev64, BitVec.getLsbD_reverse, BitVec.getMsbD_eq_getLsbD, h, decide_true, Bool.true_and]
  apply Nat.eq_of_testBit_eq
  intro i
  rw [Nat.testBit_div_two_pow, Nat.testBit_div_two_pow]
  simp only [BitVec.testBit_toNat]
  by_cases hi : i < 4
  · rw [hb k (i + 60) (by omega), hb k' (i + 60) (by omega)]
    have h1 := congrArg (fun x => x.testBit (63 - (i + 60))) h
    simp only [show (16 : Nat) = 2 ^ 4 from rfl, Nat.testBit_mod_two_pow, BitVec.testBit_toNat] at h1
    rw [show decide (63 - (i + 60) < 4) = true by simp; omega] at h1
    simpa using h1
  · rw [BitVec.getLsbD_of_ge _ _ (by omega), BitVec.getLsbD_of_ge _ _ (by omega)]

/-- Get, GetByHash, LoadItem, LoadItemByHash. -/
def Reading : Op → Prop
  | .get _ => True
  | .getByHash _ _ => True
  | .loadItem _ => True
  | .loadItemByHash _ _ => True
  | _ => False

/-- `kc` is the hash pair of a key stored in the first phase. -/
def Loaded (H : HashFns) (load : List Op) (kc : U64 × U64) : Prop := ∃ o ∈ load, setHash H o = some kc

/-- `kc` is the hash pair of a key that is stored in the first phase and never deleted in the second. -/
def Stays (H : HashFns) (load work : List Op) (kc : U64 × U64) : Prop :=
  Loaded H load kc ∧ ∀ key, Op.delete key ∈ work → keyToHash H key ≠ some kc

/-- The histories of C82: a program that stores its keys first, and later deletes only keys that have neighbours which
stay. -/
structure LoadWork (H : HashFns) (mp τ : Nat) (load work : List Op) : Prop where
  /-- `MaxPefBucket` is at least 1 -/
  one : 1 ≤ mp
  /-- first phase: Set of string keys with values of the type `τ`, and reads -/
  loads : ∀ op ∈ load, (∃ str v, op = .set (.str str) (some v) ∧ v.ty = τ) ∨ Reading op
  /-- second phase: Set of keys of the first phase with values of the type `τ`, Delete, and reads -/
  works : ∀ op ∈ work, (∃ str v, op = .set (.str str) (some v) ∧ v.ty = τ ∧ Loaded H load (H.mem str, H.xx str)) ∨
    (∃ key, op = .delete key) ∨ Reading op
  /-- every stored key that is deleted stands between two keys of its first-level bucket (lowest four hash bits) that stay -/
  guard : ∀ key kc, Op.delete key ∈ work → keyToHash H key = some kc → Loaded H load kc →
    ∃ lo hi, Stays H load work lo ∧ Stays H load work hi ∧ lo.1.toNat % 16 = kc.1.toNat % 16 ∧ hi.1.toNat % 16 = kc.1.toNat % 16 ∧
      rev64 lo.1 < rev64 kc.1 ∧ rev64 kc.1 < rev64 hi.1
  /-- no two keys share the primary hash but not the conflict hash -/
  coll : ∀ k c c', Loaded H load (k, c) → Loaded H load (k, c') → c = c'
  /-- at most `mp` keys have the same lowest four hash bits -/
  few : ∀ L : List U64, L.Nodup → (∀ k ∈ L, ∃ c, Loaded H load (k, c)) → (∀ k ∈ L, ∀ k' ∈ L, k.toNat % 16 = k'.toNat % 16) → L.length ≤ mp
  small : (load.length : Int) + work.length < 2 ^ 62

variable {H : HashFns} {mp τ : Nat} {load work : List Op}

theorem loaded_iff {kc : U64 × U64} : kc ∈ hashes H load ↔ Loaded H load kc := mem_hashes

theorem LoadWork.hash_work (h : LoadWork H mp τ load work) {op : Op} (ho : op ∈ work) {kc : U64 × U64} (hk : setHash H op = some kc) :
    Loaded H load kc := by
  rcases h.works op ho with ⟨str, v, rfl, _, hl⟩ | ⟨key, rfl⟩ | hr
  · injection hk with hk; rw [← hk]; exact hl
  · cases hk
  · cases op <;> first | cases hk; done | cases hr

theorem LoadWork.kok (h : LoadWork H mp τ load work) : KOK mp (hashes H load) := by
  refine kok_of ?_ ?_ (by have := h.small; omega)
  · intro a ha b hb k c c' h1 h2
    exact h.coll k c c' ⟨a, ha, h1⟩ ⟨b, hb, h2⟩
  · intro L h1 h2 h3
    refine h.few L h1 (fun k hk => ?_) (fun k hk k' hk' => by have := h3 k hk k' hk'; omega)
    obtain ⟨op, ho, c, hc⟩ := h2 k hk
    exact ⟨c, op, ho, hc⟩

theorem LoadWork.fewK (h : LoadWork H mp τ load work) : Few mp (hashes H load) := by
  intro L hL hin hsame
  have := h.few (L.map rev64) (nodup_rev hL) (by
    intro k hk
    obtain ⟨r, hr, rfl⟩ := List.mem_map.1 hk
    obtain ⟨c, hc⟩ := hin r hr
    exact ⟨c, loaded_iff.1 hc⟩) (by
    intro k hk k' hk'
    obtain ⟨r, hr, rfl⟩ := List.mem_map.1 hk
    obtain ⟨r', hr', rfl⟩ := List.mem_map.1 hk'
    exact mod_of_rev (j := 60) (by omega) (hsame r hr r' hr'))
  rwa [List.length_map] at this

/-- The plain map after the first phase: every loaded key is there, with a value of the type. -/
theorem load_map : ∀ (ops : List Op) (s : PMap), s.fn = .sample →
    (∀ op ∈ ops, (∃ str v, op = .set (.str str) (some v) ∧ v.ty = τ) ∨ Reading op) →
    (∀ kc x, s.m kc = some x → ∃ v, x = some v ∧ v.ty = τ) →
    (∀ kc x, (s.run H (ops.map toOp)).1.m kc = some x → ∃ v, x = some v ∧ v.ty = τ) ∧
    (∀ kc, (s.m kc ≠ none ∨ kc ∈ hashes H ops) → (s.run H (ops.map toOp)).1.m kc ≠ none) := by
  intro ops
  induction ops with
  | nil => intro s _ _ h; exact ⟨h, fun kc hk => hk.elim id (fun h => by simp [hashes] at h)⟩
  | cons op ops ih =>
    intro s hf ho hv
    simp only [List.map_cons, PMap.run]
    rcases ho op (by simp) with ⟨str, v, rfl, hty⟩ | hr
    · have hs : (s.step H (toOp (.set (.str str) (some v)))).1.fn = .sample ∧
          (∀ kc, (s.step H (toOp (.set (.str str) (some v)))).1.m kc =
            if kc = (H.mem str, H.xx str) then some (some v) else s.m kc) := by
        simp only [toOp, PMap.step, keyToHash]
        cases hm : s.m (H.mem str, H.xx str) with
        | none => exact ⟨rfl, fun kc => rfl⟩
        | some old =>
          obtain ⟨o, rfl, hot⟩ := hv _ _ hm
          simp only [PMap.overwrite, hf, hot, hty, if_true]
          exact ⟨hf, fun kc => rfl⟩
      obtain ⟨i1, i2⟩ := ih _ hs.1 (fun o h => ho o (by simp [h])) (by
        intro kc x hx
        rw [hs.2] at hx
        split at hx
        · injection hx with hx; exact ⟨v, hx.symm, hty⟩
        · exact hv kc x hx)
      refine ⟨i1, fun kc hk => i2 kc ?_⟩
      rw [hs.2]
      by_cases he : kc = (H.mem str, H.xx str)
      · left; rw [if_pos he]; simp
      · rw [if_neg he]
        rcases hk with hk | hk
        · exact Or.inl hk
        · right
          simp only [hashes, List.filterMap_cons, setHash, List.mem_cons] at hk ⊢
          rcases hk with hk | hk
          · exact absurd hk he
          · exact hk
    · have hs : (s.step H (toOp op)).1 = s ∧ setHash H op = none := by
        cases op with
        | get key => refine ⟨?_, rfl⟩; simp only [toOp, PMap.step]; cases keyToHash H key <;> rfl
        | getByHash k c => exact ⟨rfl, rfl⟩
        | loadItem key => refine ⟨?_, rfl⟩; simp only [toOp, PMap.step]; cases keyToHash H key <;> rfl
        | loadItemByHash k c => exact ⟨rfl, rfl⟩
        | set _ _ => cases hr
        | storeItem _ _ _ => cases hr
        | delete _ => cases hr
        | purge _ => cases hr
        | len => cases hr
      rw [hs.1]
      obtain ⟨i1, i2⟩ := ih s hf (fun o h => ho o (by simp [h])) hv
      refine ⟨i1, fun kc hk => i2 kc (hk.imp_right ?_)⟩
      intro hk
      simp only [hashes, List.filterMap_cons, hs.2] at hk
      exact hk

/-- The first phase. -/
theorem load_phase {K : List (U64 × U64)} (hK : KOK mp K) (hF : Few mp K) : ∀ (ops : List Op) (st : St) (s : PMap),
    RelE H K st st.blist s → RelD H K st st.blist s → st.maxPer = mp → (∀ op ∈ ops, Plain op) →
    (∀ op ∈ ops, ∀ kc, setHash H op = some kc → kc ∈ K) →
    gentleRun H st ops = true ∧ RelE H K (run H st ops).1 st.blist (s.run H (ops.map toOp)).1 ∧
      RelD H K (run H st ops).1 st.blist (s.run H (ops.map toOp)).1 ∧ (run H st ops).1.maxPer = mp ∧ (run H st ops).1.blist = st.blist := by
  intro ops
  induction ops with
  | nil => intro st s h1 h2 hm _ _; exact ⟨rfl, h1, h2, hm, rfl⟩
  | cons op ops ih =>
    intro st s h1 h2 hm hp hk
    have hg := EList.gentle_plain h1 (hp op (by simp))
    rcases h1.step (hm ▸ hK) (hp op (by simp)) (hk op (by simp)) with ⟨_, hc⟩ | ⟨⟨gl, a1, a2⟩, a3, _⟩
    · exact absurd rfl hc
    rcases h2.step (hm ▸ hK) hg (hk op (by simp)) with ⟨_, hc⟩ | ⟨⟨gl', b1, b2⟩, _, _⟩
    · exact absurd rfl hc
    obtain ⟨e1, e2⟩ := a2 (hm ▸ hF)
    obtain ⟨e3, _⟩ := b2 (hm ▸ hF)
    rw [e1, ← e2] at a1
    rw [e3, ← e2] at b1
    obtain ⟨i1, i2, i3, i4, i5⟩ := ih _ _ a1 b1 (a3.trans hm) (fun o h => hp o (by simp [h])) (fun o h => hk o (by simp [h]))
    rw [e2] at i2 i3 i5
    exact ⟨by simp only [gentleRun, Bool.and_eq_true]; exact ⟨hg, i1⟩, i2, i3, i4, i5⟩

theorem gentleRun_app {H : HashFns} : ∀ (a b : List Op) (st : St), gentleRun H st a = true →
    gentleRun H (run H st a).1 b = true → gentleRun H st (a ++ b) = true := by
  intro a
  induction a with
  | nil => intro b st _ h; exact h
  | cons op a ih =>
    intro b st h1 h2
    simp only [List.cons_append, gentleRun, Bool.and_eq_true, run] at h1 h2 ⊢
    exact ⟨h1.1, ih b _ h1.2 h2⟩

theorem LoadWork.gentle (h : LoadWork H mp τ load work) : gentleRun H (initSt mp) (load ++ work) = true := by
  have hK := h.kok
  have hF := h.fewK
  have hpl : ∀ op ∈ load, Plain op := by
    intro op ho
    rcases h.loads op ho with ⟨str, v, rfl, _⟩ | hr
    · trivial
    · cases op <;> first | trivial | cases hr
  obtain ⟨g1, g2, g3, g4, g5⟩ := load_phase (H := H) hK hF load (initSt mp) _ (init_rel H _ mp h.one) (init_relD H _ mp h.one) rfl hpl
    (fun op ho kc hk => mem_hashes.2 ⟨op, ho, hk⟩)
  obtain ⟨m1, m2⟩ := load_map (H := H) load (PMap.empty .sample) rfl h.loads (by intro kc x hx; cases hx)
  refine gentleRun_app load work _ g1 ?_
  generalize ((PMap.empty .sample).run H (load.map toOp)).1 = s1 at *
  generalize (run H (initSt mp) load).1 = st1 at *
  rw [← g5] at g2 g3
  refine Work.gentleRun (τ := τ) (D := fun kc => ∃ key, Op.delete key ∈ work ∧ keyToHash H key = some kc) (K0 := hashes H load) ?_
    hF hK work st1 s1 ⟨?_, ?_⟩ g3 g5 g4 ?_
  · intro kc hk hD
    obtain ⟨key, hd, hkk⟩ := hD
    obtain ⟨lo, hi, l1, l2, l3, l4, l5, l6⟩ := h.guard key kc hd hkk (loaded_iff.1 hk)
    exact ⟨lo, loaded_iff.2 l1.1, hi, loaded_iff.2 l2.1, fun ⟨key', a, b⟩ => l1.2 key' a b, fun ⟨key', a, b⟩ => l2.2 key' a b, l5, l6,
      div_of_mod l3, div_of_mod l4⟩
  · intro kc hk
    cases hm : s1.m kc with
    | none => exact absurd hm (m2 kc (Or.inr hk))
    | some v =>
      obtain ⟨x, x1, x2, x3, x4, x5⟩ := (g3.abs kc.1 kc.2 v).1 hm
      exact ⟨x, x1, x3, x4, fun hd => by rw [x2] at hd; cases hd⟩
  · intro x hx
    exact m1 (rev64 x.rev, x.conflict) x.val ((g2.abs _ _ _).2 ⟨x, hx, by rw [rev64_rev64], rfl, rfl⟩)
  · intro op ho
    rcases h.works op ho with ⟨str, v, rfl, hty, hl⟩ | ⟨key, rfl⟩ | hr
    · exact ⟨loaded_iff.2 hl, v, rfl, hty⟩
    · intro kc _ hk
      exact ⟨key, ho, hk⟩
    · cases op <;> first | trivial | cases hr

theorem LoadWork.hash (h : LoadWork H mp τ load work) {op : Op} (ho : op ∈ load ++ work) {kc : U64 × U64} (hk : setHash H op = some kc) :
    Loaded H load kc := by
  rcases List.mem_append.1 ho with ho | ho
  · exact ⟨op, ho, hk⟩
  · exact h.hash_work ho hk

/-- C82: no call fails to return, and every answer is the one of a plain map. -/
theorem C82_answers (h : LoadWork H mp τ load work) : NoCrash H mp (load ++ work) ∧ C22_statement H mp (load ++ work) :=
  C26_del_partial_few h.one h.gentle
    (fun a ha b hb k c c' h1 h2 => h.coll k c c' (h.hash ha h1) (h.hash hb h2))
    (fun L h1 h2 h3 => h.few L h1 (fun k hk => by
      obtain ⟨op, ho, c, hc⟩ := h2 k hk
      exact ⟨c, h.hash ho hc⟩) h3)
    (by have := h.small; simpa using this)

/-- C82: Range (walking the item list) shows exactly the keys that are there, each once, in the order of the reversed hash
(no key's hash is the largest 64-bit number). -/
theorem C82_range (h : LoadWork H mp τ load work) (max : ∀ k c, Loaded H load (k, c) → k ≠ maxU64) :
    EList.C75_statement H mp (load ++ work) :=
  (EList.C75_few_partial h.one h.gentle
    (fun a ha b hb k c c' h1 h2 => h.coll k c c' (h.hash ha h1) (h.hash hb h2))
    (fun L h1 h2 h3 => h.few L h1 (fun k hk => by
      obtain ⟨op, ho, c, hc⟩ := h2 k hk
      exact ⟨c, h.hash ho hc⟩) h3)
    (fun op ho k c hk => max k c (h.hash ho hk))
    (by have := h.small; simpa using this)).2

/-! ### a concrete history -/

/-- Executable form of `LoadWork`. -/
def loadWorkB (H : HashFns) (mp τ : Nat) (load work : List Op) : Bool :=
  let K := hashes H load
  let D := work.filterMap (fun o => match o with | .delete key => keyToHash H key | _ => none)
  decide (1 ≤ mp) &&
  load.all (fun o => match o with
    | .set (.str _) (some v) => decide (v.ty = τ) | .get _ => true | .getByHash _ _ => true | .loadItem _ => true
    | .loadItemByHash _ _ => true | _ => false) &&
  work.all (fun o => match o with
    | .set (.str str) (some v) => decide (v.ty = τ) && decide ((H.mem str, H.xx str) ∈ K) | .get _ => true | .getByHash _ _ => true
    | .loadItem _ => true | .loadItemByHash _ _ => true | .delete _ => true | _ => false) &&
  D.all (fun kc => decide (kc ∉ K) || (
    K.any (fun lo => decide (lo ∉ D) && decide (lo.1.toNat % 16 = kc.1.toNat % 16) && decide (rev64 lo.1 < rev64 kc.1)) &&
    K.any (fun hi => decide (hi ∉ D) && decide (hi.1.toNat % 16 = kc.1.toNat % 16) && decide (rev64 kc.1 < rev64 hi.1)))) &&
  K.all (fun a => K.all (fun b => decide (a.1 = b.1 → a.2 = b.2))) &&
  K.all (fun a => decide (((K.map (·.1)).dedup.filter (fun b => decide (b.toNat % 16 = a.1.toNat % 16))).length ≤ mp)) &&
  decide ((load.length : Int) + work.length < 2 ^ 62)

theorem loadWorkB_sound (h : loadWorkB H mp τ load work = true) : LoadWork H mp τ load work := by
  simp only [loadWorkB, Bool.and_eq_true, decide_eq_true_eq, List.all_eq_true] at h
  obtain ⟨⟨⟨⟨⟨⟨h1, h2⟩, h3⟩, h4⟩, h5⟩, h6⟩, h7⟩ := h
  have hdel : ∀ kc, kc ∈ work.filterMap (fun o => match o with | .delete key => keyToHash H key | _ => none) ↔
      ∃ key, Op.delete key ∈ work ∧ keyToHash H key = some kc := by
    intro kc
    rw [List.mem_filterMap]
    constructor
    · rintro ⟨o, ho, hk⟩
      cases o <;> first | exact ⟨_, ho, hk⟩ | cases hk
    · rintro ⟨key, ho, hk⟩; exact ⟨_, ho, hk⟩
  refine ⟨h1, ?_, ?_, ?_, ?_, ?_, h7⟩
  · intro op ho
    have := h2 op ho
    split at this
    · simp only [decide_eq_true_eq] at this; exact Or.inl ⟨_, _, rfl, this⟩
    · right; trivial
    · right; trivial
    · right; trivial
    · right; trivial
    · cases this
  · intro op ho
    have := h3 op ho
    split at this
    · simp only [Bool.and_eq_true, decide_eq_true_eq] at this; exact Or.inl ⟨_, _, rfl, this.1, loaded_iff.1 this.2⟩
    · right; right; trivial
    · right; right; trivial
    · right; right; trivial
    · right; right; trivial
    · right; left; exact ⟨_, rfl⟩
    · cases this
  · intro key kc hd hk hl
    have := h4 kc ((hdel kc).2 ⟨key, hd, hk⟩)
    simp only [Bool.or_eq_true, Bool.and_eq_true, decide_eq_true_eq, List.any_eq_true] at this
    rcases this with this | ⟨⟨lo, l1, ⟨l2, l3⟩, l4⟩, ⟨hi, r1, ⟨r2, r3⟩, r4⟩⟩
    · exact absurd (loaded_iff.2 hl) this
    · exact ⟨lo, hi, ⟨loaded_iff.1 l1, fun k' a b => l2 ((hdel lo).2 ⟨k', a, b⟩)⟩,
        ⟨loaded_iff.1 r1, fun k' a b => r2 ((hdel hi).2 ⟨k', a, b⟩)⟩, l3, r3, l4, r4⟩
  · intro k c c' a b
    exact h5 (k, c) (loaded_iff.2 a) (k, c') (loaded_iff.2 b) rfl
  · intro L hL hin hs
    cases L with
    | nil => simp
    | cons x L =>
      obtain ⟨c, hc⟩ := hin x (by simp)
      have hx := h6 (x, c) (loaded_iff.2 hc)
      refine le_trans (List.Subperm.length_le (List.subperm_of_subset hL ?_)) hx
      intro k hk
      obtain ⟨c', hc'⟩ := hin k hk
      rw [List.mem_filter, List.mem_dedup]
      refine ⟨List.mem_map.2 ⟨(k, c'), loaded_iff.2 hc', rfl⟩, ?_⟩
      simp only [decide_eq_true_eq]
      exact hs k hk x (by simp)

/-- Five keys of one bucket (two of them stay), one key of another bucket. -/
def exLoad : List Op := [.set (sk 10) (exV 1), .set (sk 30) (exV 3), .set (sk 20) (exV 2), .get (sk 20), .set (sk 15) (exV 4),
  .set (sk 25) (exV 5), .set (.str (key8 0x2800000000000000)) (exV 3)]
def exWork : List Op := [.delete (sk 20), .get (sk 20), .delete (sk 25), .set (sk 20) (exV 7), .delete (sk 15), .get (sk 25), .get (sk 20),
  .set (sk 15) (exV 8), .set (sk 15) (exV 9), .delete (sk 20), .delete (sk 99), .set (sk 10) (exV 6), .set (sk 25) (exV 1), .loadItem (sk 25),
  .get (sk 15), .get (sk 20), .get (sk 10), .get (sk 30)]

theorem exLoadWork : LoadWork hR 8 0 exLoad exWork := loadWorkB_sound (by decide +kernel)

example : NoCrash hR 8 (exLoad ++ exWork) ∧ C22_statement hR 8 (exLoad ++ exWork) := C82_answers exLoadWork

example : (run hR (initSt 8) (exLoad ++ exWork)).2.drop 7 =
    [.bool true, .val none false, .bool true, .bool true, .bool true, .val none false, .val (exV 7) true,
     .bool true, .bool true, .bool true, .bool false, .bool true, .bool true, .item (some ([25], exV 1)),
     .val (exV 9) true, .val none false, .val (exV 6) true, .val (exV 3) true] := by
  decide +kernel

example : EList.C75_statement hR 8 (exLoad ++ exWork) := C82_range exLoadWork (by
  intro k c hl
  have : ∀ kc ∈ hashes hR exLoad, kc.1 ≠ maxU64 := by decide +kernel
  exact this (k, c) (loaded_iff.2 hl))

end SLM.Emb
