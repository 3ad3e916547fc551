import Verif.Props.Static
import Verif.Proofs.Crowd
import Verif.Proofs.Core
/-!
Clean histories of any length, from a condition on the stored hashes only; C14 (configurations are performance knobs).
-/
set_option autoImplicit false
set_option maxRecDepth 20000
namespace SLM
open Spec (PMap ans Ans)
open History

/-- How many stores of a history share the low `4+j` bits of their primary hash with `k`. -/
def sharing (H : HashFns) (j : Nat) (ops : List Op) (k : U64) : Nat :=
  (ops.filter (fun op => match storeHash H op with
    | some (k', _) => decide (k'.toNat % 2 ^ (4 + j) = k.toNat % 2 ^ (4 + j))
    | none => false)).length

/-- The condition: no more than `M` stores agree on the low `4+j` bits of their primary hash, `j + M ≤ 58`, every primary
hash is at least `2^(4+j+M)` and not `2^64-1`.  (For instance `j = 40`, `M = 10`: hashes that differ within their low
44 bits, keys re-stored up to ten times; any number of keys.) -/
structure Spread (H : HashFns) (j M : Nat) (ops : List Op) : Prop where
  few : ∀ k, sharing H j ops k ≤ M
  depth : j + M ≤ 58
  large : ∀ op ∈ ops, ∀ k c, storeHash H op = some (k, c) → 2 ^ (4 + j + M) ≤ k.toNat ∧ k ≠ maxU64

def revsOf (H : HashFns) (ops : List Op) : List Nat := (ops.filterMap (storeHash H)).map (fun p => (rev64 p.1).toNat)

theorem rev_block {j : Nat} (hj : j ≤ 60) {k k' : U64} (h : (rev64 k).toNat / 2 ^ (60 - j) = (rev64 k').toNat / 2 ^ (60 - j)) :
    k.toNat % 2 ^ (4 + j) = k'.toNat % 2 ^ (4 + j) := by
  apply Nat.eq_of_testBit_eq
  intro i
  rw [Nat.testBit_mod_two_pow, Nat.testBit_mod_two_pow]
  by_cases hi : i < 4 + j
  · simp only [hi, decide_true, Bool.true_and]
    have key : ∀ x : U64, x.toNat.testBit i = ((rev64 x).toNat / 2 ^ (60 - j)).testBit (3 + j - i) := by
      intro x
      rw [Nat.testBit_div_two_pow]
      show x.getLsbD i = (rev64 x).getLsbD (3 + j - i + (60 - j))
      unfold rev64
      rw [BitVec.getLsbD_reverse, BitVec.getMsbD_eq_getLsbD, show 3 + j - i + (60 - j) = 63 - i by omega]
      simp only [show 63 - i < 64 by omega, decide_true, Bool.true_and]
      rw [show 64 - 1 - (63 - i) = i by omega]
    rw [key, key, h]
  · simp [hi]

theorem cnt_revs_le {H : HashFns} {j : Nat} (hj : j ≤ 60) (ops : List Op) (k : U64) :
    cnt j (rev64 k).toNat (revsOf H ops) ≤ sharing H j ops k := by
  induction ops with
  | nil => simp [cnt, revsOf]
  | cons op ops ih =>
    unfold sharing revsOf at *
    rw [List.filter_cons, List.filterMap_cons]
    cases hs : storeHash H op with
    | none => simpa [hs] using ih
    | some p =>
      obtain ⟨k', c'⟩ := p
      simp only [List.map_cons]
      rw [cnt_cons]
      by_cases hb : (rev64 k').toNat / 2 ^ (60 - j) = (rev64 k).toNat / 2 ^ (60 - j)
      · rw [if_pos hb, if_pos (by simpa using rev_block hj hb)]
        simp only [List.length_cons]; omega
      · rw [if_neg hb]
        split
        · simp only [List.length_cons]; omega
        · omega

theorem crowd_dvd {S : List Nat} {m : Path → Bkt} {bl : List Path} {j M : Nat} (h : BI m bl) (hc : Crowd S bl) (hD : j + M < 60)
    (hb : ∀ x : U64, cnt j x.toNat S ≤ M) : ∀ p ∈ bl, 2 ^ (60 - (j + M)) ∣ bval p := by
  intro p hp
  by_cases hn : p = []
  · subst hn; rw [bval_nil]; exact pow_dvd_pow 2 (by omega)
  · by_contra hd
    have h1 := hc p hp j (j + M) (by omega) hD hd
    have h2 := hb (BitVec.ofNat 64 (bval p))
    have h3 := h.lt p hp hn
    rw [BitVec.toNat_ofNat, Nat.mod_eq_of_lt (by omega)] at h2
    omega

/-- One step: the hashes counted so far and those to come. -/
theorem spread_next {E : Env} {j M : Nat} {op : Op} {ops : List Op} {st : St} {S : List Nat} (g : Good st) (ha : AdmOp E st op)
    (hc : Crowd S st.blist) (hb : ∀ x : U64, cnt j x.toNat S + cnt j x.toNat (revsOf E.H (op :: ops)) ≤ M) :
    ∃ S', Crowd S' (step E st op).1.blist ∧ ∀ x : U64, cnt j x.toNat S' + cnt j x.toNat (revsOf E.H ops) ≤ M := by
  have hi := g.inv
  have hmono : ∀ x : U64, cnt j x.toNat S + cnt j x.toNat (revsOf E.H ops) ≤ M := by
    intro x
    have := hb x
    unfold revsOf at *
    rw [List.filterMap_cons] at this
    cases hs : storeHash E.H op with
    | none => rw [hs] at this; exact this
    | some p =>
      rw [hs] at this
      simp only [List.map_cons] at this
      rw [cnt_cons] at this; omega
  rcases step_eff E hi op with x | ⟨e, nv, b, x⟩ | ⟨key, e, x⟩ | ⟨st2, k, c, e, x⟩
  · obtain ⟨b, hb'⟩ := x.same
    exact ⟨S, by rw [hb']; exact hc, hmono⟩
  · exact ⟨S, by rw [x.res]; exact hc, hmono⟩
  · exact ⟨S, by rw [x.res]; exact hc, hmono⟩
  · have hlook : lookup st.items k c = none := by rw [← getWithBucket_eq g]; exact x.none
    have hfa : FreeAt st k c := by
      have hh := x.hash
      cases op with
      | set key v => exact ha k c hh
      | storeItem it => exact ha.2.2 k c hh
      | _ => simp [storeHash] at hh
    obtain ⟨hfree, hoff'⟩ := hfa.spec g hlook
    have hei : e.ignored = false := by unfold Entry.ignored; simp [x.nodummy, x.nodel]
    have hrev : e.rev = rev64 k := by
      rcases x.pre with ⟨s, v, _, _, he⟩ | ⟨it, hop', _, he⟩
      · rw [he]; rfl
      · have hz : it.rev0 = 0 := by rw [hop'] at ha; exact ha.1
        rw [he]; simp [newItemEntry, hz]
    obtain ⟨_, hits⟩ := g.insert (st2 := st2) rfl x.mem x.blist x.items x.nextId x.lv x.ref hei hrev hfree hoff'
    refine ⟨e.rev.toNat :: S, new_crowd g x hits hc, ?_⟩
    intro y
    have := hb y
    unfold revsOf at *
    rw [List.filterMap_cons, x.hash] at this
    simp only [List.map_cons] at this
    rw [cnt_cons] at this ⊢
    rw [hrev]; omega

theorem spread_run {E : Env} {S0 : U64 → U64 → Prop} (hS : ∀ k c c', S0 k c → S0 k c' → c = c')
    {j M : Nat} (hD : j + M ≤ 58)
    {ops : List Op} {st : St} {S : List Nat} (g : Good st) (hl : LiveIn S0 st) (hc : Crowd S st.blist)
    (hop : ∀ op ∈ ops, ∀ k c, storeHash E.H op = some (k, c) → S0 k c) (hfresh : FreshItems ops)
    (hb : ∀ x : U64, cnt j x.toNat S + cnt j x.toNat (revsOf E.H ops) ≤ M)
    (hk : ∀ op ∈ ops, ∀ k c, storeHash E.H op = some (k, c) → 2 ^ (4 + j + M) ≤ k.toNat ∧ k ≠ maxU64) :
    OffBoundary E st ops ∧ NoCrash E st ops := by
  induction ops generalizing st S with
  | nil => exact ⟨trivial, by simp [NoCrash, run]⟩
  | cons op ops ih =>
    have hi := g.inv
    have hdvd := crowd_dvd (j := j) (M := M) hi.bi hc (by omega) (fun x => by have := hb x; omega)
    have hoff : ∀ k c, storeHash E.H op = some (k, c) → (∃ v, opGetByHash E st k c = .val v true) ∨ rev64 k ∉ boundaries st := by
      intro k c hs
      obtain ⟨h1, h2⟩ := hk op (by simp) k c hs
      rw [Nat.add_assoc] at h1
      exact Or.inr (boundary_large hi.bi hdvd (by omega) h1 h2)
    have hnc : (step E st op).2 ≠ .panic .bucketHeadEmpty := by
      intro hcr
      have hb := no_max_pred hi.bi hdvd hD
      rcases step_eff E hi op with x | ⟨e, nv, b, x⟩ | ⟨key, e, x⟩ | ⟨st2, k, c, e, x⟩
      · exact hb (x.crash hcr)
      · rw [x.res] at hcr; cases hcr
      · rw [x.res] at hcr; cases hcr
      · rw [x.out] at hcr; cases hcr
    have ha : AdmOp E st op := AdmOp.of g hS hl (hop op (by simp)) (fun it h => hfresh it (by simp [h])) hoff
    have hone := run_refines hS (ops := [op]) g hl (fun o ho => hop o (by simp at ho; simp [ho]))
      (fun it h => hfresh it (by simp at h; simp [h])) ⟨hoff, trivial⟩ (by
        rw [NoCrash]; simp only [run]; simp; exact fun h => hnc h.symm)
    have hrest := spread_next g ha hc hb
    obtain ⟨S', hS', hb'⟩ := hrest
    have := ih (S := S') hone.1 hone.2.1 hS' (fun o ho => hop o (by simp [ho])) (fun it h => hfresh it (by simp [h])) hb'
      (fun o ho => hk o (by simp [ho]))
    refine ⟨⟨hoff, this.1⟩, ?_⟩
    rw [NoCrash, run_cons]
    simp only [List.mem_cons, not_or]
    exact ⟨fun h => hnc h.symm, this.2⟩

/-- Spread hashes make a history clean, for every configuration. -/
theorem spread_clean {E : Env} {cfg : Cfg} {ops : List Op} {j M : Nat} (hcoll : NoCollision E.H ops)
    (hf : FreshItems ops) (hs : Spread E.H j M ops) : Clean E cfg ops := by
  have hd := hs.depth
  have := spread_run (S0 := storedPairs E.H ops) (j := j) (M := M) (ops := ops) (S := []) ?_ hd (good_init cfg) ?_
    (crowd_init cfg) ?_ hf ?_ hs.large
  · exact ⟨hcoll, hf, this.1, this.2⟩
  · rintro k c c' ⟨a, ha, h1⟩ ⟨b, hb, h2⟩
    exact hcoll a ha b hb k c c' h1 h2
  · intro x hx
    have := initSt_dummy cfg x hx.1
    have h2 := hx.2
    simp [Entry.ignored, this] at h2
  · intro op hop k c hk
    exact ⟨op, hop, hk⟩
  · intro x
    have h1 := cnt_revs_le (H := E.H) (j := j) (by omega) ops (rev64 x)
    rw [rev64_rev64] at h1
    have h2 := hs.few (rev64 x)
    have : cnt j x.toNat [] = 0 := rfl
    omega

/-- C01 with conditions on the stored hashes only, for histories of any length and every configuration: the answers are
those of a plain map. -/
theorem C01_spread_partial {E : Env} {cfg : Cfg} {ops : List Op} {j M : Nat} (hcoll : NoCollision E.H ops)
    (hf : FreshItems ops) (hs : Spread E.H j M ops) :
    (run E (initSt cfg) ops).2.map ans = ((PMap.empty cfg.itemFn).run E.H ops).2 :=
  congrArg Prod.snd (spread_clean hcoll hf hs).refines.2.2

/-- C15 under the same conditions: no store crashes. -/
theorem C15_spread_partial {E : Env} {cfg : Cfg} {ops : List Op} {j M : Nat} (hcoll : NoCollision E.H ops)
    (hf : FreshItems ops) (hs : Spread E.H j M ops) : Out.panic .bucketHeadEmpty ∉ (run E (initSt cfg) ops).2 :=
  (spread_clean hcoll hf hs).crash

def spreadB (H : HashFns) (j M : Nat) (ops : List Op) : Bool :=
  decide (j + M ≤ 58) && (ops.filterMap (storeHash H)).all (fun p => decide (2 ^ (4 + j + M) ≤ p.1.toNat ∧ p.1 ≠ maxU64) &&
    decide (sharing H j ops p.1 ≤ M))

theorem spreadB_sound {H : HashFns} {j M : Nat} {ops : List Op} (h : spreadB H j M ops = true) : Spread H j M ops := by
  simp only [spreadB, Bool.and_eq_true, decide_eq_true_eq, List.all_eq_true, List.mem_filterMap] at h
  refine ⟨?_, h.1, fun op hop k c hk => (h.2 (k, c) ⟨op, hop, hk⟩).1⟩
  intro k
  by_cases hex : ∃ op ∈ ops, ∃ p, storeHash H op = some p ∧ p.1.toNat % 2 ^ (4 + j) = k.toNat % 2 ^ (4 + j)
  · obtain ⟨op, hop, p, hp, he⟩ := hex
    have := (h.2 p ⟨op, hop, hp⟩).2
    have heq : sharing H j ops k = sharing H j ops p.1 := by unfold sharing; rw [he]
    omega
  · have : sharing H j ops k = 0 := by
      unfold sharing
      rw [List.length_eq_zero_iff, List.filter_eq_nil_iff]
      intro op hop
      cases hs : storeHash H op with
      | none => simp
      | some p =>
        obtain ⟨k', c'⟩ := p
        simp only [decide_eq_true_eq]
        exact fun he => hex ⟨op, hop, _, hs, he⟩
    omega

/-- A history with overwriting, deletes and re-stores that meets the conditions (`j = 8`, `M = 10`). -/
def spreadOps : List Op :=
  [ .storeItem { kind := .entry, key := .u64 0x8123456789ABCDEF, val := exV 10 }, .set (sk 2) (exV 20), .set (sk 3) (exV 30),
    .storeItem { kind := .entry, key := .u64 0x8000000000000000, val := exV 40 }, .set (sk 4) (exV 50),
    .delete (sk 2), .get (sk 2), .set (sk 2) (exV 21), .delete (sk 2), .set (sk 2) (exV 22), .get (sk 2), .len, .range ]

theorem spreadOps_ok : NoCollision exH spreadOps ∧ FreshItems spreadOps ∧ Spread exH 8 10 spreadOps :=
  ⟨collB_sound (by decide +kernel), freshB_sound (by decide +kernel), spreadB_sound (by decide +kernel)⟩

/-! ### C14 -/

/-- C14: two maps that differ only in MaxPefBucket, BucketMode and pooling give the same outputs (all of them: results,
values, keys, Len, Range) for the same history, if the history is clean for both. -/
theorem C14_partial {E : Env} {cfg cfg' : Cfg} (hfn : cfg.itemFn = cfg'.itemFn) {ops : List Op} (h : Clean E cfg ops)
    (h' : Clean E cfg' ops) : (run E (initSt cfg) ops).2 = (run E (initSt cfg') ops).2 := by
  have h1 := congrArg Prod.snd (run_core (good_init cfg) h.adm)
  have h2 := congrArg Prod.snd (run_core (good_init cfg') h'.adm)
  have hc : core (initSt cfg) = core (initSt cfg') := by
    have hd : ∀ c : Cfg, (initSt c).items.filter (fun e => !e.dummy) = [] := by
      intro c
      rw [List.filter_eq_nil_iff]
      intro e he
      simp [initSt_dummy c e he]
    unfold core
    rw [hd, hd, initSt_fn, initSt_fn, hfn]
    rfl
  simp only at h1 h2
  rw [h1, h2, hc]

/-- With conditions on the hashes only, for all pairs of configurations. -/
theorem C14_spread_partial {E : Env} {cfg cfg' : Cfg} (hfn : cfg.itemFn = cfg'.itemFn) {ops : List Op} {j M : Nat}
    (hcoll : NoCollision E.H ops) (hf : FreshItems ops) (hs : Spread E.H j M ops) :
    (run E (initSt cfg) ops).2 = (run E (initSt cfg') ops).2 :=
  C14_partial hfn (spread_clean hcoll hf hs) (spread_clean hcoll hf hs)

/-- The two maps really differ: one has split buckets, the other not. -/
example : Clean exE exCfg exOps ∧ Clean exE { itemFn := .sample, mode := modeCombine } exOps ∧
    (run exE (initSt exCfg) exOps).1.blist.length ≠ (run exE (initSt { itemFn := .sample, mode := modeCombine }) exOps).1.blist.length :=
  ⟨exClean, cleanB_sound (by decide +kernel), by decide +kernel⟩

/-- C14 fails for keys on bucket boundaries: the integer key 24 (reversed 3·2^59) is lost if the initial bucket 1 was split
before, which depends on MaxPefBucket. -/
theorem C14_refuted :
    let ops : List Op := [.storeItem { kind := .entry, key := .u64 0x10008, val := exV 1 },
      .storeItem { kind := .entry, key := .u64 24, val := exV 2 }, .get (.u64 24)]
    (run exE (initSt { maxPer := 0 }) ops).2 = [.bool true, .bool true, .val none false] ∧
    (run exE (initSt { maxPer := 32 }) ops).2 = [.bool true, .bool true, .val (exV 2) true] := by
  decide +kernel


/-! ### C81 -/

/-- C81: with stored keys that are spread (a condition on the keys only), histories of any length are answered as by a plain
map, no store crashes, and bucket size, search mode and pooling make no difference. -/
theorem C81_spread {E : Env} {cfg cfg' : Cfg} {ops : List Op} {j M : Nat} (hcoll : NoCollision E.H ops) (hf : FreshItems ops)
    (hs : Spread E.H j M ops) :
    (run E (initSt cfg) ops).2.map ans = ((PMap.empty cfg.itemFn).run E.H ops).2 ∧
    Out.panic .bucketHeadEmpty ∉ (run E (initSt cfg) ops).2 ∧
    (cfg.itemFn = cfg'.itemFn → (run E (initSt cfg) ops).2 = (run E (initSt cfg') ops).2) :=
  ⟨congrArg Prod.snd (spread_clean hcoll hf hs).refines.2.2, (spread_clean hcoll hf hs).crash, fun hfn => C14_spread_partial hfn hcoll hf hs⟩

example : NoCollision exE.H spreadOps ∧ FreshItems spreadOps ∧ Spread exE.H 8 10 spreadOps := spreadOps_ok

end SLM
