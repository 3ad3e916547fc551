import Verif.Proofs.Sim
/-! Calls that do not overlap: the machine of Model/Conc.lean does what the sequential map of Model/Map.lean does. -/
set_option autoImplicit false
namespace SLM.Conc

/-- map.go:1467-1492: in CombineSearch2 a bucket above the hash is left for its neighbour on its level. -/
def lower (st : St) (b : Path) (t : U64) : Path := if st.mode = modeCombine2 ∧ (st.mem b).rev > t then st.nextOnLevel b else b

/-- The sentinel the sequential map starts from. -/
def bucketOf (st : St) : Call → Option Ref
  | .get t _ => some (st.head (lower st (bucketForKey st t) t))
  | .set t _ _ _ => some (st.head (findBucket st.mem t))
  | .del t _ => some (st.head (findBucket st.mem t))
  | .split t _ => (st.blist.find? (fun q => decide ((st.mem q).rev ≤ t))).map .dummy
  | _ => none

/-- A bucket is located as by the sequential map in state `st`. -/
def pkOf (st : St) (s : CSt) (cl : Call) (b : Ref) : Prop :=
  bucketOf st cl = some b ∧ ∃ d ∈ s.items, d.ref = b ∧ d.dummy = true ∧ ∀ t c key v, cl = .set t c key v → d.rev ≤ t

theorem pkOf_ok (st : St) : PkOk (pkOf st) := ⟨fun _ _ _ h => h.2⟩

/-- The call an operation is, if the machine has it. -/
def callFor (E : Env) : Op → Option Call
  | .set key v => (keyToHash E.H key).map (fun kc => .set (rev64 kc.1) kc.2 key v)
  | .get key => (keyToHash E.H key).map (fun kc => .get (rev64 kc.1) kc.2)
  | .getByHash k c => some (.get (rev64 k) c)
  | .delete key => (keyToHash E.H key).map (fun kc => .del (rev64 kc.1) kc.2)
  | .range => some .range
  | _ => none

theorem callFor_set (E : Env) (key : Key) (v : IVal) :
    callFor E (.set key v) = (keyToHash E.H key).map (fun kc => .set (rev64 kc.1) kc.2 key v) := rfl
theorem callFor_get (E : Env) (key : Key) : callFor E (.get key) = (keyToHash E.H key).map (fun kc => .get (rev64 kc.1) kc.2) := rfl
theorem callFor_del (E : Env) (key : Key) : callFor E (.delete key) = (keyToHash E.H key).map (fun kc => .del (rev64 kc.1) kc.2) := rfl

/-- The answer of the sequential map in the machine's words. -/
def resOf (st : St) : Op → Out → Res
  | .range, _ => .seen (refs (st.rangeItem (fun _ _ => true)))
  | _, .val v ok => .val v ok
  | _, .bool b => .bool b
  | _, _ => .panic

/-- The buckets an operation of the sequential map made. -/
def splitsOf (st st' : St) : List Path := st'.blist.filter (fun p => decide (p ∉ st.blist))

/-- One call: begun by an idle goroutine, which then is the only one to move until it has returned. -/
def Alone1 (Pk : CSt → Call → Ref → Prop) (s : CSt) (cl : Call) (r : Res) (s' : CSt) : Prop :=
  ∃ g s1, s.pc g = .idle ∧ Step Pk s g s1 ∧ (s1.pc g = .pick cl ∨ cl = .range ∧ ∃ x, s1.pc g = .walk x [] false) ∧
    Solo Pk g s1 s' ∧ s'.pc g = .ret r

/-- The sentinels of `ps` are linked, one after the other. -/
inductive Splits (st : St) : List Path → CSt → List (Call × Res) → CSt → Prop
  | nil (s : CSt) : Splits st [] s [] s
  | cons {p : Path} {ps : List Path} {s s1 s2 : CSt} {r : Res} {L : List (Call × Res)} :
      Alone1 (pkOf st) s (.split (bvRev p) p) r s1 → Splits st ps s1 L s2 →
      Splits st (p :: ps) s ((.split (bvRev p) p, r) :: L) s2

/-- Non-overlapping calls on the machine for a history of operations: each operation is one call, then the sentinels of the buckets
the sequential map makes in this operation are linked. -/
inductive OneByOne (E : Env) : St → List Op → CSt → List (Call × Res) → CSt → Prop
  | nil (st : St) (s : CSt) : OneByOne E st [] s [] s
  | cons {st : St} {op : Op} {ops : List Op} {cl : Call} {r : Res} {s s1 s2 s3 : CSt} {L L' : List (Call × Res)} :
      callFor E op = some cl → Alone1 (pkOf st) s cl r s1 → Splits st (splitsOf st (step E st op).1) s1 L s2 →
      OneByOne E (step E st op).1 ops s2 L' s3 → OneByOne E st (op :: ops) s ((cl, r) :: L ++ L') s3

/-- What the sequential map answers, in the same order. -/
def script (E : Env) : St → List Op → List (Call × Res)
  | _, [] => []
  | st, op :: ops =>
    ((callFor E op).getD .range, resOf st op (step E st op).2) ::
      (splitsOf st (step E st op).1).map (fun p => (Call.split (bvRev p) p, Res.bool true)) ++ script E (step E st op).1 ops

/-- The machine and the sequential map are in the same state, no insertion is in progress. -/
structure Sync (st : St) (s : CSt) : Prop where
  inv : Inv st
  items : s.items = st.items
  opt : s.opt = true
  nextId : s.nextId = st.nextId
  quiet : ∀ g, (s.pc g).newE = none
  fn : st.itemFn = .sample ∨ ∀ e ∈ st.items, e.dummy = true

variable {Pk : CSt → Call → Ref → Prop}

theorem Solo.inv {g : Tid} {a c : CSt} (h : Solo Pk g a c) : a = c ∨ ∃ b, Step Pk a g b ∧ Solo Pk g b c := by
  induction h with
  | refl => exact .inl rfl
  | step h st ih =>
    rcases ih with rfl | ⟨b, h1, h2⟩
    · exact .inr ⟨_, st, .refl _⟩
    · exact .inr ⟨b, h1, .step h2 st⟩

theorem Solo.others {g u : Tid} {a c : CSt} (h : Solo Pk g a c) (hu : u ≠ g) : c.pc u = a.pc u := by
  induction h with
  | refl => rfl
  | step _ st ih => rw [st.others hu, ih]

/-! ### The search -/

theorem search_seek (E : Env) (st : St) (b : Path) (t : U64) :
    searchByBucket E st b t true = seek (decide ((st.mem (lower st b t)).rev < t)) t
      (rst st.items (decide ((st.mem (lower st b t)).rev < t)) (st.head (lower st b t)) false) := by
  unfold searchByBucket seek rst lower
  generalize (if st.mode = modeCombine2 ∧ (st.mem b).rev > t then st.nextOnLevel b else b) = n
  by_cases h : (st.mem n).rev < t <;> simp [h]

theorem lower_below {st : St} {b : Path} {t : U64} (h : (st.mem b).rev ≤ t) : lower st b t = b := by
  unfold lower
  rw [if_neg]
  rintro ⟨_, h2⟩
  bv_omega

theorem getEntry_sel (E : Env) (st : St) (k c : U64) :
    getEntry E st k c = sel c (searchByBucket E st (bucketForKey st (rev64 k)) (rev64 k) true) := by
  unfold getEntry
  cases h : searchByBucket E st (bucketForKey st (rev64 k)) (rev64 k) true with
  | none => rfl
  | some e =>
    have := searchByBucket_mem h
    simp only [sel, this.2.2, ne_eq, not_true_eq_false, false_or]
    by_cases hc : e.conflict = c <;> simp [hc]

theorem getWith_sel (E : Env) (st : St) (k c : U64) :
    (getWithBucket E st k c).1 = sel c (searchByBucket E st (findBucket st.mem (rev64 k)) (rev64 k) true) := by
  unfold getWithBucket
  simp only
  cases h : searchByBucket E st (findBucket st.mem (rev64 k)) (rev64 k) true with
  | none => simp [sel]
  | some e =>
    have := searchByBucket_mem h
    by_cases hc : e.conflict = c <;> simp [sel, hc, this.2.2]

theorem lower_valid {st : St} (h : Inv st) {b : Path} (hv : V st.mem b) (t : U64) : V st.mem (lower st b t) := by
  unfold lower
  split
  · exact h.lv.next hv
  · exact hv

theorem node_head {st : St} (h : Inv st) {b : Path} (hv : V st.mem b) : ∃ d, node st.items (st.head b) = some d ∧ d.rev = (st.mem b).rev ∧ d.dummy = true := by
  obtain ⟨p, hp, hh, hr, hm⟩ := head_spec h hv
  refine ⟨dummyEntry p (bvRev p), ?_, hr, rfl⟩
  rw [hh]
  exact node_of_mem h.ii.nodup hm

theorem big_of {st : St} (h : Inv st) {t : U64} (ht : t ≠ maxU64) : Big st.items t := by
  refine ⟨_, h.ii.has [] h.bi.nil_mem, ?_⟩
  show t < bvRev []
  simp only [bvRev, if_true]
  have hmx : maxU64 = 18446744073709551615#64 := by decide
  rw [hmx] at ht ⊢
  bv_omega

theorem low_head {st : St} (h : Inv st) {b : Path} (hv : V st.mem b) {t : U64} (hle : (st.mem b).rev ≤ t) : Low st.items t (st.head b) := by
  obtain ⟨d, hd, hr, _⟩ := node_head h hv
  obtain ⟨h1, h2, h3⟩ := node_some hd
  exact ⟨d, h1, h2, by rw [hr]; exact hle⟩

theorem not_window {s : CSt} (h : ∀ g, (s.pc g).newE = none) {p : Path} {r : U64} : ¬ Window s p r := by
  rintro ⟨⟨u, hu⟩, _⟩
  rw [h u] at hu
  cases hu

theorem alone_key {st : St} {s s' : CSt} {cl : Call} {t c : U64} {r : Res} {b : Path} (y : Sync st s) (ht : cl.target = some (t, c))
    (hb : bucketOf st cl = some (st.head b)) (hv : V st.mem b) (hk : StartOk st.items cl (st.head b)) (h : Alone1 (pkOf st) s cl r s') :
    cl.ends st.items st.nextId true (sel c (seek (decide ((st.mem b).rev < t)) t (rst st.items (decide ((st.mem b).rev < t)) (st.head b) false))) =
      ⟨r, s'.items, s'.opt, s'.nextId⟩ ∧ ∀ g, (s'.pc g).newE = none := by
  obtain ⟨g, s1, h0, h1, h2, h3, h4⟩ := h
  have hp : s1.pc g = .pick cl := by
    rcases h2 with h2 | ⟨rfl, _⟩
    · exact h2
    · simp [Call.target] at ht
  have hs1 : s1 = setPC s g (.pick cl) := by
    cases h1 <;> rw [setPC_same] at hp <;> try (cases hp; rfl)
    all_goals (first | (simp_all; done) | skip)
    all_goals (rename_i hq; first | (cases hp; simp [Call.target] at ht; done) | (rw [h0] at *; contradiction) | skip)
  have hq : ∀ u, (s1.pc u).newE = none := by
    intro u
    rw [hs1, setPC_pc]
    split
    · rfl
    · exact y.quiet u
  obtain ⟨d, hd, hdr, _⟩ := node_head y.inv hv
  rcases h3.inv with rfl | ⟨s2, h5, h6⟩
  · rw [hp] at h4; cases h4
  have hl : Leads s2.items s2.nextId s2.opt (s2.pc g) (cl.ends st.items st.nextId true
      (sel c (seek (decide ((st.mem b).rev < t)) t (rst st.items (decide ((st.mem b).rev < t)) (st.head b) false)))) ∧ s2.items = st.items := by
    have hi1 : s1.items = st.items := by rw [hs1]; exact y.items
    have hn1 : s1.nextId = st.nextId := by rw [hs1]; exact y.nextId
    have ho1 : s1.opt = true := by rw [hs1]; exact y.opt
    cases h5 <;> rw [hp] at * <;> try contradiction
    case pickKey cl' t' c' b' d' hp' ht' hpk hd' =>
      cases hp'
      rw [ht] at ht'; cases ht'
      have hb' := hpk.1
      rw [hb] at hb'; cases hb'
      rw [hi1, hd] at hd'; cases hd'
      rw [setPC_same]
      refine ⟨?_, hi1⟩
      simp only [setPC, Leads, hi1, hn1, ho1, hdr]
      obtain ⟨g1, g2, _⟩ := node_some hd
      exact ⟨t, c, ht, List.mem_map.2 ⟨d, g1, g2⟩, hk, rfl⟩
    case pickLost _ _ _ _ _ hw _ _ => exact absurd hw (not_window hq)
    case pickSplit hp' _ => cases hp'; simp [Call.target] at ht
  have := hl.1.solo (by rw [hl.2]; exact y.inv.ii.sorted) (by rw [hl.2]; exact y.inv.ii.nodup) h6 h4
  refine ⟨this, ?_⟩
  intro u
  by_cases hu : u = g
  · rw [hu, h4]; rfl
  · rw [h3.others hu]; exact hq u


theorem alone_split {st mid : St} {s s' : CSt} {t : U64} {p : Path} {r : Res} {b : Ref} (y : Sync mid s)
    (hb : bucketOf st (.split t p) = some b) (hlow : Low mid.items t b) (hbig : Big mid.items t) (h : Alone1 (pkOf st) s (.split t p) r s') :
    (⟨.bool true, insAt (dummyEntry p t) mid.items, true, mid.nextId⟩ : Outc) = ⟨r, s'.items, s'.opt, s'.nextId⟩ ∧ ∀ g, (s'.pc g).newE = none := by
  obtain ⟨g, s1, h0, h1, h2, h3, h4⟩ := h
  have hp : s1.pc g = .pick (.split t p) := by
    rcases h2 with h2 | ⟨h2, _⟩
    · exact h2
    · cases h2
  have hs1 : s1.items = s.items ∧ s1.opt = s.opt ∧ s1.nextId = s.nextId := by
    cases h1 <;> rw [setPC_same] at hp <;> first | (refine ⟨rfl, rfl, rfl⟩; done) | (rw [h0] at *; contradiction)
  have hq : ∀ u, (s1.pc u).newE = none := by
    intro u
    by_cases hu : u = g
    · rw [hu, hp]; rfl
    · rw [h1.others hu]; exact y.quiet u
  rcases h3.inv with rfl | ⟨s2, h5, h6⟩
  · rw [hp] at h4; cases h4
  have hl : Leads s2.items s2.nextId s2.opt (s2.pc g) ⟨.bool true, insAt (dummyEntry p t) mid.items, true, mid.nextId⟩ ∧ s2.items = mid.items := by
    have hi1 : s1.items = mid.items := by rw [hs1.1]; exact y.items
    have hn1 : s1.nextId = mid.nextId := by rw [hs1.2.2]; exact y.nextId
    have ho1 : s1.opt = true := by rw [hs1.2.1]; exact y.opt
    cases h5 <;> rw [hp] at * <;> try contradiction
    case pickKey hp' ht' _ _ => cases hp'; simp [Call.target] at ht'
    case pickLost hp' ht' _ _ _ => cases hp'; simp [Call.target] at ht'
    case pickSplit t' p' b' hp' hpk =>
      cases hp'
      have hb' := hpk.1
      rw [hb] at hb'; cases hb'
      rw [setPC_same]
      refine ⟨?_, hi1⟩
      simp only [setPC, Leads, hi1, hn1, ho1]
      exact ⟨hlow, by simp, hbig, trivial⟩
  have := hl.1.solo (by rw [hl.2]; exact y.inv.ii.sorted) (by rw [hl.2]; exact y.inv.ii.nodup) h6 h4
  refine ⟨this, ?_⟩
  intro u
  by_cases hu : u = g
  · rw [hu, h4]; rfl
  · rw [h3.others hu]; exact hq u

theorem rangeItems_all (l seen : List Entry) : rangeItems (fun _ _ => true) seen l = seen ++ l.filter (fun e => !e.ignored) := by
  induction l generalizing seen with
  | nil => simp [rangeItems]
  | cons e es ih =>
    unfold rangeItems
    cases h : e.ignored <;> simp [h, ih]

theorem alone_range {st : St} {s s' : CSt} {r : Res} (y : Sync st s) (h : Alone1 (pkOf st) s .range r s') :
    (⟨.seen (refs (st.rangeItem (fun _ _ => true))), st.items, true, st.nextId⟩ : Outc) = ⟨r, s'.items, s'.opt, s'.nextId⟩ ∧
      ∀ g, (s'.pc g).newE = none := by
  obtain ⟨g, s1, h0, h1, h2, h3, h4⟩ := h
  have hl : Leads s1.items s1.nextId s1.opt (s1.pc g) ⟨.seen (refs (st.rangeItem (fun _ _ => true))), st.items, true, st.nextId⟩ ∧ s1.items = st.items := by
    have hi := y.items
    have hn := y.nextId
    have ho := y.opt
    cases h1 <;> (try rw [h0] at *) <;> (try contradiction) <;> rw [setPC_same] at h2 <;> simp at h2
    case begin ht => subst h2; simp [Call.target] at ht
    case rangeStart x hp hx =>
      rw [setPC_same]
      refine ⟨?_, hi⟩
      simp only [setPC, Leads, hi, hn, ho]
      rw [hi] at hx
      cases hL : st.items with
      | nil => rw [hL] at hx; cases hx
      | cons a l =>
        rw [hL] at hx
        simp only [List.head?_cons, Option.some.injEq] at hx
        subst hx
        refine ⟨by simp [refs], ?_⟩
        simp [St.rangeItem, rangeItems_all, hL, rst, fromRef]
  have := hl.1.solo (by rw [hl.2]; exact y.inv.ii.sorted) (by rw [hl.2]; exact y.inv.ii.nodup) h3 h4
  refine ⟨this, ?_⟩
  intro u
  by_cases hu : u = g
  · rw [hu, h4]; rfl
  · rw [h3.others hu, h1.others hu]; exact y.quiet u

/-- An operation the machine has, with the hashes it can place. -/
def Fits (E : Env) : Op → Prop
  | .set key _ => ∃ str k c, key = .str str ∧ keyToHash E.H key = some (k, c) ∧ rev64 k ≠ maxU64
  | op => callFor E op ≠ none

theorem splits_self {st st' : St} (h : st'.blist = st.blist) : splitsOf st st' = [] := by
  unfold splitsOf
  rw [h]
  simp

theorem splits_done {st st' : St} {s s' : CSt} {L : List (Call × Res)} (hsp : Splits st (splitsOf st st') s L s') (h : st'.blist = st.blist) :
    L = (splitsOf st st').map (fun p => (Call.split (bvRev p) p, Res.bool true)) ∧ s' = s := by
  rw [splits_self h] at hsp ⊢
  cases hsp
  exact ⟨rfl, rfl⟩

theorem splits_new {st mid st' : St} {A B : List Path} {n b c : Path} (hb : mid.blist = st.blist) (x : NewBucket mid st' A B n b c) :
    splitsOf st st' = [b] := by
  unfold splitsOf
  rw [← hb, x.new, x.old]
  have hb : b ∉ A ++ n :: c :: B := by rw [← x.old]; exact x.notin
  simp only [List.mem_append, List.mem_cons, not_or] at hb
  rw [List.filter_append]
  have h1 : A.filter (fun p => decide (p ∉ A ++ n :: c :: B)) = [] := by
    rw [List.filter_eq_nil_iff]; intro a ha; simp [ha]
  have h2 : B.filter (fun p => decide (p ∉ A ++ n :: c :: B)) = [] := by
    rw [List.filter_eq_nil_iff]; intro a ha; simp [ha]
  rw [h1]
  simp only [List.filter_cons, List.mem_append, List.mem_cons, true_or, or_true, not_true_eq_false, decide_false, Bool.false_eq_true, if_false, List.nil_append] at h2 ⊢
  rw [h2]
  simp [hb.1, hb.2.1, hb.2.2.1, hb.2.2.2]

/-- One operation. -/
theorem sim_step (E : Env) {st : St} {s s1 s2 : CSt} {op : Op} {cl : Call} {r : Res} {L : List (Call × Res)} (y : Sync st s) (hf : Fits E op)
    (hc : (step E st op).2 ≠ .panic .bucketHeadEmpty) (hcl : callFor E op = some cl) (ha : Alone1 (pkOf st) s cl r s1)
    (hsp : Splits st (splitsOf st (step E st op).1) s1 L s2) :
    r = resOf st op (step E st op).2 ∧ L = (splitsOf st (step E st op).1).map (fun p => (Call.split (bvRev p) p, Res.bool true)) ∧
      Sync (step E st op).1 s2 := by
  have get_case : ∀ k c, cl = .get (rev64 k) c → r = resOf st (.getByHash k c) (opGetByHash E st k c) ∧ Sync st s1 := by
    intro k c h
    subst h
    have hv := lower_valid y.inv (bucketForKey_valid y.inv.bi (rev64 k)) (rev64 k)
    obtain ⟨h1, h2⟩ := alone_key y rfl rfl hv (by intro _ _ _ _ h; cases h) ha
    rw [← search_seek E, ← getEntry_sel] at h1
    have hres : (⟨resOf st (.getByHash k c) (opGetByHash E st k c), st.items, true, st.nextId⟩ : Outc) = ⟨r, s1.items, s1.opt, s1.nextId⟩ := by
      rw [← h1]
      unfold opGetByHash
      cases getEntry E st k c <;> rfl
    injection hres with g1 g2 g3 g4
    exact ⟨g1.symm, y.inv, g2.symm, g3.symm, g4.symm, h2, y.fn⟩
  have hfb : ∀ t, V st.mem (findBucket st.mem t) ∧ (st.mem (findBucket st.mem t)).rev ≤ t := fun t =>
    ⟨(findBucket_spec y.inv.bi.ti t).1, (findBucket_spec y.inv.bi.ti t).2.2⟩
  cases op with
  | storeItem it => cases hcl
  | loadItem key => cases hcl
  | loadItemByHash k c => cases hcl
  | len => cases hcl
  | get key =>
    simp only [callFor_get, Option.map_eq_some_iff] at hcl
    obtain ⟨⟨k, c⟩, hk, rfl⟩ := hcl
    obtain ⟨h1, h2⟩ := get_case k c rfl
    have hst : step E st (.get key) = (st, opGetByHash E st k c) := by simp [step, opGet, hk]
    rw [hst] at hsp ⊢
    obtain ⟨hL, rfl⟩ := splits_done hsp rfl
    exact ⟨by rw [h1]; unfold opGetByHash; split <;> rfl, hL, h2⟩
  | getByHash k c =>
    obtain ⟨h1, h2⟩ := get_case k c (by injection hcl with hcl; exact hcl.symm)
    simp only [step] at hsp ⊢
    obtain ⟨hL, rfl⟩ := splits_done hsp rfl
    exact ⟨h1, hL, h2⟩
  | range =>
    obtain rfl : cl = .range := by injection hcl with hcl; exact hcl.symm
    obtain ⟨h1, h2⟩ := alone_range y ha
    simp only [step] at hsp ⊢
    obtain ⟨hL, rfl⟩ := splits_done hsp rfl
    injection h1 with g1 g2 g3 g4
    exact ⟨g1.symm, hL, y.inv, g2.symm, g3.symm, g4.symm, h2, y.fn⟩
  | delete key =>
    simp only [callFor_del, Option.map_eq_some_iff] at hcl
    obtain ⟨⟨k, c⟩, hk, rfl⟩ := hcl
    obtain ⟨h1, h2⟩ := alone_key y rfl rfl (hfb _).1 (by intro _ _ _ _ h; cases h) ha
    have hinv := step_inv E y.inv (.delete key)
    have e := search_seek E st (findBucket st.mem (rev64 k)) (rev64 k)
    rw [lower_below (hfb _).2] at e
    rw [← e, ← getWith_sel] at h1
    have hst : step E st (.delete key) = match (getWithBucket E st k c).1 with
        | none => (st, .bool false)
        | some e => ({ st with items := markDeleted st.itemFn e.ref st.items }, .bool true) := by
      show opDelete E st key = _
      unfold opDelete
      rw [hk]
      rfl
    rw [hst] at hsp hinv ⊢
    cases hg : (getWithBucket E st k c).1 with
    | none =>
      simp only [hg] at h1 hsp ⊢
      obtain ⟨hL, rfl⟩ := splits_done hsp rfl
      injection h1 with g1 g2 g3 g4
      exact ⟨g1.symm, hL, y.inv, g2.symm, g3.symm, g4.symm, h2, y.fn⟩
    | some x =>
      simp only [hg] at h1 hsp hinv ⊢
      obtain ⟨hL, rfl⟩ := splits_done hsp rfl
      injection h1 with g1 g2 g3 g4
      have hm := getWithBucket_mem (E := E) (st := st) (k := k) (c := c) (e := x) (b := (getWithBucket E st k c).2) (by rw [← hg])
      have hfn : st.itemFn = .sample := by
        rcases y.fn with h | h
        · exact h
        · have := h x hm.1
          have := hm.2.1
          simp_all [Entry.ignored]
      refine ⟨g1.symm, hL, hinv, ?_, g3.symm, g4.symm, h2, .inl hfn⟩
      rw [← g2, hfn]
  | set key v =>
    obtain ⟨str, k, c, rfl, hk, hmax⟩ := hf
    simp only [callFor_set, hk, Option.map_some, Option.some.injEq] at hcl
    subst hcl
    obtain ⟨h1, h2⟩ := alone_key y rfl rfl (hfb _).1 (by
      intro _ _ _ _ h
      cases h
      exact ⟨low_head y.inv (hfb _).1 (hfb _).2, big_of y.inv hmax⟩) ha
    have hinv := step_inv E y.inv (.set (.str str) v)
    have e := search_seek E st (findBucket st.mem (rev64 k)) (rev64 k)
    rw [lower_below (hfb _).2] at e
    rw [← e, ← getWith_sel] at h1
    cases hg : (getWithBucket E st k c).1 with
    | some x =>
      have hm := getWithBucket_mem (E := E) (st := st) (k := k) (c := c) (e := x) (b := (getWithBucket E st k c).2) (by rw [← hg])
      have hfn : st.itemFn = .sample := by
        rcases y.fn with h | h
        · exact h
        · have := h x hm.1
          have := hm.2.1
          simp_all [Entry.ignored]
      have hst : step E st (.set (.str str) v) = update st x v := by
        have h3 : getWithBucket E st k c = (some x, (getWithBucket E st k c).2) := by rw [← hg]
        simp only [step, opSet, hk]
        rw [h3]
      rw [hst] at hsp hinv ⊢
      rw [hg] at h1
      unfold update at hsp hinv ⊢
      simp only [Call.ends] at h1
      rw [hfn] at hsp hinv ⊢
      cases hv : setValue .sample x.val v with
      | error p =>
        simp only [hv] at h1 hsp ⊢
        obtain ⟨hL, rfl⟩ := splits_done hsp rfl
        injection h1 with g1 g2 g3 g4
        exact ⟨g1.symm, hL, y.inv, g2.symm, g3.symm, g4.symm, h2, .inl hfn⟩
      | ok nb =>
        obtain ⟨nv, ok⟩ := nb
        simp only [hv] at h1 hsp hinv ⊢
        obtain ⟨hL, rfl⟩ := splits_done hsp rfl
        injection h1 with g1 g2 g3 g4
        exact ⟨g1.symm, hL, hinv, g2.symm, g3.symm, g4.symm, h2, .inl rfl⟩
    | none =>
      rw [hg] at h1
      simp only [Call.ends] at h1
      injection h1 with g1 g2 g3 g4
      have hop := opSet_new (v := v) hk hg
      have hmid : Inv (setMid (setPre st) k (findBucket st.mem (rev64 k)) (newSetEntry st (.str str) v k c)) :=
        setMid_inv y.inv rfl rfl rfl rfl rfl rfl rfl
      have hit : (setMid (setPre st) k (findBucket st.mem (rev64 k)) (newSetEntry st (.str str) v k c)).items =
          insAt (newSetEntry st (.str str) v k c) st.items := by
        have hlt : (newSetEntry st (.str str) v k c).rev < maxU64 := by
          show rev64 k < maxU64
          have hmx : maxU64 = 18446744073709551615#64 := by decide
          rw [hmx] at hmax ⊢
          bv_omega
        exact setInsert_eq (st := { setPre st with nextId := st.nextId }) ⟨y.inv.bi, y.inv.ii, y.inv.lv⟩ (hfb _).1 (hfb _).2 hlt
      have ymid : Sync (setMid (setPre st) k (findBucket st.mem (rev64 k)) (newSetEntry st (.str str) v k c)) s1 :=
        ⟨hmid, by rw [hit, ← g2]; rfl, g3.symm, g4.symm, h2, .inl rfl⟩
      simp only [step] at hsp hc hinv ⊢
      rw [hop] at hsp hc hinv ⊢
      rcases setNew_spec hmid with ⟨st', e1, e2, e3⟩ | ⟨e1, _⟩
      · rw [e1] at hsp hc hinv ⊢
        simp only at hsp hc hinv ⊢
        refine ⟨g1.symm, ?_⟩
        rcases e3 with rfl | ⟨A, B, n, b, c', hb⟩
        · obtain ⟨hL, rfl⟩ := splits_done hsp rfl
          exact ⟨hL, ymid⟩
        · rw [splits_new (st := st) (by rfl) hb] at hsp ⊢
          cases hsp with
          | cons hsp1 hsp2 =>
            cases hsp2
            have hbl : b ∈ st'.blist := by rw [hb.new]; simp
            have hmx : bvRev b ≠ maxU64 := by
              intro h3
              have h4 := e2.bi.lt b hbl hb.ne
              have h5 : bval b = pathVal b := by simp [bval, hb.ne]
              have h6 : bvRev b = BitVec.ofNat 64 (pathVal b) := by simp [bvRev, hb.ne]
              have h7 : (bvRev b).toNat = pathVal b := by
                rw [h6, BitVec.toNat_ofNat, Nat.mod_eq_of_lt (by omega)]
              rw [h3] at h7
              have h8 : maxU64.toNat = 2 ^ 64 - 1 := by decide
              omega
            have hfind : ∃ q, st.blist.find? (fun q => decide ((st.mem q).rev ≤ bvRev b)) = some q := by
              rw [← Option.isSome_iff_exists, List.find?_isSome]
              refine ⟨findBucket st.mem (bvRev b) |> basePath st.mem, (basePath_spec y.inv.bi _ (hfb (bvRev b)).1).1, ?_⟩
              have h9 := basePath_spec y.inv.bi _ (hfb (bvRev b)).1
              rw [y.inv.bi.rev_eq h9.1, h9.2]
              simpa using (hfb (bvRev b)).2
            obtain ⟨q, hq⟩ := hfind
            have hqm := List.mem_of_find?_eq_some hq
            have hqr : bvRev q ≤ bvRev b := by
              have := List.find?_some hq
              rw [y.inv.bi.rev_eq hqm] at this
              simpa using this
            obtain ⟨f1, f2⟩ := alone_split (st := st) ymid (b := .dummy q) (by simp [bucketOf, hq])
              ⟨dummyEntry q (bvRev q), hmid.ii.has q hqm, rfl, hqr⟩ (big_of hmid hmx) hsp1
            injection f1 with f3 f4 f5 f6
            refine ⟨by rw [f3]; rfl, e2, by rw [hb.items, ← f4], f5.symm, by rw [hb.same.2.2.2.2.2, ← f6], f2, .inl ?_⟩
            rw [hb.same.2.2.1]; rfl
      · rw [e1] at hc
        exact absurd rfl hc

/-- Non-overlapping calls answer as the sequential map does, and leave the map as it does. -/
theorem sim_run (E : Env) {st : St} {ops : List Op} {s s' : CSt} {L : List (Call × Res)} (h : OneByOne E st ops s L s') (y : Sync st s)
    (hf : ∀ op ∈ ops, Fits E op) (hc : Out.panic .bucketHeadEmpty ∉ (run E st ops).2) : L = script E st ops ∧ Sync (run E st ops).1 s' := by
  induction h with
  | nil => exact ⟨rfl, y⟩
  | cons h1 h2 h3 h4 ih =>
    simp only [run, List.mem_cons, not_or] at hc
    obtain ⟨r1, r2, r3⟩ := sim_step E y (hf _ (by simp)) (fun h => hc.1 h.symm) h1 h2 h3
    obtain ⟨i1, i2⟩ := ih r3 (fun op ho => hf op (by simp [ho])) hc.2
    refine ⟨?_, i2⟩
    simp only [script, h1, Option.getD_some]
    rw [r1, r2, i1]

end SLM.Conc
