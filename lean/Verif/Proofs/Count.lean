import Verif.Proofs.Ends
/-! Counting items, and the depth of the bucket tree. -/
set_option autoImplicit false
namespace SLM
open History

def liveN (items : List Entry) : Nat := items.countP (fun e => !e.ignored)

theorem liveN_insAt (e : Entry) (l : List Entry) : liveN (insAt e l) = liveN l + (if e.ignored then 0 else 1) := by
  unfold liveN
  rw [(insAt_perm e l).countP_eq, List.countP_cons]
  cases e.ignored <;> simp

theorem liveN_mapAt {l : List Entry} (hn : (refs l).Nodup) {e : Entry} (he : e ∈ l) (g : Entry → Entry) :
    liveN (mapAt e.ref g l) + (if e.ignored then 0 else 1) = liveN l + (if (g e).ignored then 0 else 1) := by
  obtain ⟨pre, post, rfl⟩ := List.append_of_mem he
  obtain ⟨h1, h2⟩ := nodup_split hn
  have hpre : ∀ l', e.ref ∉ refs l' → mapAt e.ref g l' = l' := by
    intro l' hl'
    unfold mapAt
    conv => rhs; rw [← List.map_id l']
    apply List.map_congr_left
    intro x hx
    rw [if_neg]
    · rfl
    · intro hc; exact hl' (List.mem_map.2 ⟨x, hx, hc⟩)
  have : mapAt e.ref g (pre ++ e :: post) = pre ++ g e :: post := by
    have h3 := hpre pre h1
    have h4 := hpre post h2
    unfold mapAt at *
    simp [h3, h4]
  rw [this]
  unfold liveN
  simp only [List.countP_append, List.countP_cons]
  cases e.ignored <;> cases (g e).ignored <;> simp <;> omega

theorem grow_len {mid st' : St} (h : Grow mid st') : st'.len = mid.len ∧ st'.maxPer = mid.maxPer := by
  rcases h with rfl | ⟨A, B, n, b, c, hb⟩
  · exact ⟨rfl, rfl⟩
  · exact ⟨hb.same.2.2.2.2.1, hb.same.1⟩

/-- In every reachable map: a new item (one LoadItem did not find) adds 1 to `len`; nothing else changes it. -/
theorem step_len (E : Env) {st : St} (h : Inv st) (op : Op) :
    ((∃ kc, storeHash E.H op = some kc ∧ (getWithBucket E st kc.1 kc.2).1 = none) ∧ (step E st op).2 = .bool true ∧
      (step E st op).1.len = st.len + 1) ∨
    ((¬ ∃ kc, storeHash E.H op = some kc ∧ (getWithBucket E st kc.1 kc.2).1 = none ∧ (step E st op).2 = .bool true) ∧
      (step E st op).1.len = st.len) := by
  rcases step_eff E h op with x | ⟨e, nv, b, x⟩ | ⟨key, e, x⟩ | ⟨st2, k, c, e, x⟩
  · right
    obtain ⟨b, hb⟩ := x.same
    exact ⟨fun ⟨kc, _, _, h3⟩ => x.quiet h3, by rw [hb]⟩
  · right
    refine ⟨?_, by rw [x.res]⟩
    rintro ⟨kc, h1, h2, _⟩
    -- the key was found, because the value was overwritten
    cases hs : op with
    | set key v =>
      subst hs
      simp only [storeHash] at h1
      have hr := x.res
      simp only [step] at hr
      by_cases hstr : ∃ s, key = .str s
      · obtain ⟨s, rfl⟩ := hstr
        rw [opSet_new (k := kc.1) (c := kc.2) h1 h2] at hr
        split at hr
        · rename_i s2 hs2
          have hmid : Inv (setMid (setPre st) kc.1 (findBucket st.mem (rev64 kc.1)) (newSetEntry st (.str s) v kc.1 kc.2)) :=
            setMid_inv h rfl rfl rfl rfl rfl rfl rfl
          rcases setNew_spec hmid with ⟨s3, g1, g2, g3⟩ | ⟨g1, _⟩
          · rw [hs2] at g1; injection g1 with g1; subst g1
            have := (grow_len g3).1
            injection hr with hr1 _
            rw [hr1] at this
            simp [setMid, setPre] at this
          · rw [hs2] at g1; cases g1
        · simp at hr
      · have h2' : getWithBucket E st kc.1 kc.2 = (none, (getWithBucket E st kc.1 kc.2).2) := by rw [← h2]
        have hbad : (opSet E st key v).2 = .panic .keyNotString := by
          unfold opSet
          simp only [h1]
          rw [h2']
          cases key with
          | str s => exact absurd ⟨s, rfl⟩ hstr
          | _ => rfl
        rw [hr] at hbad
        simp at hbad
    | storeItem it =>
      subst hs
      simp only [storeHash] at h1
      have hr := x.res
      simp only [step] at hr
      rw [opStoreItem_new (k := kc.1) (c := kc.2) h1 h2] at hr
      split at hr
      · rename_i s2 hs2
        have hmid : Inv (setMid (storePre st) kc.1 (findBucket st.mem (rev64 kc.1)) (newItemEntry st it kc.1 kc.2)) :=
          setMid_inv h rfl rfl rfl rfl rfl rfl rfl
        rcases setNew_spec hmid with ⟨s3, g1, g2, g3⟩ | ⟨g1, _⟩
        · rw [hs2] at g1; injection g1 with g1; subst g1
          have := (grow_len g3).1
          injection hr with hr1 _
          rw [hr1] at this
          simp [setMid, storePre] at this
        · rw [hs2] at g1; cases g1
      · simp at hr
    | _ => subst hs; simp [storeHash] at h1
  · right
    refine ⟨?_, by rw [x.res]⟩
    rintro ⟨kc, h1, _⟩
    rw [x.op] at h1
    simp [storeHash] at h1
  · left
    refine ⟨⟨(k, c), x.hash, x.none⟩, x.out, ?_⟩
    rw [(grow_len x.grow).1]
    simp [setMid, x.len]

/-- Deletes that answered true. -/
def isDelTrue : Op × Out → Bool
  | (.delete _, .bool true) => true
  | _ => false

/-- In a good state: the difference between `len` and the number of live items grows by 1 with every successful delete. -/
theorem step_count {E : Env} {st : St} (g : Good st) {op : Op} (ha : AdmOp E st op) :
    (step E st op).1.len - (liveN (step E st op).1.items : Int) =
      st.len - (liveN st.items : Int) + (if isDelTrue (op, (step E st op).2) then 1 else 0) := by
  have h := g.inv
  rcases step_eff E h op with x | ⟨e, nv, b, x⟩ | ⟨key, e, x⟩ | ⟨st2, k, c, e, x⟩
  · obtain ⟨b, hb⟩ := x.same
    rw [hb]
    have : isDelTrue (op, (step E st op).2) = false := by
      have hq := x.quiet
      cases op <;> simp only [isDelTrue]
      cases hv : (step E st (.delete _)).2 with
      | bool b => cases b with
        | true => exact absurd hv hq
        | false => rfl
      | _ => rfl
    simp [this]
  · have hd : isDelTrue (op, (step E st op).2) = false := by
      have hs := x.hash
      cases op <;> simp [storeHash, isDelTrue] at hs ⊢
    rw [hd, x.res]
    have := liveN_mapAt h.ii.nodup x.mem (fun x => { x with val := nv })
    have hl : ({ e with val := nv } : Entry).ignored = false := x.live
    simp only [x.live, hl] at this
    show st.len - (liveN (mapAt e.ref (fun x => { x with val := nv }) st.items) : Int) = _
    simp at this ⊢
    omega
  · have hd : isDelTrue (op, (step E st op).2) = true := by rw [x.res, x.op]; rfl
    rw [hd, x.res]
    have := liveN_mapAt h.ii.nodup x.mem
      (fun x => { x with deleted := true, key := match st.itemFn with | .entry => .nil | .sample => x.key })
    simp only [x.live] at this
    show st.len - (liveN (mapAt e.ref (fun x => { x with deleted := true, key := match st.itemFn with | .entry => .nil | .sample => x.key }) st.items) : Int) = _
    simp [Entry.ignored] at this ⊢
    omega
  · have hd : isDelTrue (op, (step E st op).2) = false := by
      have hs := x.hash
      cases op <;> simp [storeHash, isDelTrue] at hs ⊢
    have hlen : (step E st op).1.len = st.len + 1 := by rw [(grow_len x.grow).1]; simp [setMid, x.len]
    have hlook : lookup st.items k c = none := by rw [← getWithBucket_eq g]; exact x.none
    have hfa : FreeAt st k c := by
      have hh := x.hash
      cases op with
      | set key v => exact ha k c hh
      | storeItem it => exact ha.2.2 k c hh
      | _ => simp [storeHash] at hh
    obtain ⟨hfree, hoff⟩ := hfa.spec g hlook
    have hei : e.ignored = false := by unfold Entry.ignored; simp [x.nodummy, x.nodel]
    have hrev : e.rev = rev64 k := by
      rcases x.pre with ⟨s, v, _, _, he⟩ | ⟨it, hop, _, he⟩
      · rw [he]; rfl
      · have hz : it.rev0 = 0 := by rw [hop] at ha; exact ha.1
        rw [he]; simp [newItemEntry, hz]
    obtain ⟨_, hits⟩ := g.insert (st2 := st2) rfl x.mem x.blist x.items x.nextId x.lv x.ref hei hrev hfree hoff
    have hl : liveN (step E st op).1.items = liveN st.items + 1 := by
      have hmid : liveN (setMid st2 k (findBucket st.mem (rev64 k)) e).items = liveN st.items + 1 := by
        rw [hits, liveN_insAt]; simp [hei]
      rcases x.grow with hg | ⟨A, B, n, b, c', hb⟩
      · rw [hg]; exact hmid
      · rw [hb.items, liveN_insAt, hmid]; simp [dummyEntry, Entry.ignored]
    rw [hd, hlen, hl]
    push_cast
    simp

/-! ### runs of admissible operations -/

/-- Every operation is admissible where it runs, and none crashes. -/
def AdmRun (E : Env) : St → List Op → Prop
  | _, [] => True
  | st, op :: ops => AdmOp E st op ∧ (step E st op).2 ≠ .panic .bucketHeadEmpty ∧ AdmRun E (step E st op).1 ops

theorem admRun_of {E : Env} {S : U64 → U64 → Prop} (hS : ∀ k c c', S k c → S k c' → c = c')
    {ops : List Op} {st : St} (g : Good st) (hl : LiveIn S st)
    (hop : ∀ op ∈ ops, ∀ k c, storeHash E.H op = some (k, c) → S k c) (hfresh : FreshItems ops)
    (hoff : OffBoundary E st ops) (hcr : NoCrash E st ops) : AdmRun E st ops := by
  induction ops generalizing st with
  | nil => trivial
  | cons op ops ih =>
    have hcr' := hcr
    rw [NoCrash, run_cons] at hcr
    simp only [List.mem_cons, not_or] at hcr
    have ha : AdmOp E st op := AdmOp.of g hS hl (hop op (by simp)) (fun it h => hfresh it (by simp [h])) hoff.1
    have hone := run_refines hS (ops := [op]) g hl (fun o ho => hop o (by simp at ho; simp [ho]))
      (fun it h => hfresh it (by simp at h; simp [h])) ⟨hoff.1, trivial⟩ (by
        rw [NoCrash]; simp only [run]; simp; exact hcr.1)
    exact ⟨ha, fun h => hcr.1 h.symm, ih hone.1 hone.2.1 (fun o ho => hop o (by simp [ho])) (fun it h => hfresh it (by simp [h])) hoff.2 hcr.2⟩

theorem History.Clean.adm {E : Env} {cfg : Cfg} {ops : List Op} (h : Clean E cfg ops) : AdmRun E (initSt cfg) ops := by
  apply admRun_of (S := storedPairs E.H ops) _ (good_init cfg) _ _ h.fresh h.off h.crash
  · rintro k c c' ⟨a, ha, h1⟩ ⟨b, hb, h2⟩
    exact h.coll a ha b hb k c c' h1 h2
  · intro x hx
    have := initSt_dummy cfg x hx.1
    have h2 := hx.2
    simp [Entry.ignored, this] at h2
  · intro op hop k c hk
    exact ⟨op, hop, hk⟩

theorem AdmRun.step_good {E : Env} {st : St} {op : Op} {ops : List Op} (g : Good st) (h : AdmRun E st (op :: ops)) :
    Good (step E st op).1 := (step_refines g h.1 h.2.1).1

theorem run_count {E : Env} {ops : List Op} {st : St} (g : Good st) (h : AdmRun E st ops) :
    (run E st ops).1.len - (liveN (run E st ops).1.items : Int) =
      st.len - (liveN st.items : Int) + ((ops.zip (run E st ops).2).countP isDelTrue : Int) := by
  induction ops generalizing st with
  | nil => simp [run]
  | cons op ops ih =>
    have h1 := step_count g h.1
    have h2 := ih (h.step_good g) h.2.2
    rw [run_cons]
    simp only [List.zip_cons_cons, List.countP_cons]
    rw [h2, h1]
    push_cast
    split <;> omega

end SLM
