import Verif.Proofs.RMap
/-! RMap: the invariant of Set/Get histories, key presence and values. -/
set_option autoImplicit false
namespace SLM.RMap
open History
open Spec (PMap ans Ans)

/-- The value last passed to Set for the hash pair `kc`. -/
def lastSet (H : HashFns) : List ROp → U64 × U64 → Option IVal
  | [], _ => none
  | op :: ops, kc =>
    match lastSet H ops kc with
    | some v => some v
    | none => match op with
      | .set s v => if (H.mem s, H.xx s) = kc then some v else none
      | _ => none

theorem lastSet_append (H : HashFns) (a b : List ROp) (kc : U64 × U64) :
    lastSet H (a ++ b) kc = (lastSet H b kc).or (lastSet H a kc) := by
  induction a with
  | nil => simp [lastSet]
  | cons op a ih =>
    simp only [List.cons_append, lastSet, ih]
    cases lastSet H b kc <;> simp

theorem lastSet_mem {H : HashFns} {ops : List ROp} {kc : U64 × U64} {v : IVal} (h : lastSet H ops kc = some v) :
    ∃ s, ROp.set s v ∈ ops ∧ (H.mem s, H.xx s) = kc := by
  induction ops with
  | nil => cases h
  | cons op ops ih =>
    simp only [lastSet] at h
    split at h
    · rename_i w hw
      obtain ⟨s, h1, h2⟩ := ih (by rw [hw]; exact h)
      exact ⟨s, by simp [h1], h2⟩
    · split at h
      · rename_i s w
        split at h
        · rename_i hk
          cases h
          exact ⟨s, by simp, hk⟩
        · cases h
      · cases h

theorem lastSet_none {H : HashFns} {ops : List ROp} {s : List (BitVec 8)} {v : IVal} (h : ROp.set s v ∈ ops) :
    lastSet H ops (H.mem s, H.xx s) ≠ none := by
  induction ops with
  | nil => cases h
  | cons op ops ih =>
    simp only [lastSet]
    rcases List.mem_cons.1 h with rfl | h
    · split
      · simp
      · simp
    · have := ih h
      split
      · simp
      · rename_i hn; exact absurd hn this

/-- Invariant with values: entries of both maps carry a value that was set for their hash pair; a key not in the read map
has in the dirty map the value last set. -/
structure RV (E : Env) (done : List ROp) (R : RSt) : Prop where
  val : ∀ rd, R.read = some rd → ∀ p ∈ rd.m, ∃ s, ROp.set s p.2.val ∈ done ∧ p.1 = E.H.mem s ∧ p.2.conflict = E.H.xx s
  dval : ∀ kc v, (absM R.dirty).m kc = some v → ∃ s, ROp.set s v ∈ done ∧ (E.H.mem s, E.H.xx s) = kc
  last : ∀ kc : U64 × U64, mget (R.read.getD {}).m kc.1 = none → (absM R.dirty).m kc = lastSet E.H done kc

/-- All values non-nil and of one dynamic type. -/
def Typed (ops : List ROp) : Prop := ∃ ty, ∀ s v, ROp.set s v ∈ ops → ∃ w, v = some ⟨ty, w⟩

theorem storedPairs_set {H : HashFns} {ops : List ROp} {k c : U64} (h : storedPairs H (setOps ops) k c) :
    ∃ s v, ROp.set s v ∈ ops ∧ k = H.mem s ∧ c = H.xx s := by
  obtain ⟨o, ho, hk⟩ := h
  obtain ⟨s, v, hs, rfl⟩ := mem_setOps.1 ho
  have : some (H.mem s, H.xx s) = some (k, c) := hk
  simp only [Option.some.injEq, Prod.mk.injEq] at this
  exact ⟨s, v, hs, this.1.symm, this.2.symm⟩

theorem setOps_snoc_get (done : List ROp) (s : List (BitVec 8)) : setOps (done ++ [.get s]) = setOps done := by
  rw [setOps_append]; simp [setOps]

theorem setOps_snoc_len (done : List ROp) : setOps (done ++ [.len]) = setOps done := by
  rw [setOps_append]; simp [setOps]

theorem setOps_snoc_set (done : List ROp) (s : List (BitVec 8)) (v : IVal) :
    setOps (done ++ [.set s v]) = setOps done ++ [.storeItem (newItem s v)] := by
  rw [setOps_append]; simp [setOps]

theorem RI.read0 {E : Env} {done : List ROp} {R : RSt} (h : RI E done R) : RI E done { R with read := some (R.read.getD {}) } := by
  refine ⟨h.dirty, ?_, ?_⟩
  · intro kc hk
    obtain ⟨x, hx, ha⟩ := h.amended kc hk
    exact ⟨x, by show some (R.read.getD {}) = some x; rw [hx]; rfl, ha⟩
  · intro x hx p hp
    have hx' : R.read.getD {} = x := by simpa using hx
    subst hx'
    cases hr : R.read with
    | none => simp only [hr] at hp; cases hp
    | some y => simp only [hr] at hp; exact h.read y hr p hp

theorem Present.read0 {E : Env} {R : RSt} {s : List (BitVec 8)} (h : Present E R s) :
    Present E { R with read := some (R.read.getD {}) } s := by
  rcases h with ⟨rd, it, hr, hg⟩ | h
  · exact Or.inl ⟨rd, it, by simp [hr], hg⟩
  · exact Or.inr h

theorem collide {E : Env} {done : List ROp} (hE : NoCollision E.H (setOps done)) {k c c' : U64}
    (h1 : storedPairs E.H (setOps done) k c) (h2 : storedPairs E.H (setOps done) k c') : c = c' := by
  obtain ⟨a, ha, h1⟩ := h1
  obtain ⟨b, hb, h2⟩ := h2
  exact hE a ha b hb k c c' h1 h2

theorem AllClean.coll {E : Env} {L : List Op} (h : AllClean E L) : NoCollision E.H L := (h L (List.Sublist.refl _)).coll

/-- Set keeps the invariant and every key, and makes its key present when it returns. -/
theorem set_ok {E : Env} {done : List ROp} {R : RSt} {s : List (BitVec 8)} {v : IVal}
    (hcl : AllClean E (setOps (done ++ [.set s v]))) (h : RI E done R) :
    RI E (done ++ [.set s v]) (set E R s v).1 ∧ (∀ t, Present E R t → Present E (set E R s v).1 t) ∧
    ((set E R s v).2 = .bool true → Present E (set E R s v).1 s) := by
  have hcases := set_cases (v := v) (s := s) hcl h
  have hm : (setOps done).Sublist (setOps (done ++ [.set s v])) := by rw [setOps_append]; exact List.sublist_append_left _ _
  have hcl0 := hcl.sub hm
  have h0 := h.read0
  have hcl1 := hcl; rw [setOps_snoc_set] at hcl1
  simp only at hcases
  rcases hcases with ⟨hr, hs⟩ | ⟨hr, ha, hs, _⟩ | ⟨hr, ha, R1, hR1, hs⟩
  · rw [hs]
    refine ⟨h0.mono _, fun t ht => ht.read0, fun _ => Or.inl ?_⟩
    obtain ⟨it, hit⟩ := Option.ne_none_iff_exists'.1 hr
    exact ⟨_, it, rfl, hit⟩
  · rw [hs]
    obtain ⟨hd, habs⟩ := h.dirty.store (it := newItem s v) hcl1
    have habs1 := congrArg Prod.fst habs
    simp only at habs1
    refine ⟨⟨by rw [setOps_snoc_set]; exact hd, ?_, (h0.mono (.set s v)).read⟩, ?_, ?_⟩
    · intro kc _
      obtain ⟨rd, h1, h2⟩ := h.amended _ ha
      exact ⟨rd, by simp [h1], h2⟩
    · intro t ht
      rcases ht.read0 with ht | ht
      · exact Or.inl ht
      · refine Or.inr ?_
        rw [habs1]
        exact pmap_store_keeps ht
    · intro _
      refine Or.inr ?_
      rw [habs1]
      exact pmap_store_keeps ha
  · rw [hs]
    have hRI1 : RI E done R1 ∧ (∀ t, Present E R t → Present E R1 t) ∧ (absM R1.dirty).m (E.H.mem s, E.H.xx s) = none ∧
        ((∃ rd, R1.read = some rd ∧ rd.amended = true) ∨ (R.read.getD {}).m.length = 0) := by
      rw [hR1]
      split
      · rename_i hamd
        exact ⟨h0, fun t ht => ht.read0, ha, Or.inl ⟨_, rfl, hamd⟩⟩
      · obtain ⟨h1, h2⟩ := promote_ok hcl0 h0 true
        refine ⟨h1, fun t ht => h2 t ht.read0, ?_, ?_⟩
        · rcases promote_cases { R with read := some (R.read.getD {}) } true with ⟨hp, _⟩ | ⟨hp, _⟩
          · rw [hp]; exact ha
          · rw [hp, absM_init]; rfl
        · rcases promote_cases { R with read := some (R.read.getD {}) } true with ⟨hp, hn, _⟩ | ⟨_, rd, h3, h4⟩
          · right
            have : (R.read.getD {}).m = [] := hn
            rw [this]; rfl
          · exact Or.inl ⟨rd, h3, h4 (Or.inl rfl)⟩
    obtain ⟨hRI1, hp1, ha1, hamd⟩ := hRI1
    obtain ⟨hd, habs⟩ := hRI1.dirty.store (it := newItem s v) hcl1
    rw [pmap_store_adds (newItem_hash E s v) ha1] at habs
    have habs1 := congrArg Prod.fst habs
    simp only at habs1
    have hkeep : ∀ t, Present E R t → Present E { R1 with dirty := (SLM.step E R1.dirty (.storeItem (newItem s v))).1 } t := by
      intro t ht
      rcases hp1 t ht with ht | ht
      · exact Or.inl ht
      · refine Or.inr ?_
        rw [habs1]
        unfold PMap.put
        dsimp only
        split
        · simp
        · exact ht
    have hnew : Present E { R1 with dirty := (SLM.step E R1.dirty (.storeItem (newItem s v))).1 } s := by
      refine Or.inr ?_
      rw [habs1]
      simp [PMap.put]
    split
    · -- the read map was empty: promotion follows
      rename_i hlen
      -- invariant without `amended` is enough for promotion
      have hcls : AllClean E (setOps (done ++ [.set s v])) := hcl
      have hprom : ∀ R2 : RSt, DirtyOk E (setOps (done ++ [.set s v])) R2.dirty →
          (∀ rd, R2.read = some rd → ∀ p ∈ rd.m, storedPairs E.H (setOps (done ++ [.set s v])) p.1 p.2.conflict) →
          (∃ kc, (absM R2.dirty).m kc ≠ none) →
          RI E (done ++ [.set s v]) (promote R2 true) ∧ ∀ t, Present E R2 t → Present E (promote R2 true) t := by
        intro R2 hd2 hr2 hne
        have g2 := hd2.good hcls
        obtain ⟨kc, hkc⟩ := hne
        obtain ⟨e, he⟩ := absM_ne_none_live g2.uniq hkc
        -- use promote_ok on a state whose read map is marked amended; `promote` does not look at the old flag
        let R3 : RSt := { R2 with read := some { (R2.read.getD {}) with amended := true } }
        have hR3 : RI E (done ++ [.set s v]) R3 := by
          refine ⟨hd2, fun kc _ => ⟨_, rfl, rfl⟩, ?_⟩
          intro rd hrd p hp
          have : { (R2.read.getD {}) with amended := true } = rd := by simpa [R3] using hrd
          subst this
          cases hr : R2.read with
          | none => simp only [hr] at hp; cases hp
          | some y => simp only [hr] at hp; exact hr2 y hr p hp
        have heq : promote R3 true = promote R2 true := by
          unfold promote
          have hb : (merged (R2.read.getD {}).m R2.dirty).isEmpty = false := by
            obtain ⟨e', _, _, hg⟩ := merged_live (old := (R2.read.getD {}).m) he
            exact mget_ne_nil hg
          show (if (merged (R2.read.getD {}).m R2.dirty).isEmpty then _ else _) = if (merged (R2.read.getD {}).m R2.dirty).isEmpty then _ else _
          rw [hb]
          rfl
        obtain ⟨h5, h6⟩ := promote_ok hcls hR3 true
        rw [heq] at h5 h6
        refine ⟨h5, fun t ht => h6 t ?_⟩
        rcases ht with ⟨rd, it, hr, hg⟩ | ht
        · exact Or.inl ⟨_, it, rfl, by simp only [hr]; exact hg⟩
        · exact Or.inr ht
      obtain ⟨h7, h8⟩ := hprom { R1 with dirty := (SLM.step E R1.dirty (.storeItem (newItem s v))).1 }
        (by rw [setOps_snoc_set]; exact hd) (fun rd hr p hp => (hRI1.mono (.set s v)).read rd hr p hp)
        ⟨(E.H.mem s, E.H.xx s), by rw [habs1]; simp [PMap.put]⟩
      exact ⟨h7, fun t ht => h8 t (hkeep t ht), fun _ => h8 s hnew⟩
    · rename_i hlen
      refine ⟨⟨by rw [setOps_snoc_set]; exact hd, ?_, fun rd hr p hp => (hRI1.mono (.set s v)).read rd hr p hp⟩, hkeep, fun _ => hnew⟩
      intro kc _
      rcases hamd with hamd | hamd
      · exact hamd
      · exact absurd hamd hlen

/-- Get keeps the invariant and every key. -/
theorem get_ok {E : Env} {done : List ROp} {R : RSt} (s : List (BitVec 8))
    (hcl : AllClean E (setOps done)) (h : RI E done R) :
    RI E (done ++ [.get s]) (get E R s).1 ∧ (∀ t, Present E R t → Present E (get E R s).1 t) := by
  have hmiss : RI E done (missLocked R) ∧ ∀ t, Present E R t → Present E (missLocked R) t := by
    have hR1 : RI E done { R with misses := R.misses + 1 } := ⟨h.dirty, h.amended, h.read⟩
    unfold missLocked
    dsimp only
    split
    · exact ⟨hR1, fun t ht => ht⟩
    · obtain ⟨h1, h2⟩ := promote_ok hcl hR1 false
      exact ⟨⟨h1.dirty, h1.amended, h1.read⟩, fun t ht => h2 t ht⟩
  unfold get
  dsimp only
  split
  · exact ⟨h.mono _, fun t ht => ht⟩
  · split
    · split
      · exact ⟨h.mono _, fun t ht => ht⟩
      · exact ⟨h.mono _, fun t ht => ht⟩
    · split
      · split
        · exact ⟨h.mono _, fun t ht => ht⟩
        · exact ⟨hmiss.1.mono _, hmiss.2⟩
      · exact ⟨h.mono _, fun t ht => ht⟩

theorem get_present {E : Env} {done : List ROp} {R : RSt} {s : List (BitVec 8)} {v : IVal}
    (hcl : AllClean E (setOps done)) (h : RI E done R) (hd : ROp.set s v ∈ done) (hp : Present E R s) :
    (∃ rd it, R.read = some rd ∧ mget rd.m (E.H.mem s) = some it ∧ get E R s = (R, .got (.atomicValue it.val) true)) ∨
    (∃ rd e, R.read = some rd ∧ mget rd.m (E.H.mem s) = none ∧ lookup R.dirty.items (E.H.mem s) (E.H.xx s) = some e ∧
      get E R s = (missLocked R, .got (.plain e.val) true)) := by
  have g := h.dirty.good hcl
  have hsp : storedPairs E.H (setOps done) (E.H.mem s) (E.H.xx s) := ⟨_, mem_setOps.2 ⟨s, v, hd, rfl⟩, rfl⟩
  by_cases hr : ∃ rd it, R.read = some rd ∧ mget rd.m (E.H.mem s) = some it
  · obtain ⟨rd, it, h1, h2⟩ := hr
    left
    refine ⟨rd, it, h1, h2, ?_⟩
    have hc := h.read rd h1 _ (mget_mem h2)
    have : it.conflict = E.H.xx s := collide hcl.coll hc hsp
    unfold get
    simp only [h1, h2, this, if_true]
  · right
    have hab : (absM R.dirty).m (E.H.mem s, E.H.xx s) ≠ none := by
      rcases hp with ⟨rd, it, h1, h2⟩ | hp
      · exact absurd ⟨rd, it, h1, h2⟩ hr
      · exact hp
    obtain ⟨rd, h1, h2⟩ := h.amended _ hab
    have hm : mget rd.m (E.H.mem s) = none := by
      cases hm : mget rd.m (E.H.mem s) with
      | none => rfl
      | some it => exact absurd ⟨rd, it, h1, hm⟩ hr
    rw [absM_m] at hab
    cases hl : lookup R.dirty.items (E.H.mem s) (E.H.xx s) with
    | none => rw [hl] at hab; exact absurd rfl hab
    | some e =>
      refine ⟨rd, e, h1, hm, rfl, ?_⟩
      unfold get
      simp only [h1, hm, h2, if_true, getEntry_eq g, hl]

/-- The invariant along a history without Delete. -/
theorem run_ok {E : Env} {ops done : List ROp} {R : RSt} (hnd : ∀ t, ROp.delete t ∉ ops)
    (hcl : AllClean E (setOps (done ++ ops))) (h : RI E done R) :
    RI E (done ++ ops) (run E R ops).1 ∧ ∀ t, Present E R t → Present E (run E R ops).1 t := by
  induction ops generalizing done R with
  | nil => rw [List.append_nil]; exact ⟨h, fun t ht => ht⟩
  | cons op ops ih =>
    have hcl1 : AllClean E (setOps (done ++ [op])) := hcl.sub (by
      rw [show done ++ op :: ops = (done ++ [op]) ++ ops by simp, setOps_append (done ++ [op])]; exact List.sublist_append_left _ _)
    have hcl0 : AllClean E (setOps done) := hcl1.sub (by rw [setOps_append]; exact List.sublist_append_left _ _)
    have h1 : RI E (done ++ [op]) (step E R op).1 ∧ ∀ t, Present E R t → Present E (step E R op).1 t := by
      cases op with
      | set s v => exact ⟨(set_ok hcl1 h).1, (set_ok hcl1 h).2.1⟩
      | get s => exact get_ok s hcl0 h
      | delete s => exact absurd (by simp) (hnd s)
      | len => exact ⟨h.mono _, fun t ht => ht⟩
    have := ih (fun t ht => hnd t (by simp [ht])) (done := done ++ [op]) (by rw [List.append_assoc]; exact hcl) h1.1
    rw [List.append_assoc] at this
    exact ⟨this.1, fun t ht => this.2 t (h1.2 t ht)⟩

/-! ### Values -/

theorem rv_init (E : Env) : RV E [] init := by
  have h0 : ∀ kc, (absM init.dirty).m kc = none := fun kc => by
    show (absM (initSt dirtyCfg)).m kc = none
    rw [absM_init]; rfl
  refine ⟨?_, ?_, ?_⟩
  · intro rd h; cases h
  · intro kc v h; rw [h0] at h; cases h
  · intro kc _; rw [h0]; rfl

theorem DirtyOk.fn {E : Env} {done : List ROp} {d : St} (hcl : AllClean E (setOps done)) (h : DirtyOk E (setOps done) d) :
    (absM d).fn = .sample := by
  obtain ⟨a, ha, rfl⟩ := h
  have h1 := congrArg Prod.fst (hcl a ha).refines.2.2
  simp only at h1
  rw [h1]
  have : ∀ (l : List Op) (s : PMap), (∀ op ∈ l, ∃ it, op = .storeItem it) → (s.run E.H l).1.fn = s.fn := by
    intro l
    induction l with
    | nil => intro s _; rfl
    | cons op l ih =>
      intro s hl
      obtain ⟨it, rfl⟩ := hl op (by simp)
      show ((s.step E.H (.storeItem it)).1.run E.H l).1.fn = _
      rw [ih _ (fun o ho => hl o (by simp [ho])), PMap.fn_store]
  rw [this]
  · rfl
  · intro op hop
    obtain ⟨s, v, _, h⟩ := mem_setOps.1 (ha.mem hop)
    exact ⟨_, h⟩

theorem promote_rv {E : Env} {done : List ROp} {R : RSt} (hcl : AllClean E (setOps done)) (hd : DirtyOk E (setOps done) R.dirty)
    (h : RV E done R) (a : Bool) : RV E done (promote R a) := by
  have g := hd.good hcl
  unfold promote
  dsimp only
  split
  · exact h
  · have h0 : ∀ kc, (absM (initSt dirtyCfg)).m kc = none := fun kc => by rw [absM_init]; rfl
    refine ⟨?_, ?_, ?_⟩
    · intro rd hrd p hp
      simp only [Option.some.injEq] at hrd
      subst hrd
      rcases merged_mem hp with hp | ⟨e, he, rfl⟩
      · cases hr : R.read with
        | none => rw [hr] at hp; cases hp
        | some rd => rw [hr] at hp; exact h.val rd hr p hp
      · have hv : (absM R.dirty).m (rev64 e.rev, e.conflict) = some e.val :=
          (absM_some g.uniq).2 ⟨e, he, by rw [rev64_rev64], rfl, rfl⟩
        obtain ⟨s, h1, h2⟩ := h.dval _ _ hv
        simp only [Prod.mk.injEq] at h2
        exact ⟨s, h1, h2.1.symm, h2.2.symm⟩
    · intro kc v hk
      have : (absM (initSt dirtyCfg)).m kc = some v := hk
      rw [h0] at this; cases this
    · intro kc hk
      show (absM (initSt dirtyCfg)).m kc = _
      rw [h0]
      have hk' : mget (merged (R.read.getD {}).m R.dirty) kc.1 = none := hk
      have hl : ∀ e, Live R.dirty.items e → e.rev ≠ rev64 kc.1 := by
        intro e he hr
        obtain ⟨e', _, _, hg⟩ := merged_live (old := (R.read.getD {}).m) he
        rw [hr, rev64_rev64, hk'] at hg
        cases hg
      rw [merged_none hl] at hk'
      rw [← h.last kc hk']
      cases hm : (absM R.dirty).m kc with
      | none => rfl
      | some v =>
        obtain ⟨e, he, hr, _⟩ := (absM_some (k := kc.1) (c := kc.2) g.uniq).1 hm
        exact absurd hr (hl e he)

theorem lastSet_snoc_set (H : HashFns) (done : List ROp) (s : List (BitVec 8)) (v : IVal) (kc : U64 × U64) :
    lastSet H (done ++ [.set s v]) kc = if (H.mem s, H.xx s) = kc then some v else lastSet H done kc := by
  rw [lastSet_append]
  simp only [lastSet]
  split <;> simp

theorem RV.other {E : Env} {done : List ROp} {R : RSt} (h : RV E done R) (op : ROp) (hop : ∀ s v, op ≠ .set s v) :
    RV E (done ++ [op]) R := by
  refine ⟨?_, ?_, ?_⟩
  · intro rd hr p hp
    obtain ⟨s, h1, h2⟩ := h.val rd hr p hp
    exact ⟨s, by simp [h1], h2⟩
  · intro kc v hk
    obtain ⟨s, h1, h2⟩ := h.dval kc v hk
    exact ⟨s, by simp [h1], h2⟩
  · intro kc hk
    rw [h.last kc hk, lastSet_append]
    cases op with
    | set s v => exact absurd rfl (hop s v)
    | get s => simp [lastSet]
    | delete s => simp [lastSet]
    | len => simp [lastSet]

/-- Storing `v` for a key that is not in the read map. -/
theorem RV.put {E : Env} {done : List ROp} {R : RSt} (h : RV E done R) {s : List (BitVec 8)} {v : IVal} {d : St}
    (habs : absM d = (absM R.dirty).put (E.H.mem s, E.H.xx s) v) :
    RV E (done ++ [.set s v]) { R with dirty := d } := by
  refine ⟨?_, ?_, ?_⟩
  · intro rd hr p hp
    obtain ⟨s, h1, h2⟩ := h.val rd hr p hp
    exact ⟨s, by simp [h1], h2⟩
  · intro kc w hk
    have hk' : (absM d).m kc = some w := hk
    rw [habs] at hk'
    simp only [PMap.put] at hk'
    split at hk'
    · rename_i he
      cases hk'
      exact ⟨s, by simp, he.symm⟩
    · obtain ⟨t, h1, h2⟩ := h.dval kc w hk'
      exact ⟨t, by simp [h1], h2⟩
  · intro kc hk
    show (absM d).m kc = _
    rw [habs, lastSet_snoc_set]
    simp only [PMap.put]
    by_cases he : kc = (E.H.mem s, E.H.xx s)
    · rw [if_pos he, if_pos he.symm]
    · rw [if_neg he, if_neg (fun hc => he hc.symm)]
      exact h.last kc hk

theorem RV.read0 {E : Env} {done : List ROp} {R : RSt} (h : RV E done R) : RV E done { R with read := some (R.read.getD {}) } := by
  refine ⟨?_, h.dval, h.last⟩
  intro x hx p hp
  have hx' : R.read.getD {} = x := by simpa using hx
  subst hx'
  cases hr : R.read with
  | none => simp only [hr] at hp; cases hp
  | some y => simp only [hr] at hp; exact h.val y hr p hp

theorem set_rv {E : Env} {done : List ROp} {R : RSt} {s : List (BitVec 8)} {v : IVal}
    (hcl : AllClean E (setOps (done ++ [.set s v]))) (ht : Typed (done ++ [.set s v])) (h : RI E done R) (hv : RV E done R) :
    RV E (done ++ [.set s v]) (set E R s v).1 ∧ (set E R s v).2 = .bool true := by
  have hcases := set_cases (v := v) (s := s) hcl h
  have hm : (setOps done).Sublist (setOps (done ++ [.set s v])) := by rw [setOps_append]; exact List.sublist_append_left _ _
  have hcl0 := hcl.sub hm
  have h0 := h.read0
  have hv0 := hv.read0
  have hcl1 := hcl; rw [setOps_snoc_set] at hcl1
  obtain ⟨ty, hty⟩ := ht
  simp only at hcases
  rcases hcases with ⟨hr, hs⟩ | ⟨hr, ha, hs, ho⟩ | ⟨hr, ha, R1, hR1, hs⟩
  · rw [hs]
    refine ⟨⟨?_, ?_, ?_⟩, rfl⟩
    · intro rd hrd p hp
      obtain ⟨t, h1, h2⟩ := hv0.val rd hrd p hp
      exact ⟨t, by simp [h1], h2⟩
    · intro kc w hk
      obtain ⟨t, h1, h2⟩ := hv0.dval kc w hk
      exact ⟨t, by simp [h1], h2⟩
    · intro kc hk
      rw [lastSet_snoc_set, if_neg]
      · exact hv0.last kc hk
      · intro hc
        rw [← hc] at hk
        exact hr hk
  · obtain ⟨hd, habs⟩ := h.dirty.store (it := newItem s v) hcl1
    obtain ⟨old, hold⟩ := Option.ne_none_iff_exists'.1 ha
    obtain ⟨t, h1, _⟩ := hv.dval _ _ hold
    obtain ⟨w, rfl⟩ := hty t old (by simp [h1])
    obtain ⟨w', rfl⟩ := hty s v (by simp)
    have hfn := h.dirty.fn hcl0
    have hst : (absM R.dirty).step E.H (.storeItem (newItem s (some ⟨ty, w'⟩))) =
        ((absM R.dirty).put (E.H.mem s, E.H.xx s) (some ⟨ty, w'⟩), .bool true) := by
      unfold PMap.step
      dsimp only
      rw [newItem_hash]
      dsimp only
      rw [hold]
      dsimp only
      unfold PMap.overwrite
      rw [hfn]
      simp [newItem]
    rw [hst] at habs
    have habs1 := congrArg Prod.fst habs
    have habs2 := congrArg Prod.snd habs
    simp only at habs1 habs2
    rw [hs]
    refine ⟨hv0.put habs1, ?_⟩
    rcases ho with ho | ⟨p, _, ho⟩
    · exact ho
    · -- a panic would mean the store changed nothing, and it answered true
      have g := h.dirty.good hcl0
      have hge := getEntry_eq (E := E) g (E.H.mem s) (E.H.xx s)
      rw [absM_m] at hold
      cases hl : lookup R.dirty.items (E.H.mem s) (E.H.xx s) with
      | none => rw [hl] at hold; cases hold
      | some e =>
        rw [hl] at hold
        simp only [Option.map_some, Option.some.injEq] at hold
        have hfn' : R.dirty.itemFn = .sample := hfn
        unfold set
        dsimp only
        rw [hr]
        dsimp only
        rw [hge, hl]
        dsimp only
        have : update R.dirty e (some ⟨ty, w'⟩) = ({ R.dirty with items := setVal e.ref (some ⟨ty, w'⟩) R.dirty.items }, .bool true) := by
          unfold update
          simp only [hfn', setValue, hold, if_true]
        rw [this]
  · have hRI1 : RI E done R1 ∧ RV E done R1 ∧ (absM R1.dirty).m (E.H.mem s, E.H.xx s) = none := by
      rw [hR1]
      split
      · exact ⟨h0, hv0, ha⟩
      · obtain ⟨h1, h2⟩ := promote_ok hcl0 h0 true
        refine ⟨h1, promote_rv hcl0 h0.dirty hv0 true, ?_⟩
        rcases promote_cases { R with read := some (R.read.getD {}) } true with ⟨hp, _⟩ | ⟨hp, _⟩
        · rw [hp]; exact ha
        · rw [hp, absM_init]; rfl
    obtain ⟨hRI1, hv1, ha1⟩ := hRI1
    obtain ⟨hd, habs⟩ := hRI1.dirty.store (it := newItem s v) hcl1
    rw [pmap_store_adds (newItem_hash E s v) ha1] at habs
    have habs1 := congrArg Prod.fst habs
    simp only at habs1
    have hv2 : RV E (done ++ [.set s v]) { R1 with dirty := (SLM.step E R1.dirty (.storeItem (newItem s v))).1 } := hv1.put habs1
    rw [hs]
    refine ⟨?_, rfl⟩
    dsimp only
    split
    · exact promote_rv hcl (by rw [setOps_snoc_set]; exact hd) hv2 true
    · exact hv2

theorem get_rv {E : Env} {done : List ROp} {R : RSt} (s : List (BitVec 8))
    (hcl : AllClean E (setOps done)) (h : RI E done R) (hv : RV E done R) : RV E (done ++ [.get s]) (get E R s).1 := by
  have hmiss : RV E done (missLocked R) := by
    have hR1 : RV E done { R with misses := R.misses + 1 } := ⟨hv.val, hv.dval, hv.last⟩
    unfold missLocked
    dsimp only
    split
    · exact hR1
    · have h1 := promote_rv hcl (R := { R with misses := R.misses + 1 }) h.dirty hR1 false
      exact ⟨h1.val, h1.dval, h1.last⟩
  apply RV.other _ _ (by intro _ _ hc; cases hc)
  unfold get
  dsimp only
  split
  · exact hv
  · split
    · split
      · exact hv
      · exact hv
    · split
      · split
        · exact hv
        · exact hmiss
      · exact hv

theorem run_rv {E : Env} {ops done : List ROp} {R : RSt} (hnd : ∀ t, ROp.delete t ∉ ops)
    (ht : Typed (done ++ ops)) (hcl : AllClean E (setOps (done ++ ops))) (h : RI E done R) (hv : RV E done R) :
    RV E (done ++ ops) (run E R ops).1 := by
  induction ops generalizing done R with
  | nil => rw [List.append_nil]; exact hv
  | cons op ops ih =>
    have hcl1 : AllClean E (setOps (done ++ [op])) := hcl.sub (by
      rw [show done ++ op :: ops = (done ++ [op]) ++ ops by simp, setOps_append (done ++ [op])]; exact List.sublist_append_left _ _)
    have hcl0 : AllClean E (setOps done) := hcl1.sub (by rw [setOps_append]; exact List.sublist_append_left _ _)
    have ht1 : Typed (done ++ [op]) := by
      obtain ⟨ty, hty⟩ := ht
      refine ⟨ty, fun s v hs => hty s v ?_⟩
      simp only [List.mem_append, List.mem_cons, List.not_mem_nil, or_false] at hs ⊢
      tauto
    have h1 := (run_ok (ops := [op]) (fun t ht => hnd t (by simp only [List.mem_cons, List.not_mem_nil, or_false] at ht; simp [ht])) hcl1 h).1
    have h2 : RV E (done ++ [op]) (step E R op).1 := by
      cases op with
      | set s v => exact (set_rv hcl1 ht1 h hv).1
      | get s => exact get_rv s hcl0 h hv
      | delete s => exact absurd (by simp) (hnd s)
      | len => exact hv.other _ (by intro _ _ hc; cases hc)
    have := ih (fun t ht => hnd t (by simp [ht])) (done := done ++ [op]) (R := (step E R op).1) (by rw [List.append_assoc]; exact ht)
      (by rw [List.append_assoc]; exact hcl) h1 h2
    rw [List.append_assoc] at this
    exact this

end SLM.RMap
