import Verif.Proofs.Sim2
/-! Non-overlapping calls can always be made. -/
set_option autoImplicit false
namespace SLM.Conc

variable {Pk Pk' : CSt → Call → Ref → Prop}

/-- A call that has located its bucket. -/
def Past : PC → Prop
  | .idle => False
  | .pick _ => False
  | _ => True

theorem Step.pk {s s' : CSt} {g : Tid} (h : Step Pk s g s') (hp : Past (s.pc g)) : Step Pk' s g s' := by
  cases h
  case begin h _ => rw [h] at hp; exact hp.elim
  case beginSplit h _ => rw [h] at hp; exact hp.elim
  case rangeStart h _ => rw [h] at hp; exact hp.elim
  case foreignOpt h => rw [h] at hp; exact hp.elim
  case pickKey h _ _ _ => rw [h] at hp; exact hp.elim
  case pickLost h _ _ _ _ => rw [h] at hp; exact hp.elim
  case pickSplit h _ => rw [h] at hp; exact hp.elim
  case lostFound h1 h2 h3 h4 => exact .lostFound _ _ _ _ _ _ _ _ h1 h2 h3 h4
  case lostPanic h1 h2 h3 => exact .lostPanic _ _ _ _ _ _ _ h1 h2 h3
  case lostGet h1 h2 => exact .lostGet _ _ _ _ _ _ h1 h2
  case lostDel h1 h2 => exact .lostDel _ _ _ _ _ _ h1 h2
  case lostSet h1 h2 => exact .lostSet _ _ _ _ _ _ _ _ h1 h2
  case lostSetLate h1 h2 h3 h4 => exact .lostSetLate _ _ _ _ _ _ _ _ _ h1 h2 h3 h4
  case lookCont h1 h2 h3 h4 => exact .lookCont _ _ _ _ _ _ _ _ _ h1 h2 h3 h4
  case lookHit h1 h2 h3 h4 h5 => exact .lookHit _ _ _ _ _ _ _ _ _ h1 h2 h3 h4 h5
  case lookMiss h1 h2 h3 h4 h5 => exact .lookMiss _ _ _ _ _ _ _ _ _ h1 h2 h3 h4 h5
  case lookAdv h1 => exact .lookAdv _ _ _ _ _ _ h1
  case hitGet h1 h2 => exact .hitGet _ _ _ _ _ _ h1 h2
  case hitSet h1 h2 h3 => exact .hitSet _ _ _ _ _ _ _ _ _ _ h1 h2 h3
  case hitSetPanic h1 h2 h3 => exact .hitSetPanic _ _ _ _ _ _ _ _ _ h1 h2 h3
  case hitDel h1 => exact .hitDel _ _ _ _ _ h1
  case missGet h1 => exact .missGet _ _ _ _ _ h1
  case missDel h1 => exact .missDel _ _ _ _ _ h1
  case missSet h1 => exact .missSet _ _ _ _ _ _ _ h1
  case findOpt h1 => exact .findOpt _ _ _ _ _ _ h1
  case findStop h1 h2 h3 => exact .findStop _ _ _ _ _ _ _ _ h1 h2 h3
  case findCont h1 h2 h3 => exact .findCont _ _ _ _ _ _ _ _ h1 h2 h3
  case findAdv h1 => exact .findAdv _ _ _ _ _ _ _ h1
  case findEnd1 h1 => exact .findEnd1 _ _ _ _ _ _ h1
  case findEnd2 h1 => exact .findEnd2 _ _ _ _ _ _ h1
  case start2 h1 => exact .start2 _ _ _ _ _ h1
  case targetPos h1 => exact .targetPos _ _ _ _ _ h1
  case targetFall h1 h2 h3 => exact .targetFall _ _ _ _ _ _ h1 h2 h3
  case checkOk h1 h2 => exact .checkOk _ _ _ _ h1 h2
  case checkFail h1 h2 => exact .checkFail _ _ _ _ h1 h2
  case link h1 => exact .link _ _ _ _ h1
  case rangeSee h1 h2 => exact .rangeSee _ _ _ _ _ h1 h2
  case rangeAdv h1 => exact .rangeAdv _ _ _ _ h1
  case foreignEnd h1 => exact .foreignEnd _ _ _ h1

theorem Step.past {s s' : CSt} {g : Tid} (h : Step Pk s g s') (hp : Past (s.pc g)) : Past (s'.pc g) := by
  cases h <;> rw [setPC_same]
  case begin h _ => rw [h] at hp; exact hp.elim
  case beginSplit h _ => rw [h] at hp; exact hp.elim
  case lookHit => split <;> trivial
  case lookAdv => split <;> trivial
  case findAdv => split <;> trivial
  case rangeAdv => split <;> trivial
  all_goals trivial

theorem Step.used_eq {s s' : CSt} {g : Tid} (h : Step Pk s g s') (hp : s.pc g ≠ .idle) : s'.used = s.used := by
  cases h <;> first | rfl | (exact absurd ‹s.pc g = .idle› hp)

theorem Step.left_idle {s s' : CSt} {g : Tid} (h : Step Pk s g s') : s'.pc g ≠ .idle := by
  cases h <;> rw [setPC_same]
  case lookHit => split <;> simp
  case lookAdv => split <;> simp
  case findAdv => split <;> simp
  case rangeAdv => split <;> simp
  all_goals simp

theorem Solo.pk {s s' : CSt} {g : Tid} (h : Solo Pk g s s') (hp : Past (s.pc g)) : Solo Pk' g s s' ∧ Past (s'.pc g) := by
  induction h with
  | refl => exact ⟨.refl _, hp⟩
  | step _ st ih => exact ⟨.step ih.1 (st.pk ih.2), st.past ih.2⟩

theorem Solo.used_eq {s s' : CSt} {g : Tid} (h : Solo Pk g s s') (hp : s.pc g ≠ .idle) : s'.used = s.used := by
  have : s'.used = s.used ∧ s'.pc g ≠ .idle := by
    induction h with
    | refl => exact ⟨rfl, hp⟩
    | step _ st ih => exact ⟨by rw [st.used_eq ih.2, ih.1], st.left_idle⟩
  exact this.1

/-- The machine is ready for another call. -/
structure Ready (st : St) (s : CSt) : Prop where
  j : J0 s
  shape : ∀ g, Shape (s.pc g)
  spare : ∃ N : Nat, ∀ g : Tid, N ≤ g → s.pc g = .idle
  used : ∀ p ∈ s.used, p ∈ st.blist

theorem bottom_of {st : St} {s : CSt} (y : Sync st s) : Bottom s.items := by
  have h := findBucket_spec y.inv.bi.ti 0
  have h2 := basePath_spec y.inv.bi _ h.1
  rw [y.items]
  refine ⟨_, y.inv.ii.has _ h2.1, rfl, ?_⟩
  show bvRev _ = 0
  rw [h2.2]
  have := h.2.2
  bv_omega

/-- A call that has begun can be run to its end. -/
theorem run_out {st : St} {s s1 : CSt} {g : Tid} {Pk : CSt → Call → Ref → Prop} (y : Sync st s) (hi : s1.items = s.items) (j : J0 s1) (hs : ∀ g, Shape (s1.pc g))
    (hp : Past (s1.pc g)) (hb : Busy (s1.pc g)) : ∃ s' r, Solo Pk g s1 s' ∧ s'.pc g = .ret r := by
  have hb2 : Bottom s1.items := by rw [hi]; exact bottom_of y
  obtain ⟨s', r, h1, h2⟩ := solo_ends modeNested _ (Nat.le_refl _) j hs hb2 hb
  exact ⟨s', r, (h1.pk hp).1, h2⟩

theorem Ready.after {st st' : St} {s s1 s' : CSt} {g : Tid} (a : Ready st s) (pk : PkOk Pk) (h1 : Step Pk s g s1) (h2 : Solo Pk g s1 s')
    (hu : ∀ p ∈ s1.used, p ∈ st'.blist) : Ready st' s' := by
  refine ⟨h2.steps.j0 pk (h1.j0 pk a.j), ?_, ?_, ?_⟩
  · exact Steps.shape h2.steps (Steps.shape (.step (.refl _) h1) a.shape)
  · obtain ⟨N, hN⟩ := a.spare
    have aux : ∀ x N : Nat, x + 1 + N ≤ x → False := by intro x N h; omega
    have aux2 : ∀ x y N : Nat, x + 1 + N ≤ y → N ≤ y := by intro x y N h; omega
    refine ⟨g + 1 + N, fun u hu => ?_⟩
    have hug : u ≠ g := by rintro rfl; exact aux u N hu
    rw [h2.others hug, h1.others hug]
    exact hN u (aux2 _ _ _ hu)
  · rw [h2.used_eq h1.left_idle]; exact hu

theorem alone_exists {st : St} {s : CSt} {cl : Call} (y : Sync st s) (a : Ready st s)
    (hcl : (∃ t c b d, cl.target = some (t, c) ∧ bucketOf st cl = some b ∧ node s.items b = some d ∧ d.dummy = true ∧
      ∀ t c key v, cl = .set t c key v → d.rev ≤ t) ∨ cl = .range) :
    ∃ r s', Alone1 (pkOf st) s cl r s' ∧ Ready st s' := by
  obtain ⟨N, hN⟩ := a.spare
  have h0 := hN N (Nat.le_refl _)
  rcases hcl with ⟨t, c, b, d, ht, hb, hd, hdd, hdr⟩ | rfl
  · have hdm := node_some hd
    have st1 : Step (pkOf st) s N (setPC s N (.pick cl)) := .begin _ _ _ t c h0 ht
    have st2 : Step (pkOf st) (setPC s N (.pick cl)) N (setPC (setPC s N (.pick cl)) N (.look cl (decide (d.rev < t)) b b false)) :=
      .pickKey _ _ _ t c b d (setPC_same _ _ _) ht ⟨hb, d, hdm.1, hdm.2.1, hdd, hdr⟩ hd
    have j2 := st2.j0 (pkOf_ok st) (st1.j0 (pkOf_ok st) a.j)
    have sh2 := Steps.shape (.step (.step (.refl _) st1) st2) a.shape
    obtain ⟨s', r, h1, h2⟩ := run_out (Pk := pkOf st) (g := N) y (by rfl) j2 sh2 (by rw [setPC_same]; trivial) (by rw [setPC_same]; trivial)
    refine ⟨r, s', ⟨N, _, h0, st1, .inl (setPC_same _ _ _), Solo.head st2 h1, h2⟩, a.after (pkOf_ok st) st1 (Solo.head st2 h1) a.used⟩
  · have hne : ∃ x, s.items.head? = some x := by
      obtain ⟨d, hd, _⟩ := bottom_of y
      cases hi : s.items with
      | nil => rw [hi] at hd; simp at hd
      | cons x l => exact ⟨x, rfl⟩
    obtain ⟨x, hx⟩ := hne
    have st1 : Step (pkOf st) s N (setPC s N (.walk x.ref [] false)) := .rangeStart _ _ _ h0 hx
    have j2 := st1.j0 (pkOf_ok st) a.j
    have sh2 := Steps.shape (.step (.refl _) st1) a.shape
    obtain ⟨s', r, h1, h2⟩ := run_out (Pk := pkOf st) (g := N) y (by rfl) j2 sh2 (by rw [setPC_same]; trivial) (by rw [setPC_same]; trivial)
    exact ⟨r, s', ⟨N, _, h0, st1, .inr ⟨rfl, _, setPC_same _ _ _⟩, h1, h2⟩, a.after (pkOf_ok st) st1 h1 a.used⟩

theorem split_exists {st mid st' : St} {s : CSt} {t : U64} {p : Path} {b : Ref} (y : Sync mid s) (a : Ready st s) (hp : p ∉ st.blist)
    (hb : bucketOf st (.split t p) = some b) (hlow : ∃ d ∈ s.items, d.ref = b ∧ d.dummy = true) (hp' : p ∈ st'.blist) (hs : ∀ q ∈ st.blist, q ∈ st'.blist) :
    ∃ r s', Alone1 (pkOf st) s (.split t p) r s' ∧ Ready st' s' := by
  obtain ⟨N, hN⟩ := a.spare
  have h0 := hN N (Nat.le_refl _)
  obtain ⟨d, hd, hd1, hd2⟩ := hlow
  have st1 : Step (pkOf st) s N (setPC { s with used := p :: s.used } N (.pick (.split t p))) := .beginSplit _ _ _ _ h0 (fun h => hp (a.used p h))
  have st2 : Step (pkOf st) (setPC { s with used := p :: s.used } N (.pick (.split t p))) N
      (setPC (setPC { s with used := p :: s.used } N (.pick (.split t p))) N (.fOpt true (dummyEntry p t) none b)) :=
    .pickSplit _ _ _ _ b (setPC_same _ _ _) ⟨hb, d, hd, hd1, hd2, by intro _ _ _ _ h; cases h⟩
  have j2 := st2.j0 (pkOf_ok st) (st1.j0 (pkOf_ok st) a.j)
  have sh2 := Steps.shape (.step (.step (.refl _) st1) st2) a.shape
  obtain ⟨s', r, h1, h2⟩ := run_out (Pk := pkOf st) (g := N) y (by rfl) j2 sh2 (by rw [setPC_same]; trivial) (by rw [setPC_same]; trivial)
  refine ⟨r, s', ⟨N, _, h0, st1, .inl (setPC_same _ _ _), Solo.head st2 h1, h2⟩, a.after (pkOf_ok st) st1 (Solo.head st2 h1) ?_⟩
  intro q hq
  simp only [setPC, List.mem_cons] at hq
  rcases hq with rfl | hq
  · exact hp'
  · exact hs q (a.used q hq)

/-- An operation can be made on the machine. -/
theorem oneByOne_step (E : Env) {st : St} {s : CSt} {op : Op} (y : Sync st s) (a : Ready st s) (hf : Fits E op)
    (hc : (step E st op).2 ≠ .panic .bucketHeadEmpty) :
    ∃ cl r s1 L s2, callFor E op = some cl ∧ Alone1 (pkOf st) s cl r s1 ∧ Splits st (splitsOf st (step E st op).1) s1 L s2 ∧ Ready (step E st op).1 s2 := by
  have hfb : ∀ t, V st.mem (findBucket st.mem t) ∧ (st.mem (findBucket st.mem t)).rev ≤ t := fun t =>
    ⟨(findBucket_spec y.inv.bi.ti t).1, (findBucket_spec y.inv.bi.ti t).2.2⟩
  have hget : ∀ k c, ∃ r s', Alone1 (pkOf st) s (.get (rev64 k) c) r s' ∧ Ready st s' := by
    intro k c
    obtain ⟨d, hd, _, hdd⟩ := node_head y.inv (lower_valid y.inv (bucketForKey_valid y.inv.bi (rev64 k)) (rev64 k))
    exact alone_exists y a (.inl ⟨_, _, _, d, rfl, rfl, by rw [y.items]; exact hd, hdd, by intro _ _ _ _ h; cases h⟩)
  have same : ∀ {cl : Call} {r : Res} {s1 : CSt}, (step E st op).1.blist = st.blist → callFor E op = some cl → Alone1 (pkOf st) s cl r s1 →
      Ready st s1 → ∃ cl r s1 L s2, callFor E op = some cl ∧ Alone1 (pkOf st) s cl r s1 ∧
        Splits st (splitsOf st (step E st op).1) s1 L s2 ∧ Ready (step E st op).1 s2 := by
    intro cl r s1 hb h1 h2 h3
    refine ⟨cl, r, s1, [], s1, h1, h2, ?_, h3.j, h3.shape, h3.spare, by rw [hb]; exact h3.used⟩
    rw [splits_self hb]; exact .nil _
  cases op with
  | storeItem it => exact absurd rfl hf
  | loadItem key => exact absurd rfl hf
  | loadItemByHash k c => exact absurd rfl hf
  | len => exact absurd rfl hf
  | get key =>
    cases hk : keyToHash E.H key with
    | none => exact absurd (by rw [callFor_get, hk]; rfl) hf
    | some kc =>
      obtain ⟨r, s', h1, h2⟩ := hget kc.1 kc.2
      exact same rfl (by rw [callFor_get, hk]; rfl) h1 h2
  | getByHash k c =>
    obtain ⟨r, s', h1, h2⟩ := hget k c
    exact same rfl (by rfl) h1 h2
  | range =>
    obtain ⟨r, s', h1, h2⟩ := alone_exists y a (cl := .range) (.inr rfl)
    exact same rfl (by rfl) h1 h2
  | delete key =>
    cases hk : keyToHash E.H key with
    | none => exact absurd (by rw [callFor_del, hk]; rfl) hf
    | some kc =>
      obtain ⟨d, hd, _, hdd⟩ := node_head y.inv (hfb (rev64 kc.1)).1
      obtain ⟨r, s', h1, h2⟩ := alone_exists y a (cl := .del (rev64 kc.1) kc.2)
        (.inl ⟨_, _, _, d, rfl, rfl, by rw [y.items]; exact hd, hdd, by intro _ _ _ _ h; cases h⟩)
      refine same ?_ (by rw [callFor_del, hk]; rfl) h1 h2
      show (opDelete E st key).1.blist = st.blist
      unfold opDelete
      rw [hk]
      simp only
      split <;> rfl
  | set key v =>
    obtain ⟨str, k, c, rfl, hk, hmax⟩ := hf
    obtain ⟨d, hd, hdr, hdd⟩ := node_head y.inv (hfb (rev64 k)).1
    obtain ⟨r, s1, h1, h2⟩ := alone_exists y a (cl := .set (rev64 k) c (.str str) v)
      (.inl ⟨_, _, _, d, rfl, rfl, by rw [y.items]; exact hd, hdd, by intro _ _ _ _ h; cases h; rw [hdr]; exact (hfb _).2⟩)
    have hcl : callFor E (.set (.str str) v) = some (.set (rev64 k) c (.str str) v) := by rw [callFor_set, hk]; rfl
    cases hg : (getWithBucket E st k c).1 with
    | some x =>
      refine same ?_ hcl h1 h2
      have h3 : getWithBucket E st k c = (some x, (getWithBucket E st k c).2) := by rw [← hg]
      simp only [step, opSet, hk]
      rw [h3]
      simp only [update]
      split <;> rfl
    | none =>
      have hop := opSet_new (v := v) hk hg
      have hmid : Inv (setMid (setPre st) k (findBucket st.mem (rev64 k)) (newSetEntry st (.str str) v k c)) :=
        setMid_inv y.inv rfl rfl rfl rfl rfl rfl rfl
      simp only [step] at hc same ⊢
      rw [hop] at hc same ⊢
      rcases setNew_spec hmid with ⟨st', e1, e2, e3⟩ | ⟨e1, _⟩
      · rw [e1] at hc same ⊢
        simp only at hc same ⊢
        rcases e3 with rfl | ⟨A, B, n, b, c', hb⟩
        · exact same rfl hcl h1 h2
        · -- the state after the call, before the split
          have hal := alone_key y rfl rfl (hfb (rev64 k)).1 (by
            intro _ _ _ _ h
            cases h
            exact ⟨low_head y.inv (hfb _).1 (hfb _).2, big_of y.inv hmax⟩) h1
          have e := search_seek E st (findBucket st.mem (rev64 k)) (rev64 k)
          rw [lower_below (hfb _).2] at e
          rw [← e, ← getWith_sel, hg] at hal
          obtain ⟨hal, hq⟩ := hal
          simp only [Call.ends] at hal
          injection hal with g1 g2 g3 g4
          have hit : (setMid (setPre st) k (findBucket st.mem (rev64 k)) (newSetEntry st (.str str) v k c)).items =
              insAt (newSetEntry st (.str str) v k c) st.items := by
            have hlt : (newSetEntry st (.str str) v k c).rev < maxU64 := by
              show rev64 k < maxU64
              have hmx : maxU64 = 18446744073709551615#64 := by decide
              rw [hmx] at hmax ⊢
              bv_omega
            exact setInsert_eq (st := { setPre st with nextId := st.nextId }) ⟨y.inv.bi, y.inv.ii, y.inv.lv⟩ (hfb _).1 (hfb _).2 hlt
          have ymid : Sync (setMid (setPre st) k (findBucket st.mem (rev64 k)) (newSetEntry st (.str str) v k c)) s1 :=
            ⟨hmid, by rw [hit, ← g2]; rfl, g3.symm, g4.symm, hq, .inl rfl⟩
          have hfind : ∃ q, st.blist.find? (fun q => decide ((st.mem q).rev ≤ bvRev b)) = some q := by
            rw [← Option.isSome_iff_exists, List.find?_isSome]
            refine ⟨findBucket st.mem (bvRev b) |> basePath st.mem, (basePath_spec y.inv.bi _ (hfb (bvRev b)).1).1, ?_⟩
            have h9 := basePath_spec y.inv.bi _ (hfb (bvRev b)).1
            rw [y.inv.bi.rev_eq h9.1, h9.2]
            simpa using (hfb (bvRev b)).2
          obtain ⟨q, hq'⟩ := hfind
          have hqm := List.mem_of_find?_eq_some hq'
          obtain ⟨r', s2, f1, f2⟩ := split_exists (st' := st') (t := bvRev b) (p := b) (b := .dummy q) ymid h2 hb.notin (by simp [bucketOf, hq'])
            ⟨dummyEntry q (bvRev q), by rw [ymid.items]; exact hmid.ii.has q hqm, rfl, rfl⟩ (by rw [hb.new]; simp) (by
              intro x hx
              have hx' : x ∈ A ++ n :: c' :: B := by rw [← hb.old]; exact hx
              rw [hb.new]
              simp only [List.mem_append, List.mem_cons] at hx' ⊢
              tauto)
          refine ⟨_, r, s1, [(.split (bvRev b) b, r')], s2, hcl, h1, ?_, f2⟩
          rw [splits_new (st := st) (by rfl) hb]
          exact .cons f1 (.nil _)
      · rw [e1] at hc
        exact absurd rfl hc

/-- Every history can be made on the machine, one call after the other. -/
theorem oneByOne_exists (E : Env) {st : St} {s : CSt} (ops : List Op) (y : Sync st s) (a : Ready st s) (hf : ∀ op ∈ ops, Fits E op)
    (hc : Out.panic .bucketHeadEmpty ∉ (run E st ops).2) : ∃ L s', OneByOne E st ops s L s' := by
  induction ops generalizing st s with
  | nil => exact ⟨_, _, .nil _ _⟩
  | cons op ops ih =>
    simp only [run, List.mem_cons, not_or] at hc
    obtain ⟨cl, r, s1, L, s2, h1, h2, h3, h4⟩ := oneByOne_step E y a (hf op (by simp)) (fun h => hc.1 h.symm)
    have h5 := (sim_step E y (hf op (by simp)) (fun h => hc.1 h.symm) h1 h2 h3).2.2
    obtain ⟨L', s', h6⟩ := ih h5 h4 (fun op ho => hf op (by simp [ho])) hc.2
    exact ⟨_, _, .cons h1 h2 h3 h6⟩

end SLM.Conc
