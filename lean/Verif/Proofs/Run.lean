import Verif.Proofs.Refine2
import Verif.History
/-! Histories: clean ones refine the plain map. -/
set_option linter.unusedSimpArgs false
set_option autoImplicit false
namespace SLM
open Spec (PMap ans Ans)
open History


theorem run_append (E : Env) (st : St) (a b : List Op) :
    run E st (a ++ b) = ((run E (run E st a).1 b).1, (run E st a).2 ++ (run E (run E st a).1 b).2) := by
  induction a generalizing st with
  | nil => simp [run]
  | cons op a ih => simp only [List.cons_append, run, ih]

theorem run_cons (E : Env) (st : St) (op : Op) (ops : List Op) :
    run E st (op :: ops) = ((run E (step E st op).1 ops).1, (step E st op).2 :: (run E (step E st op).1 ops).2) := rfl

/-- The live items come from the set `S` of hash pairs. -/
def LiveIn (S : U64 → U64 → Prop) (st : St) : Prop := ∀ x, Live st.items x → ∃ k, x.rev = rev64 k ∧ S k x.conflict

theorem absM_some {st : St} (hu : Uniq st.items) {k c : U64} {v : IVal} :
    (absM st).m (k, c) = some v ↔ ∃ e, Live st.items e ∧ e.rev = rev64 k ∧ e.conflict = c ∧ e.val = v := by
  rw [absM_m]
  constructor
  · intro h
    obtain ⟨e, he, hv⟩ := Option.map_eq_some_iff.1 h
    obtain ⟨h1, h2, h3⟩ := (lookup_live hu).1 he
    exact ⟨e, h1, h2, h3, hv⟩
  · rintro ⟨e, h1, h2, h3, h4⟩
    rw [(lookup_live hu).2 ⟨h1, h2, h3⟩]; simp [h4]

/-- Liveness by hash, read off the plain map. -/
theorem liveIn_iff {S : U64 → U64 → Prop} {st : St} (hu : Uniq st.items) :
    LiveIn S st ↔ ∀ k c, (absM st).m (k, c) ≠ none → S k c := by
  constructor
  · intro h k c hn
    obtain ⟨v, hv⟩ := Option.ne_none_iff_exists'.1 hn
    obtain ⟨e, h1, h2, h3, _⟩ := (absM_some hu).1 hv
    obtain ⟨k', hk', hS⟩ := h e h1
    rw [h2] at hk'
    rw [rev64_inj hk', ← h3]; exact hS
  · intro h x hx
    refine ⟨rev64 x.rev, (rev64_rev64 _).symm, h _ _ ?_⟩
    rw [(absM_some hu).2 ⟨x, hx, (rev64_rev64 _).symm, rfl, rfl⟩]
    simp

theorem PMap.step_present {H : HashFns} {s : PMap} {op : Op} {kc : U64 × U64} (h : (s.step H op).1.m kc ≠ none) :
    s.m kc ≠ none ∨ storeHash H op = some kc := by
  by_cases hm : s.m kc = none
  · right
    cases op with
    | set key v =>
      simp only [PMap.step] at h
      simp only [storeHash]
      cases hk : keyToHash H key with
      | none => rw [hk] at h; exact absurd hm h
      | some kc' =>
        rw [hk] at h
        simp only at h
        by_cases hkk : kc' = kc
        · rw [hkk]
        · exfalso
          apply h
          have hne : kc ≠ kc' := fun hc => hkk hc.symm
          cases hs : s.m kc' with
          | none =>
            simp only [hs]
            cases key <;> simp [PMap.put, hm, hne]
          | some old =>
            simp only [hs, PMap.overwrite]
            split
            · simp [PMap.put, hm, hne]
            · exact hm
            · simp [PMap.put, hm, hne]
            · split
              · simp [PMap.put, hm, hne]
              · exact hm
    | storeItem it =>
      simp only [PMap.step] at h
      simp only [storeHash]
      cases hk : keyToHash H it.key with
      | none => rw [hk] at h; exact absurd hm h
      | some kc' =>
        rw [hk] at h
        simp only at h
        by_cases hkk : kc' = kc
        · rw [hkk]
        · exfalso
          apply h
          have hne : kc ≠ kc' := fun hc => hkk hc.symm
          cases hs : s.m kc' with
          | none => simp [hs, PMap.put, hm, hne]
          | some old =>
            simp only [hs, PMap.overwrite]
            split
            · simp [PMap.put, hm, hne]
            · exact hm
            · simp [PMap.put, hm, hne]
            · split
              · simp [PMap.put, hm, hne]
              · exact hm
    | delete key =>
      exfalso
      apply h
      simp only [PMap.step]
      cases hk : keyToHash H key with
      | none => exact hm
      | some kc' =>
        simp only
        cases hs : s.m kc' with
        | none => exact hm
        | some v => simp only [PMap.del]; split <;> simp [hm]
    | get key =>
      exfalso; apply h; simp only [PMap.step]; cases keyToHash H key <;> exact hm
    | loadItem key =>
      exfalso; apply h; simp only [PMap.step]; cases keyToHash H key <;> exact hm
    | getByHash k c => exact absurd hm h
    | loadItemByHash k c => exact absurd hm h
    | len => exact absurd hm h
    | range => exact absurd hm h
  · exact Or.inl hm

theorem getByHash_absM {E : Env} {st : St} (g : Good st) (k c : U64) :
    opGetByHash E st k c = match (absM st).m (k, c) with | some v => .val v true | none => .val none false := by
  unfold opGetByHash
  rw [getEntry_eq g, absM_m]
  cases lookup st.items k c <;> rfl

theorem AdmOp.of {E : Env} {st : St} (g : Good st) {S : U64 → U64 → Prop} (hS : ∀ k c c', S k c → S k c' → c = c')
    (hl : LiveIn S st) {op : Op} (hop : ∀ k c, storeHash E.H op = some (k, c) → S k c)
    (hfresh : ∀ it, op = .storeItem it → it.rev0 = 0 ∧ it.conflict0 = 0)
    (hoff : ∀ k c, storeHash E.H op = some (k, c) → (∃ v, opGetByHash E st k c = .val v true) ∨ rev64 k ∉ boundaries st) :
    AdmOp E st op := by
  have key : ∀ k c, storeHash E.H op = some (k, c) → FreeAt st k c := by
    intro k c hk
    by_cases hp : (absM st).m (k, c) = none
    · right
      have h1 := hoff k c hk
      rw [getByHash_absM g, hp] at h1
      simp only [Out.val.injEq, Bool.false_eq_true, and_false, exists_false, false_or] at h1
      constructor
      · intro x hx hr
        obtain ⟨k', hk', hSx⟩ := hl x hx
        have hkk : k' = k := rev64_inj (hk'.symm.trans hr)
        subst hkk
        have hcc : x.conflict = c := hS _ _ _ hSx (hop _ _ hk)
        rw [(absM_some g.uniq).2 ⟨x, hx, hr, hcc, rfl⟩] at hp
        cases hp
      · intro d hd hdd hr
        apply h1
        cases href : d.ref with
        | item n =>
          have := (g.inv.ii.itm d hd n href).1
          rw [hdd] at this; cases this
        | dummy p =>
          obtain ⟨hpb, hde⟩ := g.inv.ii.dum d hd p href
          unfold boundaries
          refine List.mem_map.2 ⟨p, hpb, ?_⟩
          rw [g.inv.bi.rev_eq hpb, ← hr, hde]; rfl
    · exact Or.inl hp
  cases op with
  | set k v => exact key
  | storeItem it => exact ⟨(hfresh it rfl).1, (hfresh it rfl).2, key⟩
  | _ => trivial

/-- A clean history keeps the state good and acts like the plain map. -/
theorem run_refines {E : Env} {S : U64 → U64 → Prop} (hS : ∀ k c c', S k c → S k c' → c = c')
    {ops : List Op} {st : St} (g : Good st) (hl : LiveIn S st)
    (hop : ∀ op ∈ ops, ∀ k c, storeHash E.H op = some (k, c) → S k c) (hfresh : FreshItems ops)
    (hoff : OffBoundary E st ops) (hcr : NoCrash E st ops) :
    Good (run E st ops).1 ∧ LiveIn S (run E st ops).1 ∧
      (absM (run E st ops).1, (run E st ops).2.map ans) = (absM st).run E.H ops := by
  induction ops generalizing st with
  | nil => exact ⟨g, hl, rfl⟩
  | cons op ops ih =>
    rw [NoCrash, run_cons] at hcr
    simp only [List.mem_cons, not_or] at hcr
    have ha : AdmOp E st op := AdmOp.of g hS hl (hop op (by simp)) (fun it h => hfresh it (by simp [h])) hoff.1
    obtain ⟨g', hr⟩ := step_refines g ha (fun h => hcr.1 h.symm)
    have hl' : LiveIn S (step E st op).1 := by
      rw [liveIn_iff g'.uniq]
      intro k c hn
      have h1 : absM (step E st op).1 = ((absM st).step E.H op).1 := congrArg Prod.fst hr
      rw [h1] at hn
      rcases PMap.step_present hn with h2 | h2
      · exact (liveIn_iff g.uniq).1 hl k c h2
      · exact hop op (by simp) k c h2
    obtain ⟨i1, i2, i3⟩ := ih g' hl' (fun o ho => hop o (by simp [ho])) (fun it h => hfresh it (by simp [h])) hoff.2 hcr.2
    rw [run_cons]
    refine ⟨i1, i2, ?_⟩
    simp only [PMap.run, List.map_cons, ← hr]
    rw [← i3]

/-- The pairs stored by a history. -/
def storedPairs (H : HashFns) (ops : List Op) (k c : U64) : Prop := ∃ op ∈ ops, storeHash H op = some (k, c)

theorem History.Clean.refines {E : Env} {cfg : Cfg} {ops : List Op} (h : Clean E cfg ops) :
    Good (run E (initSt cfg) ops).1 ∧ LiveIn (storedPairs E.H ops) (run E (initSt cfg) ops).1 ∧
      (absM (run E (initSt cfg) ops).1, (run E (initSt cfg) ops).2.map ans) = (PMap.empty cfg.itemFn).run E.H ops := by
  rw [← absM_init cfg]
  apply run_refines (S := storedPairs E.H ops) _ (good_init cfg) _ _ h.fresh h.off h.crash
  · rintro k c c' ⟨a, ha, h1⟩ ⟨b, hb, h2⟩
    exact h.coll a ha b hb k c c' h1 h2
  · intro x hx
    have := initSt_dummy cfg x hx.1
    have h2 := hx.2
    simp [Entry.ignored, this] at h2
  · intro op hop k c hk
    exact ⟨op, hop, hk⟩

theorem History.Clean.good {E : Env} {cfg : Cfg} {ops : List Op} (h : Clean E cfg ops) : Good (run E (initSt cfg) ops).1 := h.refines.1

theorem History.OffBoundary.append {E : Env} {st : St} {a b : List Op} :
    OffBoundary E st (a ++ b) ↔ OffBoundary E st a ∧ OffBoundary E (run E st a).1 b := by
  induction a generalizing st with
  | nil => simp [OffBoundary, run]
  | cons op a ih => simp only [List.cons_append, OffBoundary, run_cons, ih, and_assoc]

/-- A prefix of a clean history is clean. -/
theorem History.Clean.left {E : Env} {cfg : Cfg} {a b : List Op} (h : Clean E cfg (a ++ b)) : Clean E cfg a := by
  refine ⟨?_, ?_, (OffBoundary.append.1 h.off).1, ?_⟩
  · intro x hx y hy; exact h.coll x (by simp [hx]) y (by simp [hy])
  · intro it hit; exact h.fresh it (by simp [hit])
  · intro hc; apply h.crash; rw [run_append]; simp [hc]

end SLM
