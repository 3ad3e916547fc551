import Verif.Props.RMap
import Verif.Props.Provenance
/-!
C61: `RMap.Get` never shows a value that was not handed to an acknowledged `Set` for a key with the same two hashes; every
history (collisions, keys on a boundary, Deletes, crashed calls), every hash function, no side condition.
-/
set_option autoImplicit false
set_option maxRecDepth 20000
namespace SLM.RMap
open History

/-- `G k c v`: value `v` was given for the hash pair `(k, c)`.  Everything the RMap holds was given. -/
structure RP (G : U64 → U64 → IVal → Prop) (R : RSt) : Prop where
  inv : Inv R.dirty
  dirty : ∀ e ∈ R.dirty.items, e.dummy = false → G (rev64 e.rev) e.conflict e.val
  read : ∀ rd, R.read = some rd → ∀ p ∈ rd.m, G p.1 p.2.conflict p.2.val

theorem rp_init (G : U64 → U64 → IVal → Prop) : RP G init := by
  refine ⟨inv_init _, fun e he hd => ?_, fun rd h => by cases h⟩
  have := initSt_dummy dirtyCfg e he
  rw [this] at hd; cases hd

theorem RP.mono {G G' : U64 → U64 → IVal → Prop} {R : RSt} (h : RP G R) (hg : ∀ k c v, G k c v → G' k c v) : RP G' R :=
  ⟨h.inv, fun e he hd => hg _ _ _ (h.dirty e he hd), fun rd hr p hp => hg _ _ _ (h.read rd hr p hp)⟩

theorem RP.promote {G : U64 → U64 → IVal → Prop} {R : RSt} (h : RP G R) (a : Bool) : RP G (promote R a) := by
  unfold RMap.promote
  dsimp only
  split
  · exact h
  · refine ⟨inv_init _, fun e he hd => ?_, fun rd hr p hp => ?_⟩
    · have := initSt_dummy dirtyCfg e he
      rw [this] at hd; cases hd
    · simp only [Option.some.injEq] at hr
      subst hr
      rcases merged_mem hp with hp | ⟨e, he, rfl⟩
      · cases hR : R.read with
        | none => rw [hR] at hp; cases hp
        | some rd => rw [hR] at hp; exact h.read rd hR p hp
      · have hl := he.2
        unfold Entry.ignored at hl
        simp at hl
        exact h.dirty e he.1 hl.1

theorem RP.read0 {G : U64 → U64 → IVal → Prop} {R : RSt} (h : RP G R) : RP G { R with read := some (R.read.getD {}) } := by
  refine ⟨h.inv, h.dirty, fun rd hr p hp => ?_⟩
  simp only [Option.some.injEq] at hr
  subst hr
  cases hR : R.read with
  | none => rw [hR] at hp; cases hp
  | some rd => rw [hR] at hp; exact h.read rd hR p hp

theorem RP.missLocked {G : U64 → U64 → IVal → Prop} {R : RSt} (h : RP G R) : RP G (missLocked R) := by
  unfold RMap.missLocked
  dsimp only
  have h1 : RP G { R with misses := R.misses + 1 } := ⟨h.inv, h.dirty, h.read⟩
  split
  · exact h1
  · have := h1.promote false
    exact ⟨this.inv, this.dirty, this.read⟩

/-- Any operation of the dirty map that brings a given value. -/
theorem RP.dirtyStep {G : U64 → U64 → IVal → Prop} {R : RSt} (h : RP G R) {op : Op} {r : St × Out} (hi : Inv r.1) {E : Env}
    (hv : ∀ k c v, Supplies E.H op k c v → G k c v)
    (he : EffIdle R.dirty op r ∨ (∃ e nv b, EffUpdate E R.dirty op r e nv b) ∨ ∃ st2 k c e, EffNew E R.dirty op r st2 k c e) :
    RP G { R with dirty := r.1 } := by
  refine ⟨hi, fun e hm hd => ?_, h.read⟩
  rcases he with x | ⟨e1, nv, b, x⟩ | ⟨st2, k, c, e1, x⟩
  · obtain ⟨b, hb⟩ := x.same
    dsimp only at hm
    rw [hb] at hm
    exact h.dirty e hm hd
  · dsimp only at hm
    rw [x.res] at hm
    obtain ⟨e0, h0, rfl⟩ := List.mem_map.1 hm
    by_cases hr : e0.ref = e1.ref
    · have := ref_inj h.inv.ii.nodup h0 x.mem hr
      subst this
      have hl : e0.dummy = false := by have := x.live; unfold Entry.ignored at this; simp at this; exact this.1
      rw [if_pos rfl]
      rcases x.val with hx | ⟨hx, _⟩
      · rw [show ({ e0 with val := nv } : Entry) = e0 by rw [hx]]
        exact h.dirty e0 h0 hl
      · exact hv _ _ _ ⟨hx, Or.inl x.hash⟩
    · rw [if_neg hr] at hd ⊢
      exact h.dirty e0 h0 hd
  · rcases (x.mem_items hd).2 hm with rfl | hm
    · exact hv _ _ _ x.supplies.1
    · exact h.dirty e hm hd

theorem supplies_new {E : Env} {s : List (BitVec 8)} {v : IVal} {G : U64 → U64 → IVal → Prop} (hg : G (E.H.mem s) (E.H.xx s) v)
    (k c : U64) (w : IVal) (h : Supplies E.H (.storeItem (newItem s v)) k c w) : G k c w := by
  obtain ⟨h1, h2⟩ := h
  simp only [opVal, newItem, Option.some.injEq] at h1
  subst h1
  have h3 : (E.H.mem s, E.H.xx s) = (k, c) := by
    rcases h2 with h2 | h2
    · simpa [storeHash, newItem, keyToHash] using h2
    · simpa [filedAs, newItem, keyToHash] using h2
  cases h3
  exact hg

theorem set_rp {E : Env} {R : RSt} {G G' : U64 → U64 → IVal → Prop} (h : RP G R) (hg : ∀ k c v, G k c v → G' k c v)
    (s : List (BitVec 8)) (v : IVal) (ha : (set E R s v).2 = .bool true → G' (E.H.mem s) (E.H.xx s) v) :
    RP G' (set E R s v).1 := by
  have h0 := (h.mono hg).read0
  unfold set at ha ⊢
  dsimp only at ha ⊢
  cases hm : mget (R.read.getD {}).m (E.H.mem s) with
  | some it => exact h0
  | none =>
    rw [hm] at ha
    dsimp only at ha ⊢
    cases hge : getEntry E R.dirty (E.H.mem s) (E.H.xx s) with
    | some e =>
      rw [hge] at ha
      dsimp only at ha ⊢
      obtain ⟨m1, m2, m3, m4⟩ := getEntry_mem hge
      have hu := update_eff (E := E) (op := .set (.str s) v) v m1 m2
        (by simp only [storeHash, keyToHash]; rw [m3, m4, rev64_rev64]) rfl
      have hi := update_inv h.inv m1 m2 v
      cases ho : update R.dirty e v with
      | mk d o =>
        have key : o ≠ .panic .valueType → G' (E.H.mem s) (E.H.xx s) v → RP G' { R with read := some (R.read.getD {}), dirty := d } := by
          intro _ hgv
          rw [ho] at hu hi
          have := RP.dirtyStep (op := .set (.str s) v) (E := E) h0 (r := (d, o)) hi
            (fun k c w hw => by
              obtain ⟨w1, w2⟩ := hw
              simp only [opVal, Option.some.injEq] at w1
              subst w1
              have h3 : (E.H.mem s, E.H.xx s) = (k, c) := by
                rcases w2 with w2 | w2 <;> simpa [storeHash, filedAs, keyToHash] using w2
              cases h3
              exact hgv)
            (hu.imp id (fun ⟨nv, b, h⟩ => Or.inl ⟨e, nv, b, h⟩))
          exact this
        rw [ho] at ha
        cases o with
        | panic p => exact h0
        | bool b => exact key (by simp) (ha rfl)
        | val a b => exact key (by simp) (ha rfl)
        | item a => exact key (by simp) (ha rfl)
        | num a => exact key (by simp) (ha rfl)
        | seq a => exact key (by simp) (ha rfl)
    | none =>
      rw [hge] at ha
      dsimp only at ha ⊢
      have h1 : RP G' (if (R.read.getD {}).amended = true then { R with read := some (R.read.getD {}) }
          else promote { R with read := some (R.read.getD {}) } true) := by
        split
        · exact h0
        · exact h0.promote true
      revert ha
      generalize (if (R.read.getD {}).amended = true then ({ R with read := some (R.read.getD {}) } : RSt)
          else promote { R with read := some (R.read.getD {}) } true) = R1 at h1
      intro ha
      have he := step_eff E h1.inv (.storeItem (newItem s v))
      have hi := step_inv E h1.inv (.storeItem (newItem s v))
      simp only [SLM.step] at he hi
      cases ho : opStoreItem E R1.dirty (newItem s v) with
      | mk d o =>
        rw [ho] at he hi
        have key : G' (E.H.mem s) (E.H.xx s) v →
            RP G' (if (R.read.getD {}).m.length = 0 then promote { R1 with dirty := d } true else { R1 with dirty := d }) := by
          intro hgv
          have : RP G' { R1 with dirty := d } := by
            refine RP.dirtyStep (op := .storeItem (newItem s v)) (E := E) h1 (r := (d, o)) hi (supplies_new hgv) ?_
            rcases he with he | he | ⟨key, e, he⟩ | he
            · exact Or.inl he
            · exact Or.inr (Or.inl he)
            · cases he.op
            · exact Or.inr (Or.inr he)
          split
          · exact this.promote true
          · exact this
        rw [ho] at ha
        cases o with
        | panic p => exact h1
        | bool b => exact key (ha rfl)
        | val a b => exact key (ha rfl)
        | item a => exact key (ha rfl)
        | num a => exact key (ha rfl)
        | seq a => exact key (ha rfl)

theorem get_rp {E : Env} {R : RSt} {G : U64 → U64 → IVal → Prop} (h : RP G R) (s : List (BitVec 8)) : RP G (get E R s).1 := by
  unfold get
  dsimp only
  split
  · exact h
  · split
    · split <;> exact h
    · split
      · split
        · exact h
        · exact h.missLocked
      · exact h

theorem delete_rp {E : Env} {R : RSt} {G : U64 → U64 → IVal → Prop} (h : RP G R) (s : List (BitVec 8)) : RP G (delete E R s).1 := by
  unfold delete
  dsimp only
  split
  · exact h
  · split
    · exact h
    · split
      · cases hge : getEntry E R.dirty (E.H.mem s) (E.H.xx s) with
        | none =>
          dsimp only
          split <;> exact ⟨h.inv, h.dirty, h.read⟩
        | some e =>
          dsimp only
          obtain ⟨m1, m2, _⟩ := getEntry_mem hge
          have hi : Inv { R.dirty with len := R.dirty.len - 1, items := markDeleted R.dirty.itemFn e.ref R.dirty.items } :=
            ⟨h.inv.bi, h.inv.ii.mapItem e.ref (h.inv.ii.live_ref m1 m2) _ (fun x => ⟨rfl, rfl, rfl⟩), h.inv.lv⟩
          have hd : ∀ x ∈ markDeleted R.dirty.itemFn e.ref R.dirty.items, x.dummy = false → G (rev64 x.rev) x.conflict x.val := by
            intro x hx hd
            obtain ⟨e0, h0, rfl⟩ := List.mem_map.1 hx
            split at hd
            · rw [if_pos ‹_›]; exact h.dirty e0 h0 hd
            · rw [if_neg ‹_›]; exact h.dirty e0 h0 hd
          split <;> exact ⟨hi, hd, h.read⟩
      · exact h

/-- `v` was handed to a `Set` that answered true, for a key with these hashes. -/
def GivenTo (E : Env) (ops : List ROp) (k c : U64) (v : IVal) : Prop :=
  ∃ a s b, ops = a ++ .set s v :: b ∧ E.H.mem s = k ∧ E.H.xx s = c ∧ after E a (.set s v) = .bool true

theorem run_rp (E : Env) (ops : List ROp) : RP (GivenTo E ops) (run E init ops).1 := by
  induction ops using List.reverseRecOn with
  | nil => exact rp_init _
  | append_singleton ops op ih =>
    rw [run_append]
    have hmono : ∀ k c v, GivenTo E ops k c v → GivenTo E (ops ++ [op]) k c v := by
      rintro k c v ⟨a, s, b, h1, h2⟩
      exact ⟨a, s, b ++ [op], by rw [h1]; simp, h2⟩
    show RP _ (step E (run E init ops).1 op).1
    cases op with
    | set s v => exact set_rp ih hmono s v (fun hc => ⟨ops, s, [], rfl, rfl, rfl, hc⟩)
    | get s => exact get_rp (ih.mono hmono) s
    | delete s => exact delete_rp (ih.mono hmono) s
    | len => exact ih.mono hmono

/-- C61: whatever Get(s) shows as a value was handed to an acknowledged Set for a key with the hashes of `s`. -/
theorem C61_get (E : Env) (ops : List ROp) (s : List (BitVec 8)) (r : RVal) (ok : Bool)
    (h : after E ops (.get s) = .got r ok) (v : Val) (hv : r = .plain (some v) ∨ r = .atomicValue (some v)) :
    ok = true ∧ GivenTo E ops (E.H.mem s) (E.H.xx s) (some v) := by
  have hp := run_rp E ops
  unfold after at h
  simp only [step] at h
  unfold get at h
  dsimp only at h
  cases hr : (run E init ops).1.read with
  | none => rw [hr] at h; cases h
  | some rd =>
    rw [hr] at h
    dsimp only at h
    cases hm : mget rd.m (E.H.mem s) with
    | some it =>
      rw [hm] at h
      dsimp only at h
      split at h
      · rename_i hc
        simp only [ROut.got.injEq] at h
        obtain ⟨rfl, rfl⟩ := h
        have := hp.read rd hr _ (mget_mem hm)
        dsimp only at this
        rw [hc] at this
        rcases hv with hv | hv
        · cases hv
        · simp only [RVal.atomicValue.injEq] at hv; rw [hv] at this; exact ⟨rfl, this⟩
      · simp only [ROut.got.injEq] at h
        obtain ⟨rfl, rfl⟩ := h
        rcases hv with hv | hv <;> cases hv
    | none =>
      rw [hm] at h
      dsimp only at h
      split at h
      · cases hge : getEntry E (run E init ops).1.dirty (E.H.mem s) (E.H.xx s) with
        | none => rw [hge] at h; cases h
        | some e =>
          rw [hge] at h
          dsimp only at h
          simp only [ROut.got.injEq] at h
          obtain ⟨rfl, rfl⟩ := h
          obtain ⟨m1, m2, m3, m4⟩ := getEntry_mem hge
          have hd : e.dummy = false := by unfold Entry.ignored at m2; simp at m2; exact m2.1
          have := hp.dirty e m1 hd
          rw [m3, m4, rev64_rev64] at this
          rcases hv with hv | hv
          · simp only [RVal.plain.injEq] at hv; rw [hv] at this; exact ⟨rfl, this⟩
          · cases hv
      · simp only [ROut.got.injEq] at h
        obtain ⟨rfl, rfl⟩ := h
        rcases hv with hv | hv <;> cases hv

/-- Presence, unlike values, is invented: a key never set, whose primary hash is that of a key in the read map, is
reported present (with nil) while the read map is amended. -/
theorem C61_phantom_key :
    after clashE [.set [1] (exV 10)] (.get [2]) = .got (.plain none) true ∧
    ∀ v, ROp.set [2] v ∉ [ROp.set [1] (exV 10)] := by
  refine ⟨by decide +kernel, fun v h => by simp at h⟩

/-- The hypotheses are met by a value still in the dirty map, by one already promoted, under collisions, and after a
Delete. -/
example :
    after exE exRops (.get [5]) = .got (.plain (exV 50)) true ∧ after exE exRops (.get [2]) = .got (.atomicValue (exV 21)) true ∧
    after clashE [.set [1] (exV 10), .set [2] (exV 20)] (.get [1]) = .got (.atomicValue (exV 10)) true ∧
    after exE [.set [1] (exV 1), .set [2] (exV 2), .set [3] (exV 3), .set [4] (exV 4), .delete [2]] (.get [3]) =
      .got (.plain (exV 3)) true := by decide +kernel

end SLM.RMap
