import Verif.Proofs.Held
import Verif.Props.Sequential
/-! C03, more of what holds in every reachable map, collisions included. -/
set_option autoImplicit false
namespace SLM
open History

/-- The two hashes an operation writes under. -/
def writeHash (H : HashFns) : Op → Option (U64 × U64)
  | .set key _ => keyToHash H key
  | .storeItem it => it.keyHash H
  | .delete key => keyToHash H key
  | _ => none

/-- C03: LoadItem of a key hands out an item that is in the map, is not deleted and has exactly the two hashes of the key. -/
theorem C03_load_partial {E : Env} {st : St} (_h : Reachable E st) {key : Key} {r : Ref} {knd : Kind} (hl : loadRef E st key = some (r, knd)) :
    ∃ e ∈ st.items, e.ref = r ∧ e.dummy = false ∧ e.deleted = false ∧ keyToHash E.H key = some (rev64 e.rev, e.conflict) := by
  unfold loadRef at hl
  cases hk : keyToHash E.H key with
  | none => rw [hk] at hl; simp at hl
  | some kc =>
    obtain ⟨k, c⟩ := kc
    rw [hk] at hl
    simp only [Option.map_eq_some_iff, Prod.mk.injEq] at hl
    obtain ⟨e, he, h1, _⟩ := hl
    have hg : getWithBucket E st k c = (some e, (getWithBucket E st k c).2) := by rw [← he]
    obtain ⟨a1, a2, a3, a4⟩ := getWithBucket_mem hg
    unfold Entry.ignored at a2
    simp only [Bool.or_eq_false_iff] at a2
    exact ⟨e, a1, h1, a2.1, a2.2, by rw [a3, a4, rev64_rev64]⟩

/-- C03: no call touches an entry of other hashes. Whatever Set, StoreItem or Delete is called with, every live entry whose pair of hashes is
another one is in the map afterwards, with the same key, value and hashes; and so are all live entries after any other call. -/
theorem C03_others_kept_partial {E : Env} {st : St} (h : Reachable E st) (op : Op) {e : Entry} (he : e ∈ st.items) (hl : e.ignored = false)
    (hw : writeHash E.H op ≠ some (rev64 e.rev, e.conflict)) : e ∈ (step E st op).1.items := by
  have hsw : ∀ kc, storeHash E.H op = some kc → writeHash E.H op = some kc := by
    intro kc hs
    cases op <;> simp only [storeHash, writeHash, reduceCtorEq] at hs ⊢ <;> exact hs
  rcases step_eff E h.inv op with x | ⟨e1, nv, b, x⟩ | ⟨key, e1, x⟩ | ⟨st2, k, c, e1, x⟩
  · obtain ⟨b, hb⟩ := x.same
    rw [hb]; exact he
  · rw [x.res]
    have hne : e.ref ≠ e1.ref := by
      intro hc
      have := ref_inj h.inv.ii.nodup he x.mem hc
      subst this
      exact hw (hsw _ x.hash)
    exact List.mem_map.2 ⟨e, he, by rw [if_neg hne]⟩
  · rw [x.res]
    have hne : e.ref ≠ e1.ref := by
      intro hc
      have := ref_inj h.inv.ii.nodup he x.mem hc
      subst this
      rw [x.op] at hw
      exact hw x.hash
    exact List.mem_map.2 ⟨e, he, by rw [if_neg hne]⟩
  · have hdum : e.dummy = false := by unfold Entry.ignored at hl; simp at hl; exact hl.1
    exact (x.mem_items hdum).1 he

/-- Both apply where primary hashes collide: a second key with the same primary hash is stored and deleted, the first entry stays. -/
example : ∃ e ∈ (run exE (initSt exCfg) exOps).1.items, e.ignored = false ∧ loadRef exE (run exE (initSt exCfg) exOps).1 (sk 1) = some (e.ref, .sample) ∧
    writeHash exE.H (.delete (.u64 (rev64 e.rev))) ≠ some (rev64 e.rev, e.conflict) ∧
    (writeHash exE.H (.delete (.u64 (rev64 e.rev)))).map (·.1) = some (rev64 e.rev) := by decide +kernel

end SLM
