import Verif.Props.Told
import Verif.Props.Content
/-!
C118: what Range shows and what GetByHash finds.  `shown st` (Props/Content.lean) lists what the caller reads off the items RangeItem shows: `KeyInHmap()`
(maphead.go:28-30, the reversed `reverse`), `ConflictInHamp()` (maphead.go:44-46) and the value.
-/
set_option autoImplicit false
set_option maxRecDepth 20000
namespace SLM
open History

/-- The full property: GetByHash of the hashes of an item that Range shows answers the item's value, and what GetByHash finds is shown. -/
def C118_statement (E : Env) (st : St) : Prop :=
  (∀ k c v, (k, c, v) ∈ shown st → opGetByHash E st k c = .val v true) ∧
  (∀ k c v, opGetByHash E st k c = .val v true → (k, c, v) ∈ shown st) ∧
  (∀ k c, (∀ v, (k, c, v) ∉ shown st) → opGetByHash E st k c = .val none false)

theorem mem_shownIds {st : St} {k c : U64} {v : IVal} : (k, c, v) ∈ shown st ↔ ∃ x, Live st.items x ∧ x.rev = rev64 k ∧ x.conflict = c ∧ x.val = v := by
  unfold shown
  rw [told_range, List.mem_map]
  constructor
  · rintro ⟨x, hx, he⟩
    rw [List.mem_filter] at hx
    simp only [Prod.mk.injEq] at he
    exact ⟨x, ⟨hx.1, by simpa using hx.2⟩, by rw [← he.1, rev64_rev64], he.2.1, he.2.2⟩
  · rintro ⟨x, hx, h1, h2, h3⟩
    exact ⟨x, List.mem_filter.2 ⟨hx.1, by simp [hx.2]⟩, by rw [h1, rev64_rev64, h2, h3]⟩

/-- What GetByHash finds is an item that Range shows: every map, every pair of hashes. -/
theorem C118_found {E : Env} {st : St} {k c : U64} {v : IVal} (hg : opGetByHash E st k c = .val v true) : (k, c, v) ∈ shown st := by
  unfold opGetByHash getEntry at hg
  rw [mem_shownIds]
  cases hs : searchByBucket E st (bucketForKey st (rev64 k)) (rev64 k) true with
  | none => rw [hs] at hg; simp at hg
  | some e =>
    obtain ⟨h1, h2, h3⟩ := searchByBucket_mem hs
    rw [hs] at hg
    simp only [h3, ne_eq, not_true_eq_false, false_or] at hg
    by_cases hc : e.conflict = c
    · rw [if_neg (by simp [hc])] at hg
      simp only [Out.val.injEq, and_true] at hg
      exact ⟨e, ⟨h1, h2⟩, h3, hc, hg⟩
    · rw [if_pos (by simp [hc])] at hg
      simp at hg

/-- What Range shows under one hash only once GetByHash finds, if the hash is no bucket boundary. -/
theorem C118_partial {E : Env} {st : St} (h : Told E st) {k c : U64} {v : IVal} (hoff : rev64 k ∉ boundaries st)
    (hm : (k, c, v) ∈ shown st) (hone : ((shown st).map (·.1)).count k ≤ 1) : opGetByHash E st k c = .val v true := by
  have hi := h.inv
  obtain ⟨x, hx, hr, hc, hv⟩ := mem_shownIds.1 hm
  have huniq : ∀ a, Live st.items a → ∀ b, Live st.items b → a.rev = rev64 k → b.rev = rev64 k → a = b := by
    intro a ha b hb h1 h2
    by_contra hne
    have hsub : ∀ y, Live st.items y → y.rev = rev64 k → y ∈ (st.items.filter (fun e => !e.ignored)).filter (fun e => rev64 e.rev == k) := by
      intro y hy hyr
      rw [List.mem_filter, List.mem_filter]
      exact ⟨⟨hy.1, by simp [hy.2]⟩, by rw [hyr, rev64_rev64]; simp⟩
    have hlen : ((st.items.filter (fun e => !e.ignored)).filter (fun e => rev64 e.rev == k)).length ≤ 1 := by
      have h4 : ((shown st).map (·.1)).count k = ((st.items.filter (fun e => !e.ignored)).filter (fun e => rev64 e.rev == k)).length := by
        unfold shown
        rw [told_range, List.map_map, List.count_eq_countP, List.countP_map, List.countP_eq_length_filter]
        rfl
      omega
    have ha' := hsub a ha h1
    have hb' := hsub b hb h2
    generalize (st.items.filter (fun e => !e.ignored)).filter (fun e => rev64 e.rev == k) = l at *
    match l, hlen with
    | [], _ => cases ha'
    | [z], _ =>
      rw [List.mem_singleton] at ha' hb'
      exact hne (ha'.trans hb'.symm)
  have g : KGood st k c := by
    refine ⟨hi, huniq, ?_, ?_⟩
    · intro a ha h1
      rw [huniq a ha x hx h1 hr]; exact hc
    · intro a ha h1 p hp hpr
      exact absurd (List.mem_map.2 ⟨p, hp, by rw [hi.bi.rev_eq hp]; exact hpr⟩) hoff
  unfold opGetByHash
  rw [getEntry_key g, (lookup_key g.uniq).2 ⟨hx, hr, hc⟩, ← hv]

/-- If Range shows several items under one hash that is no boundary, GetByHash finds one of them. -/
theorem C118_some {E : Env} {st : St} (h : Told E st) {k c : U64} {v : IVal} (hoff : rev64 k ∉ boundaries st)
    (hm : (k, c, v) ∈ shown st) : ∃ c' v', opGetByHash E st k c' = .val v' true ∧ (k, c', v') ∈ shown st := by
  obtain ⟨x, hx, hr, hc, hv⟩ := mem_shownIds.1 hm
  cases hs : searchByBucket E st (bucketForKey st (rev64 k)) (rev64 k) true with
  | none => exact absurd hr (Walk.search_off h.inv (bucketForKey_valid h.inv.bi _) (fun p hp hc => hoff (List.mem_map.2 ⟨p, hp, hc⟩)) hs x hx.1 hx.2)
  | some e =>
    obtain ⟨h1, h2, h3⟩ := searchByBucket_mem hs
    have : opGetByHash E st k e.conflict = .val e.val true := by
      unfold opGetByHash getEntry
      rw [hs]; simp [h3]
    exact ⟨_, _, this, C118_found this⟩

/-- A pair of hashes under which Range shows nothing is not found: every map. -/
theorem C118_absent {E : Env} {st : St} {k c : U64} (hm : ∀ v, (k, c, v) ∉ shown st) : opGetByHash E st k c = .val none false := by
  cases hg : getEntry E st k c with
  | none => unfold opGetByHash; rw [hg]
  | some e => exact absurd (C118_found (E := E) (v := e.val) (by unfold opGetByHash; rw [hg])) (hm _)

/-- In the usual case - no two items of one hash, none on a boundary - the full property holds. -/
theorem C118_clean_partial {E : Env} {st : St} (h : Told E st) (hn : ((shown st).map (·.1)).Nodup)
    (hoff : ∀ k ∈ (shown st).map (·.1), rev64 k ∉ boundaries st) : C118_statement E st := by
  refine ⟨?_, fun k c v => C118_found, fun k c => C118_absent⟩
  intro k c v hm
  exact C118_partial h (hoff k (List.mem_map.2 ⟨_, hm, rfl⟩)) hm (List.nodup_iff_count_le_one.1 hn k)

/-- The hypotheses are met: four keys, one of them deleted again. -/
theorem C118_applies : ((shown (run exE (initSt {}) [.set (sk 1) (exV 1), .set (sk 2) (exV 2), .set (sk 17) (exV 3), .set (sk 33) (exV 4), .delete (sk 17)]).1).map (·.1)).Nodup ∧
    ((shown (run exE (initSt {}) [.set (sk 1) (exV 1), .set (sk 2) (exV 2), .set (sk 17) (exV 3), .set (sk 33) (exV 4), .delete (sk 17)]).1).map (·.1)).length = 3 ∧
    ((shown (run exE (initSt {}) [.set (sk 1) (exV 1), .set (sk 2) (exV 2), .set (sk 17) (exV 3), .set (sk 33) (exV 4), .delete (sk 17)]).1).map (·.1)).all
      (fun k => !(boundaries (run exE (initSt {}) [.set (sk 1) (exV 1), .set (sk 2) (exV 2), .set (sk 17) (exV 3), .set (sk 33) (exV 4), .delete (sk 17)]).1).contains (rev64 k)) = true := by
  decide +kernel

/-- Without them it fails: two keys of one hash are both shown by Range, and only one of them is found by its hashes. -/
theorem C118_refuted : ¬ ∀ (E : Env) (st : St), Reachable E st → C118_statement E st := by
  intro h
  have h1 := (h exE _ ⟨{}, [.storeItem { kind := .sample, key := sk 1, val := exV 1 }, .storeItem { kind := .entry, key := .u64 (exH.mem [1]), val := exV 2 }], rfl⟩).1
  have h2 : ((shown (run exE (initSt {}) [.storeItem { kind := .sample, key := sk 1, val := exV 1 }, .storeItem { kind := .entry, key := .u64 (exH.mem [1]), val := exV 2 }]).1).all
      (fun x => opGetByHash exE (run exE (initSt {}) [.storeItem { kind := .sample, key := sk 1, val := exV 1 }, .storeItem { kind := .entry, key := .u64 (exH.mem [1]), val := exV 2 }]).1 x.1 x.2.1 == .val x.2.2 true)) = false := by
    decide +kernel
  rw [List.all_eq_false] at h2
  obtain ⟨x, hx, hne⟩ := h2
  exact hne (by rw [h1 x.1 x.2.1 x.2.2 hx]; simp)
end SLM
