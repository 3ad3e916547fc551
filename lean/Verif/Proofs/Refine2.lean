import Verif.Proofs.Refine
/-! Step refinement: one operation on a good state acts like the plain map. -/
set_option autoImplicit false
namespace SLM
open Spec (PMap ans Ans)

/-- `x` is a live item. -/
def Live (items : List Entry) (x : Entry) : Prop := x ∈ items ∧ x.ignored = false

def Uniq (items : List Entry) : Prop :=
  ∀ a ∈ items, ∀ b ∈ items, a.ignored = false → b.ignored = false → a.rev = b.rev → a = b

theorem lookup_live {items : List Entry} (hu : Uniq items) {k c : U64} {e : Entry} :
    lookup items k c = some e ↔ Live items e ∧ e.rev = rev64 k ∧ e.conflict = c := by
  rw [lookup_some hu]; unfold Live; tauto

theorem lookup_none {items : List Entry} (hu : Uniq items) {k c : U64} :
    lookup items k c = none ↔ ∀ e, Live items e → e.rev = rev64 k → e.conflict ≠ c := by
  constructor
  · intro h e he hr hc
    rw [(lookup_live hu).2 ⟨he, hr, hc⟩] at h; cases h
  · intro h
    cases hl : lookup items k c with
    | none => rfl
    | some e =>
      have := (lookup_live hu).1 hl
      exact absurd this.2.2 (h e this.1 this.2.1)

/-- Two lists whose live items differ by replacing the live item at hash `(k, c)` give maps that differ there only. -/
theorem absM_put {items items' : List Entry} (hu : Uniq items) (hu' : Uniq items') {k c : U64} {e' : Entry}
    (he' : Live items' e') (hr : e'.rev = rev64 k) (hc : e'.conflict = c)
    (ho : ∀ x, ¬ (x.rev = rev64 k ∧ x.conflict = c) → (Live items' x ↔ Live items x)) :
    (fun kc : U64 × U64 => (lookup items' kc.1 kc.2).map (·.val)) =
      fun kc => if kc = (k, c) then some e'.val else (lookup items kc.1 kc.2).map (·.val) := by
  funext kc
  obtain ⟨k2, c2⟩ := kc
  simp only
  split
  · rename_i h
    injection h with h1 h2
    subst h1 h2
    rw [(lookup_live hu').2 ⟨he', hr, hc⟩]; rfl
  · rename_i h
    congr 1
    apply Option.ext
    intro x
    rw [lookup_live hu', lookup_live hu]
    constructor
    · rintro ⟨h1, h2, h3⟩
      refine ⟨(ho x ?_).1 h1, h2, h3⟩
      rintro ⟨g1, g2⟩
      exact h (by rw [rev64_inj (g1.symm.trans h2), ← g2, h3])
    · rintro ⟨h1, h2, h3⟩
      refine ⟨(ho x ?_).2 h1, h2, h3⟩
      rintro ⟨g1, g2⟩
      exact h (by rw [rev64_inj (g1.symm.trans h2), ← g2, h3])

theorem absM_del {items items' : List Entry} (hu : Uniq items) (hu' : Uniq items') {k c : U64}
    (hn : ∀ x, Live items' x → ¬ (x.rev = rev64 k ∧ x.conflict = c))
    (ho : ∀ x, ¬ (x.rev = rev64 k ∧ x.conflict = c) → (Live items' x ↔ Live items x)) :
    (fun kc : U64 × U64 => (lookup items' kc.1 kc.2).map (·.val)) =
      fun kc => if kc = (k, c) then none else (lookup items kc.1 kc.2).map (·.val) := by
  funext kc
  obtain ⟨k2, c2⟩ := kc
  simp only
  split
  · rename_i h
    injection h with h1 h2
    subst h1 h2
    rw [(lookup_none hu').2 (fun e he h1 h2 => hn e he ⟨h1, h2⟩)]; rfl
  · rename_i h
    congr 1
    apply Option.ext
    intro x
    rw [lookup_live hu', lookup_live hu]
    constructor
    · rintro ⟨h1, h2, h3⟩
      refine ⟨(ho x ?_).1 h1, h2, h3⟩
      rintro ⟨g1, g2⟩
      exact h (by rw [rev64_inj (g1.symm.trans h2), ← g2, h3])
    · rintro ⟨h1, h2, h3⟩
      refine ⟨(ho x ?_).2 h1, h2, h3⟩
      rintro ⟨g1, g2⟩
      exact h (by rw [rev64_inj (g1.symm.trans h2), ← g2, h3])

/-! ### changing one item -/

/-- `items` with the record of `e` replaced by `g e`. -/
def mapAt (r : Ref) (g : Entry → Entry) (items : List Entry) : List Entry := items.map (fun x => if x.ref = r then g x else x)

theorem mem_mapAt {items : List Entry} (hn : (refs items).Nodup) {e : Entry} (he : e ∈ items) (g : Entry → Entry) (x : Entry) :
    x ∈ mapAt e.ref g items ↔ x = g e ∨ (x ∈ items ∧ x ≠ e) := by
  have hiff : ∀ y ∈ items, y.ref = e.ref → y = e := fun y hy h => List.inj_on_of_nodup_map hn hy he h
  unfold mapAt
  rw [List.mem_map]
  constructor
  · rintro ⟨y, hy, rfl⟩
    split
    · rename_i h; rw [hiff y hy h]; exact Or.inl rfl
    · rename_i h; exact Or.inr ⟨hy, fun hc => h (by rw [hc])⟩
  · rintro (rfl | ⟨h1, h2⟩)
    · exact ⟨e, he, by simp⟩
    · exact ⟨x, h1, by rw [if_neg (fun hc => h2 (hiff x h1 hc))]⟩

theorem Good.mapAt {st : St} (h : Good st) {e : Entry} (he : Live st.items e) (g : Entry → Entry)
    (hg : ∀ x, (g x).ref = x.ref ∧ (g x).rev = x.rev ∧ (g x).dummy = x.dummy) :
    Good { st with items := mapAt e.ref g st.items } := by
  have hnd := h.inv.ii.nodup
  refine ⟨⟨h.inv.bi, h.inv.ii.mapItem e.ref (h.inv.ii.live_ref he.1 he.2) g hg, h.inv.lv⟩, ?_, ?_⟩
  · intro a ha b hb ha2 hb2 hab
    rw [mem_mapAt hnd he.1] at ha hb
    rcases ha with rfl | ⟨ha, hae⟩ <;> rcases hb with rfl | ⟨hb, hbe⟩
    · rfl
    · rw [(hg e).2.1] at hab
      exact absurd (h.uniq e he.1 b hb he.2 hb2 hab).symm hbe
    · rw [(hg e).2.1] at hab
      exact absurd (h.uniq a ha e he.1 ha2 he.2 hab) hae
    · exact h.uniq a ha b hb ha2 hb2 hab
  · intro x hx hxi p hp hpr
    have hdr : ∀ q, (dummyEntry q (bvRev q)).ref ≠ e.ref := fun q hc => h.inv.ii.live_ref he.1 he.2 q hc.symm
    have hmap : ∀ y, y ∈ st.items → [y, dummyEntry p (bvRev p)].Sublist st.items →
        [if y.ref = e.ref then g y else y, dummyEntry p (bvRev p)].Sublist (SLM.mapAt e.ref g st.items) := by
      intro y _ hs
      have := hs.map (fun x => if x.ref = e.ref then g x else x)
      simp only [List.map_cons, List.map_nil, if_neg (hdr p)] at this
      exact this
    rw [mem_mapAt hnd he.1] at hx
    rcases hx with rfl | ⟨hx, hxe⟩
    · have := hmap e he.1 (h.pos e he.1 he.2 p hp (by rw [hpr, (hg e).2.1]))
      simpa using this
    · have hne : x.ref ≠ e.ref := fun hc => hxe (List.inj_on_of_nodup_map hnd hx he.1 hc)
      have := hmap x hx (h.pos x hx hxi p hp hpr)
      rwa [if_neg hne] at this

/-! ### inserting -/

theorem live_insAt {items : List Entry} {e x : Entry} (hx : x.ignored = false) :
    Live (insAt e items) x ↔ (x = e ∨ Live items x) := by
  unfold Live; rw [mem_insAt]; tauto

theorem live_insAt_dummy {items : List Entry} {d x : Entry} (hd : d.ignored = true) :
    Live (insAt d items) x ↔ Live items x := by
  unfold Live; rw [mem_insAt]
  constructor
  · rintro ⟨rfl | h, h2⟩
    · rw [hd] at h2; cases h2
    · exact ⟨h, h2⟩
  · rintro ⟨h, h2⟩; exact ⟨Or.inr h, h2⟩

theorem Uniq.congr {items items' : List Entry} (h : Uniq items) (hl : ∀ x, Live items' x ↔ Live items x) : Uniq items' := by
  intro a ha b hb ha2 hb2 hab
  have h1 := (hl a).1 ⟨ha, ha2⟩
  have h2 := (hl b).1 ⟨hb, hb2⟩
  exact h a h1.1 b h2.1 h1.2 h2.2 hab

theorem sublist_insAt (e : Entry) (l : List Entry) : l.Sublist (insAt e l) := by
  unfold insAt
  conv => lhs; rw [← List.takeWhile_append_dropWhile (p := fun x : Entry => decide (x.rev ≤ e.rev)) (l := l)]
  exact List.Sublist.append (List.Sublist.refl _) (List.sublist_cons_self _ _)

theorem pair_insAt {l : List Entry} (hs : Sorted l) {x d : Entry} (hx : x ∈ l) (hr : x.rev ≤ d.rev) :
    [x, d].Sublist (insAt d l) := by
  have hl := List.takeWhile_append_dropWhile (p := fun x : Entry => decide (x.rev ≤ d.rev)) (l := l)
  have hxt : x ∈ l.takeWhile (fun x => decide (x.rev ≤ d.rev)) := by
    have hx' := hx
    rw [← hl] at hx'
    rcases List.mem_append.1 hx' with h | h
    · exact h
    · exfalso
      cases hdw : l.dropWhile (fun x => decide (x.rev ≤ d.rev)) with
      | nil => rw [hdw] at h; cases h
      | cons y ys =>
        have hy : ¬ y.rev ≤ d.rev := by
          have := List.head_dropWhile_not (fun x : Entry => decide (x.rev ≤ d.rev)) (l := l) (by rw [hdw]; simp)
          simpa [hdw] using this
        rw [hdw] at h
        rcases List.mem_cons.1 h with rfl | h
        · exact hy hr
        · rw [← hl, hdw, Sorted, List.pairwise_append] at hs
          have := (List.pairwise_cons.1 hs.2.1).1 x h
          bv_omega
  unfold insAt
  have h1 : [x].Sublist (l.takeWhile (fun x => decide (x.rev ≤ d.rev))) := List.singleton_sublist.2 hxt
  have h2 : [d].Sublist (d :: l.dropWhile (fun x => decide (x.rev ≤ d.rev))) := by simp
  exact h1.append h2

/-- Bucket creation keeps a good state good and does not touch the live items. -/
theorem Good.grow {st st' : St} (h : Good st) (hg : Grow st st') (hi : Inv st') :
    Good st' ∧ (∀ x, Live st'.items x ↔ Live st.items x) ∧ st'.itemFn = st.itemFn := by
  rcases hg with rfl | ⟨A, B, n, b, c, hb⟩
  · exact ⟨h, fun _ => Iff.rfl, rfl⟩
  · have hl : ∀ x, Live st'.items x ↔ Live st.items x := by
      intro x; rw [hb.items]; exact live_insAt_dummy rfl
    refine ⟨⟨hi, Uniq.congr h.uniq hl, ?_⟩, hl, hb.same.2.2.1⟩
    intro e he hei p hp hpr
    have hlive := (hl e).1 ⟨he, hei⟩
    rw [hb.new] at hp
    rw [hb.items]
    by_cases hpb : p = b
    · subst hpb
      exact pair_insAt h.inv.ii.sorted hlive.1 (by rw [← hpr]; exact BitVec.le_refl _)
    · have hp' : p ∈ st.blist := by
        rw [hb.old]
        simp only [List.mem_append, List.mem_cons] at hp ⊢
        tauto
      exact (h.pos e hlive.1 hlive.2 p hp' hpr).trans (sublist_insAt _ _)

/-- Inserting a new item whose hash no live item has and which is no boundary. -/
theorem Good.insert {st st2 : St} {k : U64} {b : Path} {e : Entry} (h : Good st) (hb : b = findBucket st.mem (rev64 k))
    (hm : st2.mem = st.mem) (hbl : st2.blist = st.blist) (hit : st2.items = st.items) (hn : st2.nextId = st.nextId + 1)
    (hlv : st2.lv = st.lv) (hr : e.ref = .item st.nextId) (hi : e.ignored = false) (hrev : e.rev = rev64 k)
    (hfree : ∀ x, Live st.items x → x.rev ≠ rev64 k)
    (hoff : ∀ p ∈ st.blist, bvRev p ≠ rev64 k) :
    Good (setMid st2 k b e) ∧ (setMid st2 k b e).items = insAt e st.items := by
  have hd : e.dummy = false := by
    unfold Entry.ignored at hi; simp at hi; exact hi.1
  have hinv : Inv (setMid st2 k b e) := setMid_inv h.inv hr hd hm hbl hit hn hlv
  have hinv2 : Inv { st2 with nextId := st.nextId } := ⟨by rw [hm, hbl]; exact h.inv.bi, by simp only [hit, hbl]; exact h.inv.ii,
    by simp only [hm, hlv]; exact h.inv.lv⟩
  have hfb := findBucket_spec h.inv.bi.ti (rev64 k)
  have hitems : setInsert st2 b (rev64 k) e = insAt e st.items := by
    have hlt : e.rev < maxU64 := by
      have h1 := hoff [] h.inv.bi.nil_mem
      rw [hrev]
      simp only [bvRev, if_true] at h1
      have hmx : maxU64 = 18446744073709551615#64 := by decide
      rw [hmx] at h1 ⊢
      bv_omega
    have := setInsert_eq (st := { st2 with nextId := st.nextId }) hinv2 (b := b) (e := e)
      (by simp only [hm]; rw [hb]; exact hfb.1) (by simp only [hm]; rw [hb, hrev]; exact hfb.2.2) hlt
    rw [hrev] at this
    rw [← hit]
    exact this
  refine ⟨⟨hinv, ?_, ?_⟩, hitems⟩
  · show Uniq (setInsert st2 b (rev64 k) e)
    rw [hitems]
    intro x hx y hy hxi hyi hxy
    rcases mem_insAt.1 hx with hx1 | hx1 <;> rcases mem_insAt.1 hy with hy1 | hy1
    · rw [hx1, hy1]
    · subst hx1; exact absurd (hxy.symm.trans hrev) (hfree y ⟨hy1, hyi⟩)
    · subst hy1; exact absurd (hxy.trans hrev) (hfree x ⟨hx1, hxi⟩)
    · exact h.uniq x hx1 y hy1 hxi hyi hxy
  · intro x hx hxi p hp hpr
    have hp' : p ∈ st.blist := by rw [← hbl]; exact hp
    show [x, dummyEntry p (bvRev p)].Sublist (setInsert st2 b (rev64 k) e)
    have hx2 : x ∈ setInsert st2 b (rev64 k) e := hx
    rw [hitems] at hx2 ⊢
    rcases mem_insAt.1 hx2 with rfl | hx3
    · exact absurd (hpr.trans hrev) (hoff p hp')
    · exact (h.pos x hx3 hxi p hp' hpr).trans (sublist_insAt _ _)

/-- Outcome of `_set` for such an item: the plain map gains it, unless bucket creation crashes. -/
theorem setNew_refines {st st2 : St} {k c : U64} {b : Path} {e : Entry} (h : Good st) (hb : b = findBucket st.mem (rev64 k))
    (hm : st2.mem = st.mem) (hbl : st2.blist = st.blist) (hit : st2.items = st.items) (hn : st2.nextId = st.nextId + 1)
    (hlv : st2.lv = st.lv) (hr : e.ref = .item st.nextId) (hi : e.ignored = false) (hrev : e.rev = rev64 k) (hc : e.conflict = c)
    (hfree : ∀ x, Live st.items x → x.rev ≠ rev64 k)
    (hoff : ∀ p ∈ st.blist, bvRev p ≠ rev64 k) :
    (∃ st', setNew st2 k b e = .ok st' ∧ Good st' ∧ absM st' = { (absM st).put (k, c) e.val with fn := st2.itemFn }) ∨
    setNew st2 k b e = .error .bucketHeadEmpty := by
  obtain ⟨hg, hits⟩ := h.insert hb hm hbl hit hn hlv hr hi hrev hfree hoff
  rcases setNew_spec hg.inv with ⟨st', h1, h2, h3⟩ | ⟨h1, _⟩
  · left
    obtain ⟨g', hl, hfn⟩ := hg.grow h3 h2
    refine ⟨st', h1, g', ?_⟩
    have hl' : ∀ x, Live st'.items x ↔ (x = e ∨ Live st.items x) := by
      intro x
      rw [hl x, hits]
      constructor
      · intro hx; exact (live_insAt hx.2).1 hx
      · rintro (rfl | hx)
        · exact (live_insAt hi).2 (Or.inl rfl)
        · exact (live_insAt hx.2).2 (Or.inr hx)
    have := absM_put (items := st.items) (items' := st'.items) h.uniq g'.uniq (k := k) (c := c) (e' := e)
      ((hl' e).2 (Or.inl rfl)) hrev hc (by
        intro x hx
        rw [hl' x]
        constructor
        · rintro (rfl | h)
          · exact absurd ⟨hrev, hc⟩ hx
          · exact h
        · exact Or.inr)
    unfold absM PMap.put
    rw [this, hfn]
    rfl
  · exact Or.inr h1

/-- Overwriting a live item. -/
theorem update_refines {st : St} (h : Good st) {e : Entry} (he : Live st.items e) {k c : U64} (hk : e.rev = rev64 k)
    (hc : e.conflict = c) (v : IVal) :
    Good (update st e v).1 ∧ (absM (update st e v).1, ans (update st e v).2) = (absM st).overwrite (k, c) e.val v := by
  have hput : ∀ nv, absM { st with items := setVal e.ref nv st.items } = (absM st).put (k, c) nv := by
    intro nv
    have hg := h.mapAt he (fun x => { x with val := nv }) (fun x => ⟨rfl, rfl, rfl⟩)
    have := absM_put (items := st.items) (items' := setVal e.ref nv st.items) h.uniq hg.uniq (k := k) (c := c)
      (e' := { e with val := nv }) ⟨(mem_mapAt h.inv.ii.nodup he.1 _ _).2 (Or.inl rfl), he.2⟩ hk hc (by
        intro x hx
        unfold Live
        show x ∈ mapAt e.ref (fun x => { x with val := nv }) st.items ∧ _ ↔ _
        rw [mem_mapAt h.inv.ii.nodup he.1]
        constructor
        · rintro ⟨rfl | ⟨h1, h2⟩, h3⟩
          · exact absurd ⟨hk, hc⟩ hx
          · exact ⟨h1, h3⟩
        · rintro ⟨h1, h2⟩
          exact ⟨Or.inr ⟨h1, fun hc' => hx (by rw [hc']; exact ⟨hk, hc⟩)⟩, h2⟩)
    unfold absM PMap.put
    rw [this]
  have hgood : ∀ nv, Good { st with items := setVal e.ref nv st.items } := fun nv =>
    h.mapAt he (fun x => { x with val := nv }) (fun x => ⟨rfl, rfl, rfl⟩)
  have hself : absM { st with items := setVal e.ref e.val st.items } = absM st := by
    rw [hput]
    unfold PMap.put absM
    congr 1
    funext x
    split
    · rename_i hx
      subst hx
      rw [(lookup_live h.uniq).2 ⟨he, hk, hc⟩]; rfl
    · rfl
  have hfn : (absM st).fn = st.itemFn := rfl
  unfold update PMap.overwrite
  rw [hfn]
  generalize hF : st.itemFn = fn
  rw [hF] at hput hgood hself
  cases fn with
  | entry => simp only [setValue, ans]; exact ⟨hgood v, by rw [hput]⟩
  | sample =>
    cases v with
    | none => simp only [setValue, ans]; exact ⟨hgood _, by rw [hself]⟩
    | some v =>
      generalize hO : e.val = o
      cases o with
      | none => simp only [setValue, ans]; exact ⟨hgood _, by rw [hput]⟩
      | some o =>
        simp only [setValue]
        by_cases ht : o.ty = v.ty
        · simp only [if_pos ht, ans]; exact ⟨hgood _, by rw [hput]⟩
        · simp only [if_neg ht, ans]; exact ⟨h, trivial⟩

theorem delete_refines {st : St} (h : Good st) {e : Entry} (he : Live st.items e) {k c : U64} (hk : e.rev = rev64 k)
    (hc : e.conflict = c) :
    Good { st with items := markDeleted st.itemFn e.ref st.items } ∧
    absM { st with items := markDeleted st.itemFn e.ref st.items } = (absM st).del (k, c) := by
  let g : Entry → Entry := fun x => { x with deleted := true, key := match st.itemFn with | .entry => .nil | .sample => x.key }
  have hg := h.mapAt he g (fun x => ⟨rfl, rfl, rfl⟩)
  refine ⟨hg, ?_⟩
  have hlive : ∀ x, Live (mapAt e.ref g st.items) x ↔ (Live st.items x ∧ x ≠ e) := by
    intro x
    unfold Live
    rw [mem_mapAt h.inv.ii.nodup he.1]
    constructor
    · rintro ⟨rfl | ⟨h1, h2⟩, h3⟩
      · simp [g, Entry.ignored] at h3
      · exact ⟨⟨h1, h3⟩, h2⟩
    · rintro ⟨⟨h1, h2⟩, h3⟩; exact ⟨Or.inr ⟨h1, h3⟩, h2⟩
  have := absM_del (items := st.items) (items' := mapAt e.ref g st.items) h.uniq hg.uniq (k := k) (c := c)
    (by
      intro x hx hxk
      rw [hlive] at hx
      exact hx.2 (h.uniq x hx.1.1 e he.1 hx.1.2 he.2 (by rw [hxk.1, hk])))
    (by
      intro x hx
      rw [hlive]
      exact ⟨fun h => h.1, fun h => ⟨h, fun hc' => hx (by rw [hc']; exact ⟨hk, hc⟩)⟩⟩)
  unfold absM PMap.del
  show PMap.mk (fun kc => (lookup (mapAt e.ref g st.items) kc.1 kc.2).map (·.val)) _ = _
  rw [this]

/-! ### one step -/

/-- A store of hash pair `(k, c)` in state `st`, when that pair is not in the map: no live item has the same primary
hash, and it is not the hash of a bucket boundary. -/
def FreeAt (st : St) (k c : U64) : Prop :=
  (absM st).m (k, c) ≠ none ∨
    ((∀ x, Live st.items x → x.rev ≠ rev64 k) ∧ ∀ d ∈ st.items, d.dummy = true → d.rev ≠ rev64 k)

/-- `Adm` for stores. -/
def AdmOp (E : Env) (st : St) : Op → Prop
  | .set key _ => ∀ k c, keyToHash E.H key = some (k, c) → FreeAt st k c
  | .storeItem it => it.rev0 = 0 ∧ it.conflict0 = 0 ∧ ∀ k c, keyToHash E.H it.key = some (k, c) → FreeAt st k c
  | _ => True

theorem absM_m (st : St) (k c : U64) : (absM st).m (k, c) = (lookup st.items k c).map (·.val) := rfl

theorem FreeAt.spec {st : St} (h : Good st) {k c : U64} (hf : FreeAt st k c) (hl : lookup st.items k c = none) :
    (∀ x, Live st.items x → x.rev ≠ rev64 k) ∧ ∀ p ∈ st.blist, bvRev p ≠ rev64 k := by
  rcases hf with hf | ⟨h1, h2⟩
  · rw [absM_m, hl] at hf; exact absurd rfl hf
  · exact ⟨h1, fun p hp => h2 _ (h.inv.ii.has p hp) rfl⟩

theorem Good.pool {st : St} (h : Good st) (b : Bool) : Good { st with pool := b } := ⟨h.inv.pool b, h.uniq, h.pos⟩

theorem step_refines {E : Env} {st : St} (h : Good st) {op : Op} (ha : AdmOp E st op)
    (hp : (step E st op).2 ≠ .panic .bucketHeadEmpty) :
    Good (step E st op).1 ∧ (absM (step E st op).1, ans (step E st op).2) = (absM st).step E.H op := by
  have hget : ∀ k c, (getWithBucket E st k c).1 = lookup st.items k c := fun k c => getWithBucket_eq h k c
  have hget2 : ∀ k c, getEntry E st k c = lookup st.items k c := fun k c => getEntry_eq h k c
  cases op with
  | set key v =>
    simp only [step, PMap.step] at hp ⊢
    cases hk : keyToHash E.H key with
    | none => unfold opSet; simp only [hk]; exact ⟨h, rfl⟩
    | some kc =>
      obtain ⟨k, c⟩ := kc
      simp only [absM_m]
      rw [← hget]
      cases hf : (getWithBucket E st k c).1 with
      | some e =>
        have h2 : getWithBucket E st k c = (some e, (getWithBucket E st k c).2) := by rw [← hf]
        have hm := getWithBucket_mem h2
        have hop : opSet E st key v = update st e v := by unfold opSet; simp only [hk]; rw [h2]
        rw [hop]
        exact update_refines h ⟨hm.1, hm.2.1⟩ hm.2.2.1 hm.2.2.2 v
      | none =>
        obtain ⟨hfree, hoff⟩ := (ha k c hk).spec h (by rw [← hget]; exact hf)
        by_cases hs : ∃ s, key = .str s
        · obtain ⟨s, rfl⟩ := hs
          have hop := opSet_new (v := v) hk hf
          rw [hop] at hp ⊢
          rcases setNew_refines (st2 := setPre st) (e := newSetEntry st (.str s) v k c) h rfl rfl rfl rfl rfl rfl rfl rfl rfl rfl
            hfree hoff with ⟨st', h1, h2, h3⟩ | h1
          · rw [h1]; exact ⟨h2, by simp only [Option.map_none]; rw [h3]; rfl⟩
          · rw [h1] at hp; exact absurd rfl hp
        · have h2 : getWithBucket E st k c = (none, (getWithBucket E st k c).2) := by rw [← hf]
          unfold opSet
          simp only [hk]
          rw [h2]
          have hg' : Good (if st.pool = false ∧ st.mode = modeCombine4 then { st with pool := true } else st) := by
            split
            · exact h.pool _
            · exact h
          have ha' : absM (if st.pool = false ∧ st.mode = modeCombine4 then { st with pool := true } else st) = absM st := by
            split <;> rfl
          cases key with
          | str s => exact absurd ⟨s, rfl⟩ hs
          | _ => exact ⟨hg', by simp only [ha']; rfl⟩
  | storeItem it =>
    simp only [step, PMap.step] at hp ⊢
    obtain ⟨hr0, hc0, ha⟩ := ha
    cases hk : keyToHash E.H it.key with
    | none => unfold opStoreItem NewItem.keyHash; simp only [hk]; exact ⟨h, rfl⟩
    | some kc =>
      obtain ⟨k, c⟩ := kc
      simp only [absM_m]
      rw [← hget]
      cases hf : (getWithBucket E st k c).1 with
      | some e =>
        have h2 : getWithBucket E st k c = (some e, (getWithBucket E st k c).2) := by rw [← hf]
        have hm := getWithBucket_mem h2
        have hop : opStoreItem E st it = update st e it.val := by
          unfold opStoreItem NewItem.keyHash; simp only [hk]; rw [h2]
        rw [hop]
        exact update_refines h ⟨hm.1, hm.2.1⟩ hm.2.2.1 hm.2.2.2 it.val
      | none =>
        obtain ⟨hfree, hoff⟩ := (ha k c hk).spec h (by rw [← hget]; exact hf)
        have hop := opStoreItem_new hk hf
        rw [hop] at hp ⊢
        rcases setNew_refines (st2 := storePre st) (e := newItemEntry st it k c) (c := c) h rfl rfl rfl rfl rfl rfl rfl rfl
          (by simp [newItemEntry, hr0]) (by simp [newItemEntry, hc0])
          hfree hoff with ⟨st', h1, h2, h3⟩ | h1
        · rw [h1]; exact ⟨h2, by simp only [Option.map_none]; rw [h3]; rfl⟩
        · rw [h1] at hp; exact absurd rfl hp
  | get key =>
    refine ⟨h, ?_⟩
    simp only [step, PMap.step, opGet]
    cases hk : keyToHash E.H key with
    | none => rfl
    | some kc =>
      obtain ⟨k, c⟩ := kc
      simp only [opGetByHash, hget2, absM_m]
      cases lookup st.items k c <;> rfl
  | getByHash k c =>
    refine ⟨h, ?_⟩
    simp only [step, PMap.step, opGetByHash, hget2, absM_m]
    cases lookup st.items k c <;> rfl
  | loadItem key =>
    refine ⟨h, ?_⟩
    simp only [step, PMap.step, opLoadItem]
    cases hk : keyToHash E.H key with
    | none => rfl
    | some kc =>
      obtain ⟨k, c⟩ := kc
      simp only [hget, absM_m]
      cases lookup st.items k c <;> rfl
  | loadItemByHash k c =>
    refine ⟨h, ?_⟩
    simp only [step, PMap.step, opLoadItemByHash, hget2, absM_m]
    cases lookup st.items k c <;> rfl
  | delete key =>
    simp only [step, PMap.step, opDelete]
    cases hk : keyToHash E.H key with
    | none => exact ⟨h, rfl⟩
    | some kc =>
      obtain ⟨k, c⟩ := kc
      simp only [absM_m]
      rw [← hget]
      cases hf : (getWithBucket E st k c).1 with
      | none => exact ⟨h, rfl⟩
      | some e =>
        have h2 : getWithBucket E st k c = (some e, (getWithBucket E st k c).2) := by rw [← hf]
        have hm := getWithBucket_mem h2
        have := delete_refines h ⟨hm.1, hm.2.1⟩ hm.2.2.1 hm.2.2.2
        exact ⟨this.1, by simp only [Option.map_some]; rw [this.2]; rfl⟩
  | len => exact ⟨h, rfl⟩
  | range => exact ⟨h, rfl⟩

theorem initSt_dummy (c : Cfg) : ∀ e ∈ (initSt c).items, e.dummy = true := by
  intro e he
  rw [initSt_items] at he
  simp only [List.mem_append, List.mem_map, List.mem_singleton] at he
  rcases he with ⟨i, _, rfl⟩ | rfl <;> rfl

theorem good_init (c : Cfg) : Good (initSt c) := by
  have hd : ∀ e ∈ (initSt c).items, e.ignored = false → False := by
    intro e he hi
    have := initSt_dummy c e he
    simp [Entry.ignored, this] at hi
  exact ⟨inv_init c, fun a ha _ _ hi => absurd hi (fun h => hd a ha h), fun a ha hi => absurd hi (fun h => hd a ha h)⟩

set_option maxRecDepth 20000 in
theorem initSt_fn (c : Cfg) : (initSt c).itemFn = c.itemFn := rfl
set_option maxRecDepth 20000 in
theorem initSt_maxPer (c : Cfg) : (initSt c).maxPer = c.maxPer := rfl
set_option maxRecDepth 20000 in
theorem initSt_len (c : Cfg) : (initSt c).len = 0 := rfl
set_option maxRecDepth 20000 in
theorem initSt_mode (c : Cfg) : (initSt c).mode = c.mode := rfl

theorem absM_init (c : Cfg) : absM (initSt c) = PMap.empty c.itemFn := by
  have h : (fun kc : U64 × U64 => (lookup (initSt c).items kc.1 kc.2).map (·.val)) = fun _ => none := by
    funext kc
    have : lookup (initSt c).items kc.1 kc.2 = none := by
      rw [lookup_none (good_init c).uniq]
      intro e he
      have := initSt_dummy c e he.1
      have h2 := he.2
      simp [Entry.ignored, this] at h2
    rw [this]; rfl
  unfold absM PMap.empty
  rw [h, initSt_fn]

end SLM
