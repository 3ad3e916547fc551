import Verif.Proofs.Held
/-! One key at a time: whatever happens to other keys, a key whose own stores are in order behaves like a plain map. -/
set_option autoImplicit false
set_option linter.unusedSimpArgs false
namespace SLM
open Spec (PMap ans Ans)
open History

/-- `Good`, for the key with hash pair `(k, c)` only. -/
structure KGood (st : St) (k c : U64) : Prop where
  inv : Inv st
  uniq : ∀ a, Live st.items a → ∀ b, Live st.items b → a.rev = rev64 k → b.rev = rev64 k → a = b
  conf : ∀ a, Live st.items a → a.rev = rev64 k → a.conflict = c
  pos : ∀ e, Live st.items e → e.rev = rev64 k → ∀ p ∈ st.blist, bvRev p = rev64 k → [e, dummyEntry p (bvRev p)].Sublist st.items

/-- The live item of the key. -/
theorem liveAt_key {l : List Entry} {t : U64} {e : Entry}
    (hu : ∀ a, Live l a → ∀ b, Live l b → a.rev = t → b.rev = t → a = b) :
    liveAt l t = some e ↔ Live l e ∧ e.rev = t := by
  constructor
  · intro h; have := liveAt_some_mem h; exact ⟨⟨this.1, this.2.1⟩, this.2.2⟩
  · rintro ⟨h1, h3⟩
    cases h : liveAt l t with
    | none => exact absurd h3 (liveAt_none.1 h e h1.1 h1.2)
    | some x =>
      have := liveAt_some_mem h
      rw [hu x ⟨this.1, this.2.1⟩ e h1 this.2.2 h3]

theorem search_key {E : Env} {st : St} {k c : U64} (g : KGood st k c) {b : Path} (hv : V st.mem b) :
    searchByBucket E st b (rev64 k) true = liveAt st.items (rev64 k) := by
  have key : ∀ n, V st.mem n →
      (if (st.mem n).rev < rev64 k then fwdSearch (rev64 k) true (fromRef (st.head n) st.items)
        else bwdSearch (rev64 k) true (backFrom (st.head n) st.items)) = liveAt st.items (rev64 k) := by
    intro n hn
    obtain ⟨p, hp, hh, hr, hm⟩ := head_spec g.inv hn
    rw [hh]
    obtain ⟨d, post, hd, hf, hl⟩ := split_at (.dummy p) st.items (List.mem_map.2 ⟨_, hm, rfl⟩)
    have hdm : d ∈ st.items := by rw [hl]; simp
    have hde : d = dummyEntry p (bvRev p) := (g.inv.ii.dum d hdm p hd).2
    have hdi : d.ignored = true := by rw [hde]; rfl
    have hdr : d.rev = (st.mem n).rev := by rw [hde]; exact hr
    have hs := g.inv.ii.sorted
    have hnd := g.inv.ii.nodup
    have hpos := g.pos
    have huniq := g.uniq
    generalize hpre : beforeRef (.dummy p) st.items = pre at *
    generalize rev64 k = t at *
    have hs2 := hs
    rw [hl, Sorted, List.pairwise_append] at hs2
    obtain ⟨s1, s2, s3⟩ := hs2
    split
    · rename_i hlt
      rw [hf, fwdSearch_find s2]
      rw [hl]
      unfold liveAt
      rw [List.find?_append]
      have : List.find? (fun e => !e.ignored && decide (e.rev = t)) pre = none := by
        rw [List.find?_eq_none]
        intro x hx
        have := s3 x hx d (by simp)
        simp only [Bool.and_eq_true, Bool.not_eq_true', decide_eq_true_eq, not_and]
        intro _ hc
        bv_omega
      simp [this]
    · rename_i hge
      have hb : backFrom (.dummy p) st.items = d :: pre.reverse := by
        unfold backFrom; rw [hf, hpre]
      have hsd : (d :: pre.reverse).Pairwise (fun a b => b.rev ≤ a.rev) := by
        rw [List.pairwise_cons]
        refine ⟨fun x hx => s3 x (by simpa using hx) d (by simp), ?_⟩
        rw [List.pairwise_reverse]; exact s1
      have hsub : ∀ a ∈ d :: pre.reverse, a ∈ st.items := by
        intro a ha
        rcases List.mem_cons.1 ha with rfl | ha
        · exact hdm
        · rw [hl]; exact List.mem_append_left _ (by simpa using ha)
      rw [hb, bwdSearch_find hsd]
      cases hx : liveAt st.items t with
      | none =>
        rw [liveAt_none] at hx ⊢
        intro e he
        exact hx e (hsub e he)
      | some x =>
        obtain ⟨hx1, hx2, hx3⟩ := liveAt_some_mem hx
        have hxpre : x ∈ pre := by
          by_cases heq : (st.mem n).rev = t
          · have h1 := hpos x ⟨hx1, hx2⟩ hx3 p hp (by rw [hr, heq])
            rw [← hde, hl] at h1
            exact sublist_before (hl ▸ hnd) h1
          · rw [hl] at hx1
            rcases List.mem_append.1 hx1 with h | h
            · exact h
            · rcases List.mem_cons.1 h with rfl | h
              · rw [hdi] at hx2; cases hx2
              · have := (List.pairwise_cons.1 s2).1 x h
                bv_omega
        rw [liveAt_key (fun a ha b hb => huniq a ⟨hsub a ha.1, ha.2⟩ b ⟨hsub b hb.1, hb.2⟩)]
        exact ⟨⟨by simp [hxpre], hx2⟩, hx3⟩
  unfold searchByBucket
  simp only
  by_cases hm : st.mode = modeCombine2 ∧ (st.mem b).rev > rev64 k
  · simp only [if_pos hm]; exact key _ (g.inv.lv.next hv)
  · simp only [if_neg hm]; exact key _ hv

theorem getEntry_key {E : Env} {st : St} {k c : U64} (g : KGood st k c) : getEntry E st k c = lookup st.items k c := by
  unfold getEntry lookup
  rw [search_key g (bucketForKey_valid g.inv.bi _)]
  cases h : liveAt st.items (rev64 k) with
  | none => rfl
  | some e =>
    have := (liveAt_some_mem h).2.2
    by_cases hc : e.conflict = c <;> simp [this, hc, Option.filter]

theorem getWithBucket_key {E : Env} {st : St} {k c : U64} (g : KGood st k c) : (getWithBucket E st k c).1 = lookup st.items k c := by
  unfold getWithBucket lookup
  simp only
  rw [search_key g (findBucket_spec g.inv.bi.ti _).1]
  cases h : liveAt st.items (rev64 k) with
  | none => rfl
  | some e =>
    have := (liveAt_some_mem h).2.2
    by_cases hc : e.conflict = c <;> simp [this, hc, Option.filter]

theorem lookup_key {items : List Entry} {k c : U64} {e : Entry}
    (hu : ∀ a, Live items a → ∀ b, Live items b → a.rev = rev64 k → b.rev = rev64 k → a = b) :
    lookup items k c = some e ↔ Live items e ∧ e.rev = rev64 k ∧ e.conflict = c := by
  unfold lookup
  rw [Option.filter_eq_some_iff, liveAt_key hu]
  simp only [decide_eq_true_eq]
  tauto

theorem KGood.free {st : St} {k c : U64} (g : KGood st k c) (h : lookup st.items k c = none) : ∀ x, Live st.items x → x.rev ≠ rev64 k := by
  intro x hx hr
  have := (lookup_key g.uniq).2 ⟨hx, hr, g.conf x hx hr⟩
  rw [h] at this; cases this

theorem lookup_congr {items items' : List Entry} {k c : U64}
    (hu : ∀ a, Live items a → ∀ b, Live items b → a.rev = rev64 k → b.rev = rev64 k → a = b)
    (hl : ∀ x, x.rev = rev64 k → (Live items' x ↔ Live items x)) : lookup items' k c = lookup items k c := by
  have hu' : ∀ a, Live items' a → ∀ b, Live items' b → a.rev = rev64 k → b.rev = rev64 k → a = b :=
    fun a ha b hb h1 h2 => hu a ((hl a h1).1 ha) b ((hl b h2).1 hb) h1 h2
  apply Option.ext
  intro x
  rw [lookup_key hu', lookup_key hu]
  constructor
  · rintro ⟨h1, h2, h3⟩; exact ⟨(hl x h2).1 h1, h2, h3⟩
  · rintro ⟨h1, h2, h3⟩; exact ⟨(hl x h2).2 h1, h2, h3⟩

/-! ### Changing one item -/

theorem KGood.mapAt {st : St} {k c : U64} (h : KGood st k c) {e : Entry} (he : Live st.items e) (g : Entry → Entry)
    (hg : ∀ x, (g x).ref = x.ref ∧ (g x).rev = x.rev ∧ (g x).dummy = x.dummy ∧ (g x).conflict = x.conflict) :
    KGood { st with items := mapAt e.ref g st.items } k c := by
  have hnd := h.inv.ii.nodup
  refine ⟨⟨h.inv.bi, h.inv.ii.mapItem e.ref (h.inv.ii.live_ref he.1 he.2) g (fun x => ⟨(hg x).1, (hg x).2.1, (hg x).2.2.1⟩), h.inv.lv⟩, ?_, ?_, ?_⟩
  · rintro a ⟨ha, ha2⟩ b ⟨hb, hb2⟩ har hbr
    rw [mem_mapAt hnd he.1] at ha hb
    rcases ha with rfl | ⟨ha, hae⟩ <;> rcases hb with rfl | ⟨hb, hbe⟩
    · rfl
    · rw [(hg e).2.1] at har
      exact absurd (h.uniq e he b ⟨hb, hb2⟩ har hbr).symm hbe
    · rw [(hg e).2.1] at hbr
      exact absurd (h.uniq a ⟨ha, ha2⟩ e he har hbr) hae
    · exact h.uniq a ⟨ha, ha2⟩ b ⟨hb, hb2⟩ har hbr
  · rintro a ⟨ha, ha2⟩ har
    rw [mem_mapAt hnd he.1] at ha
    rcases ha with rfl | ⟨ha, hae⟩
    · rw [(hg e).2.2.2]; exact h.conf e he (by rw [← (hg e).2.1]; exact har)
    · exact h.conf a ⟨ha, ha2⟩ har
  · rintro x ⟨hx, hxi⟩ hxr p hp hpr
    have hdr : ∀ q, (dummyEntry q (bvRev q)).ref ≠ e.ref := fun q hc => h.inv.ii.live_ref he.1 he.2 q hc.symm
    have hmap : ∀ y, y ∈ st.items → [y, dummyEntry p (bvRev p)].Sublist st.items →
        [if y.ref = e.ref then g y else y, dummyEntry p (bvRev p)].Sublist (SLM.mapAt e.ref g st.items) := by
      intro y _ hs
      have := hs.map (fun x => if x.ref = e.ref then g x else x)
      simp only [List.map_cons, List.map_nil, if_neg (hdr p)] at this
      exact this
    rw [mem_mapAt hnd he.1] at hx
    rcases hx with rfl | ⟨hx, hxe⟩
    · have := hmap e he.1 (h.pos e he (by rw [← (hg e).2.1]; exact hxr) p hp hpr)
      simpa using this
    · have hne : x.ref ≠ e.ref := fun hc => hxe (List.inj_on_of_nodup_map hnd hx he.1 hc)
      have := hmap x hx (h.pos x ⟨hx, hxi⟩ hxr p hp hpr)
      rwa [if_neg hne] at this

/-- Changing an item of another hash. -/
theorem live_mapAt_other {items : List Entry} (hn : (refs items).Nodup) {e : Entry} (he : e ∈ items) (g : Entry → Entry)
    (hg : ∀ x, (g x).rev = x.rev) {t : U64} (ht : e.rev ≠ t) (x : Entry) (hx : x.rev = t) : Live (mapAt e.ref g items) x ↔ Live items x := by
  unfold Live
  rw [mem_mapAt hn he]
  constructor
  · rintro ⟨rfl | ⟨h1, _⟩, h2⟩
    · rw [hg] at hx; exact absurd hx ht
    · exact ⟨h1, h2⟩
  · rintro ⟨h1, h2⟩
    exact ⟨Or.inr ⟨h1, fun h => ht (by rw [← h]; exact hx)⟩, h2⟩

/-! ### Inserting and growing -/

theorem Ins.sublist {e : Entry} {l l' : List Entry} (h : Ins e l l') : l.Sublist l' := by
  rcases h with rfl | ⟨pre, d, post, rfl, rfl⟩
  · exact List.Sublist.refl _
  · exact List.Sublist.append (List.Sublist.refl _) (List.sublist_cons_self _ _)

theorem KGood.grow {st st' : St} {k c : U64} (h : KGood st k c) (hg : Grow st st') (hi : Inv st') :
    KGood st' k c ∧ (∀ x, Live st'.items x ↔ Live st.items x) ∧ st'.itemFn = st.itemFn := by
  rcases hg with rfl | ⟨A, B, n, b, c', hb⟩
  · exact ⟨h, fun _ => Iff.rfl, rfl⟩
  · have hl : ∀ x, Live st'.items x ↔ Live st.items x := by
      intro x; rw [hb.items]; exact live_insAt_dummy rfl
    refine ⟨⟨hi, ?_, ?_, ?_⟩, hl, hb.same.2.2.1⟩
    · intro a ha b hb h1 h2; exact h.uniq a ((hl a).1 ha) b ((hl b).1 hb) h1 h2
    · intro a ha h1; exact h.conf a ((hl a).1 ha) h1
    · intro e he her p hp hpr
      have hlive := (hl e).1 he
      rw [hb.new] at hp
      rw [hb.items]
      by_cases hpb : p = b
      · subst hpb
        exact pair_insAt h.inv.ii.sorted hlive.1 (by rw [her, ← hpr]; exact BitVec.le_refl _)
      · have hp' : p ∈ st.blist := by
          rw [hb.old]
          simp only [List.mem_append, List.mem_cons] at hp ⊢
          tauto
        exact (h.pos e hlive her p hp' hpr).trans (sublist_insAt _ _)

/-- A new item of another hash. -/
theorem KGood.new_other {E : Env} {st st2 : St} {op : Op} {r : St × Out} {k c k' c' : U64} {e : Entry} (h : KGood st k c)
    (x : EffNew E st op r st2 k' c' e) (hr : e.rev ≠ rev64 k) : KGood r.1 k c ∧ lookup r.1.items k c = lookup st.items k c := by
  have hins : Ins e st.items (setMid st2 k' (findBucket st.mem (rev64 k')) e).items := by
    have : Ins e st2.items (setMid st2 k' (findBucket st.mem (rev64 k')) e).items := setInsert_ins
    rwa [x.items] at this
  have hl : ∀ y, y.rev = rev64 k → (Live (setMid st2 k' (findBucket st.mem (rev64 k')) e).items y ↔ Live st.items y) := by
    intro y hy
    have := hins.mem y
    unfold Live
    constructor
    · rintro ⟨h1, h2⟩
      rcases this.2 h1 with rfl | h1
      · exact absurd hy hr
      · exact ⟨h1, h2⟩
    · rintro ⟨h1, h2⟩; exact ⟨this.1 h1, h2⟩
  have hmid : KGood (setMid st2 k' (findBucket st.mem (rev64 k')) e) k c := by
    refine ⟨x.midinv, ?_, ?_, ?_⟩
    · intro a ha b hb h1 h2; exact h.uniq a ((hl a h1).1 ha) b ((hl b h2).1 hb) h1 h2
    · intro a ha h1; exact h.conf a ((hl a h1).1 ha) h1
    · intro a ha h1 p hp hpr
      have hp' : p ∈ st.blist := by rw [← x.blist]; exact hp
      exact (h.pos a ((hl a h1).1 ha) h1 p hp' hpr).trans hins.sublist
  obtain ⟨g1, g2, _⟩ := hmid.grow x.grow x.inv
  refine ⟨g1, lookup_congr h.uniq (fun y hy => (g2 y).trans (hl y hy))⟩

/-- A new item of the key. -/
theorem KGood.new_self {E : Env} {st st2 : St} {op : Op} {r : St × Out} {k c : U64} {e : Entry} (h : KGood st k c)
    (x : EffNew E st op r st2 k c e) (hr : e.rev = rev64 k) (hc : e.conflict = c) (hoff : ∀ p ∈ st.blist, bvRev p ≠ rev64 k) :
    KGood r.1 k c ∧ lookup r.1.items k c = some e := by
  have hfree := h.free (by rw [← getWithBucket_key h]; exact x.none)
  have hei : e.ignored = false := by simp [Entry.ignored, x.nodummy, x.nodel]
  have hinv2 : Inv { st2 with nextId := st.nextId } := ⟨by rw [x.mem, x.blist]; exact h.inv.bi, by simp only [x.items, x.blist]; exact h.inv.ii,
    by simp only [x.mem, x.lv]; exact h.inv.lv⟩
  have hfb := findBucket_spec h.inv.bi.ti (rev64 k)
  have hitems : (setMid st2 k (findBucket st.mem (rev64 k)) e).items = insAt e st.items := by
    have hlt : e.rev < maxU64 := by
      have h1 := hoff [] h.inv.bi.nil_mem
      rw [hr]
      simp only [bvRev, if_true] at h1
      have hmx : maxU64 = 18446744073709551615#64 := by decide
      rw [hmx] at h1 ⊢
      bv_omega
    have := setInsert_eq (st := { st2 with nextId := st.nextId }) hinv2 (b := findBucket st.mem (rev64 k)) (e := e)
      (by simp only [x.mem]; exact hfb.1) (by simp only [x.mem]; rw [hr]; exact hfb.2.2) hlt
    rw [hr] at this
    rw [← x.items]
    exact this
  have hl : ∀ y, Live (setMid st2 k (findBucket st.mem (rev64 k)) e).items y ↔ (y = e ∨ Live st.items y) := by
    intro y
    rw [hitems]
    constructor
    · intro hy; exact (live_insAt hy.2).1 hy
    · rintro (rfl | hy)
      · exact (live_insAt hei).2 (Or.inl rfl)
      · exact (live_insAt hy.2).2 (Or.inr hy)
  have hmid : KGood (setMid st2 k (findBucket st.mem (rev64 k)) e) k c := by
    refine ⟨x.midinv, ?_, ?_, ?_⟩
    · intro a ha b hb h1 h2
      rcases (hl a).1 ha with ha' | ha' <;> rcases (hl b).1 hb with hb' | hb'
      · rw [ha', hb']
      · exact absurd h2 (hfree b hb')
      · exact absurd h1 (hfree a ha')
      · exact absurd h1 (hfree a ha')
    · intro a ha h1
      rcases (hl a).1 ha with rfl | ha
      · exact hc
      · exact absurd h1 (hfree a ha)
    · intro a ha h1 p hp hpr
      exact absurd hpr (hoff p (by rw [← x.blist]; exact hp))
  obtain ⟨g1, g2, _⟩ := hmid.grow x.grow x.inv
  refine ⟨g1, (lookup_key g1.uniq).2 ⟨(g2 e).2 ((hl e).2 (Or.inl rfl)), hr, hc⟩⟩

theorem KGood.pool {st : St} {k c : U64} (h : KGood st k c) (b : Bool) : KGood { st with pool := b } k c := ⟨h.inv.pool b, h.uniq, h.conf, h.pos⟩

/-! ### One call -/

theorem KGood.update_self {st : St} {k c : U64} (h : KGood st k c) {e : Entry} (he : Live st.items e) (hk : e.rev = rev64 k)
    (v : IVal) : KGood (update st e v).1 k c ∧
      ((absM (update st e v).1).m (k, c), (update st e v).1.itemFn, ans (update st e v).2) =
        (((absM st).overwrite (k, c) e.val v).1.m (k, c), ((absM st).overwrite (k, c) e.val v).1.fn, ((absM st).overwrite (k, c) e.val v).2) := by
  have hc := h.conf e he hk
  have hgood : ∀ nv, KGood { st with items := setVal e.ref nv st.items } k c := fun nv =>
    h.mapAt he (fun x => { x with val := nv }) (fun x => ⟨rfl, rfl, rfl, rfl⟩)
  have hput : ∀ nv, (absM { st with items := setVal e.ref nv st.items }).m (k, c) = some nv := by
    intro nv
    have hm : ({ e with val := nv } : Entry) ∈ setVal e.ref nv st.items :=
      (mem_mapAt h.inv.ii.nodup he.1 (fun x => { x with val := nv }) { e with val := nv }).2 (Or.inl rfl)
    rw [absM_m, (lookup_key (hgood nv).uniq).2 ⟨⟨hm, he.2⟩, hk, hc⟩]; rfl
  have hself : (absM st).m (k, c) = some e.val := by
    rw [absM_m, (lookup_key h.uniq).2 ⟨he, hk, hc⟩]; rfl
  have hfn : (absM st).fn = st.itemFn := rfl
  unfold update PMap.overwrite
  rw [hfn]
  generalize hF : st.itemFn = fn
  rw [hF] at hput hgood
  cases fn with
  | entry => simp only [setValue, ans]; exact ⟨hgood v, by rw [hput]; simp [PMap.put, hfn, hF]⟩
  | sample =>
    cases v with
    | none => simp only [setValue, ans]; exact ⟨hgood _, by rw [hput, hself]; simp [hfn, hF]⟩
    | some v =>
      generalize hO : e.val = o
      cases o with
      | none => simp only [setValue, ans]; exact ⟨hgood _, by rw [hput]; simp [PMap.put, hfn, hF]⟩
      | some o =>
        simp only [setValue]
        by_cases ht : o.ty = v.ty
        · simp only [if_pos ht, ans]; exact ⟨hgood _, by rw [hput]; simp [PMap.put, hfn, hF]⟩
        · simp only [if_neg ht, ans]; exact ⟨h, by simp [hfn, hF]⟩

theorem KGood.delete_self {st : St} {k c : U64} (h : KGood st k c) {e : Entry} (he : Live st.items e) (hk : e.rev = rev64 k) :
    KGood { st with items := markDeleted st.itemFn e.ref st.items } k c ∧
    lookup (markDeleted st.itemFn e.ref st.items) k c = none := by
  let g : Entry → Entry := fun x => { x with deleted := true, key := match st.itemFn with | .entry => .nil | .sample => x.key }
  have hg : KGood { st with items := markDeleted st.itemFn e.ref st.items } k c := h.mapAt he g (fun x => ⟨rfl, rfl, rfl, rfl⟩)
  refine ⟨hg, ?_⟩
  cases hl : lookup (markDeleted st.itemFn e.ref st.items) k c with
  | none => rfl
  | some x =>
    obtain ⟨⟨h1, h2⟩, h3, _⟩ := (lookup_key hg.uniq).1 hl
    rcases (mem_mapAt h.inv.ii.nodup he.1 g x).1 h1 with rfl | ⟨h4, h5⟩
    · simp [g, Entry.ignored] at h2
    · exact absurd (h.uniq x ⟨h4, h2⟩ e he h3 hk) h5

/-- The hash pair a call addresses. -/
def addr (H : HashFns) : Op → Option (U64 × U64)
  | .set key _ => keyToHash H key
  | .storeItem it => keyToHash H it.key
  | .get key => keyToHash H key
  | .getByHash k c => some (k, c)
  | .loadItem key => keyToHash H key
  | .loadItemByHash k c => some (k, c)
  | .delete key => keyToHash H key
  | .len => none
  | .range => none

/-- Conditions on one call: stores of the primary hash `k` are of `(k, c)` and with fresh items, and no item brought along is prepared with
the reversed hash of `k`. -/
structure KeyOk (H : HashFns) (k c : U64) (op : Op) : Prop where
  coll : ∀ c', storeHash H op = some (k, c') → c' = c
  fresh : ∀ it, op = .storeItem it → keyToHash H it.key = some (k, c) → it.rev0 = 0 ∧ it.conflict0 = 0
  prep : ∀ it, op = .storeItem it → it.rev0 ≠ 0 → it.rev0 ≠ rev64 k

theorem EffNew.rev {E : Env} {st st2 : St} {op : Op} {r : St × Out} {k c : U64} {e : Entry} (x : EffNew E st op r st2 k c e) :
    e.rev = rev64 k ∨ ∃ it, op = .storeItem it ∧ it.rev0 ≠ 0 ∧ e.rev = it.rev0 := by
  rcases x.pre with ⟨s, v, _, _, he⟩ | ⟨it, hop, _, he⟩
  · left; rw [he]; rfl
  · rw [he]
    by_cases h : it.rev0 = 0
    · left; simp [newItemEntry, h]
    · right; exact ⟨it, hop, h, if_neg h⟩

/-- A call that addresses another key. -/
theorem step_other_key {E : Env} {st : St} {k c : U64} (h : KGood st k c) {op : Op} (hok : KeyOk E.H k c op) (ha : addr E.H op ≠ some (k, c)) :
    KGood (step E st op).1 k c ∧ (absM (step E st op).1).m (k, c) = (absM st).m (k, c) := by
  have hst : ∀ kc, storeHash E.H op = some kc → addr E.H op = some kc := by
    intro kc hkc
    cases op <;> first | exact hkc | cases hkc
  have hne : ∀ {k' c'}, storeHash E.H op = some (k', c') → k' ≠ k := by
    rintro k' c' hs rfl
    apply ha
    rw [hst _ hs, hok.coll c' hs]
  simp only [absM_m]
  rcases step_eff E h.inv op with x | ⟨e, nv, b, x⟩ | ⟨key, e, x⟩ | ⟨st2, k', c', e, x⟩
  · obtain ⟨b, hb⟩ := x.same
    rw [hb]; exact ⟨h.pool b, rfl⟩
  · rw [x.res]
    have hr : e.rev ≠ rev64 k := by
      intro hr
      apply hne x.hash
      rw [hr, rev64_rev64]
    refine ⟨h.mapAt ⟨x.mem, x.live⟩ (fun y => { y with val := nv }) (fun y => ⟨rfl, rfl, rfl, rfl⟩), ?_⟩
    exact congrArg _ (lookup_congr h.uniq (fun y hy => live_mapAt_other h.inv.ii.nodup x.mem (fun y => { y with val := nv }) (fun _ => rfl) hr y hy))
  · rw [x.res]
    have hr : e.rev ≠ rev64 k := by
      intro hr
      apply ha
      rw [x.op]
      show keyToHash E.H key = _
      rw [x.hash, hr, rev64_rev64, h.conf e ⟨x.mem, x.live⟩ hr]
    let g : Entry → Entry := fun x => { x with deleted := true, key := match st.itemFn with | .entry => .nil | .sample => x.key }
    refine ⟨h.mapAt ⟨x.mem, x.live⟩ g (fun y => ⟨rfl, rfl, rfl, rfl⟩), ?_⟩
    exact congrArg _ (lookup_congr h.uniq (fun y hy => live_mapAt_other h.inv.ii.nodup x.mem g (fun _ => rfl) hr y hy))
  · have hr : e.rev ≠ rev64 k := by
      rcases x.rev with hr | ⟨it, hop, h0, hr⟩
      · rw [hr]; intro hc; exact hne x.hash (rev64_inj hc)
      · rw [hr]; exact hok.prep it hop h0
    obtain ⟨h1, h2⟩ := h.new_other x hr
    exact ⟨h1, by rw [h2]⟩

/-- A call that addresses the key. -/
theorem step_self_key {E : Env} {st : St} {k c : U64} (h : KGood st k c) {op : Op} (hok : KeyOk E.H k c op) (ha : addr E.H op = some (k, c))
    (hoff : storeHash E.H op = some (k, c) → lookup st.items k c = none → ∀ p ∈ st.blist, bvRev p ≠ rev64 k)
    (hp : (step E st op).2 ≠ .panic .bucketHeadEmpty) :
    KGood (step E st op).1 k c ∧
      ((absM (step E st op).1).m (k, c), (step E st op).1.itemFn, ans (step E st op).2) =
        (((absM st).step E.H op).1.m (k, c), ((absM st).step E.H op).1.fn, ((absM st).step E.H op).2) := by
  have hget := getWithBucket_key (E := E) h
  have hget2 := getEntry_key (E := E) h
  cases op with
  | set key v =>
    have hk : keyToHash E.H key = some (k, c) := ha
    simp only [step, PMap.step, hk] at hp ⊢
    rw [absM_m st, ← hget]
    cases hf : (getWithBucket E st k c).1 with
    | some e =>
      have h2 : getWithBucket E st k c = (some e, (getWithBucket E st k c).2) := by rw [← hf]
      have hm := getWithBucket_mem h2
      have hop : opSet E st key v = update st e v := by unfold opSet; simp only [hk]; rw [h2]
      rw [hop]
      exact h.update_self ⟨hm.1, hm.2.1⟩ hm.2.2.1 v
    | none =>
      by_cases hs : ∃ s, key = .str s
      · obtain ⟨s, rfl⟩ := hs
        rcases step_eff E h.inv (.set (.str s) v) with x | ⟨e, nv, b, x⟩ | ⟨key, e, x⟩ | ⟨st2, k', c', e, x⟩
        · exfalso
          have hop := opSet_new (v := v) hk hf
          have hmid : Inv (setMid (setPre st) k (findBucket st.mem (rev64 k)) (newSetEntry st (.str s) v k c)) :=
            setMid_inv h.inv rfl rfl rfl rfl rfl rfl rfl
          rcases setNew_spec hmid with ⟨st', h1, _, _⟩ | ⟨h1, _⟩
          · rw [h1] at hop
            have := x.quiet
            simp only [step, hop] at this
            exact this rfl
          · rw [hop, h1] at hp; exact hp rfl
        · exfalso
          have := x.hash
          simp only [storeHash, hk, Option.some.injEq, Prod.mk.injEq] at this
          have hr : e.rev = rev64 k := by rw [this.1, rev64_rev64]
          have := (lookup_key h.uniq).2 ⟨⟨x.mem, x.live⟩, hr, h.conf e ⟨x.mem, x.live⟩ hr⟩
          rw [← hget, hf] at this; cases this
        · cases x.op
        · have hkc := x.hash
          simp only [storeHash, hk, Option.some.injEq, Prod.mk.injEq] at hkc
          obtain ⟨rfl, rfl⟩ := hkc
          rcases x.pre with ⟨s', v', hop, hst2, he⟩ | ⟨it, hop, _, _⟩
          · cases hop
            obtain ⟨h1, h2⟩ := h.new_self x (by rw [he]; rfl) (by rw [he]; rfl) (hoff hk (by rw [← hget]; exact hf))
            refine ⟨h1, ?_⟩
            have hgr : (step E st (.set (.str s) v)).1.itemFn = .sample := by
              rcases x.grow with hg | ⟨A, B, n, b, c', hb⟩
              · rw [hg, hst2]; rfl
              · rw [hb.same.2.2.1, hst2]; rfl
            have hout := x.out
            simp only [step] at h2 hgr hout
            simp only [absM_m, h2, hgr, hout, Option.map_some, Option.map_none, ans]
            rw [he]
            simp [PMap.put, newSetEntry]
          · cases hop
      · have h2 : getWithBucket E st k c = (none, (getWithBucket E st k c).2) := by rw [← hf]
        unfold opSet
        simp only [hk]
        rw [h2]
        have hg' : KGood (if st.pool = false ∧ st.mode = modeCombine4 then { st with pool := true } else st) k c := by
          split
          · exact h.pool _
          · exact h
        have ha' : (if st.pool = false ∧ st.mode = modeCombine4 then { st with pool := true } else st).items = st.items ∧
            (if st.pool = false ∧ st.mode = modeCombine4 then { st with pool := true } else st).itemFn = st.itemFn := by
          split <;> exact ⟨rfl, rfl⟩
        cases key with
        | str s => exact absurd ⟨s, rfl⟩ hs
        | _ => exact ⟨hg', by simp only [absM_m, ha'.1, ha'.2, Option.map_none]; rfl⟩
  | storeItem it =>
    have hk : keyToHash E.H it.key = some (k, c) := ha
    simp only [step, PMap.step, hk] at hp ⊢
    obtain ⟨hr0, hc0⟩ := hok.fresh it rfl hk
    rw [absM_m st, ← hget]
    cases hf : (getWithBucket E st k c).1 with
    | some e =>
      have h2 : getWithBucket E st k c = (some e, (getWithBucket E st k c).2) := by rw [← hf]
      have hm := getWithBucket_mem h2
      have hop : opStoreItem E st it = update st e it.val := by
        unfold opStoreItem NewItem.keyHash; simp only [hk]; rw [h2]
      rw [hop]
      exact h.update_self ⟨hm.1, hm.2.1⟩ hm.2.2.1 it.val
    | none =>
      rcases step_eff E h.inv (.storeItem it) with x | ⟨e, nv, b, x⟩ | ⟨key, e, x⟩ | ⟨st2, k', c', e, x⟩
      · exfalso
        have hop := opStoreItem_new hk hf
        have hmid : Inv (setMid (storePre st) k (findBucket st.mem (rev64 k)) (newItemEntry st it k c)) :=
          setMid_inv h.inv rfl rfl rfl rfl rfl rfl rfl
        rcases setNew_spec hmid with ⟨st', h1, _, _⟩ | ⟨h1, _⟩
        · rw [h1] at hop
          have := x.quiet
          simp only [step, hop] at this
          exact this rfl
        · rw [hop, h1] at hp; exact hp rfl
      · exfalso
        have := x.hash
        simp only [storeHash, hk, Option.some.injEq, Prod.mk.injEq] at this
        have hr : e.rev = rev64 k := by rw [this.1, rev64_rev64]
        have := (lookup_key h.uniq).2 ⟨⟨x.mem, x.live⟩, hr, h.conf e ⟨x.mem, x.live⟩ hr⟩
        rw [← hget, hf] at this; cases this
      · cases x.op
      · have hkc := x.hash
        simp only [storeHash, hk, Option.some.injEq, Prod.mk.injEq] at hkc
        obtain ⟨rfl, rfl⟩ := hkc
        rcases x.pre with ⟨s', v', hop, _, _⟩ | ⟨it', hop, hst2, he⟩
        · cases hop
        · cases hop
          obtain ⟨h1, h2⟩ := h.new_self x (by rw [he]; simp [newItemEntry, hr0]) (by rw [he]; simp [newItemEntry, hc0])
            (hoff hk (by rw [← hget]; exact hf))
          refine ⟨h1, ?_⟩
          have hgr : (step E st (.storeItem it)).1.itemFn = st.itemFn := by
            rcases x.grow with hg | ⟨A, B, n, b, c', hb⟩
            · rw [hg, hst2]; rfl
            · rw [hb.same.2.2.1, hst2]; rfl
          have hout := x.out
          simp only [step] at h2 hgr hout
          simp only [absM_m, h2, hgr, hout, Option.map_some, Option.map_none, ans]
          rw [he]
          simp [PMap.put, newItemEntry, absM]
  | get key =>
    have hk : keyToHash E.H key = some (k, c) := ha
    refine ⟨h, ?_⟩
    simp only [step, PMap.step, opGet, hk, opGetByHash, hget2, absM_m]
    cases lookup st.items k c <;> rfl
  | getByHash k' c' =>
    cases ha
    refine ⟨h, ?_⟩
    simp only [step, PMap.step, opGetByHash, hget2, absM_m]
    cases lookup st.items k c <;> rfl
  | loadItem key =>
    have hk : keyToHash E.H key = some (k, c) := ha
    refine ⟨h, ?_⟩
    simp only [step, PMap.step, opLoadItem, hk, hget, absM_m]
    cases lookup st.items k c <;> rfl
  | loadItemByHash k' c' =>
    cases ha
    refine ⟨h, ?_⟩
    simp only [step, PMap.step, opLoadItemByHash, hget2, absM_m]
    cases lookup st.items k c <;> rfl
  | delete key =>
    have hk : keyToHash E.H key = some (k, c) := ha
    simp only [step, PMap.step, opDelete, hk]
    rw [absM_m st, ← hget]
    cases hf : (getWithBucket E st k c).1 with
    | none =>
      refine ⟨h, ?_⟩
      simp only [Option.map_none, ans]
      rfl
    | some e =>
      have h2 : getWithBucket E st k c = (some e, (getWithBucket E st k c).2) := by rw [← hf]
      have hm := getWithBucket_mem h2
      have := h.delete_self ⟨hm.1, hm.2.1⟩ hm.2.2.1
      exact ⟨this.1, by simp only [absM_m, this.2, Option.map_some, Option.map_none]; simp [PMap.del, ans, absM]⟩
  | len => cases ha
  | range => cases ha

/-! ### Histories -/

/-- Whenever the key is stored and not found, its reversed hash is at that moment not a boundary. -/
def KeyOff (E : Env) (k c : U64) : St → List Op → Prop
  | _, [] => True
  | st, op :: ops =>
    (storeHash E.H op = some (k, c) → (∃ v, opGetByHash E st k c = .val v true) ∨ rev64 k ∉ boundaries st) ∧ KeyOff E k c (step E st op).1 ops

theorem KGood.off {E : Env} {st : St} {k c : U64} (h : KGood st k c) (ho : (∃ v, opGetByHash E st k c = .val v true) ∨ rev64 k ∉ boundaries st)
    (hn : lookup st.items k c = none) : ∀ p ∈ st.blist, bvRev p ≠ rev64 k := by
  rcases ho with ⟨v, hv⟩ | ho
  · unfold opGetByHash at hv
    rw [getEntry_key h, hn] at hv; cases hv
  · intro p hp hr
    exact ho (List.mem_map.2 ⟨p, hp, by rw [h.inv.bi.rev_eq hp]; exact hr⟩)

/-- What a plain map answers about one key depends on that key only. -/
theorem PMap.step_local {H : HashFns} {s s' : PMap} {kc : U64 × U64} {op : Op} (ha : addr H op = some kc) (hm : s.m kc = s'.m kc)
    (hf : s.m kc ≠ none → s.fn = s'.fn) : (s.step H op).1.m kc = (s'.step H op).1.m kc ∧ (s.step H op).2 = (s'.step H op).2 := by
  have ow : ∀ old v, s.fn = s'.fn → (s.overwrite kc old v).1.m kc = (s'.overwrite kc old v).1.m kc ∧ (s.overwrite kc old v).2 = (s'.overwrite kc old v).2 := by
    intro old v hfn
    unfold PMap.overwrite
    rw [← hfn]
    cases s.fn <;> cases old <;> cases v <;> simp only [PMap.put, if_true, hm, and_self, true_and]
    split <;> simp [hm]
  cases op with
  | set key v =>
    have hk : keyToHash H key = some kc := ha
    simp only [PMap.step, hk]
    rw [← hm]
    cases hs : s.m kc with
    | none => cases key <;> simp [PMap.put, ← hm, hs]
    | some old => exact ow old v (hf (by rw [hs]; simp))
  | storeItem it =>
    have hk : keyToHash H it.key = some kc := ha
    simp only [PMap.step, hk]
    rw [← hm]
    cases hs : s.m kc with
    | none => simp [PMap.put]
    | some old => exact ow old it.val (hf (by rw [hs]; simp))
  | get key =>
    have hk : keyToHash H key = some kc := ha
    simp only [PMap.step, hk, hm, and_self]
  | getByHash k c => cases ha; simp only [PMap.step, hm, and_self]
  | loadItem key =>
    have hk : keyToHash H key = some kc := ha
    simp only [PMap.step, hk, hm, and_self]
  | loadItemByHash k c => cases ha; simp only [PMap.step, hm, and_self]
  | delete key =>
    have hk : keyToHash H key = some kc := ha
    simp only [PMap.step, hk]
    rw [← hm]
    cases hs : s.m kc with
    | none => simp [← hm, hs]
    | some old => simp [PMap.del]
  | len => cases ha
  | range => cases ha

/-- The item type in force changes only by a Set, to that of string items. -/
theorem step_fn (E : Env) {st : St} (h : Inv st) (op : Op) :
    (step E st op).1.itemFn = st.itemFn ∨ ((step E st op).1.itemFn = .sample ∧ ∃ key v, op = .set key v) := by
  rcases step_eff E h op with x | ⟨e, nv, b, x⟩ | ⟨key, e, x⟩ | ⟨st2, k', c', e, x⟩
  · obtain ⟨b, hb⟩ := x.same
    rw [hb]; exact Or.inl rfl
  · rw [x.res]; exact Or.inl rfl
  · rw [x.res]; exact Or.inl rfl
  · have hg : (step E st op).1.itemFn = st2.itemFn := by
      rcases x.grow with hg | ⟨A, B, n, b, c', hb⟩
      · rw [hg]; rfl
      · rw [hb.same.2.2.1]; rfl
    rcases x.pre with ⟨s, v, hop, hst2, _⟩ | ⟨it, hop, hst2, _⟩
    · right; exact ⟨by rw [hg, hst2]; rfl, .str s, v, hop⟩
    · left; rw [hg, hst2]; rfl

theorem PMap.step_fn (H : HashFns) (s : PMap) (op : Op) :
    (s.step H op).1.fn = s.fn ∨ ((s.step H op).1.fn = .sample ∧ ∃ key v, op = .set key v) := by
  have ow : ∀ kc old v, (s.overwrite kc old v).1.fn = s.fn := by
    intro kc old v
    unfold PMap.overwrite
    split <;> first | rfl | (split <;> rfl)
  cases op with
  | set key v =>
    simp only [PMap.step]
    cases keyToHash H key with
    | none => exact Or.inl rfl
    | some kc =>
      simp only
      cases s.m kc with
      | some old => exact Or.inl (ow _ _ _)
      | none => cases key <;> first | exact Or.inl rfl | exact Or.inr ⟨rfl, _, _, rfl⟩
  | storeItem it =>
    left
    simp only [PMap.step]
    cases keyToHash H it.key with
    | none => rfl
    | some kc =>
      simp only
      cases s.m kc with
      | some old => exact ow _ _ _
      | none => rfl
  | delete key =>
    left
    simp only [PMap.step]
    cases keyToHash H key with
    | none => rfl
    | some kc =>
      simp only
      cases s.m kc <;> rfl
  | get key => left; simp only [PMap.step]; cases keyToHash H key <;> rfl
  | loadItem key => left; simp only [PMap.step]; cases keyToHash H key <;> rfl
  | _ => exact Or.inl rfl

/-- How the item types in force of map and plain map are related. -/
def FnRel (i : Fin 3) (kc : U64 × U64) (st : St) (s : PMap) : Prop :=
  match i with
  | 0 => s.fn = .sample ∧ st.itemFn = .sample
  | 1 => s.m kc ≠ none → s.fn = .sample ∧ st.itemFn = .sample
  | 2 => s.fn = st.itemFn

/-- Under which condition on the calls. -/
def FnOk (i : Fin 3) (H : HashFns) (kc : U64 × U64) (op : Op) : Prop :=
  match i with
  | 0 => True
  | 1 => ∀ it, op = .storeItem it → keyToHash H it.key ≠ some kc
  | 2 => ∀ key v, op ≠ .set key v

theorem FnRel.eq {i : Fin 3} {kc : U64 × U64} {st : St} {s : PMap} (h : FnRel i kc st s) (hn : s.m kc ≠ none) : s.fn = st.itemFn := by
  match i, h with
  | 0, h => rw [h.1, h.2]
  | 1, h => rw [(h hn).1, (h hn).2]
  | 2, h => exact h

theorem FnRel.other {i : Fin 3} {E : Env} {kc : U64 × U64} {st : St} {s : PMap} (hi : Inv st) {op : Op} (hok : FnOk i E.H kc op)
    (h : FnRel i kc st s) : FnRel i kc (step E st op).1 s := by
  have hf := SLM.step_fn E hi op
  match i, h, hok with
  | 0, h, _ => exact ⟨h.1, by rcases hf with hf | hf; rw [hf, h.2]; exact hf.1⟩
  | 1, h, _ => exact fun hn => ⟨(h hn).1, by rcases hf with hf | hf; rw [hf, (h hn).2]; exact hf.1⟩
  | 2, h, hok =>
    rcases hf with hf | ⟨_, key, v, hop⟩
    · show s.fn = _; rw [hf]; exact h
    · exact absurd hop (hok key v)

theorem FnRel.self {i : Fin 3} {E : Env} {kc : U64 × U64} {st : St} {s : PMap} (hi : Inv st) {op : Op} (hok : FnOk i E.H kc op)
    (ha : addr E.H op = some kc) (hm : s.m kc = (absM st).m kc) (hst : (step E st op).1.itemFn = ((absM st).step E.H op).1.fn)
    (h : FnRel i kc st s) : FnRel i kc (step E st op).1 (s.step E.H op).1 := by
  have hf := SLM.step_fn E hi op
  have hs := PMap.step_fn E.H s op
  match i, h, hok with
  | 0, h, _ => exact ⟨by rcases hs with hs | hs; rw [hs, h.1]; exact hs.1, by rcases hf with hf | hf; rw [hf, h.2]; exact hf.1⟩
  | 2, h, hok =>
    rcases hf with hf | ⟨_, key, v, hop⟩
    · rcases hs with hs | ⟨_, key, v, hop⟩
      · show _ = _; rw [hf, hs]; exact h
      · exact absurd hop (hok key v)
    · exact absurd hop (hok key v)
  | 1, h, hok =>
    intro hn
    by_cases hp : s.m kc = none
    · have hm' : (absM st).m kc = none := by rw [← hm, hp]
      rcases PMap.step_present hn with hc | hc
      · exact absurd hp hc
      · cases op with
        | set key v =>
          have hk : keyToHash E.H key = some kc := ha
          rw [hst]
          simp only [PMap.step, hk, hp, hm'] at hn ⊢
          cases key with
          | str s' => exact ⟨rfl, rfl⟩
          | _ => exact absurd hp hn
        | storeItem it => exact absurd ha (hok it rfl)
        | _ => cases hc
    · obtain ⟨h1, h2⟩ := h hp
      exact ⟨by rcases hs with hs | hs; rw [hs, h1]; exact hs.1, by rcases hf with hf | hf; rw [hf, h2]; exact hf.1⟩

theorem run_key {E : Env} {k c : U64} {i : Fin 3} {ops : List Op} {st : St} {s : PMap} (g : KGood st k c) (hm : s.m (k, c) = (absM st).m (k, c))
    (hfn : FnRel i (k, c) st s) (hok : ∀ op ∈ ops, KeyOk E.H k c op) (hi : ∀ op ∈ ops, FnOk i E.H (k, c) op)
    (hoff : KeyOff E k c st ops) (hcr : NoCrash E st ops) :
    KGood (run E st ops).1 k c ∧
      (s.run E.H (ops.filter (fun op => decide (addr E.H op = some (k, c))))).1.m (k, c) = (absM (run E st ops).1).m (k, c) ∧
      (((ops.zip (run E st ops).2).filter (fun p => decide (addr E.H p.1 = some (k, c)))).map (fun p => ans p.2)) =
        (s.run E.H (ops.filter (fun op => decide (addr E.H op = some (k, c))))).2 := by
  induction ops generalizing st s with
  | nil => exact ⟨g, hm, rfl⟩
  | cons op ops ih =>
    rw [NoCrash, run_cons] at hcr
    simp only [List.mem_cons, not_or] at hcr
    rw [run_cons]
    by_cases ha : addr E.H op = some (k, c)
    · obtain ⟨g', he⟩ := step_self_key g (hok op (by simp)) ha (fun hs hn => g.off (hoff.1 hs) hn) (fun h => hcr.1 h.symm)
      simp only [Prod.mk.injEq] at he
      obtain ⟨l1, l2⟩ := PMap.step_local ha hm (fun hn => hfn.eq hn)
      have := ih (s := (s.step E.H op).1) g' (by rw [l1, he.1]) (hfn.self g.inv (hi op (by simp)) ha hm he.2.1)
        (fun o ho => hok o (by simp [ho])) (fun o ho => hi o (by simp [ho])) hoff.2 hcr.2
      refine ⟨this.1, ?_, ?_⟩
      · rw [List.filter_cons_of_pos (by simpa using ha)]; exact this.2.1
      · rw [List.zip_cons_cons, List.filter_cons_of_pos (by simpa using ha), List.filter_cons_of_pos (by simpa using ha), List.map_cons, this.2.2]
        show ans _ :: _ = _ :: _
        rw [he.2.2, ← l2]; rfl
    · obtain ⟨g', he⟩ := step_other_key g (hok op (by simp)) ha
      have := ih (s := s) g' (by rw [he, hm]) (hfn.other g.inv (hi op (by simp)))
        (fun o ho => hok o (by simp [ho])) (fun o ho => hi o (by simp [ho])) hoff.2 hcr.2
      refine ⟨this.1, ?_, ?_⟩
      · rw [List.filter_cons_of_neg (by simpa using ha)]; exact this.2.1
      · rw [List.zip_cons_cons, List.filter_cons_of_neg (by simpa using ha), List.filter_cons_of_neg (by simpa using ha)]
        exact this.2.2

theorem kgood_init (cfg : Cfg) (k c : U64) : KGood (initSt cfg) k c := by
  have g := good_init cfg
  exact ⟨g.inv, fun a ha b hb h1 h2 => g.uniq a ha.1 b hb.1 ha.2 hb.2 (h1.trans h2.symm),
    fun a ha _ => absurd ha (by intro h; have := initSt_dummy cfg a h.1; have h2 := h.2; simp [Entry.ignored, this] at h2),
    fun e he h1 p hp hr => g.pos e he.1 he.2 p hp (hr.trans h1.symm)⟩

end SLM
