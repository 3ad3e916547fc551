import Verif.Props.Fill
/-!
C99, the counters together: the counters DumpBucket shows never add up to more than Len, and dividing a bucket leaves their sum alone.
-/
set_option autoImplicit false
set_option maxRecDepth 20000
namespace SLM
open History

theorem len_upd {m : Path → Bkt} {q p : Path} {x : Bkt} (hx : x.len = (m q).len) : (upd m q x p).len = (m p).len := by
  unfold upd
  split
  · next e => subst e; exact hx
  · rfl

theorem len_activate (m : Path → Bkt) (q p : Path) : (activate m q p).len = (m p).len := by
  unfold activate
  split
  · exact len_upd rfl
  · rfl

theorem len_runOk (m : Path → Bkt) (ok : OkFn) (p : Path) : (runOk m ok p).len = (m p).len := by
  cases ok with
  | none => rfl
  | activate q => exact len_activate m q p
  | extend b i =>
    simp only [runOk]
    rw [len_activate]
    split
    · rfl
    · exact len_upd rfl

theorem len_allocDowns (m : Path → Bkt) (b p : Path) : (allocDowns m b p).len = (m p).len := by
  unfold allocDowns
  split
  · exact (len_upd (by rfl)).trans (len_upd (by rfl))
  · rfl

theorem len_bfpLoop (r : U64) : ∀ (f l : Nat) (m : Path → Bkt) (b : Path) (m1 : Path → Bkt) (b1 : Path) (ok : OkFn),
    bfpLoop r f l m b = some (m1, b1, ok) → ∀ p, (m1 p).len = (m p).len
  | 0, l, m, b, m1, b1, ok, h, p => by simp only [bfpLoop, Option.some.injEq, Prod.mk.injEq] at h; rw [← h.1]
  | f + 1, l, m, b, m1, b1, ok, h, p => by
    simp only [bfpLoop] at h
    split at h
    · cases h
    · split at h
      · split at h
        · simp only [Option.some.injEq, Prod.mk.injEq] at h
          rw [← h.1]
          exact ((len_upd (by rfl)).trans (len_upd (by rfl))).trans (len_allocDowns m b p)
        · cases h
      · split at h
        · cases h
        · split at h
          · simp only [Option.some.injEq, Prod.mk.injEq] at h
            rw [← h.1]
            exact (len_upd (by rfl)).trans (len_allocDowns m b p)
          · rw [len_bfpLoop r f (l + 1) _ _ _ _ _ h p, len_allocDowns]

theorem climb_mem (m : Path → Bkt) (er : U64) : ∀ (l : List Path) (c : Path), (climb m er c l).1 = c ∨ (climb m er c l).1 ∈ l
  | [], c => Or.inl rfl
  | [x], c => Or.inl rfl
  | n :: m1 :: rest, c => by
    unfold climb
    split
    · exact Or.inl rfl
    · rcases climb_mem m er (m1 :: rest) (if (m n).rev ≤ er ∧ (m n).rev > (m c).rev then n else c) with h | h
      · rw [h]
        split
        · exact Or.inr (by simp)
        · exact Or.inl rfl
      · exact Or.inr (List.mem_cons_of_mem _ h)

/-- What `linkBucket` does to the counters and to the bucket list. -/
theorem len_linkBucket {st : St} {m : Path → Bkt} {b : Path} {ok : OkFn} {st' : St} (h : linkBucket st m b ok = .ok st') :
    (∃ hi lo, st.blist = hi ++ lo ∧ st'.blist = hi ++ b :: lo) ∧ ∀ p, (st'.mem p).len = (m p).len := by
  unfold linkBucket at h
  simp only at h
  split at h
  · cases h
  · next t lo hd =>
    split at h
    · cases h
    · injection h with h
      subst h
      refine ⟨⟨_, t :: lo, ?_, rfl⟩, fun p => len_runOk _ _ p⟩
      rw [← hd, List.takeWhile_append_dropWhile]

/-- If a bucket creation changes the bucket list, its counter and that of the divided bucket add up to the old counter of the latter; no other counter moves. -/
theorem len_makeBucketAt {st : St} {er : U64} {st' : St} (h : makeBucketAt st er = .ok st') :
    st'.blist = st.blist ∨ ∃ b c hi lo, c ∈ st.blist ∧ st.blist = hi ++ lo ∧ st'.blist = hi ++ b :: lo ∧
      (b ≠ c → (st'.mem b).len + (st'.mem c).len = (st.mem c).len ∧ ∀ p, p ≠ b → p ≠ c → (st'.mem p).len = (st.mem p).len) := by
  unfold makeBucketAt at h
  split at h
  · injection h with h; subst h; exact Or.inl rfl
  · next c0 hc0 =>
    have hm0 : c0 ∈ st.blist := (List.dropWhile_sublist _).subset (List.mem_of_find?_eq_some hc0)
    split at h
    · injection h with h; subst h; exact Or.inl rfl
    · have hcm := climb_mem st.mem er (c0 :: (st.blist.takeWhile (fun q => decide (q ≠ c0))).reverse) c0
      generalize climb st.mem er c0 (c0 :: (st.blist.takeWhile (fun q => decide (q ≠ c0))).reverse) = cn at h hcm
      obtain ⟨c, next⟩ := cn
      have hc : c ∈ st.blist := by
        rcases hcm with hcm | hcm
        · simp only at hcm; rw [hcm]; exact hm0
        · rcases List.mem_cons.1 hcm with hcm | hcm
          · simp only at hcm; rw [hcm]; exact hm0
          · exact (List.takeWhile_sublist _).subset (List.mem_reverse.1 hcm)
      simp only at h
      split at h
      · injection h with h; subst h; exact Or.inl rfl
      · split at h
        · cases h
        · split at h
          · cases h
          · next m1 b ok hb =>
            have h1 := len_bfpLoop _ _ _ _ _ _ _ _ hb
            split at h
            · injection h with h; subst h; exact Or.inl rfl
            · generalize hm2 : (if (m1 b).rev ≠ newBoundary (st.mem c).rev (st.mem next).rev (decide (c = next)) then
                upd m1 b { m1 b with rev := newBoundary (st.mem c).rev (st.mem next).rev (decide (c = next)), len := 0 } else m1) = m2 at h
              have h2 : ∀ p, p ≠ b → (m2 p).len = (st.mem p).len := by
                intro p hp
                rw [← hm2, ← h1 p]
                split
                · unfold upd; rw [if_neg hp]
                · rfl
              split at h
              · injection h with h; subst h; exact Or.inl rfl
              · obtain ⟨⟨hi, lo, e1, e2⟩, e3⟩ := len_linkBucket h
                refine Or.inr ⟨b, c, hi, lo, hc, e1, e2, fun hbc => ⟨?_, fun p hpb hpc => ?_⟩⟩
                · rw [e3, e3, ← h2 c (Ne.symm hbc)]
                  simp [moveLen, upd, hbc, Ne.symm hbc]
                · rw [e3, ← h2 p hpb]
                  simp [moveLen, upd, hpb, hpc]

/-- The counters of the buckets in the bucket list, added up. -/
def counters (st : St) : Int := (st.blist.map (fun p => (st.mem p).len)).sum

theorem sum_one {l : List Path} {f g : Path → Int} {c : Path} (hn : l.Nodup) (hc : c ∈ l) (h : ∀ p ∈ l, p ≠ c → g p = f p) :
    (l.map g).sum + f c = (l.map f).sum + g c := by
  induction l with
  | nil => cases hc
  | cons x xs ih =>
    rw [List.nodup_cons] at hn
    simp only [List.map_cons, List.sum_cons]
    by_cases hx : x = c
    · subst hx
      have : xs.map g = xs.map f := List.map_congr_left (fun p hp => h p (by simp [hp]) (by rintro rfl; exact hn.1 hp))
      rw [this]; omega
    · rcases List.mem_cons.1 hc with hc | hc
      · exact absurd hc.symm hx
      · have := ih hn.2 hc (fun p hp hpc => h p (by simp [hp]) hpc)
        rw [h x (by simp) hx]; omega

theorem counters_makeBucketAt {st : St} (hi : Inv st) {er : U64} {st' : St} (h : makeBucketAt st er = .ok st') : counters st' = counters st := by
  rcases makeBucketAt_spec hi er with ⟨s, h1, _, h3⟩ | ⟨h1, _⟩
  · rw [h] at h1
    injection h1 with h1
    subst h1
    rcases h3 with rfl | ⟨A, B, n, b, c, hb⟩
    · rfl
    · rcases len_makeBucketAt h with hc | ⟨b', c', H, L, hc, e1, e2, e3⟩
      · exfalso
        have := congrArg List.length hc
        rw [hb.new, hb.old] at this
        simp at this
      · have hbb : b' = b := by
          have : b ∈ st'.blist := by rw [hb.new]; simp
          rw [e2] at this
          rcases List.mem_append.1 this with h5 | h5
          · exact absurd (by rw [e1]; exact List.mem_append_left _ h5) hb.notin
          · rcases List.mem_cons.1 h5 with h5 | h5
            · exact h5.symm
            · exact absurd (by rw [e1]; exact List.mem_append_right _ h5) hb.notin
        subst hbb
        obtain ⟨e4, e5⟩ := e3 (by rintro rfl; exact hb.notin hc)
        have hnd : st.blist.Nodup := desc_nodup hi.bi.desc
        have := sum_one (f := fun p => (st.mem p).len) (g := fun p => (st'.mem p).len) hnd hc
          (fun p hp hpc => e5 p (by rintro rfl; exact hb.notin hp) hpc)
        unfold counters
        rw [e2]
        rw [e1] at this ⊢
        simp only [List.map_append, List.map_cons, List.sum_append, List.sum_cons] at this ⊢
        omega
  · rw [h] at h1; cases h1

/-- No store, delete or load moves the sum of the counters by more than the number of keys it adds; no division of a bucket moves it. -/
theorem step_counters (E : Env) {st : St} (h : Inv st) (op : Op) :
    counters (step E st op).1 = counters st ∨ (counters (step E st op).1 = counters st + 1 ∧ (step E st op).1.len = st.len + 1) := by
  rcases step_eff E h op with x | ⟨e, nv, b, x⟩ | ⟨key, e, x⟩ | ⟨st2, k, c, e, x⟩
  · obtain ⟨b, hb⟩ := x.same; rw [hb]; exact Or.inl rfl
  · rw [x.res]; exact Or.inl rfl
  · rw [x.res]; exact Or.inl rfl
  · have hsn := x.setNew
    rw [setNew_eq] at hsn
    have hc : counters (step E st op).1 = counters (setMid st2 k (findBucket st.mem (rev64 k)) e) := by
      split at hsn
      · unfold makeBucket at hsn
        split at hsn
        · split at hsn
          · exact counters_makeBucketAt x.midinv hsn
          · injection hsn with hsn; rw [← hsn]
        · exact counters_makeBucketAt x.midinv hsn
      · injection hsn with hsn; rw [← hsn]
    have hlen : (step E st op).1.len = st.len + 1 := by
      rw [(grow_len x.grow).1]
      show st2.len + 1 = _
      rw [x.len]
    rw [hc]
    by_cases hb : findBucket st.mem (rev64 k) ∈ st.blist
    · have hm : counters (setMid st2 k (findBucket st.mem (rev64 k)) e) = counters st ∨
          counters (setMid st2 k (findBucket st.mem (rev64 k)) e) = counters st + 1 := by
        unfold counters
        have hbl : (setMid st2 k (findBucket st.mem (rev64 k)) e).blist = st.blist := x.blist
        rw [hbl]
        have hmm : (setMid st2 k (findBucket st.mem (rev64 k)) e).mem = if (st.mem (findBucket st.mem (rev64 k))).level > 0 then
            upd st.mem (findBucket st.mem (rev64 k)) { st.mem (findBucket st.mem (rev64 k)) with len := (st.mem (findBucket st.mem (rev64 k))).len + 1 } else st.mem := by
          show (if (st2.mem _).level > 0 then _ else _) = _
          rw [x.mem]
        rw [hmm]
        split
        · right
          have := sum_one (f := fun p => (st.mem p).len)
            (g := fun p => (upd st.mem (findBucket st.mem (rev64 k)) { st.mem (findBucket st.mem (rev64 k)) with len := (st.mem (findBucket st.mem (rev64 k))).len + 1 } p).len)
            (desc_nodup h.bi.desc) hb (fun p _ hp => by simp [upd, hp])
          simp only [upd, if_true] at this ⊢
          omega
        · exact Or.inl rfl
      rcases hm with hm | hm
      · exact Or.inl hm
      · exact Or.inr ⟨hm, hlen⟩
    · left
      unfold counters
      have hbl : (setMid st2 k (findBucket st.mem (rev64 k)) e).blist = st.blist := x.blist
      rw [hbl]
      congr 1
      apply List.map_congr_left
      intro p hp
      have hpe : p ≠ findBucket st.mem (rev64 k) := by rintro rfl; exact hb hp
      show ((if (st2.mem _).level > 0 then _ else _ : Path → Bkt) p).len = _
      rw [x.mem]
      split
      · simp [upd, hpe]
      · rfl

/-- C99, weakened: in every reachable map the counters of all buckets together are never more than Len, the number of keys ever stored anew; no division of a bucket adds
to them. -/
theorem C99_sum_partial {E : Env} {cfg : Cfg} {ops : List Op} : counters (run E (initSt cfg) ops).1 ≤ (run E (initSt cfg) ops).1.len := by
  have : ∀ (ops : List Op) (st : St), Inv st → counters st ≤ st.len → counters (run E st ops).1 ≤ (run E st ops).1.len := by
    intro ops
    induction ops with
    | nil => intro st _ h; exact h
    | cons op ops ih =>
      intro st hi h
      rw [run_cons]
      apply ih _ (step_inv E hi op)
      have hl := step_len E hi op
      rcases step_counters E hi op with h1 | ⟨h1, h2⟩
      · rw [h1]
        rcases hl with ⟨_, _, hl⟩ | hl
        · omega
        · have : (step E st op).1.len = st.len := hl.2
          omega
      · omega
  exact this ops _ (inv_init cfg) (Int.le_of_eq (show ((initSt {}).blist.map (fun p => ((initSt {}).mem p).len)).sum = 0 by decide +kernel))

/-- C99, weakened: no operation moves the sum of the counters but the store of a new key, which adds 1 or nothing to it, whether a bucket is divided or not. -/
theorem C99_sum_step_partial {E : Env} {st : St} (h : Reachable E st) (op : Op) :
    counters (step E st op).1 = counters st ∨ (counters (step E st op).1 = counters st + 1 ∧ (step E st op).1.len = st.len + 1) :=
  step_counters E h.inv op

/-- The map of C99_counter_refuted: four divisions, one negative counter, and the counters add up to 8 after 12 stores. -/
theorem C99_sum_applies : (run exE (initSt { maxPer := 3 }) fillOps).1.blist.length = 21 ∧ counters (run exE (initSt { maxPer := 3 }) fillOps).1 = 8 ∧
    (run exE (initSt { maxPer := 3 }) fillOps).1.len = 12 := by
  refine ⟨?_, ?_, ?_⟩ <;> decide +kernel

end SLM
