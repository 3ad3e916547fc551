import Verif.Proofs.EmbFill
import Verif.Proofs.Depth
/-!
How many buckets an embedded map has (C115).
-/
set_option maxRecDepth 100000
set_option autoImplicit false
namespace SLM.Emb
open Spec (PMap Ans)

/-- Slots in use in the array of bucket `c`. -/
def lenAt (pools : Path → Option Pool) (c : Path) : Nat :=
  match pools c with
  | some P => P.len.toNat
  | none => 0

def total (f : Path → Nat) (l : List Path) : Nat := (l.map f).sum
def busy (f : Path → Nat) (l : List Path) : Nat := l.countP (fun c => decide (0 < f c))

theorem busy_le (f : Path → Nat) (l : List Path) : busy f l ≤ total f l := by
  induction l with
  | nil => simp [busy, total]
  | cons a l ih =>
    unfold busy total at *
    rw [List.countP_cons, List.map_cons, List.sum_cons]
    split
    · rename_i h; have := of_decide_eq_true h; omega
    · omega

theorem total_congr {f g : Path → Nat} {l : List Path} (h : ∀ c ∈ l, f c = g c) : total f l = total g l := by
  unfold total; rw [List.map_congr_left h]

theorem busy_congr {f g : Path → Nat} {l : List Path} (h : ∀ c ∈ l, f c = g c) : busy f l = busy g l := by
  unfold busy
  apply List.countP_congr
  intro c hc
  rw [h c hc]

theorem total_append (f : Path → Nat) (l m : List Path) : total f (l ++ m) = total f l + total f m := by
  simp [total]

theorem total_cons (f : Path → Nat) (a : Path) (l : List Path) : total f (a :: l) = f a + total f l := by
  simp [total]

theorem busy_append (f : Path → Nat) (l m : List Path) : busy f (l ++ m) = busy f l + busy f m := by
  simp [busy]

theorem busy_cons (f : Path → Nat) (a : Path) (l : List Path) : busy f (a :: l) = (if 0 < f a then 1 else 0) + busy f l := by
  unfold busy
  rw [List.countP_cons]
  simp only [decide_eq_true_eq]
  omega

/-- The number of buckets against the number of slots in use. -/
structure RoomL (mp : Int) (f : Path → Nat) (l : List Path) : Prop where
  init : 17 ≤ l.length
  few : l.length = 17 ∨ (l.length ≤ busy f l + 16 ∧ (l.length : Int) - 17 + mp ≤ total f l)

def BRoom (st : St) : Prop := RoomL st.maxPer (lenAt st.pools) st.blist

theorem RoomL.split {mp : Int} {f g : Path → Nat} {A B : List Path} {n b c : Path} (h : RoomL mp f (A ++ n :: c :: B)) (hc : (f c : Int) > mp)
    (hs : g c + g b = f c) (h1 : 0 < g c) (h2 : 0 < g b) (ho : ∀ p ∈ A ++ n :: B, g p = f p) :
    RoomL mp g (A ++ n :: b :: c :: B) ∧ total g (A ++ n :: b :: c :: B) = total f (A ++ n :: c :: B) := by
  have hA : ∀ p ∈ A, g p = f p := fun p hp => ho p (by simp [hp])
  have hB : ∀ p ∈ B, g p = f p := fun p hp => ho p (by simp [hp])
  have hn : g n = f n := ho n (by simp)
  have ht : total g (A ++ n :: b :: c :: B) = total f (A ++ n :: c :: B) := by
    simp only [total_append, total_cons, total_congr hA, total_congr hB, hn]; omega
  have hb : busy g (A ++ n :: b :: c :: B) = busy f (A ++ n :: c :: B) + 1 := by
    simp only [busy_append, busy_cons, busy_congr hA, busy_congr hB, hn]
    have : 0 < f c := by omega
    simp only [h1, h2, this, if_true]; omega
  have hle : f c + busy f (A ++ n :: c :: B) ≤ total f (A ++ n :: c :: B) + 1 := by
    have e1 := busy_le f A
    have e2 := busy_le f B
    simp only [total_append, total_cons, busy_append, busy_cons]
    have : 0 < f c := by omega
    simp only [this, if_true]
    split <;> omega
  have hbc : 1 ≤ busy f (A ++ n :: c :: B) := by
    simp only [busy_append, busy_cons]
    have : 0 < f c := by omega
    simp only [this, if_true]; omega
  have hl : (A ++ n :: b :: c :: B).length = (A ++ n :: c :: B).length + 1 := by simp; omega
  refine ⟨⟨by rw [hl]; have := h.init; omega, Or.inr ?_⟩, ht⟩
  rw [hl, hb, ht]
  have hi := h.init
  rcases h.few with h | ⟨h, h'⟩
  · rw [h]; push_cast; omega
  · push_cast; omega

/-- A slot more in one bucket. -/
theorem RoomL.grow {mp : Int} {f g : Path → Nat} {l : List Path} (h : RoomL mp f l) (hle : ∀ p ∈ l, f p ≤ g p) : RoomL mp g l := by
  refine ⟨h.init, ?_⟩
  rcases h.few with h | ⟨h1, h2⟩
  · exact Or.inl h
  · right
    have hb : busy f l ≤ busy g l := by
      unfold busy
      apply List.countP_mono_left
      intro p hp hx
      have := hle p hp
      have := of_decide_eq_true hx
      exact decide_eq_true (by omega)
    have ht : total f l ≤ total g l := by
      unfold total
      clear h2 h1 hb h
      induction l with
      | nil => simp
      | cons a l ih =>
        have h1 := hle a (by simp)
        have h2 := ih (fun p hp => hle p (by simp [hp]))
        simp only [List.map_cons, List.sum_cons]; omega
    omega

theorem makeBucket2_room : ∀ (fuel : Nat) (st : St) (gl : List Path) (n c : Path) (k : Nat) (P : Pool), EI st gl →
    Adj st.blist n c → Width gl n c k → k ≤ fuel → st.pools c = some P → P.len > st.maxPer →
    NotCrowded st.maxPer (Stored st) → BRoom st →
    ∃ st', makeBucket2 fuel st c = .ok st' ∧ BRoom st' ∧ total (lenAt st'.pools) st'.blist = total (lenAt st.pools) st.blist := by
  intro fuel
  induction fuel with
  | zero =>
    intro st gl n c k P h ha hw hk
    have := hw.2.2.1; omega
  | succ fuel ih =>
    intro st gl n c k P h ha hw hfu hP hlen hcr hroom
    have h5 := h.wide hcr ha hw hP hlen
    have hcn := h.adj_ne ha
    obtain ⟨A, B, hbl⟩ := adj_decomp h.desc ha
    obtain ⟨P', xs, z, g1, g2, g3⟩ := h.content n c ha
    rw [hP] at g1; injection g1 with g1; subst g1
    have hprev : prevAsB st.blist c = n := by rw [hbl]; exact prevAsB_eq (hbl ▸ h.desc)
    have hnr := newRevE_eq h.bi (h.sub n ha.1) (h.sub c ha.2.1) hcn hw.1 hw.2.1 (by omega)
    generalize hnrr : newRevE (st.mem n).rev (st.mem c).rev = nr at hnr
    have h2k : 2 ^ k / 2 < 2 ^ k ∧ 0 < 2 ^ k / 2 := by
      obtain ⟨j, rfl⟩ : ∃ j, k = j + 1 := ⟨k - 1, by omega⟩
      rw [pow_succ]; have := Nat.two_pow_pos j; omega
    obtain ⟨m1, b, gl', e1, hbi, hnz, hsh, hbn, hbgl, hbv, hbr, hgl⟩ := mid_bucket h ha hw h5 hnr hcn
    have hkk := hw.1
    have hnr0 : nr ≠ 0 := by
      rintro rfl; simp at hnr; omega
    have hnin : b ∉ st.blist := by
      intro hb
      have := ha.2.2.2 b hb
      omega
    have hbasec : basePath m1 c = c := basePath_self hbi ((hgl c).2 (Or.inl (h.sub c ha.2.1))) hcn
    have hbaseb : basePath m1 b = b := basePath_self hbi hbgl hbn
    have hzz : ∃ st', (Except.ok { st with mem := m1 } : Except Crash St) = .ok st' ∧ BRoom st' ∧
        total (lenAt st'.pools) st'.blist = total (lenAt st.pools) st.blist := ⟨_, rfl, hroom, rfl⟩
    simp only [makeBucket2]
    rw [hprev, hnrr, if_neg hnr0, e1]
    simp only
    rw [if_neg (by rintro ⟨h0, _⟩; exact hnr0 (hbr ▸ h0)), if_neg hnin, hbasec, hP]
    simp only
    rcases g2.firstGE nr with ⟨i, f1, f2, f3, f4⟩ | ⟨f1, f2⟩
    · unfold Pool.findIdx
      rw [f1]
      cases i with
      | zero => exact hzz
      | succ i =>
        simp only
        obtain ⟨hE, a1, a2, w1, w2⟩ := h.linked ha hw h5 hbi hnz hsh hbn (by rw [hbv, hnr]) hgl hbl hP g2 g3 f2 (by omega)
          (by intro s hs; have := f3 s hs; rw [hbv]; bv_omega) (by intro s hs; have := f4 s hs; rw [hbv]; bv_omega)
        have hadd : addBucket m1 st.blist b = A ++ n :: b :: c :: B := by
          rw [hbl]
          exact addBucket_eq hbi (hbl ▸ h.desc) (fun p hp => (hgl p).2 (Or.inl (h.sub p (hbl ▸ hp)))) hbgl (by omega) (by omega)
        rw [hadd, hbaseb]
        have hcneb : c ≠ b := by rintro rfl; exact hnin ha.2.1
        obtain ⟨ok1, ok2⟩ := g2.split f2 (by omega)
        have hst : ∀ s, Stored { st with mem := m1, pools := upool (upool st.pools c (P.split (i + 1)).1) b (P.split (i + 1)).2, blist := A ++ n :: b :: c :: B } s → Stored st s := by
          intro s
          rintro ⟨p, Q, hQ, hs⟩
          simp only [upool] at hQ
          by_cases e1 : p = b
          · rw [if_pos e1] at hQ; injection hQ with hQ; subst hQ
            rw [ok2.used] at hs
            exact ⟨c, P, hP, by rw [g2.used]; exact List.mem_of_mem_drop hs⟩
          · rw [if_neg e1] at hQ
            by_cases e2 : p = c
            · rw [if_pos e2] at hQ; injection hQ with hQ; subst hQ
              rw [ok1.used] at hs
              exact ⟨c, P, hP, by rw [g2.used]; exact List.mem_of_mem_take hs⟩
            · rw [if_neg e2] at hQ
              exact ⟨p, Q, hQ, hs⟩
        have hcr' : NotCrowded st.maxPer (Stored { st with mem := m1, pools := upool (upool st.pools c (P.split (i + 1)).1) b (P.split (i + 1)).2, blist := A ++ n :: b :: c :: B }) := by
          intro L hL h1 h2
          refine hcr L hL (fun r hr => ?_) h2
          obtain ⟨s, x1, x2⟩ := h1 r hr
          exact ⟨s, hst s x1, x2⟩
        have hPl := g2.len
        have hnd : (A ++ n :: c :: B).Nodup := by
          rw [← hbl]
          refine h.desc.imp ?_
          rintro p q hpq rfl
          omega
        have hcm : c ∉ A ++ n :: B := by
          have : (c :: (A ++ n :: B)).Nodup := by
            refine (List.Perm.nodup_iff ?_).1 hnd
            rw [show A ++ n :: c :: B = (A ++ [n]) ++ c :: B by simp, show A ++ n :: B = (A ++ [n]) ++ B by simp]
            exact List.perm_middle
          exact (List.nodup_cons.1 this).1
        have hbm : b ∉ A ++ n :: B := by
          intro hx
          apply hnin
          rw [hbl]
          simp only [List.mem_append, List.mem_cons] at hx ⊢; tauto
        have l1 : lenAt st.pools c = xs.length := by unfold lenAt; rw [hP]; simp [hPl]
        have l2 : lenAt (upool (upool st.pools c (P.split (i + 1)).1) b (P.split (i + 1)).2) c = i + 1 := by
          unfold lenAt upool; rw [if_neg hcneb, if_pos rfl]; simp [Pool.split]
        have l3 : lenAt (upool (upool st.pools c (P.split (i + 1)).1) b (P.split (i + 1)).2) b = xs.length - (i + 1) := by
          unfold lenAt upool; rw [if_pos rfl]; simp only [Pool.split, hPl]; omega
        have l4 : ∀ p ∈ A ++ n :: B, lenAt (upool (upool st.pools c (P.split (i + 1)).1) b (P.split (i + 1)).2) p = lenAt st.pools p := by
          intro p hp
          have hpb : p ≠ b := by rintro rfl; exact hbm hp
          have hpc : p ≠ c := by rintro rfl; exact hcm hp
          unfold lenAt upool; rw [if_neg hpb, if_neg hpc]
        have hroom' : RoomL st.maxPer (lenAt st.pools) (A ++ n :: c :: B) := by rw [← hbl]; exact hroom
        obtain ⟨R2, T2⟩ := hroom'.split (g := lenAt (upool (upool st.pools c (P.split (i + 1)).1) b (P.split (i + 1)).2)) (b := b)
          (by rw [l1, ← hPl]; exact hlen) (by rw [l1, l2, l3]; omega) (by rw [l2]; omega) (by rw [l3]; omega) l4
        rw [← hbl] at T2
        split
        · rename_i hhi
          obtain ⟨st', r1, r2, r3⟩ := ih _ gl' n b (k - 1) (P.split (i + 1)).2 hE a1 w1 (by omega)
            (by simp [upool]) hhi hcr' R2
          exact ⟨st', r1, r2, r3.trans T2⟩
        · split
          · rename_i hlo
            obtain ⟨st', r1, r2, r3⟩ := ih _ gl' b c (k - 1) (P.split (i + 1)).1 hE a2 w2 (by omega)
              (by simp [upool, hcneb]) hlo hcr' R2
            exact ⟨st', r1, r2, r3.trans T2⟩
          · exact ⟨_, rfl, R2, T2⟩
    · unfold Pool.findIdx
      rw [f1]
      exact hzz

variable {H : HashFns} {K : List (U64 × U64)} {s : PMap} {st : St} {gl : List Path} {b n : Path}

/-- The invariant of histories of Sets and lookups: Len is the number of slots in use. -/
def RoomInv (st : St) : Prop := BRoom st ∧ st.len = total (lenAt st.pools) st.blist

theorem lenAt_set {pools : Path → Option Pool} {P Q : Pool} (_hP : pools b = some P) (p : Path) :
    lenAt (upool pools b Q) p = if p = b then Q.len.toNat else lenAt pools p := by
  unfold lenAt upool
  by_cases hp : p = b <;> simp [hp]

theorem RoomInv.same (h : RoomInv st) {P Q : Pool} (hP : st.pools b = some P) (hl : Q.len = P.len) : RoomInv { st with pools := upool st.pools b Q } := by
  have he : lenAt (upool st.pools b Q) = lenAt st.pools := by
    funext p
    rw [lenAt_set hP]
    split
    · rename_i e; subst e
      unfold lenAt; rw [hP, hl]
    · rfl
  unfold RoomInv BRoom at *
  simp only [he]
  exact h

theorem insert_room (h : RelE H K st gl s) (hK : KOK st.maxPer K) (hF : RoomInv st) {str : List (BitVec 8)}
    (hmem : (H.mem str, H.xx str) ∈ K) {P : Pool} {xs : List Slot} {z : Nat} (f : Found st (rev64 (H.mem str)) b n P xs z)
    {v : IVal} {q : Pool} {i : Nat} (hg : Pool.getSlot 2 P (rev64 (H.mem str)) = .ok (q, i))
    (hno : ∀ x ∈ xs, x.rev ≠ rev64 (H.mem str)) (hlen : (xs.length : Int) < 2 ^ 62) {st' : St}
    (hl : link (setSlot st b q i { rev := rev64 (H.mem str), conflict := H.xx str, key := str, val := v }) b (rev64 (H.mem str)) false = .ok st') :
    RoomInv st' := by
  obtain ⟨y, hy⟩ : ∃ y : Slot, y = { rev := rev64 (H.mem str), conflict := H.xx str, key := str, val := v } := ⟨_, rfl⟩
  rw [← hy] at hl
  have y1 : y.rev = rev64 (H.mem str) := by rw [hy]
  obtain ⟨Q, z', st1, ⟨hS, hbl, hst1⟩, hQ, hE, hP1, hcr⟩ := inserted h hK hmem f hg hno hlen y1 (by rw [hy]) (by rw [hy])
  rw [hS] at hl
  have hPl := f.okp.len
  have hQl : Q.len = P.len + 1 := by
    rw [hQ.len, f.okp.len]
    have : (xs.take i ++ y :: xs.drop i).length = xs.length + 1 := by
      simp only [List.length_append, List.length_cons, List.length_take, List.length_drop]; omega
    rw [this]; simp
  have hmx : st1.maxPer = st.maxPer := by rw [hst1]
  have hl1 : st1.len = st.len := by rw [hst1]
  have ha : Adj st1.blist n b := by rw [hbl]; exact f.adj
  have hlenAt : ∀ p, lenAt st1.pools p = if p = b then lenAt st.pools p + 1 else lenAt st.pools p := by
    intro p
    rw [hst1]
    show lenAt (upool st.pools b Q) p = _
    rw [lenAt_set f.pool]
    split
    · rename_i e; subst e
      unfold lenAt; rw [f.pool, hQl]; simp only; omega
    · rfl
  obtain ⟨A, B, hdec⟩ := adj_decomp h.ei.desc f.adj
  have hT : total (lenAt st1.pools) st1.blist = total (lenAt st.pools) st.blist + 1 := by
    have hnd : (A ++ n :: b :: B).Nodup := by
      rw [← hdec]
      refine h.ei.desc.imp ?_
      rintro p q hpq rfl
      omega
    have hbm : b ∉ A ++ n :: B := by
      have : (b :: (A ++ n :: B)).Nodup := by
        refine (List.Perm.nodup_iff ?_).1 hnd
        rw [show A ++ n :: b :: B = (A ++ [n]) ++ b :: B by simp, show A ++ n :: B = (A ++ [n]) ++ B by simp]
        exact List.perm_middle
      exact (List.nodup_cons.1 this).1
    have hother : ∀ p ∈ A ++ n :: B, lenAt st1.pools p = lenAt st.pools p := by
      intro p hp
      rw [hlenAt, if_neg (by rintro rfl; exact hbm hp)]
    have hbb : lenAt st1.pools b = lenAt st.pools b + 1 := by rw [hlenAt, if_pos rfl]
    rw [hbl, hdec]
    simp only [total_append, total_cons, hbb]
    rw [total_congr (fun p hp => hother p (by simp [hp]) : ∀ p ∈ A, _), total_congr (fun p hp => hother p (by simp [hp]) : ∀ p ∈ B, _), hother n (by simp)]
    omega
  have hR1 : BRoom st1 := by
    unfold BRoom
    rw [hmx, hbl]
    refine hF.1.grow ?_
    intro p _
    rw [hlenAt]; split <;> omega
  unfold link at hl
  simp only at hl
  by_cases hsp : Q.len > st.maxPer ∧ rev64 (H.mem str) < maxU64
  · rw [if_pos ⟨hsp.2, trivial, by simp only [blen, hP1, hmx]; exact hsp.1⟩] at hl
    obtain ⟨k, hw⟩ := hE.width n b ha
    have hk := hE.width_le ha hw.1
    obtain ⟨st2, r1, r2, r3⟩ := makeBucket2_room 64 st1 gl n b k Q hE ha hw (by omega) hP1 (by rw [hmx]; exact hsp.1) hcr hR1
    obtain ⟨st2', _, q1, _, q3, q4, _⟩ := makeBucket2_ok 64 st1 gl n b k Q hE ha hw (by omega) hP1 (by rw [hmx]; exact hsp.1) hcr
    rw [r1] at hl q1
    injection q1 with q1; subst q1
    simp only [Except.ok.injEq] at hl
    subst hl
    refine ⟨r2, ?_⟩
    show st2.len + 1 = ((total (lenAt st2.pools) st2.blist : Nat) : Int)
    rw [r3, q4, hT, hl1, hF.2]; push_cast; rfl
  · rw [if_neg (by rintro ⟨x0, _, x⟩; simp only [blen, hP1, hmx] at x; exact hsp ⟨x, x0⟩)] at hl
    simp only [Except.ok.injEq] at hl
    subst hl
    refine ⟨hR1, ?_⟩
    show st1.len + 1 = ((total (lenAt st1.pools) st1.blist : Nat) : Int)
    rw [hT, hl1, hF.2]; push_cast; rfl

theorem set_room (h : RelE H K st gl s) (hK : KOK st.maxPer K) (hF : RoomInv st) {str : List (BitVec 8)}
    (hmem : (H.mem str, H.xx str) ∈ K) (v : IVal) : RoomInv (opSet H st (.str str) v).1 := by
  unfold opSet
  simp only [keyToHash]
  rcases h.find (H.mem str) (H.xx str) with ⟨h0, hg⟩ | ⟨b, n, P, xs, z, f, ⟨i, hi, e0, e1, e2, e3⟩ | ⟨e0, e2, hno⟩⟩
  · rw [h0]; exact hF
  · rw [e0]
    simp only [Emb.update]
    split
    · exact hF
    · exact hF.same f.pool rfl
  · rw [e0]
    obtain ⟨q, i, st', gl', g1, g2, g3, g4, g5, g6⟩ := h.insert hK hmem f hno v
    simp only [g1, g2]
    have hsv : setValue .sample ({} : Slot).val v = .ok (v, v.isSome) := by
      cases v <;> rfl
    have hc : claim {} (rev64 (H.mem str)) (H.xx str) = { rev := rev64 (H.mem str), conflict := H.xx str } := by
      simp [claim]
    simp only [hc, hsv]
    simp only [g3, finish]
    refine insert_room h hK hF hmem f g1 ?_ ?_ g3
    · intro x hx hc
      have hx1 := h.mem x ⟨b, P, f.pool, by rw [f.okp.used]; exact hx⟩
      rw [hc, rev64_rev64] at hx1
      exact hno x hx ⟨hc, hK.one _ _ _ hx1 hmem⟩
    · have hx1 : (xs.map (fun x => (rev64 x.rev, x.conflict))).length ≤ K.length := by
        apply List.Subperm.length_le
        apply List.subperm_of_subset
        · rw [List.Nodup, List.pairwise_map]
          refine f.okp.sorted.imp ?_
          intro a b hlt hc
          injection hc with h1 _
          rw [rev64_inj h1] at hlt; exact BitVec.lt_irrefl _ hlt
        · intro y hy
          obtain ⟨x, hx, rfl⟩ := List.mem_map.1 hy
          exact h.mem x ⟨b, P, f.pool, by rw [f.okp.used]; exact hx⟩
      rw [List.length_map] at hx1
      exact lt_of_le_of_lt (Int.ofNat_le.2 hx1) hK.small

theorem stepE_room (h : RelE H K st gl s) (hK : KOK st.maxPer K) (hF : RoomInv st) {op : Op} (hp : Plain op)
    (hk : ∀ kc, setHash H op = some kc → kc ∈ K) : RoomInv (step H st op).1 := by
  cases op with
  | set key v =>
    cases key with
    | str str => exact set_room h hK hF (hk (H.mem str, H.xx str) rfl) v
    | _ => exact absurd hp (by simp [Plain])
  | storeItem str v r => exact absurd hp (by simp [Plain])
  | delete k => exact absurd hp (by simp [Plain])
  | purge k => exact absurd hp (by simp [Plain])
  | _ => exact hF

theorem run_room {mp : Nat} (hK : KOK mp K) : ∀ (ops : List Op) (st : St) (gl : List Path) (s : PMap), RelE H K st gl s →
    st.maxPer = mp → RoomInv st → (∀ op ∈ ops, Plain op) → (∀ op ∈ ops, ∀ kc, setHash H op = some kc → kc ∈ K) →
    (∀ c, Out.crash c ∉ (run H st ops).2) → RoomInv (run H st ops).1 := by
  intro ops
  induction ops with
  | nil => intro st gl s _ _ hF _ _ _; exact hF
  | cons op ops ih =>
    intro st gl s h hm hF hp hk hc
    simp only [Emb.run] at hc ⊢
    rcases h.step (hm ▸ hK) (hp op (by simp)) (hk op (by simp)) with ⟨h2, _⟩ | ⟨⟨gl', h2, _⟩, h3, _⟩
    · exact absurd (by rw [h2]; simp) (hc .stackOverflow)
    · exact ih _ gl' _ h2 (h3.trans hm) (stepE_room h (hm ▸ hK) hF (hp op (by simp)) (hk op (by simp)))
        (fun o ho => hp o (by simp [ho])) (fun o ho => hk o (by simp [ho]))
        (fun c hx => hc c (List.mem_cons_of_mem _ hx))

theorem total_zero (l : List Path) : total (fun _ => 0) l = 0 := by
  induction l with
  | nil => rfl
  | cons a l ih => rw [total_cons, ih]

theorem initE_room (mp : Nat) : RoomInv (initSt mp) := by
  have hl : (initSt mp).blist.length = 17 := splits_init {}
  have ht : total (lenAt (initSt mp).pools) (initSt mp).blist = 0 := by
    refine (total_congr (g := fun _ => 0) ?_).trans (total_zero _)
    intro p _
    unfold lenAt initSt
    simp only
    split
    · rename_i P hP
      split at hP
      · injection hP with hP; subst hP; rfl
      · cases hP
    · rfl
  refine ⟨⟨by rw [hl], Or.inl hl⟩, ?_⟩
  rw [ht]; rfl

end SLM.Emb
