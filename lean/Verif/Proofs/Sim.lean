import Verif.Proofs.Conc9
import Verif.Proofs.ConcExec
import Verif.Proofs.StepEff
/-! A call that runs alone on the machine of Model/Conc.lean ends as the sequential call of Model/Map.lean does. -/
set_option autoImplicit false
namespace SLM.Conc

variable {Pk : CSt → Call → Ref → Prop}

/-- How a call ends: its answer and what it leaves behind. -/
structure Outc where
  res : Res
  items : List Entry
  opt : Bool
  nextId : Nat

/-- What is still to be looked at by a walk that stands at `cur`. -/
def rst (l : List Entry) (fwd : Bool) (cur : Ref) (adv : Bool) : List Entry :=
  let r := if fwd then fromRef cur l else backFrom cur l
  if adv then r.tail else r

/-- The entry if it carries the conflict hash. -/
def sel (c : U64) : Option Entry → Option Entry
  | some x => if x.conflict = c then some x else none
  | none => none

/-- The end of a call whose search gave the answer `f`. -/
def Call.ends (l : List Entry) (n : Nat) (opt : Bool) : Call → Option Entry → Outc
  | .get _ _, some x => ⟨.val x.val true, l, opt, n⟩
  | .get _ _, none => ⟨.val none false, l, opt, n⟩
  | .del _ _, some x => ⟨.bool true, markDeleted .sample x.ref l, opt, n⟩
  | .del _ _, none => ⟨.bool false, l, opt, n⟩
  | .set _ _ _ v, some x =>
    match setValue .sample x.val v with
    | .ok (nv, b) => ⟨.bool b, setVal x.ref nv l, opt, n⟩
    | .error _ => ⟨.panic, l, opt, n⟩
  | .set t c key v, none => ⟨.bool true, insAt (newItem n t c key v) l, opt, n + 1⟩
  | _, _ => ⟨.panic, l, opt, n⟩

/-- The searches of `_searchBybucket`. -/
def seek (fwd : Bool) (t : U64) (l : List Entry) : Option Entry := if fwd then fwdSearch t true l else bwdSearch t true l

def Low (l : List Entry) (t : U64) (b : Ref) : Prop := ∃ d ∈ l, d.ref = b ∧ d.rev ≤ t
def Big (l : List Entry) (t : U64) : Prop := ∃ x ∈ l, t < x.rev
def PlaceAt (l : List Entry) (t : U64) (r : Ref) : Prop := ∃ pre x post, l = pre ++ x :: post ∧ x.ref = r ∧ (∀ y ∈ pre, y.rev ≤ t) ∧ t < x.rev
def Upto (l : List Entry) (t : U64) (cur : Ref) (adv : Bool) : Prop :=
  ∃ pre x post, l = pre ++ x :: post ∧ x.ref = cur ∧ (∀ y ∈ pre, y.rev ≤ t) ∧ (adv = true → x.rev ≤ t)
def StartOk (l : List Entry) (cl : Call) (b : Ref) : Prop := ∀ t c key v, cl = .set t c key v → Low l t b ∧ Big l t

/-- A goroutine at this point, left alone, is going to end its call with `o`. -/
def Leads (l : List Entry) (n : Nat) (opt : Bool) : PC → Outc → Prop
  | .look cl fwd b cur adv, o => ∃ t c, cl.target = some (t, c) ∧ cur ∈ refs l ∧ StartOk l cl b ∧
      o = cl.ends l n opt (sel c (seek fwd t (rst l fwd cur adv)))
  | .hit cl r, o => ∃ x, node l r = some x ∧ o = cl.ends l n opt (some x)
  | .miss cl b, o => StartOk l cl b ∧ o = cl.ends l n opt none
  | .fOpt second e b start, o => Low l e.rev start ∧ (second = false → b = some start) ∧ Big l e.rev ∧ o = ⟨.bool true, insAt e l, opt, n⟩
  | .fLoop second e b prev cur adv, o => opt = false ∧ cur ∈ refs l ∧ (if second then Upto l e.rev cur adv else ∃ b', b = some b' ∧ Low l e.rev b') ∧
      Big l e.rev ∧ o = ⟨.bool true, insAt e l, prev, n⟩
  | .fEnd second e b prev res, o => (if second then ∃ r, res = some r ∧ PlaceAt l e.rev r else ∃ b', b = some b' ∧ Low l e.rev b') ∧
      Big l e.rev ∧ o = ⟨.bool true, insAt e l, prev, n⟩
  | .start2 e b _, o => Low l e.rev b ∧ Big l e.rev ∧ o = ⟨.bool true, insAt e l, opt, n⟩
  | .target e _ res, o => ∃ r, res = some r ∧ PlaceAt l e.rev r ∧ o = ⟨.bool true, insAt e l, opt, n⟩
  | .check e r, o => PlaceAt l e.rev r ∧ o = ⟨.bool true, insAt e l, opt, n⟩
  | .link e r, o => PlaceAt l e.rev r ∧ o = ⟨.bool true, insAt e l, opt, n⟩
  | .walk cur seen adv, o => cur ∈ refs l ∧ o = ⟨.seen (seen ++ refs ((rst l true cur adv).filter (fun e => !e.ignored))), l, opt, n⟩
  | .ret r, o => o = ⟨r, l, opt, n⟩
  | _, _ => False

/-! ### Positions -/

theorem rst_node {l : List Entry} {cur : Ref} {x : Entry} (fwd : Bool) (h : node l cur = some x) : rst l fwd cur false = x :: rst l fwd cur true := by
  obtain ⟨_, _, post, hf, _⟩ := node_some h
  cases fwd <;> simp [rst, hf, backFrom]

theorem rst_nx {l : List Entry} {cur : Ref} (hn : (refs l).Nodup) (hr : cur ∈ refs l) :
    rst l true cur true = match nx l cur with | some r => rst l true r false | none => [] := by
  obtain ⟨d, post, hd, hf, hl⟩ := split_at cur l hr
  cases h : nx l cur with
  | none =>
    obtain ⟨x, _, hx⟩ := nx_none h hr
    have : d :: post = [x] := by
      have := hl.symm.trans hx
      exact List.append_cancel_left this
    cases this
    simp [rst, hf]
  | some r =>
    obtain ⟨x, y, post', h1, h2, h3⟩ := nx_some h
    have : d :: post = x :: y :: post' := List.append_cancel_left (hl.symm.trans h3)
    cases this
    have hy : fromRef r l = y :: post' := by
      have e : l = (beforeRef cur l ++ [d]) ++ y :: post' := by rw [List.append_assoc]; exact h3
      rw [e] at hn
      have := (before_from_of_split (pre := beforeRef cur l ++ [d]) (d := y) (post := post') (nodup_split hn).1).2
      rw [← e, h2] at this
      exact this
    simp [rst, hf, hy]

theorem rst_pv {l : List Entry} {cur : Ref} (hn : (refs l).Nodup) (hr : cur ∈ refs l) :
    rst l false cur true = match pv l cur with | some r => rst l false r false | none => [] := by
  obtain ⟨d, post, hd, hf, hl⟩ := split_at cur l hr
  cases h : pv l cur with
  | none =>
    have : beforeRef cur l = [] := by
      unfold pv at h
      cases hb : (beforeRef cur l).getLast? with
      | none => simpa using hb
      | some y => rw [hb] at h; simp at h
    simp [rst, backFrom, hf, this]
  | some r =>
    obtain ⟨pre, x, y, post', h1, h2, h3, h4⟩ := pv_some h hr
    rw [h3] at hn
    have hb := before_from_of_split (pre := pre) (d := y) (post := x :: post') (nodup_split hn).1
    rw [← h3, h2] at hb
    simp [rst, backFrom, hf, h4, hb.1, hb.2]

theorem PlaceAt.check {l : List Entry} {e : Entry} {r : Ref} (hn : (refs l).Nodup) (h : PlaceAt l e.rev r) :
    checkOk l e r = true ∧ insBefore r e l = insAt e l := by
  obtain ⟨pre, x, post, rfl, rfl, h1, h2⟩ := h
  have hb := before_from_of_split (pre := pre) (d := x) (post := post) (nodup_split hn).1
  constructor
  · unfold SLM.Conc.checkOk node
    rw [hb.2, hb.1]
    simp only [List.head?_cons, show ¬ x.rev < e.rev by bv_omega, if_false]
    split
    · rename_i le hle
      have := h1 le (List.mem_of_getLast? hle)
      simpa using this
    · rfl
  · rw [insBefore, hb.1, hb.2, insAt]
    rw [List.takeWhile_append_of_pos (by intro a ha; simpa using h1 a ha), List.dropWhile_append_of_pos (by intro a ha; simpa using h1 a ha)]
    simp [List.takeWhile_cons, List.dropWhile_cons, show ¬ x.rev ≤ e.rev by bv_omega]

theorem Low.upto {l : List Entry} {t : U64} {b : Ref} (hs : Sorted l) (h : Low l t b) : Upto l t b false := by
  obtain ⟨d, hd, rfl, h1⟩ := h
  obtain ⟨pre, post, rfl⟩ := List.append_of_mem hd
  refine ⟨pre, d, post, rfl, rfl, ?_, by simp⟩
  intro y hy
  have := (List.pairwise_append.1 hs).2.2 y hy d (by simp)
  bv_omega

/-! ### One step -/

theorem seek_hit {fwd : Bool} {t : U64} {x : Entry} {xs : List Entry} (hi : x.ignored = false) (h : x.rev = t) : seek fwd t (x :: xs) = some x := by
  subst h
  cases fwd <;> simp [seek, fwdSearch, bwdSearch, hi]

theorem seek_cont {fwd : Bool} {t : U64} {x : Entry} {xs : List Entry} (h : x.ignored = true ∨ (if fwd then x.rev < t else x.rev > t)) :
    seek fwd t (x :: xs) = seek fwd t xs := by
  cases fwd <;> simp only [seek, fwdSearch, bwdSearch, if_true, Bool.false_eq_true, if_false] at h ⊢ <;>
    (rcases h with h | h <;> simp [h])

theorem seek_miss {fwd : Bool} {t : U64} {x : Entry} {xs : List Entry} (hi : x.ignored = false) (h : if fwd then t < x.rev else x.rev < t) :
    seek fwd t (x :: xs) = none := by
  cases fwd <;> simp only [seek, fwdSearch, bwdSearch, if_true, Bool.false_eq_true, if_false] at h ⊢
  · simp [hi, show ¬ x.rev > t by bv_omega, show x.rev ≠ t by bv_omega]
  · simp [hi, show ¬ x.rev < t by bv_omega, show x.rev ≠ t by bv_omega]

theorem seek_nil (fwd : Bool) (t : U64) : seek fwd t [] = none := by cases fwd <;> rfl

theorem tStart_low {l : List Entry} {e : Entry} {b : Ref} (h : Low l e.rev b) (res : Option Ref) : Low l e.rev (tStart l e b res) := by
  unfold tStart
  split
  · exact h
  · split
    · rename_i pe hpe
      split
      · rename_i hlt
        refine ⟨pe, ?_, rfl, by bv_omega⟩
        exact (List.takeWhile_prefix _).subset (List.mem_of_getLast? hpe)
      · exact h
    · exact h

/-- A step of a goroutine that is the only one to move does not change how its call is going to end. -/
theorem Leads.step {s s' : CSt} {g : Tid} {o : Outc} (hs : Sorted s.items) (hn : (refs s.items).Nodup)
    (h : Leads s.items s.nextId s.opt (s.pc g) o) (st : Step Pk s g s') :
    Leads s'.items s'.nextId s'.opt (s'.pc g) o ∧ (s'.items = s.items ∨ ∃ r, s'.pc g = .ret r) := by
  cases st <;> rw [setPC_same] <;> rw [‹s.pc g = _›] at h <;> simp only [setPC, Leads] at h ⊢
  case lookCont cl t c fwd b cur x hp ht hx h1 =>
    obtain ⟨t', c', ht', hc, hk, rfl⟩ := h
    rw [ht] at ht'; cases ht'
    refine ⟨⟨t, c, ht, hc, hk, ?_⟩, .inl trivial⟩
    rw [rst_node fwd hx, seek_cont h1]
  case lookHit cl t c fwd b cur x hp ht hx h1 h2 =>
    obtain ⟨t', c', ht', hc, hk, rfl⟩ := h
    rw [ht] at ht'; cases ht'
    rw [rst_node fwd hx, seek_hit h1 h2]
    refine ⟨?_, .inl trivial⟩
    by_cases h3 : x.conflict = c
    · rw [if_pos h3]
      exact ⟨x, hx, by rw [sel, if_pos h3]⟩
    · rw [if_neg h3]
      exact ⟨hk, by rw [sel, if_neg h3]⟩
  case lookMiss cl t c fwd b cur x hp ht hx h1 h2 =>
    obtain ⟨t', c', ht', hc, hk, rfl⟩ := h
    rw [ht] at ht'; cases ht'
    rw [rst_node fwd hx, seek_miss h1 h2]
    exact ⟨⟨hk, rfl⟩, .inl trivial⟩
  case lookAdv cl fwd b cur hp =>
    obtain ⟨t, c, ht, hc, hk, rfl⟩ := h
    refine ⟨?_, .inl trivial⟩
    cases fwd with
    | true =>
      simp only [if_true]
      rw [rst_nx hn hc]
      cases h1 : nx s.items cur with
      | none => exact ⟨hk, by simp [seek_nil, sel]⟩
      | some r => exact ⟨t, c, ht, nx_mem h1, hk, rfl⟩
    | false =>
      simp only [Bool.false_eq_true, if_false]
      rw [rst_pv hn hc]
      cases h1 : pv s.items cur with
      | none => exact ⟨hk, by simp [seek_nil, sel]⟩
      | some r => exact ⟨t, c, ht, pv_mem h1, hk, rfl⟩
  case hitGet t c r x hp hx =>
    obtain ⟨y, hy, rfl⟩ := h
    rw [hx] at hy; cases hy
    exact ⟨rfl, .inl trivial⟩
  case hitSet t c key v r x nv ok hp hx hv =>
    obtain ⟨y, hy, rfl⟩ := h
    rw [hx] at hy; cases hy
    refine ⟨?_, .inr ⟨_, rfl⟩⟩
    simp only [Call.ends, hv]
    rw [(node_some hx).2.1]
  case hitSetPanic t c key v r x p hp hx hv =>
    obtain ⟨y, hy, rfl⟩ := h
    rw [hx] at hy; cases hy
    refine ⟨?_, .inl trivial⟩
    simp only [Call.ends, hv]
  case hitDel t c r hp =>
    obtain ⟨y, hy, rfl⟩ := h
    refine ⟨?_, .inr ⟨_, rfl⟩⟩
    simp only [Call.ends]
    rw [(node_some hy).2.1]
  case missGet => obtain ⟨_, rfl⟩ := h; exact ⟨rfl, .inl trivial⟩
  case missDel => obtain ⟨_, rfl⟩ := h; exact ⟨rfl, .inl trivial⟩
  case missSet t c key v b hp =>
    obtain ⟨hk, rfl⟩ := h
    obtain ⟨h1, h2⟩ := hk _ _ _ _ rfl
    exact ⟨⟨h1, fun _ => by trivial, h2, rfl⟩, .inl trivial⟩
  case findOpt second e b start hp =>
    obtain ⟨h1, h2, h3, rfl⟩ := h
    refine ⟨⟨trivial, ?_, ?_, h3, rfl⟩, .inl trivial⟩
    · obtain ⟨d, hd, hd', _⟩ := h1
      exact List.mem_map.2 ⟨d, hd, hd'⟩
    · cases second with
      | true => exact h1.upto hs
      | false => exact ⟨start, h2 rfl, h1⟩
  case findStop second e b prev cur x hp hx h1 =>
    obtain ⟨h2, h3, h4, h5, rfl⟩ := h
    refine ⟨⟨?_, h5, rfl⟩, .inl trivial⟩
    cases second with
    | false => exact h4
    | true =>
      obtain ⟨pre, y, post, e1, e2, e3, _⟩ := h4
      refine ⟨cur, rfl, pre, y, post, e1, e2, e3, ?_⟩
      have : y = x := by
        have hy : node s.items y.ref = some y := node_of_mem hn (by rw [e1]; simp)
        rw [e2, hx] at hy; cases hy; rfl
      subst this
      rw [h2] at h1
      simpa [stops] using h1
  case findCont second e b prev cur x hp hx h1 =>
    obtain ⟨h2, h3, h4, h5, rfl⟩ := h
    refine ⟨⟨h2, h3, ?_, h5, rfl⟩, .inl trivial⟩
    cases second with
    | false => exact h4
    | true =>
      obtain ⟨pre, y, post, e1, e2, e3, _⟩ := h4
      refine ⟨pre, y, post, e1, e2, e3, fun _ => ?_⟩
      have : y = x := by
        have hy : node s.items y.ref = some y := node_of_mem hn (by rw [e1]; simp)
        rw [e2, hx] at hy; cases hy; rfl
      subst this
      rw [h2] at h1
      simpa [stops] using h1
  case findAdv second e b prev cur hp =>
    obtain ⟨h2, h3, h4, h5, rfl⟩ := h
    refine ⟨?_, .inl trivial⟩
    cases hx : nx s.items cur with
    | some r =>
      refine ⟨h2, nx_mem hx, ?_, h5, rfl⟩
      cases second with
      | false => exact h4
      | true =>
        obtain ⟨pre, y, post, e1, e2, e3, e4⟩ := h4
        obtain ⟨x, z, post', f1, f2, f3⟩ := nx_some hx
        have hb : beforeRef cur s.items = pre ∧ y :: post = x :: z :: post' := by
          have := before_from_of_split (pre := pre) (d := y) (post := post) (by rw [e1] at hn; exact (nodup_split hn).1)
          rw [← e1, e2] at this
          refine ⟨this.1, ?_⟩
          rw [this.1] at f3
          exact List.append_cancel_left (e1.symm.trans f3)
        cases hb.2
        refine ⟨pre ++ [y], z, post', by rw [e1]; simp, f2, ?_, by simp⟩
        intro w hw
        rcases List.mem_append.1 hw with hw | hw
        · exact e3 w hw
        · rw [List.mem_singleton.1 hw]; exact e4 rfl
    | none =>
      refine ⟨?_, h5, rfl⟩
      cases second with
      | false => exact h4
      | true =>
        exfalso
        obtain ⟨pre, y, post, e1, e2, e3, e4⟩ := h4
        obtain ⟨x, f1, f2⟩ := nx_none hx h3
        obtain ⟨z, hz, hz'⟩ := h5
        have hb : y :: post = [x] := by
          have := before_from_of_split (pre := pre) (d := y) (post := post) (by rw [e1] at hn; exact (nodup_split hn).1)
          rw [← e1, e2] at this
          rw [this.1] at f2
          exact List.append_cancel_left (e1.symm.trans f2)
        cases hb
        rw [e1] at hz
        rcases List.mem_append.1 hz with hz | hz
        · have := e3 z hz; bv_omega
        · rw [List.mem_singleton.1 hz] at hz'; have := e4 rfl; bv_omega
  case findEnd1 e b prev res hp =>
    obtain ⟨h1, h2, rfl⟩ := h
    simp only [Bool.false_eq_true, if_false] at h1
    obtain ⟨b', e1, h3⟩ := h1
    cases e1
    exact ⟨⟨h3, h2, rfl⟩, .inl trivial⟩
  case findEnd2 e b prev res hp =>
    obtain ⟨h1, h2, rfl⟩ := h
    simp only [if_true] at h1
    obtain ⟨r, e1, h3⟩ := h1
    exact ⟨⟨r, e1, h3, rfl⟩, .inl trivial⟩
  case start2 e b res hp =>
    obtain ⟨h1, h2, rfl⟩ := h
    exact ⟨⟨tStart_low h1 res, by simp, h2, rfl⟩, .inl trivial⟩
  case targetPos e b r hp =>
    obtain ⟨r', e1, h2, rfl⟩ := h
    cases e1
    exact ⟨⟨h2, rfl⟩, .inl trivial⟩
  case targetFall e b phd r hp _ _ =>
    obtain ⟨r', e1, h2, rfl⟩ := h
    cases e1
  case checkOk => exact ⟨h, .inl trivial⟩
  case checkFail e r hp hk =>
    rw [(h.1.check hn).1] at hk; cases hk
  case link e r hp =>
    obtain ⟨h1, rfl⟩ := h
    exact ⟨by rw [(h1.check hn).2], .inr ⟨_, rfl⟩⟩
  case rangeSee cur seen x hp hx =>
    obtain ⟨h1, rfl⟩ := h
    refine ⟨⟨h1, ?_⟩, .inl trivial⟩
    rw [rst_node true hx]
    cases hi : x.ignored <;> simp [hi, (node_some hx).2.1]
  case rangeAdv cur seen hp =>
    obtain ⟨h1, rfl⟩ := h
    refine ⟨?_, .inl trivial⟩
    rw [rst_nx hn h1]
    cases hx : nx s.items cur with
    | none => simp
    | some r => exact ⟨nx_mem hx, rfl⟩

theorem ret_stuck {s s' : CSt} {g : Tid} {r : Res} (h : s.pc g = .ret r) (st : Step Pk s g s') : False := by
  cases st <;> rw [h] at * <;> contradiction

/-- A call that runs alone ends as foreseen. -/
theorem Leads.solo {s s' : CSt} {g : Tid} {o : Outc} {r : Res} (hs : Sorted s.items) (hn : (refs s.items).Nodup)
    (h : Leads s.items s.nextId s.opt (s.pc g) o) (run : Solo Pk g s s') (hr : s'.pc g = .ret r) : o = ⟨r, s'.items, s'.opt, s'.nextId⟩ := by
  have key : Leads s'.items s'.nextId s'.opt (s'.pc g) o ∧ (s'.items = s.items ∨ ∃ r, s'.pc g = .ret r) := by
    clear hr
    induction run with
    | refl => exact ⟨h, .inl rfl⟩
    | step _ st ih =>
      obtain ⟨h1, h2⟩ := ih
      rcases h2 with h2 | ⟨r', h2⟩
      · have := h1.step (by rw [h2]; exact hs) (by rw [h2]; exact hn) st
        refine ⟨this.1, ?_⟩
        rw [← h2]; exact this.2
      · exfalso
        exact ret_stuck h2 st
  have := key.1
  rw [hr] at this
  exact this

end SLM.Conc
