import Verif.Proofs.EConc2
/-! Schedules with one inserting Set at a time: the array stays sorted and searches find what is there. -/
set_option autoImplicit false
namespace SLM.EConc
open Emb (Slot Pool OKP)

/-- A Set that has missed its key and has not yet claimed its slot completely. -/
def PC.inserting (p : PC) : Bool := p.frame.isSome || p.claims

/-- Set and Get only; hashes are non-zero and the second is a function of the first (no colliding keys). -/
def Call.good (g : U64 → U64) (cl : Call) : Prop := cl.rev ≠ 0 ∧ cl.conf ≠ 0 ∧ cl.conf = g cl.rev ∧ cl.keeps = true

/-- A Set may miss its key only while no other Set is inserting. -/
def InsAlone (s : St) (t : Tid) (s' : St) : Prop :=
  ∀ cl f, s.pc t = .look cl → s'.pc t = .gw f → ∀ u, (s.pc u).inserting = false

def Neat (g : U64 → U64) (s : St) (t : Tid) (s' : St) : Prop := Calls (Call.good g) s t s' ∧ InsAlone s t s'

inductive XVia (P : St → Tid → St → Prop) : St → St → Prop
  | refl {s} : XVia P s s
  | tail {s s1 s2 t} (h : XVia P s s1) (st : XStep s1 t s2) (hp : P s1 t s2) : XVia P s s2

theorem XVia.mono {P Q : St → Tid → St → Prop} (hpq : ∀ s t s', P s t s' → Q s t s') {s s' : St} (h : XVia P s s') :
    XVia Q s s' := by
  induction h with
  | refl => exact .refl
  | tail _ st hp ih => exact .tail ih st (hpq _ _ _ hp)

theorem XVia.trans {P : St → Tid → St → Prop} {a b c : St} (h1 : XVia P a b) (h2 : XVia P b c) : XVia P a c := by
  induction h2 with
  | refl => exact h1
  | tail _ st hp ih => exact .tail ih st hp

theorem lookup_slot {p : Pool} {r c : U64} {i : Nat} (h : p.lookup r c = some i) : (p.slot i).rev = r ∧ (p.slot i).conflict = c := by
  unfold Pool.lookup at h
  split at h
  · cases h
  · split at h
    · rename_i hh; cases h; exact hh
    · cases h

theorem findFree_deleted {p : Pool} {r : U64} {tail : Option Nat} {i : Nat} (h : p.findFree r tail = some i) :
    (p.slot i).deleted = true := by
  unfold Pool.findFree at h
  split at h
  · cases h
  · simp only at h
    split at h
    · cases h
    · split at h
      · rename_i hd; cases h; exact hd
      · cases h

/-- An undisturbed search or classification answers something it could see. -/
theorem exact_seen {s : St} {t : Tid} {ch : Choice} (hc : s.cur < s.next) (hh : ¬ Hidden s s.cur) (hx : exact s t = some ch) :
    Seen s t ch := by
  unfold exact at hx
  split at hx
  · rename_i cl hp
    cases hx
    refine ⟨?_, ?_⟩
    · intro cl' a i hp' hi
      rw [hp] at hp'; cases hp'
      simp only [exactItem, Option.map_eq_some_iff] at hi
      obtain ⟨j, h1, h2⟩ := hi
      cases h2
      have := lookup_slot h1
      exact ⟨hc, hh, this⟩
    · intro f tail l c' hp' _; rw [hp] at hp'; cases hp'
  · rename_i f tail l c' hp
    simp only [Option.map_eq_some_iff] at hx
    obtain ⟨w, h1, rfl⟩ := hx
    refine ⟨fun cl a i hp' _ => (by rw [hp] at hp'; cases hp'), ?_⟩
    intro f' tail' l' c'' hp' hv
    rw [hp] at hp'; cases hp'
    simp only at hv
    subst hv
    unfold exactVerdict at h1
    split at h1
    · cases h1
    · split at h1
      · rename_i hs
        rw [Option.isSome_iff_exists] at hs
        obtain ⟨i, hi⟩ := hs
        exact ⟨s.cur, i, findFree_deleted hi⟩
      · split at h1
        · cases h1
        · split at h1
          · cases h1
          · split at h1 <;> cases h1
  · rename_i h1 h2
    exact ⟨fun cl a i hp' _ => absurd hp' (h1 cl), fun f tail l c' hp' _ => absurd hp' (h2 f tail l c')⟩

theorem XStep.step {s s' : St} {t : Tid} (hc : s.cur < s.next) (hh : ¬ Hidden s s.cur) (st : XStep s t s') : Step s t s' := by
  cases st with
  | start h => exact .start h
  | move hx h => exact .move (exact_seen hc hh hx) h

/-- The reverse hash in slot `i` of the current array. -/
def rv (s : St) (i : Nat) : U64 := (slotOf s s.cur i).rev

def Srt (s : St) : Prop := ∀ i j, i < j → j < s.len → rv s i < rv s j

structure SI (g : U64 → U64) (s : St) : Prop where
  pi : PI s
  nd : ND s
  good : ∀ t cl, (s.pc t).call = some cl → cl.good g
  alone : ∀ t u, (s.pc t).inserting = true → (s.pc u).inserting = true → u = t
  room0 : s.len = 0 → 0 < cap s
  stored : ∀ i, i < s.len → (∀ t, (s.pc t).claimAt ≠ some i) →
    rv s i ≠ 0 ∧ (slotOf s s.cur i).conflict ≠ 0 ∧ (slotOf s s.cur i).conflict = g (rv s i)
  srt : (∀ t f fn a i, s.pc t ≠ .clR f fn a i) → Srt s
  abs : ∀ t f, (s.pc t).frame = some f → ∀ i, i < s.len → rv s i ≠ f.r
  gw2 : ∀ t f tail l c, s.pc t = .gw2 f tail l c → l = s.len ∧ c = cap s ∧ tail = (if s.len = 0 then none else some (s.len - 1))
  app : ∀ t f, (s.pc t = .app f ∨ s.pc t = .app2 f) → ∀ i, i < s.len → rv s i < f.r
  exp : ∀ t f, (s.pc t = .exp f ∨ s.pc t = .exp2 f ∨ ∃ n, s.pc t = .exp3 f n) → 0 < s.len
  ins3 : ∀ t f n i, s.pc t = .ins3 f n i → (∀ j, j < i → rv s j < f.r) ∧ (∀ j, i ≤ j → j < s.len → f.r < rv s j)
  clR : ∀ t f fn a i, s.pc t = .clR f fn a i → (∀ j, j < i → rv s j < f.r) ∧ (∀ j, i < j → j < s.len → f.r < rv s j) ∧
    (∀ j k, j ≠ i → k ≠ i → j < k → k < s.len → rv s j < rv s k)

theorem SI.init (g : U64 → U64) {n : Nat} (hn : 0 < n) : SI g (EConc.init n) := by
  refine ⟨PI.init n, ND.init n, ?_, ?_, ?_, ?_, ?_, ?_, ?_, ?_, ?_, ?_, ?_⟩
  · intro t cl h; cases h
  · intro t u h; cases h
  · intro _; simpa [cap, EConc.init] using hn
  · intro i hi; cases hi
  · intro _ i j _ hj; cases hj
  · intro t f h; cases h
  · intro t f _ _ _ h; cases h
  · intro t f h; rcases h with h | h <;> cases h
  · intro t f h; rcases h with h | h | ⟨_, h⟩ <;> cases h
  · intro t f _ _ h; cases h
  · intro t f _ _ _ h; cases h

theorem SI.vis {g : U64 → U64} {s : St} (h : SI g s) : ¬ Hidden s s.cur := fun hh => (h.pi.hid _ hh).2 rfl

/-- The sorted array in the form the sequential lemmas use. -/
theorem SI.okp {g : U64 → U64} {s : St} (h : SI g s) (hs : Srt s) :
    ∃ z, OKP (pool s) ((s.arrs s.cur).take s.len) z := by
  have hroom := h.pi.room
  unfold cap at hroom
  have hget : ∀ i (hi : i < ((s.arrs s.cur).take s.len).length), ((s.arrs s.cur).take s.len)[i] = slotOf s s.cur i := by
    intro i hi
    rw [List.getElem_take]
    unfold slotOf
    rw [List.getD_eq_getElem?_getD, List.getElem?_eq_getElem]; rfl
  refine ⟨(s.arrs s.cur).length - s.len, ?_, ?_, ?_, ?_, ?_⟩
  · show s.arrs s.cur = _
    refine List.ext_getElem? fun i => ?_
    by_cases hi : i < s.len
    · rw [List.getElem?_append_left (by rw [List.length_take]; omega), List.getElem?_take, if_pos hi]
    · rw [List.getElem?_append_right (by rw [List.length_take]; omega), List.getElem?_replicate, List.length_take,
        Nat.min_eq_left hroom]
      have hz := h.pi.zero i (by omega)
      unfold slotOf at hz
      rw [List.getD_eq_getElem?_getD] at hz
      by_cases hl : i < (s.arrs s.cur).length
      · rw [if_pos (by omega)]
        rw [List.getElem?_eq_getElem hl] at hz ⊢
        simpa using hz
      · rw [if_neg (by omega), List.getElem?_eq_none (by omega)]
  · show (s.len : Int) = _
    rw [List.length_take, Nat.min_eq_left hroom]
  · rw [List.pairwise_iff_getElem]
    intro i j hi hj hij
    rw [hget, hget]
    rw [List.length_take] at hj
    exact hs i j hij (by omega)
  · intro x hx; exact h.nd.live _ x (List.mem_of_mem_take hx)
  · intro hx
    have := congrArg List.length hx
    rw [List.length_take] at this
    simp only [List.length_nil] at this
    rcases Nat.eq_zero_or_pos s.len with h0 | h0
    · have := h.room0 h0; unfold cap at this; omega
    · omega

/-- Searches of a sorted array are right. -/
theorem SI.search {g : U64 → U64} {s : St} (h : SI g s) (hs : Srt s) (r c : U64) :
    (∃ i, i < s.len ∧ exactItem s r c = some (s.cur, i) ∧ rv s i = r ∧ (slotOf s s.cur i).conflict = c) ∨
    (exactItem s r c = none ∧ ∀ i, i < s.len → ¬ (rv s i = r ∧ (slotOf s s.cur i).conflict = c)) := by
  obtain ⟨z, ho⟩ := h.okp hs
  have hroom := h.pi.room
  unfold cap at hroom
  have hl : ((s.arrs s.cur).take s.len).length = s.len := by rw [List.length_take]; omega
  have hget : ∀ i (hi : i < ((s.arrs s.cur).take s.len).length), ((s.arrs s.cur).take s.len)[i] = slotOf s s.cur i := by
    intro i hi
    rw [List.getElem_take]
    unfold slotOf
    rw [List.getD_eq_getElem?_getD, List.getElem?_eq_getElem]; rfl
  unfold exactItem
  rcases ho.lookup r c with ⟨i, hi, h1, h2, h3⟩ | ⟨h1, h2⟩
  · rw [hget] at h2 h3
    left; exact ⟨i, by omega, by rw [h1]; rfl, h2, h3⟩
  · right
    refine ⟨by rw [h1]; rfl, ?_⟩
    intro i hi hc
    have := h2 _ (List.getElem_mem (by omega : i < ((s.arrs s.cur).take s.len).length))
    rw [hget] at this
    exact this hc

theorem good_plain {g : U64 → U64} {cl : Call} (h : cl.good g) : cl.plain :=
  ⟨h.1, h.2.1, fun r c e => by subst e; cases h.2.2.2⟩

theorem ins_of_frame {p : PC} {f : Fr} (h : p.frame = some f) : p.inserting = true := by simp [PC.inserting, h]
theorem ins_of_claims {p : PC} (h : p.claims = true) : p.inserting = true := by simp [PC.inserting, h]
theorem ins_of_claimAt {p : PC} {i : Nat} (h : p.claimAt = some i) : p.inserting = true := by
  cases p <;> simp [PC.claimAt, PC.inserting, PC.claims] at h ⊢

/-- A move of a goroutine that is not inserting. -/
theorem SI.quiet {g : U64 → U64} {s s1 : St} {t : Tid} {p : PC} (h : SI g s) (hpc : s1.pc = s.pc)
    (hpi : PI (setPC s1 t p)) (hnd : ND (setPC s1 t p)) (hgood : ∀ u cl, ((setPC s1 t p).pc u).call = some cl → cl.good g)
    (hi : (s.pc t).inserting = false) (hp : p.inserting = false) (e1 : s1.cur = s.cur) (e2 : s1.len = s.len)
    (e3 : cap s1 = cap s) (e4 : ∀ i, rv s1 i = rv s i)
    (e5 : ∀ i, (slotOf s1 s1.cur i).conflict = (slotOf s s.cur i).conflict) : SI g (setPC s1 t p) := by
  have hback : ∀ u q, q.inserting = true → (setPC s1 t p).pc u = q → s.pc u = q := by
    intro u q hq hu
    by_cases e : u = t
    · subst e; simp at hu; subst hu; rw [hp] at hq; cases hq
    · rw [setPC_other _ _ _ e, hpc] at hu; exact hu
  have hfwd : ∀ u, (s.pc u).inserting = true → (setPC s1 t p).pc u = s.pc u := by
    intro u hu
    have e : u ≠ t := by rintro rfl; rw [hi] at hu; cases hu
    rw [setPC_other _ _ _ e, hpc]
  have hrv : ∀ i, rv (setPC s1 t p) i = rv s i := fun i => e4 i
  have hcap : cap (setPC s1 t p) = cap s := e3
  refine ⟨hpi, hnd, hgood, ?_, ?_, ?_, ?_, ?_, ?_, ?_, ?_, ?_, ?_⟩
  · intro u w hu hw
    exact h.alone u w (by rw [← hback u _ hu rfl] at hu; exact hu) (by rw [← hback w _ hw rfl] at hw; exact hw)
  · intro h0; rw [setPC_len, e2] at h0; rw [hcap]; exact h.room0 h0
  · intro i hi' hcl
    rw [setPC_len, e2] at hi'
    have := h.stored i hi' (fun u hu => hcl u (by rw [hfwd u (ins_of_claimAt hu)]; exact hu))
    rw [hrv]
    show rv s i ≠ 0 ∧ (slotOf s1 s1.cur i).conflict ≠ 0 ∧ (slotOf s1 s1.cur i).conflict = g (rv s i)
    rw [e5]; exact this
  · intro hc i j hij hj
    rw [setPC_len, e2] at hj
    rw [hrv, hrv]
    exact h.srt (fun u f fn a k hu => hc u f fn a k (by rw [hfwd u (by rw [hu]; rfl)]; exact hu)) i j hij hj
  · intro u f hu i hi'
    rw [setPC_len, e2] at hi'
    rw [hrv]
    exact h.abs u f (by rw [hback u _ (ins_of_frame hu) rfl]; exact hu) i hi'
  · intro u f tail l c hu
    rw [setPC_len, e2, hcap]
    exact h.gw2 u f tail l c (hback u _ rfl hu)
  · intro u f hu i hi'
    rw [setPC_len, e2] at hi'
    rw [hrv]
    exact h.app u f (hu.imp (hback u _ rfl) (hback u _ rfl)) i hi'
  · intro u f hu
    rw [setPC_len, e2]
    exact h.exp u f (hu.imp (hback u _ rfl) (Or.imp (hback u _ rfl) (fun ⟨n, hn⟩ => ⟨n, hback u _ rfl hn⟩)))
  · intro u f n i hu
    have := h.ins3 u f n i (hback u _ rfl hu)
    simp only [setPC_len, e2, hrv]; exact this
  · intro u f fn a i hu
    have := h.clR u f fn a i (hback u _ rfl hu)
    simp only [setPC_len, e2, hrv]; exact this

/-- A move of the inserting goroutine. -/
theorem SI.own {g : U64 → U64} {s s1 : St} {t : Tid} {p : PC} (hpc : s1.pc = s.pc)
    (hpi : PI (setPC s1 t p)) (hnd : ND (setPC s1 t p)) (hgood : ∀ u cl, ((setPC s1 t p).pc u).call = some cl → cl.good g)
    (hoth : ∀ u, u ≠ t → (s.pc u).inserting = false)
    (room0 : s1.len = 0 → 0 < cap s1)
    (stored : ∀ i, i < s1.len → p.claimAt ≠ some i →
      rv s1 i ≠ 0 ∧ (slotOf s1 s1.cur i).conflict ≠ 0 ∧ (slotOf s1 s1.cur i).conflict = g (rv s1 i))
    (srt : (∀ f fn a i, p ≠ .clR f fn a i) → Srt s1)
    (abs : ∀ f, p.frame = some f → ∀ i, i < s1.len → rv s1 i ≠ f.r)
    (gw2 : ∀ f tail l c, p = .gw2 f tail l c → l = s1.len ∧ c = cap s1 ∧ tail = (if s1.len = 0 then none else some (s1.len - 1)))
    (app : ∀ f, (p = .app f ∨ p = .app2 f) → ∀ i, i < s1.len → rv s1 i < f.r)
    (exp : ∀ f, (p = .exp f ∨ p = .exp2 f ∨ ∃ n, p = .exp3 f n) → 0 < s1.len)
    (ins3 : ∀ f n i, p = .ins3 f n i → (∀ j, j < i → rv s1 j < f.r) ∧ (∀ j, i ≤ j → j < s1.len → f.r < rv s1 j))
    (clR : ∀ f fn a i, p = .clR f fn a i → (∀ j, j < i → rv s1 j < f.r) ∧ (∀ j, i < j → j < s1.len → f.r < rv s1 j) ∧
      (∀ j k, j ≠ i → k ≠ i → j < k → k < s1.len → rv s1 j < rv s1 k)) : SI g (setPC s1 t p) := by
  have hback : ∀ u q, q.inserting = true → (setPC s1 t p).pc u = q → u = t ∧ p = q := by
    intro u q hq hu
    by_cases e : u = t
    · subst e; simp at hu; exact ⟨rfl, hu⟩
    · rw [setPC_other _ _ _ e, hpc] at hu
      have := hoth u e; rw [hu, hq] at this; cases this
  refine ⟨hpi, hnd, hgood, ?_, room0, ?_, ?_, ?_, ?_, ?_, ?_, ?_, ?_⟩
  · intro u w hu hw
    rw [(hback u _ hu rfl).1, (hback w _ hw rfl).1]
  · intro i hi' hcl
    exact stored i hi' (by have := hcl t; simpa using this)
  · intro hc
    exact srt (fun f fn a i e => hc t f fn a i (by simpa using e))
  · intro u f hu
    exact abs f (by rw [(hback u _ (ins_of_frame hu) rfl).2]; exact hu)
  · intro u f tail l c hu
    exact gw2 f tail l c (hback u _ rfl hu).2
  · intro u f hu
    exact app f (hu.imp (fun e => (hback u _ rfl e).2) (fun e => (hback u _ rfl e).2))
  · intro u f hu
    exact exp f (hu.imp (fun e => (hback u _ rfl e).2) (Or.imp (fun e => (hback u _ rfl e).2) (fun ⟨n, e⟩ => ⟨n, (hback u _ rfl e).2⟩)))
  · intro u f n i hu
    exact ins3 f n i (hback u _ rfl hu).2
  · intro u f fn a i hu
    exact clR f fn a i (hback u _ rfl hu).2

theorem lastActive_live {arr : List Slot} (h : ∀ x ∈ arr, x.deleted = false) (n : Nat) :
    Emb.lastActive arr n = if n = 0 then none else some (n - 1) := by
  cases n with
  | zero => rfl
  | succ n =>
    simp only [Emb.lastActive]
    rw [if_neg]
    · simp
    · rw [List.getD_eq_getElem?_getD]
      cases hx : arr[n]? with
      | none => simp
      | some x => simp [h x (List.mem_of_getElem? hx)]

theorem upd_set {cl : Call} {a i : Nat} (h : (PC.upd cl a i).shape = true) (hk : cl.keeps = true) : ∃ r c v, cl = .set r c v := by
  cases cl <;> simp [PC.shape, Call.keeps] at h hk ⊢

theorem mark_keeps {cl : Call} {a i : Nat} (h : (PC.mark cl a i).shape = true) (hk : cl.keeps = true) : False := by
  cases cl <;> simp [PC.shape, Call.keeps] at h hk

theorem rv_setSlot (s : St) (a i : Nat) (x : Slot) (h : x.rev = (slotOf s a i).rev) (j : Nat) :
    rv (setSlot s a i x) j = rv s j := slotOf_setSlot_rev s a i s.cur j x h

set_option maxHeartbeats 1600000 in
theorem SI.step {g : U64 → U64} {s s' : St} {t : Tid} (h : SI g s) (st : XStep s t s') (hn : Neat g s t s') : SI g s' := by
  have st' := st.step h.pi.cur h.vis
  have hnf := h.nd.noFree h.pi.li st'
  have hpi := h.pi.step st' ⟨hnf, fun cl h1 h2 => good_plain (hn.1 cl h1 h2)⟩
  have hnd := h.nd.step st' (fun cl h1 h2 => (hn.1 cl h1 h2).2.2.2)
  have hgood := calls_step h.good st' hn.1
  cases st with
  | start hs =>
    obtain ⟨hid, _, rfl⟩ := start_eq hs
    exact h.quiet rfl hpi hnd hgood (by rw [hid]; rfl) rfl rfl rfl rfl (fun _ => rfl) (fun _ => rfl)
  | move hx hs =>
    obtain ⟨_, s1, p, mv, rfl⟩ := step_mv hs
    have hpc := mv.pc_eq
    have hwf : (s.pc t).isFree = false := h.pi.li.noFree t
    have hg := h.good t
    have hshape := h.pi.shape t
    -- facts about an inserting goroutine
    have hoth : (s.pc t).inserting = true → ∀ u, u ≠ t → (s.pc u).inserting = false := by
      intro hi u e
      by_contra hc
      exact e (h.alone t u hi (by simpa using hc))
    have hnocl : (s.pc t).inserting = true → (s.pc t).claimAt = none → ∀ i u, (s.pc u).claimAt ≠ some i := by
      intro hi hc i u hu
      by_cases e : u = t
      · subst e; rw [hc] at hu; cases hu
      · have := hoth hi u e; rw [ins_of_claimAt hu] at this; cases this
    have hS : (s.pc t).inserting = true → (∀ f fn a i, s.pc t ≠ .clR f fn a i) → Srt s := by
      intro hi hc
      refine h.srt fun u f fn a i hu => ?_
      by_cases e : u = t
      · subst e; exact hc f fn a i hu
      · have := hoth hi u e; rw [hu] at this; cases this
    have hstored : (s.pc t).inserting = true → (s.pc t).claimAt = none → ∀ i, i < s.len →
        rv s i ≠ 0 ∧ (slotOf s s.cur i).conflict ≠ 0 ∧ (slotOf s s.cur i).conflict = g (rv s i) :=
      fun hi hc i hil => h.stored i hil (hnocl hi hc i)
    have hfr : ∀ f, (s.pc t).frame = some f → ∀ i, i < s.len → rv s i ≠ f.r := h.abs t
    -- a move of the inserting goroutine that changes only its program counter
    have pcOnly : ∀ (p : PC) (s1 : St), s1.pc = s.pc → PI (setPC s1 t p) → ND (setPC s1 t p) →
        (∀ u cl, ((setPC s1 t p).pc u).call = some cl → cl.good g) → (s.pc t).inserting = true → (s.pc t).claimAt = none →
        s1.cur = s.cur → s1.len = s.len → s1.arrs = s.arrs → (∀ f, p.frame = some f → ∃ f', (s.pc t).frame = some f' ∧ f'.r = f.r) →
        (p.claims = false) → p.fills = none →
        (∀ f tail l c, p = .gw2 f tail l c → l = s.len ∧ c = cap s ∧ tail = (if s.len = 0 then none else some (s.len - 1))) →
        (∀ f, (p = .app f ∨ p = .app2 f) → ∀ i, i < s.len → rv s i < f.r) →
        (∀ f, (p = .exp f ∨ p = .exp2 f ∨ ∃ n, p = .exp3 f n) → 0 < s.len) → SI g (setPC s1 t p) := by
      intro p s1 q1 q2 q3 q4 q5 q6 q7 q8 q9 q10 q11 q12 q13 q14 q15
      have hsl : ∀ i, slotOf s1 s1.cur i = slotOf s s.cur i := fun i => by rw [q7]; exact slotOf_congr q9 _ _
      have hrv : ∀ i, rv s1 i = rv s i := fun i => congrArg Slot.rev (hsl i)
      have hcp : cap s1 = cap s := by unfold cap; rw [q7, q9]
      refine SI.own q1 q2 q3 q4 (hoth q5) ?_ ?_ ?_ ?_ ?_ ?_ ?_ ?_ ?_
      · rw [q8, hcp]; exact h.room0
      · intro i hi _
        rw [q8] at hi
        rw [hrv, hsl]; exact hstored q5 q6 i hi
      · intro _ i j hij hj
        rw [q8] at hj
        rw [hrv, hrv]
        refine hS q5 ?_ i j hij hj
        intro f fn a k hk; rw [hk] at q6; cases q6
      · intro f hf i hi
        rw [q8] at hi
        obtain ⟨f', h1, h2⟩ := q10 f hf
        rw [hrv, ← h2]; exact hfr f' h1 i hi
      · intro f tail l c e; rw [q8, hcp]; exact q13 f tail l c e
      · intro f e i hi; rw [q8] at hi; rw [hrv]; exact q14 f e i hi
      · intro f e; rw [q8]; exact q15 f e
      · rintro f n i rfl; cases q12
      · rintro f fn a i rfl; cases q11
    cases mv <;> rw [‹s.pc t = _›] at hwf hg hshape <;> first
      | (cases hwf; done)
      | (refine h.quiet rfl hpi hnd hgood ?_ rfl rfl rfl rfl (fun _ => rfl) (fun _ => rfl); rw [‹s.pc t = _›]; rfl; done)
      | skip
    case miss_set r c v hp hi =>
      have hall : ∀ u, (s.pc u).inserting = false := hn.2 _ _ hp (setPC_same _ _ _)
      have hs : Srt s := h.srt fun u f fn a i hu => by have := hall u; rw [hu] at this; cases this
      have hitem : exactItem s r c = none := by
        unfold exact at hx
        rw [hp] at hx
        cases hx
        exact hi
      have hgc := hg _ rfl
      have hst : ∀ i, i < s.len → rv s i ≠ 0 ∧ (slotOf s s.cur i).conflict ≠ 0 ∧ (slotOf s s.cur i).conflict = g (rv s i) :=
        fun i hi => h.stored i hi fun u hu => by have := hall u; rw [ins_of_claimAt hu] at this; cases this
      refine SI.own rfl hpi hnd hgood (fun u _ => hall u) h.room0 (fun i hi _ => hst i hi) (fun _ => hs) ?_ (by simp) (by simp) (by simp) (by simp) (by simp)
      intro f hf i hi
      cases hf
      intro hr
      rcases h.search hs r c with ⟨j, _, hj, _⟩ | ⟨_, hno⟩
      · rw [hitem] at hj; cases hj
      · refine hno i hi ⟨hr, ?_⟩
        rw [(hst i hi).2.2, hr]
        exact hgc.2.2.1.symm
    case upd r c v a i hp =>
      exact h.quiet rfl hpi hnd hgood (by rw [hp]; rfl) rfl rfl rfl (cap_setSlot _ _ _ _) (rv_setSlot s a i _ rfl)
        (fun j => slotOf_setSlot_conf s a i s.cur j _ rfl)
    case purgeLast cl a i hp hc ha hi =>
      exfalso
      obtain ⟨r, c, v, e⟩ := upd_set hshape (hg _ rfl).2.2.2
      exact hc r c v e
    case purge cl a i hp hc ha =>
      exfalso
      obtain ⟨r, c, v, e⟩ := upd_set hshape (hg _ rfl).2.2.2
      exact hc r c v e
    case mark cl a i hp =>
      exfalso
      exact mark_keeps hshape (hg _ rfl).2.2.2
    case gw f hp =>
      refine pcOnly _ _ rfl hpi hnd hgood (by rw [hp]; rfl) (by rw [hp]; rfl) rfl rfl rfl ?_ rfl rfl ?_ (by simp) (by simp)
      · intro f' e; rw [hp]; exact ⟨f', e, rfl⟩
      · intro f' tail l c e
        cases e
        exact ⟨rfl, rfl, lastActive_live (h.nd.live _) _⟩
    case toApp f tail l c hp hv =>
      refine pcOnly _ _ rfl hpi hnd hgood (by rw [hp]; rfl) (by rw [hp]; rfl) rfl rfl rfl ?_ rfl rfl (by simp) ?_ (by simp)
      · intro f' e; rw [hp]; exact ⟨f', e, rfl⟩
      · intro f' e i hi
        obtain ⟨g1, g2, g3⟩ := h.gw2 t f tail l c hp
        have hsr := hS (by rw [hp]; rfl) (by rw [hp]; simp)
        have ef : f = f' := by rcases e with e | e <;> cases e; rfl
        subst ef
        unfold exact at hx
        rw [hp] at hx
        simp only [Option.map_eq_some_iff] at hx
        obtain ⟨w, hx, rfl⟩ := hx
        simp only at hv
        subst hv
        unfold exactVerdict at hx
        rw [if_neg (by omega)] at hx
        split at hx
        · cases hx
        split at hx
        · cases hx
        rw [g3, if_neg (by omega)] at hx
        simp only at hx
        split at hx
        · rename_i hlt
          have hlt : rv s (s.len - 1) < f.r := hlt
          by_cases e1 : i = s.len - 1
          · subst e1; exact hlt
          · have := hsr i (s.len - 1) (by omega) (by omega)
            bv_omega
        · cases hx
    case toExp f tail l c hp hv =>
      refine pcOnly _ _ rfl hpi hnd hgood (by rw [hp]; rfl) (by rw [hp]; rfl) rfl rfl rfl ?_ rfl rfl (by simp) (by simp) ?_
      · intro f' e; rw [hp]; exact ⟨f', e, rfl⟩
      · intro f' _
        obtain ⟨g1, g2, g3⟩ := h.gw2 t f tail l c hp
        unfold exact at hx
        rw [hp] at hx
        simp only [Option.map_eq_some_iff] at hx
        obtain ⟨w, hx, rfl⟩ := hx
        simp only at hv
        subst hv
        unfold exactVerdict at hx
        split at hx
        · cases hx
        · omega
    case toFree f tail l c hp hv =>
      exfalso
      simp [NoFree, PC.isFree] at hnf
    case toIns f tail l c hp hv =>
      refine pcOnly _ _ rfl hpi hnd hgood (by rw [hp]; rfl) (by rw [hp]; rfl) rfl rfl rfl ?_ rfl rfl (by simp) (by simp) (by simp)
      intro f' e; rw [hp]; exact ⟨f', e, rfl⟩
    case appLock f hp hm hl =>
      refine pcOnly _ _ rfl hpi hnd hgood (by rw [hp]; rfl) (by rw [hp]; rfl) rfl rfl rfl ?_ rfl rfl (by simp) ?_ (by simp)
      · intro f' e; rw [hp]; exact ⟨f', e, rfl⟩
      · intro f' e
        have ef : f = f' := by rcases e with e | e <;> cases e; rfl
        subst ef; exact h.app t f (.inl hp)
    case appNil f hp hm =>
      refine pcOnly _ _ rfl hpi hnd hgood (by rw [hp]; rfl) (by rw [hp]; rfl) rfl rfl rfl ?_ rfl rfl (by simp) ?_ (by simp)
      · intro f' e; rw [hp]; exact ⟨f', e, rfl⟩
      · intro f' e
        have ef : f = f' := by rcases e with e | e <;> cases e; rfl
        subst ef; exact h.app t f (.inl hp)
    case appFull f hp hc =>
      refine pcOnly _ _ rfl hpi hnd hgood (by rw [hp]; rfl) (by rw [hp]; rfl) rfl rfl rfl ?_ rfl rfl (by simp) (by simp) (by simp)
      intro f' e; cases e; rw [hp]; exact ⟨f, rfl, rfl⟩
    case app2 f hp hc =>
      have hlt := h.app t f (.inr hp)
      have hs := hS (by rw [hp]; rfl) (by rw [hp]; simp)
      refine SI.own rfl hpi hnd hgood (hoth (by rw [hp]; rfl)) (fun h0 => absurd h0 (Nat.succ_ne_zero _)) ?_ (fun hh => absurd rfl (hh _ _ _ _)) (by simp [PC.frame]) (by simp) (by simp) (by simp) (by simp) ?_
      · intro i hi hne
        simp only [PC.claimAt, ne_eq, Option.some.injEq] at hne
        have hi : i < s.len + 1 := hi
        exact hstored (by rw [hp]; rfl) (by rw [hp]; rfl) i (by omega)
      · intro f' fn a i e
        cases e
        refine ⟨hlt, ?_, ?_⟩
        · intro j h1 h2
          have h2 : j < s.len + 1 := h2
          omega
        · intro j k _ hk hjk h2
          have h2 : k < s.len + 1 := h2
          exact hs j k hjk (by omega)
    case insLock f hp hm hl =>
      refine pcOnly _ _ rfl hpi hnd hgood (by rw [hp]; rfl) (by rw [hp]; rfl) rfl rfl rfl ?_ rfl rfl (by simp) (by simp) (by simp)
      intro f' e; rw [hp]; exact ⟨f', e, rfl⟩
    case insNil f hp hm =>
      refine pcOnly _ _ rfl hpi hnd hgood (by rw [hp]; rfl) (by rw [hp]; rfl) rfl rfl rfl ?_ rfl rfl (by simp) (by simp) (by simp)
      intro f' e; rw [hp]; exact ⟨f', e, rfl⟩
    case insNone f hp hg =>
      refine pcOnly _ _ rfl hpi hnd hgood (by rw [hp]; rfl) (by rw [hp]; rfl) rfl rfl rfl ?_ rfl rfl (by simp) (by simp) (by simp)
      intro f' e; cases e; rw [hp]; exact ⟨f, rfl, rfl⟩
    case expLock f hp hm hl =>
      refine pcOnly _ _ rfl hpi hnd hgood (by rw [hp]; rfl) (by rw [hp]; rfl) rfl rfl rfl ?_ rfl rfl (by simp) (by simp) ?_
      · intro f' e; rw [hp]; exact ⟨f', e, rfl⟩
      · intro f' _; exact h.exp t f (.inl hp)
    case expNil f hp hm =>
      refine pcOnly _ _ rfl hpi hnd hgood (by rw [hp]; rfl) (by rw [hp]; rfl) rfl rfl rfl ?_ rfl rfl (by simp) (by simp) ?_
      · intro f' e; rw [hp]; exact ⟨f', e, rfl⟩
      · intro f' _; exact h.exp t f (.inl hp)
    case ins2 f i hp hg2 =>
      have hne : s.cur ≠ s.next := Nat.ne_of_lt h.pi.cur
      have hs := hS (by rw [hp]; rfl) (by rw [hp]; simp)
      have hab := hfr f (by rw [hp]; rfl)
      have hmem := List.mem_of_find?_eq_some hg2
      have hi : i < s.len := by simpa [pool] using hmem
      have hge : f.r ≤ rv s i := by
        have := List.find?_some hg2
        simp only [Bool.and_eq_true, decide_eq_true_eq] at this
        exact this.2
      have hlo : ∀ j, j < i → rv s j < f.r := by
        intro j hj
        unfold Pool.firstGE at hg2
        rw [List.find?_range_eq_some] at hg2
        have := hg2.2.2 j hj
        have hd : ((pool s).slot j).deleted = false := h.nd.slot s.cur j
        rw [hd] at this
        simp only [Bool.not_false, Bool.true_and, Bool.not_eq_true', decide_eq_false_iff_not] at this
        have this : ¬ f.r ≤ rv s j := this
        bv_omega
      have hsl : ∀ j, slotOf ({ setArr s s.next ((pool s).insertAt i).arr with next := s.next + 1 } : St) s.cur j =
          slotOf s s.cur j := fun j => slotOf_setArr_ne hne j
      refine SI.own rfl hpi hnd hgood (hoth (by rw [hp]; rfl)) ?_ ?_ ?_ ?_ (by simp) (by simp) (by simp) ?_ (by simp)
      · intro h0
        have h0 : s.len = 0 := h0
        omega
      · intro j hj _
        show (slotOf _ s.cur j).rev ≠ 0 ∧ (slotOf _ s.cur j).conflict ≠ 0 ∧ (slotOf _ s.cur j).conflict = g (slotOf _ s.cur j).rev
        rw [hsl]
        exact hstored (by rw [hp]; rfl) (by rw [hp]; rfl) j hj
      · intro _ j k hjk hk
        show (slotOf _ s.cur j).rev < (slotOf _ s.cur k).rev
        rw [hsl, hsl]; exact hs j k hjk hk
      · intro f' e j hj
        cases e
        show (slotOf _ s.cur j).rev ≠ _
        rw [hsl]; exact hab j hj
      · intro f' n k e
        cases e
        refine ⟨?_, ?_⟩
        · intro j hj
          show (slotOf _ s.cur j).rev < _
          rw [hsl]; exact hlo j hj
        · intro j h1 h2
          have h2 : j < s.len := h2
          show _ < (slotOf _ s.cur j).rev
          rw [hsl]
          have a1 := hab j h2
          show f.r < rv s j
          by_cases e : i = j
          · subst e; bv_omega
          · have := hs i j (by omega) h2
            bv_omega
    case ins3 f n i hp =>
      have hc := h.pi.ins3 t f n i hp
      have hs := hS (by rw [hp]; rfl) (by rw [hp]; simp)
      obtain ⟨hlo, hhi⟩ := h.ins3 t f n i hp
      have e1 : ∀ j, j < i → rv ({ s with cur := n, len := s.len + 1 } : St) j = rv s j := fun j hj => (hc.lo j hj).rev
      have e2 : ∀ j, i < j → j < s.len + 1 → rv ({ s with cur := n, len := s.len + 1 } : St) j = rv s (j - 1) := by
        intro j h1 h2
        obtain ⟨k, rfl⟩ : ∃ k, j = k + 1 := ⟨j - 1, by omega⟩
        exact (hc.hi k (by omega) (by omega)).rev
      have hlt := hc.lt
      refine SI.own rfl hpi hnd hgood (hoth (by rw [hp]; rfl)) (fun h0 => absurd h0 (Nat.succ_ne_zero _)) ?_ (fun hh => absurd rfl (hh _ _ _ _)) (by simp [PC.frame]) (by simp) (by simp) (by simp) (by simp) ?_
      · intro j hj hne
        simp only [PC.claimAt, ne_eq, Option.some.injEq] at hne
        have hj : j < s.len + 1 := hj
        have hst := hstored (by rw [hp]; rfl) (by rw [hp]; rfl)
        by_cases hji : j < i
        · have := hst j (by omega)
          have c1 := hc.lo j hji
          rw [e1 j hji]
          show _ ∧ (slotOf s n j).conflict ≠ 0 ∧ (slotOf s n j).conflict = _
          rw [c1.conf]; exact this
        · obtain ⟨k, rfl⟩ : ∃ k, j = k + 1 := ⟨j - 1, by omega⟩
          have := hst k (by omega)
          have c1 := hc.hi k (by omega) (by omega)
          rw [e2 (k + 1) (by omega) hj]
          show _ ∧ (slotOf s n (k + 1)).conflict ≠ 0 ∧ (slotOf s n (k + 1)).conflict = _
          rw [c1.conf]; exact this
      · intro f' fn a k e
        cases e
        refine ⟨?_, ?_, ?_⟩
        · intro j hj; rw [e1 j hj]; exact hlo j hj
        · intro j h1 h2
          have h2 : j < s.len + 1 := h2
          rw [e2 j h1 h2]; exact hhi (j - 1) (by omega) (by omega)
        · intro j k hj hk hjk h2
          have h2 : k < s.len + 1 := h2
          rcases Nat.lt_or_gt_of_ne hj with a1 | a1 <;> rcases Nat.lt_or_gt_of_ne hk with a2 | a2
          · rw [e1 j a1, e1 k a2]; exact hs j k hjk (by omega)
          · rw [e1 j a1, e2 k a2 h2]; exact hs j (k - 1) (by omega) (by omega)
          · omega
          · rw [e2 j a1 (by omega), e2 k a2 h2]; exact hs (j - 1) (k - 1) (by omega) (by omega)
    case exp2 f q hp hq =>
      have hne : s.cur ≠ s.next := Nat.ne_of_lt h.pi.cur
      have hs := hS (by rw [hp]; rfl) (by rw [hp]; simp)
      have hab := hfr f (by rw [hp]; rfl)
      have hpos := h.exp t f (.inr (.inl hp))
      have hsl : ∀ j, slotOf ({ setArr s s.next q.arr with next := s.next + 1 } : St) s.cur j =
          slotOf s s.cur j := fun j => slotOf_setArr_ne hne j
      refine SI.own rfl hpi hnd hgood (hoth (by rw [hp]; rfl)) ?_ ?_ ?_ ?_ (by simp) (by simp) ?_ (by simp) (by simp)
      · intro h0
        have h0 : s.len = 0 := h0
        omega
      · intro j hj _
        show (slotOf _ s.cur j).rev ≠ 0 ∧ (slotOf _ s.cur j).conflict ≠ 0 ∧ (slotOf _ s.cur j).conflict = g (slotOf _ s.cur j).rev
        rw [hsl]
        exact hstored (by rw [hp]; rfl) (by rw [hp]; rfl) j hj
      · intro _ j k hjk hk
        show (slotOf _ s.cur j).rev < (slotOf _ s.cur k).rev
        rw [hsl, hsl]; exact hs j k hjk hk
      · intro f' e j hj
        cases e
        show (slotOf _ s.cur j).rev ≠ _
        rw [hsl]; exact hab j hj
      · intro f' _; exact hpos
    case exp3 f n hp =>
      have hc := h.pi.exp3 t f n hp
      have hs := hS (by rw [hp]; rfl) (by rw [hp]; simp)
      have hab := hfr f (by rw [hp]; rfl)
      have hpos := h.exp t f (.inr (.inr ⟨n, hp⟩))
      have e1 : ∀ j, j < s.len → rv ({ s with cur := n } : St) j = rv s j := fun j hj => (hc.lo j hj).rev
      refine SI.own rfl hpi hnd hgood (hoth (by rw [hp]; rfl)) ?_ ?_ ?_ ?_ (by simp) (by simp) (by simp) (by simp) (by simp)
      · intro h0
        have h0 : s.len = 0 := h0
        omega
      · intro j hj _
        have hj : j < s.len := hj
        have := hstored (by rw [hp]; rfl) (by rw [hp]; rfl) j hj
        rw [e1 j hj]
        show _ ∧ (slotOf s n j).conflict ≠ 0 ∧ (slotOf s n j).conflict = _
        rw [(hc.lo j hj).conf]; exact this
      · intro _ j k hjk hk
        have hk : k < s.len := hk
        rw [e1 j (by omega), e1 k hk]; exact hs j k hjk hk
      · intro f' e j hj
        cases e
        have hj : j < s.len := hj
        rw [e1 j hj]; exact hab j hj
    case clR f fn a i hp =>
      obtain ⟨rfl, g2, g3, g4⟩ := h.pi.clR t f fn a i hp
      obtain ⟨hlo, hhi, hex⟩ := h.clR t f fn s.cur i hp
      have hcap : i < (s.arrs s.cur).length := Nat.lt_of_lt_of_le g2 h.pi.room
      have e0 : ∀ (x : Slot), rv (setSlot s s.cur i x) i = x.rev := fun x => by
        unfold rv
        show (slotOf (setSlot s s.cur i x) s.cur i).rev = _
        rw [slotOf_setSlot, if_pos ⟨rfl, rfl, hcap⟩]
      have e1 : ∀ (x : Slot) j, j ≠ i → slotOf (setSlot s s.cur i x) s.cur j = slotOf s s.cur j := fun x j hj =>
        slotOf_setSlot_ne s x (fun hh => hj hh.2)
      have e2 : ∀ (x : Slot) j, j ≠ i → rv (setSlot s s.cur i x) j = rv s j := fun x j hj => congrArg Slot.rev (e1 x j hj)
      have hst : ∀ j, j < s.len → j ≠ i → rv s j ≠ 0 ∧ (slotOf s s.cur j).conflict ≠ 0 ∧ (slotOf s s.cur j).conflict = g (rv s j) := by
        intro j hj hji
        refine h.stored j hj fun u hu => ?_
        by_cases e : u = t
        · subst e; rw [hp] at hu; cases hu; exact hji rfl
        · have := hoth (by rw [hp]; rfl) u e; rw [ins_of_claimAt hu] at this; cases this
      refine SI.own rfl hpi hnd hgood (hoth (by rw [hp]; rfl)) ?_ ?_ ?_ (by simp [PC.frame]) (by simp) (by simp) (by simp) (by simp) (by simp)
      · intro h0
        have h0 : s.len = 0 := h0
        omega
      · intro j hj hne
        have hji : j ≠ i := by simpa [PC.claimAt, eq_comm] using hne
        rw [e2 _ j hji]
        show _ ∧ (slotOf (setSlot s s.cur i _) s.cur j).conflict ≠ 0 ∧ (slotOf (setSlot s s.cur i _) s.cur j).conflict = _
        rw [e1 _ j hji]; exact hst j hj hji
      · intro _ j k hjk hk
        have hk : k < s.len := hk
        by_cases a1 : j = i
        · subst a1
          rw [e0, e2 _ k (by omega)]
          simp only [g3, if_pos]
          exact hhi k hjk hk
        · by_cases a2 : k = i
          · subst a2
            rw [e0, e2 _ j a1]
            simp only [g3, if_pos]
            exact hlo j hjk
          · rw [e2 _ j a1, e2 _ k a2]; exact hex j k a1 a2 hjk hk
    case clC f fn a i hp =>
      obtain ⟨rfl, g2, g3, g4⟩ := h.pi.clC t f fn a i hp
      have hs := hS (by rw [hp]; rfl) (by rw [hp]; simp)
      have hrv := rv_setSlot s s.cur i { slotOf s s.cur i with
        conflict := if (slotOf s s.cur i).conflict = 0 then f.c else (slotOf s s.cur i).conflict } rfl
      have hst : ∀ j, j < s.len → j ≠ i → rv s j ≠ 0 ∧ (slotOf s s.cur j).conflict ≠ 0 ∧ (slotOf s s.cur j).conflict = g (rv s j) := by
        intro j hj hji
        refine h.stored j hj fun u hu => ?_
        by_cases e : u = t
        · subst e; rw [hp] at hu; cases hu; exact hji rfl
        · have := hoth (by rw [hp]; rfl) u e; rw [ins_of_claimAt hu] at this; cases this
      refine SI.own rfl hpi hnd hgood (hoth (by rw [hp]; rfl)) ?_ ?_ ?_ (by simp [PC.frame]) (by simp) (by simp) (by simp) (by simp) (by simp)
      · intro h0
        have h0 : s.len = 0 := h0
        omega
      · intro j hj hne
        have hji : j ≠ i := by simpa [PC.claimAt, eq_comm] using hne
        rw [hrv]
        show _ ∧ (slotOf (setSlot s s.cur i _) s.cur j).conflict ≠ 0 ∧ (slotOf (setSlot s s.cur i _) s.cur j).conflict = _
        rw [slotOf_setSlot_ne s _ (fun hh => hji hh.2)]; exact hst j hj hji
      · intro _ j k hjk hk
        rw [hrv, hrv]; exact hs j k hjk hk
    case wr f fn a i hp =>
      obtain ⟨rfl, g2, g3, g4⟩ := h.pi.wr t f fn a i hp
      have hs := hS (by rw [hp]; rfl) (by rw [hp]; simp)
      have hrv := rv_setSlot s s.cur i { slotOf s s.cur i with val := f.v } rfl
      have hgc := hg _ rfl
      have hst : ∀ j, j < s.len → j ≠ i → rv s j ≠ 0 ∧ (slotOf s s.cur j).conflict ≠ 0 ∧ (slotOf s s.cur j).conflict = g (rv s j) := by
        intro j hj hji
        refine h.stored j hj fun u hu => ?_
        by_cases e : u = t
        · subst e; rw [hp] at hu; cases hu; exact hji rfl
        · have := hoth (by rw [hp]; rfl) u e; rw [ins_of_claimAt hu] at this; cases this
      refine SI.own rfl hpi hnd hgood (hoth (by rw [hp]; rfl)) ?_ ?_ ?_ (by simp [PC.frame]) (by simp) (by simp) (by simp) (by simp) (by simp)
      · intro h0
        have h0 : s.len = 0 := h0
        omega
      · intro j hj _
        have hj : j < s.len := hj
        rw [hrv]
        show _ ∧ (slotOf (setSlot s s.cur i _) s.cur j).conflict ≠ 0 ∧ (slotOf (setSlot s s.cur i _) s.cur j).conflict = _
        rw [slotOf_setSlot_conf s s.cur i s.cur j { slotOf s s.cur i with val := f.v } rfl]
        by_cases hji : j = i
        · subst hji
          have e3 : rv s j = f.r := g3
          rw [g4, e3]
          exact ⟨hgc.1, hgc.2.1, hgc.2.2.1⟩
        · exact hst j hj hji
      · intro _ j k hjk hk
        rw [hrv, hrv]; exact hs j k hjk hk
    case retUnlock res hp =>
      have e1 : (release s t).cur = s.cur := by unfold release; split <;> rfl
      have e2 : (release s t).len = s.len := by unfold release; split <;> rfl
      have e3 : (release s t).arrs = s.arrs := by unfold release; split <;> rfl
      have e4 : ∀ i, slotOf (release s t) (release s t).cur i = slotOf s s.cur i := fun i => by
        rw [e1]; exact slotOf_congr e3 _ _
      exact h.quiet hpc hpi hnd hgood (by rw [hp]; rfl) rfl e1 e2 (by unfold cap; rw [e1, e3])
        (fun i => congrArg Slot.rev (e4 i)) (fun i => congrArg Slot.conflict (e4 i))

theorem SI.via {g : U64 → U64} {s s' : St} (h : SI g s) (v : XVia (Neat g) s s') : SI g s' := by
  induction v with
  | refl => exact h
  | tail _ st hp ih => exact ih.step st hp

end SLM.EConc
