import Verif.Proofs.LConc
/-! Executable schedules for Model/LConc.lean. -/
set_option autoImplicit false
namespace SLM.Conc
open History

/-- One step of `g`: the addition if it owes one, else a step of its call. -/
def lstepX (m : Mode) (s : LSt) (g : Tid) (cl : Call) : Option LSt :=
  if s.owe g then some { s with len := s.len + 1, owe := setB s.owe g false }
  else (stepX m s.c g cl).map (fun c' => { s with c := c', owe := if leaves (s.c.pc g) (c'.pc g) then setB s.owe g true else s.owe })

theorem lstepX_step {m : Mode} {s s' : LSt} {g : Tid} {cl : Call} (h : lstepX m s g cl = some s') : LStep (pkExact m) s g s' := by
  unfold lstepX at h
  split at h
  · rename_i ho; cases h; exact .count s g ho
  · rename_i ho
    obtain ⟨c', h1, rfl⟩ := Option.map_eq_some_iff.1 h
    exact .move s g c' (by simpa using ho) (stepX_step h1)

/-- Up to `n` steps of `g`, every one tested; `none` if a test fails or the goroutine is not below `k`. -/
def lburst (ck : LSt → Tid → LSt → Bool) (m : Mode) (calls : Tid → Call) (k : Nat) (s : LSt) (g : Tid) : Nat → Option LSt
  | 0 => some s
  | n + 1 =>
    match lstepX m s g (calls g) with
    | some s' => if ck s g s' = true ∧ g < k then lburst ck m calls k s' g n else none
    | none => some s

def lsched (ck : LSt → Tid → LSt → Bool) (m : Mode) (calls : Tid → Call) (k : Nat) (s : LSt) : List (Tid × Nat) → Option LSt
  | [] => some s
  | (g, n) :: rest => (lburst ck m calls k s g n).bind (fun s' => lsched ck m calls k s' rest)

theorem LStep.pcs {Pk : CSt → Call → Ref → Prop} {s s' : LSt} {g u : Tid} (h : LStep Pk s g s') (hu : u ≠ g) :
    s'.c.pc u = s.c.pc u ∧ s'.owe u = s.owe u := by
  cases h with
  | move c' _ st =>
    refine ⟨st.others hu, ?_⟩
    simp only
    split
    · simp [setB, hu]
    · rfl
  | count => exact ⟨rfl, by simp [setB, hu]⟩

/-- Goroutines from `k` on have done nothing. -/
def IdleFrom (k : Nat) (s : LSt) : Prop := ∀ u, k ≤ u → s.c.pc u = .idle ∧ s.owe u = false

theorem lburst_sound {ck : LSt → Tid → LSt → Bool} {P : LSt → Tid → LSt → Prop} {m : Mode} {calls : Tid → Call} {k : Nat}
    (hck : ∀ s g s', IdleFrom k s → ck s g s' = true → P s g s') {s s' : LSt} {g : Tid} {n : Nat}
    (h : lburst ck m calls k s g n = some s') (hi : IdleFrom k s) : LSteps (pkExact m) P s s' ∧ IdleFrom k s' := by
  induction n generalizing s with
  | zero => cases h; exact ⟨.refl _, hi⟩
  | succ n ih =>
    unfold lburst at h
    split at h
    · rename_i s1 h1
      split at h
      · rename_i h2
        have hst := lstepX_step h1
        have := ih h (fun u hu => by
          have := hst.pcs (u := u) (fun e => Nat.lt_irrefl k (Nat.lt_of_le_of_lt (e ▸ hu) h2.2))
          rw [this.1, this.2]; exact hi u hu)
        exact ⟨LSteps.trans (.step (.refl _) hst (hck _ _ _ hi h2.1)) this.1, this.2⟩
      · cases h
    · cases h; exact ⟨.refl _, hi⟩

theorem lsched_sound {ck : LSt → Tid → LSt → Bool} {P : LSt → Tid → LSt → Prop} {m : Mode} {calls : Tid → Call} {k : Nat}
    (hck : ∀ s g s', IdleFrom k s → ck s g s' = true → P s g s') {s s' : LSt} {l : List (Tid × Nat)}
    (h : lsched ck m calls k s l = some s') (hi : IdleFrom k s) : LSteps (pkExact m) P s s' ∧ IdleFrom k s' := by
  induction l generalizing s with
  | nil => cases h; exact ⟨.refl _, hi⟩
  | cons a l ih =>
    obtain ⟨g, n⟩ := a
    simp only [lsched, Option.bind_eq_some_iff] at h
    obtain ⟨s1, h1, h2⟩ := h
    have h3 := lburst_sound hck h1 hi
    have h4 := ih h2 h3.2
    exact ⟨h3.1.trans h4.1, h4.2⟩

theorem lburst_other {ck : LSt → Tid → LSt → Bool} {m : Mode} {calls : Tid → Call} {k : Nat} {s s' : LSt} {g : Tid} {n : Nat}
    (h : lburst ck m calls k s g n = some s') {u : Tid} (hu : u ≠ g) : s'.c.pc u = s.c.pc u ∧ s'.owe u = s.owe u := by
  induction n generalizing s with
  | zero => cases h; exact ⟨rfl, rfl⟩
  | succ n ih =>
    unfold lburst at h
    split at h
    · rename_i s1 h1
      split at h
      · have h2 := ih h
        have h3 := (lstepX_step h1).pcs hu
        exact ⟨h2.1.trans h3.1, h2.2.trans h3.2⟩
      · cases h
    · cases h; exact ⟨rfl, rfl⟩

/-- What a Range showed is there. -/
theorem seen_le_nIt {Pk : CSt → Call → Ref → Prop} {s0 s : CSt} {L : List Ref} (hn : L.Nodup) (h : ∀ r ∈ L, WasLive Pk s0 s r) : L.length ≤ nIt s.items := by
  have hsub : L ⊆ (s.items.filter (fun e => !e.dummy)).map (·.ref) := by
    intro r hr
    obtain ⟨sm, _, h2, x, hx, hxr, hxd, _⟩ := h r hr
    obtain ⟨y, hy, hs⟩ := h2.ext.mem hx
    exact List.mem_map.2 ⟨y, by simp [hy, hs.2.2.2.1, hxd], by rw [hs.1, hxr]⟩
  have := (hn.subperm hsub).length_le
  rwa [List.length_map, ← List.countP_eq_length_filter] at this

/-- `Turns`, tested for the goroutines below `k`. -/
def turnsB (k : Nat) (s : LSt) (g : Tid) (s' : LSt) : Bool :=
  (!busy (s'.c.pc g) || (List.range k).all (fun w => decide (w = g) || !busy (s.c.pc w))) && !isLost (s'.c.pc g) &&
    (match (s'.c.pc g).newE with | some e => e.dummy || !decide (e.rev = maxU64) | none => true)

theorem turnsB_sound {k : Nat} : ∀ s g s', IdleFrom k s → turnsB k s g s' = true → s.c = s'.c ∨ Turns s.c g s'.c := by
  intro s g s' hi h
  right
  simp only [turnsB, Bool.and_eq_true, Bool.or_eq_true, Bool.not_eq_true', List.all_eq_true, List.mem_range, decide_eq_true_eq] at h
  obtain ⟨⟨h1, h2⟩, h3⟩ := h
  refine ⟨?_, h2, ?_⟩
  · intro hb w hw
    rw [hb] at h1
    by_cases hk : w < k
    · exact ((h1.resolve_left (by simp)) w hk).resolve_left hw
    · rw [(hi w (Nat.le_of_not_lt hk)).1]; rfl
  · intro e he hd
    rw [he] at h3
    simp [hd] at h3
    exact h3

end SLM.Conc
