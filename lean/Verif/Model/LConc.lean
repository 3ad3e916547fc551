import Verif.Model.Conc
/-!
The counter behind `Len` beside the concurrent calls of Model/Conc.lean.

`_set` adds 1 to `h.len` after `add2` returned (map.go:419-426), whether or not `add2` linked the item (map.go:984-987 only logs a
failed check).  This is one more atomic access between the link and the return of `Set`.

`c` is the state of Model/Conc.lean, `len` is `h.len` (map.go:214-220), `owe g`: goroutine `g` has left `add2` and has not added its 1
yet.  Not modelled: the bucket's own counter (`btable._len`, map.go:427-429), whose only effect is when a bucket is split, and splits
may start at any time in Model/Conc.lean.
-/
set_option autoImplicit false
namespace SLM.Conc

structure LSt where
  c : CSt
  len : Int
  owe : Tid → Bool

/-- map.go:416-425: `add2` for an item (not for a sentinel) returns. -/
def leaves (p p' : PC) : Bool :=
  match p.newE, p'.newE with
  | some e, none => !e.dummy
  | _, _ => false

def setB (f : Tid → Bool) (g : Tid) (b : Bool) : Tid → Bool := fun u => if u = g then b else f u

/-- One atomic step. -/
inductive LStep (Pk : CSt → Call → Ref → Prop) : LSt → Tid → LSt → Prop
  /-- Any step of Model/Conc.lean. -/
  | move (s : LSt) (g : Tid) (c' : CSt) : s.owe g = false → Step Pk s.c g c' →
      LStep Pk s g { s with c := c', owe := if leaves (s.c.pc g) (c'.pc g) then setB s.owe g true else s.owe }
  /-- map.go:426 `atomic.AddInt64(&h.len, 1)`. -/
  | count (s : LSt) (g : Tid) : s.owe g = true → LStep Pk s g { s with len := s.len + 1, owe := setB s.owe g false }

/-- Executions every step of which satisfies `P`. -/
inductive LSteps (Pk : CSt → Call → Ref → Prop) (P : LSt → Tid → LSt → Prop) : LSt → LSt → Prop
  | refl (s : LSt) : LSteps Pk P s s
  | step {a b c : LSt} {g : Tid} : LSteps Pk P a b → LStep Pk b g c → P b g c → LSteps Pk P a c

/-- map.go:214-216: a `Len` call reads the counter. -/
def LSt.Len (s : LSt) : Int := s.len

/-- The call of `g` has returned: it has nothing left to do. -/
def LSt.returned (s : LSt) (g : Tid) (r : Res) : Prop := s.c.pc g = .ret r ∧ s.owe g = false

/-- The map as a sequential history left it. -/
def lofSt (st : St) : LSt := { c := ofSt st, len := st.len, owe := fun _ => false }

end SLM.Conc
