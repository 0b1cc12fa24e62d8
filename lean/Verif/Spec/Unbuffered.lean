import Verif.EmitApi

/-
An emitter without buffers whose writer never fails: every character it produces goes straight to a
text.  This is what the real emitter has to be equivalent to.
-/

namespace Yaml

/-- The answer of an operation that succeeds. -/
def idealAns : (o : EmitOp) → EmitAns o
  | .fin _ => .ok ()
  | .room _ _ => .ok ()
  | .flush _ => .ok ()
  | .push _ => ()

/-- The text after an operation. -/
def textStep : EmitOp → Str → Str
  | .push c, t => t ++ [c]
  | _, t => t

/-- An emitter with no buffers and a perfect writer: every character goes straight to the text. -/
def execText {α : Type} : Free EmitOp EmitAns α → Str → α × Str
  | .ret a, t => (a, t)
  | .op o f, t => execText (f (idealAns o)) (textStep o t)

/-- An emitter without buffers: its state and the text produced so far. -/
structure Unbuffered where
  s : EState
  text : Str

/-- One call of `emit`. -/
def Unbuffered.emit (ev : Event) (o : Unbuffered) : Out Unit × Unbuffered :=
  let q := execText (Emitter.emit ev o.s) o.text
  (q.1.1, ⟨q.1.2, q.2⟩)

/-- Successive calls of `emit` with these events returned `Ok`. -/
inductive Unbuffered.Emits (o : Unbuffered) : List Event → Unbuffered → Prop
  | nil : Emits o [] o
  | snoc {evs : List Event} {ev : Event} {o1 o2 : Unbuffered} (h : Emits o evs o1)
      (hs : o1.emit ev = (.ok (), o2)) : Emits o (evs ++ [ev]) o2

end Yaml
