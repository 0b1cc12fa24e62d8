import Verif.Spec.Scalars
import Verif.Document

/-
Texts that differ only in the choice of line breaks, and results that differ only in what depends on that choice: the
index (a count of bytes, see `lenUtf8`) in marks.
-/

namespace Yaml.Spec

/-- The text with every CR LF, every other CR and every NEL (U+0085) replaced by a line feed. -/
def unixBreaks : Str → Str
  | [] => []
  | '\r' :: '\n' :: t => '\n' :: unixBreaks t
  | c :: t => (if c = '\r' ∨ c = '\u0085' then '\n' else c) :: unixBreaks t

/-- Moving a position down by `n` lines. -/
def Below (n : Nat) (m m' : Mark) : Prop := m.line = m'.line + n ∧ m.column = m'.column

/-- The line and column of a mark, without its index. -/
def placeOf (m : Mark) : Mark := { m with index := 0 }

/-- A token without the indices of its marks. -/
def tokenPlaced (t : Token) : Token := { t with startMark := placeOf t.startMark, endMark := placeOf t.endMark }

/-- An event without the indices of its marks. -/
def eventPlaced (e : Event) : Event := { e with startMark := placeOf e.startMark, endMark := placeOf e.endMark }

/-- An error without the indices of its marks. -/
def errPlaced : Err → Err
  | .scanner c m p n => .scanner c (placeOf m) p (placeOf n)
  | .parser c m p n => .parser c (placeOf m) p (placeOf n)
  | .composer c m p n => .composer c (placeOf m) p (placeOf n)
  | e => e

/-- A document without the indices of its marks. -/
def documentPlaced (d : Document) : Document :=
  { d with
    nodes := d.nodes.map fun n => { n with startMark := placeOf n.startMark, endMark := placeOf n.endMark }
    startMark := placeOf d.startMark
    endMark := placeOf d.endMark }

/-- The result of a call without the indices of marks. -/
def placed {α : Type} (f : α → α) : Out α → Out α
  | .ok a => .ok (f a)
  | .err e => .err (errPlaced e)
  | .panic x => .panic x
  | .fuel => .fuel

/-- Results of calls up to and including the first that is not `Ok`. -/
def upToFailure {α : Type} : List (Out α) → List (Out α)
  | [] => []
  | .ok a :: l => .ok a :: upToFailure l
  | x :: _ => [x]

end Yaml.Spec
