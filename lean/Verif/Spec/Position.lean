import Verif.Basic

/-
Specification of positions, independent of the scanner model: where in a text one is after
reading a prefix of it.
-/

namespace Yaml.Spec

/-- YAML 1.1 line break characters. -/
def isLineBreak (c : Char) : Bool :=
  c = '\n' || c = '\r' || c = '\u0085' || c = '\u2028' || c = '\u2029'

/-- Position reached from `m` after reading a text: byte index, line, column (all counted from
zero); CR LF is one line break. -/
def advance : Mark → List Char → Mark
  | m, [] => m
  | m, '\r' :: '\n' :: r => advance ⟨m.index + 2, m.line + 1, 0⟩ r
  | m, c :: r =>
    if isLineBreak c then advance ⟨m.index + c.utf8Size, m.line + 1, 0⟩ r
    else advance ⟨m.index + c.utf8Size, m.line, m.column + 1⟩ r

/-- Position after reading `pre` from the start of the input. -/
def position (pre : List Char) : Mark := advance ⟨0, 0, 0⟩ pre

/-- `m` is the position of a place in the text `T`: `T = pre ++ suf` with `m` the position after
`pre`, not inside a CR LF pair. -/
def IsPosition (T : List Char) (m : Mark) : Prop :=
  ∃ pre suf, T = pre ++ suf ∧ ¬ (pre.getLast? = some '\r' ∧ suf.head? = some '\n') ∧ m = position pre

/-- The mark put at column 0 of the line after the end of the text. -/
def endMark (T : List Char) : Mark :=
  ⟨(position T).index, (position T).line + 1, 0⟩

/-- Positions as the scanner reports them: a position in the text, or the end moved to the start
of the next line. -/
def IsMark (T : List Char) (m : Mark) : Prop := IsPosition T m ∨ m = endMark T

/-- Comparing positions. -/
def le (a b : Mark) : Prop :=
  a.index ≤ b.index ∧ (a.line < b.line ∨ (a.line = b.line ∧ a.column ≤ b.column))

end Yaml.Spec
