import Verif.Spec.Scalars

/-
Which strings `write_folded_scalar` writes so that they can be read back: independent of the emitter model.
-/

namespace Yaml.Spec

/-- The first line of `t`. -/
def firstLine (t : Str) : Str := t.takeWhile (fun c => !isLineBreak c)

/-- A line feed ends the line `l`, and the next line that is not empty is `m` (empty: there is none).  The writer needs
no more than the line feed if `l` or `m` starts with a space, and an empty line else; it looks for a space, or the end of
the line, at the *second* character of `m`, so this has to tell the same as the first. -/
def foldTold (l m : Str) : Bool :=
  m.isEmpty || l.head? == some ' ' || ((m.head? == some ' ') == (m.length == 1 || m[1]? == some ' '))

/-- At every line feed that ends a non-empty line what is needed is told by the second character of the next non-empty
line; `l` is the current line so far. -/
def foldsWell (l : Str) : Str → Bool
  | [] => true
  | c :: cs =>
    if isLineBreak c then (l.isEmpty || c != '\n' || foldTold l (firstLine (cs.dropWhile isLineBreak))) && foldsWell [] cs
    else foldsWell (l ++ [c]) cs

/-- In a line that starts with a space no space that stands before something else is behind more than `w` characters
(it would be replaced by a line break); `l` is the current line so far. -/
def indentedKept (w : Int) (l : Str) : Str → Bool
  | [] => true
  | c :: cs =>
    if isLineBreak c then indentedKept w [] cs
    else (l.head? != some ' ' || c != ' ' || cs.head? == some ' ' || decide ((l.length : Int) ≤ w)) && indentedKept w (l ++ [c]) cs

end Yaml.Spec
