import Verif.Api
import Verif.Spec.Position

/-
Specification for C61: how much of a text was needed, and a source that goes on.
-/

namespace Yaml.Spec

/-- `MoreThan T m`: the text `T` has at least one more character behind the position `m`. -/
def MoreThan (T : Str) (m : Mark) : Prop := ∃ A c r, T = A ++ c :: r ∧ position A = m

/-- A scanner whose source, behind what it would still have delivered, goes on with `X`. -/
def _root_.Yaml.ScannerObj.goesOn (o : ScannerObj) (X : List SrcItem) : ScannerObj := { o with r := { o.r with items := o.r.items ++ X } }

/-- A parser whose source, behind what it would still have delivered, goes on with `X`. -/
def _root_.Yaml.ParserObj.goesOn (o : ParserObj) (X : List SrcItem) : ParserObj := { o with r := { o.r with items := o.r.items ++ X } }

end Yaml.Spec
