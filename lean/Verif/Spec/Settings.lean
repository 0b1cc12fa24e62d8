import Verif.EmitApi

/-
What a list of calls of the setters amounts to (for C63).
-/

namespace Yaml.Spec

def canonicalArg : Setting → Option Bool
  | .canonical b => some b
  | _ => none

def unicodeArg : Setting → Option Bool
  | .unicode b => some b
  | _ => none

def indentArg : Setting → Option Int
  | .indent i => some i
  | _ => none

def widthArg : Setting → Option Int
  | .width w => some w
  | _ => none

def breakArg : Setting → Option Break
  | .lineBreak b => some b
  | _ => none

/-- The argument of the last call of the setter that `f` picks out. -/
def lastSet {α : Type} (f : Setting → Option α) : List Setting → Option α
  | [] => none
  | x :: xs => match lastSet f xs with
    | some a => some a
    | none => f x

/-- The settings an emitter works with. -/
structure InForce where
  canonical : Bool
  unicode : Bool
  indent : Int
  width : Int
  lineBreak : Break
deriving DecidableEq, Repr

def indentOf : Option Int → Int
  | none => 2
  | some i => if 2 ≤ i ∧ i ≤ 9 then i else 2

/-- A negative width means no limit, which is the largest 32-bit number; a width of at most two levels of
indentation is not usable, and 80 is taken. -/
def widthOf (indent : Int) : Option Int → Int
  | none => 80
  | some w => if w < 0 then 2147483647 else if w ≤ 2 * indent then 80 else w

def breakOf : Option Break → Break
  | none => .ln
  | some .any => .ln
  | some b => b

/-- The settings in force: of each setter the last call counts, and values that make no sense are
replaced by the defaults. -/
def settings (cfg : List Setting) : InForce where
  canonical := (lastSet canonicalArg cfg).getD false
  unicode := (lastSet unicodeArg cfg).getD false
  indent := indentOf (lastSet indentArg cfg)
  width := widthOf (indentOf (lastSet indentArg cfg)) (lastSet widthArg cfg)
  lineBreak := breakOf (lastSet breakArg cfg)

end Yaml.Spec
