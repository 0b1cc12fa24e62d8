import Verif.Spec.Tags

/-
What the line of a directive denotes (YAML 1.1, section 6.8), independent of the scanner model.
-/

namespace Yaml.Spec

/-- A decimal digit. -/
def IsDigit (c : Char) : Prop := '0'.toNat ≤ c.toNat ∧ c.toNat ≤ '9'.toNat

/-- The value of a decimal number. -/
def decimal : Str → Nat
  | [] => 0
  | c :: r => (c.toNat - '0'.toNat) * 10 ^ r.length + decimal r

/-- `DirectiveText t d`: the text `t` behind the `%` (up to the blanks, comment and line break that end the line)
declares `d`. -/
inductive DirectiveText : Str → TokenData → Prop
  | version {sp maj min : Str} (hsp : sp ≠ [] ∧ ∀ c ∈ sp, IsBlank c) (hM : ∀ c ∈ maj, IsDigit c) (hm : ∀ c ∈ min, IsDigit c)
      (hML : 1 ≤ maj.length ∧ maj.length ≤ 9) (hmL : 1 ≤ min.length ∧ min.length ≤ 9) :
      DirectiveText (cs! "YAML" ++ (sp ++ (maj ++ '.' :: min))) (.versionDirective (decimal maj) (decimal min))
  | tag {sp sp' h u v : Str} (hsp : sp ≠ [] ∧ ∀ c ∈ sp, IsBlank c) (hsp' : sp' ≠ [] ∧ ∀ c ∈ sp', IsBlank c) (hh : HandleOk h)
      (hu : UriText true u v) (hv : v ≠ []) :
      DirectiveText (cs! "TAG" ++ (sp ++ (h ++ (sp' ++ u)))) (.tagDirective h v)

/-- What may follow it on its line: nothing, blanks, or blanks and a comment. -/
inductive LineRest : Str → Prop
  | blanks {sp : Str} (hsp : ∀ c ∈ sp, IsBlank c) : LineRest sp
  | comment {sp com : Str} (hsp : sp ≠ [] ∧ ∀ c ∈ sp, IsBlank c) (hc : ∀ c ∈ com, isLineBreak c = false) : LineRest (sp ++ '#' :: com)

end Yaml.Spec
