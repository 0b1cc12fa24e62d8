import Verif.Spec.Emit

/-
What the contents of a token always look like.
-/

namespace Yaml.Spec

/-- Names of anchors and aliases are words, a `%TAG` directive has a handle and a prefix, a tag has a
suffix and either no handle (a verbatim tag) or a valid one, the numbers of a `%YAML` directive have at most
nine digits, and a plain scalar is not empty. -/
def TokenFits : TokenData → Prop
  | .versionDirective major minor => (0 ≤ major ∧ major < 10 ^ 9) ∧ (0 ≤ minor ∧ minor < 10 ^ 9)
  | .tagDirective handle prefix_ => HandleOk handle ∧ prefix_ ≠ []
  | .alias name | .anchor name => NameOk name
  | .tag handle suffix => (handle = [] ∨ HandleOk handle) ∧ suffix ≠ []
  | .scalar value style => style ≠ .any ∧ (style = .plain → value ≠ [])
  | _ => True

/-- A style was chosen. -/
def Styled : EventData → Prop
  | .scalar _ _ _ _ _ style => style ≠ .any
  | _ => True

end Yaml.Spec
