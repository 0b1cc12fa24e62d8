import Verif.Spec.Scalars
import Verif.Spec.Emit

/-
What the text of a tag denotes (YAML 1.1, section 6.8.2 and 7.3.1), independent of the scanner model.
Percent-escapes are limited to ASCII: the code decodes others wrongly (finding 4).
-/

namespace Yaml.Spec

/-- The characters of a URI that need no escape (`%` aside); `,`, `[` and `]` only within `!<` and `>` and in
`%TAG` prefixes. -/
def UriChar (verbatim : Bool) (c : Char) : Prop :=
  NameChar c ∨ c ∈ (cs! ";/?:@&=+$.!~*'()") ∨ (verbatim = true ∧ c ∈ (cs! ",[]"))

/-- `UriText verbatim t v`: `t` denotes `v`. -/
inductive UriText (verbatim : Bool) : Str → Str → Prop
  | nil : UriText verbatim [] []
  | char {c : Char} {t v : Str} (hc : UriChar verbatim c) (h : UriText verbatim t v) : UriText verbatim (c :: t) (c :: v)
  | escape {a b : Char} {x y : Nat} {t v : Str} (ha : HexDigit a x) (hb : HexDigit b y) (hn : 16 * x + y < 128) (h : UriText verbatim t v) :
      UriText verbatim ('%' :: a :: b :: t) (Char.ofNat (16 * x + y) :: v)

/-- `TagText t handle suffix`: the tag `t` has this handle and suffix. -/
inductive TagText : Str → Str → Str → Prop
  | verbatim {u v : Str} (h : UriText true u v) (hv : v ≠ []) : TagText (cs! "!<" ++ (u ++ ['>'])) [] v
  | named {n u v : Str} (hn : ∀ c ∈ n, NameChar c) (h : UriText false u v) (hv : v ≠ []) : TagText ('!' :: n ++ '!' :: u) ('!' :: n ++ ['!']) v
  | primary {n u v : Str} (hn : ∀ c ∈ n, NameChar c) (hu : ∀ c r, u = c :: r → ¬ NameChar c ∧ c ≠ '!') (h : UriText false u v) (hv : n ++ v ≠ []) :
      TagText ('!' :: (n ++ u)) ['!'] (n ++ v)
  | bare : TagText ['!'] [] ['!']

/-- What ends a tag: a blank, a line break or the end. -/
def EndsTag (t : Str) : Prop := ∀ c r, t = c :: r → IsBlank c ∨ isLineBreak c = true

/-- What may follow an anchor or alias. -/
def EndsName (t : Str) : Prop := ∀ c r, t = c :: r → IsBlank c ∨ isLineBreak c = true ∨ c ∈ (cs! "?:,]}%@`")

end Yaml.Spec
