import Verif.Spec.Culprit

/-
Specification for C66: sources that break off.
-/

namespace Yaml.Spec

/-- `BreaksOff items enc e X`: the source `items`, opened with the encoding `enc` and read as `e`, breaks off, and `X` is a
text that it may have been the beginning of. -/
inductive BreaksOff : List SrcItem → Encoding → Encoding → List Char → Prop
  /-- It fails after the items `p`; had it gone on with `rest`, a client would have read `X` and then met the end. -/
  | failed {p post rest : List SrcItem} {k : IoKind} {enc : Encoding} {ns : List Nat} {X : List Char} {r : Rd} :
      pull ns { items := p ++ rest, encoding := enc } = (.ok X, r) → X.length < ns.sum → BreaksOff (p ++ .fail k :: post) enc r.encoding X
  /-- Its bytes are those of the acceptable text `T` in UTF-8, and then there is something that does not begin with a
  character, or with one that is not allowed; `X` is any text that begins with `T`. -/
  | bad {items : List SrcItem} {enc : Encoding} {T X : List Char} {Y : List UInt8} : Utf8Stream enc (bytesOf items) →
      textBytes enc (bytesOf items) = utf8Encode T ++ Y → (∀ t ∈ T, Allowed t) → Y ≠ [] → (∀ c R, Y = utf8Bytes c ++ R → ¬ Allowed c) →
      T <+: X → BreaksOff items enc .utf8 X

/-- An error met while reading, not one about YAML. -/
def ReadingError (e : Err) : Prop := (∃ p o v, e = .reader p o v) ∨ ∃ k, e = .io k

end Yaml.Spec
