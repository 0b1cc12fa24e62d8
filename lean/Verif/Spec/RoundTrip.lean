import Verif.Basic
import Verif.Spec.Position

/-
When two event sequences say the same, up to styles, marks and what the text cannot carry: a tag that
the implicit flags allow to leave out, and how documents are marked off.
-/

namespace Yaml.Spec

/-- The tag of a node event that is written: all tags in canonical mode, otherwise those the implicit
flags do not allow to leave out. -/
def writtenTag (canonical : Bool) : EventData → Option Str
  | .scalar _ tag _ plainImplicit quotedImplicit _ => if canonical || (!plainImplicit && !quotedImplicit) then tag else none
  | .sequenceStart _ tag implicit _ | .mappingStart _ tag implicit _ => if canonical || !implicit then tag else none
  | _ => none

/-- The event `e'` read says the same as the event `e` that was emitted. -/
def SameEvent (canonical : Bool) (e e' : EventData) : Prop :=
  match e, e' with
  | .streamStart _, .streamStart _ => True
  | .streamEnd, .streamEnd => True
  | .documentStart version tags implicit, .documentStart version' tags' implicit' =>
    version' = version ∧ tags' = tags ∧ (implicit' = true → implicit = true)
  | .documentEnd implicit, .documentEnd implicit' => implicit' = true → implicit = true
  | .alias name, .alias name' => name' = name
  | .scalar anchor _ value plainImplicit quotedImplicit _, .scalar anchor' tag' value' plainImplicit' quotedImplicit' style' =>
    anchor' = anchor ∧ value' = value ∧
      match writtenTag canonical e with
      | some t => tag' = some t ∧ quotedImplicit' = false ∧ (plainImplicit' = true → t = ['!'])
      | none =>
        -- untagged; the implicit flag for its style is the one that was given
        (style' = .plain ∧ plainImplicit = true ∧ tag' = none ∧ plainImplicit' = true ∧ quotedImplicit' = false) ∨
        (style' ≠ .plain ∧ quotedImplicit = true ∧ tag' = none ∧ plainImplicit' = false ∧ quotedImplicit' = true) ∨
        -- quoted, although only plain scalars may leave out the tag: the tag `!`
        (style' ≠ .plain ∧ plainImplicit = true ∧ quotedImplicit = false ∧ tag' = some ['!'] ∧ plainImplicit' = true ∧ quotedImplicit' = false)
  | .sequenceStart anchor _ _ _, .sequenceStart anchor' tag' implicit' _ =>
    anchor' = anchor ∧ tag' = writtenTag canonical e ∧ implicit' = tag'.isNone
  | .sequenceEnd, .sequenceEnd => True
  | .mappingStart anchor _ _ _, .mappingStart anchor' tag' implicit' _ =>
    anchor' = anchor ∧ tag' = writtenTag canonical e ∧ implicit' = tag'.isNone
  | .mappingEnd, .mappingEnd => True
  | _, _ => False

/-- The events read say the same as the events emitted, one by one. -/
def SameEvents (canonical : Bool) : List EventData → List EventData → Prop
  | [], [] => True
  | e :: es, e' :: es' => SameEvent canonical e e' ∧ SameEvents canonical es es'
  | _, _ => False

/-! ### What can be read back -/

/-- The `%TAG` directives in force in a document that declares `D`: these, and the defaults for `!` and `!!`. -/
def allDirectives (D : List TagDirective) : List TagDirective :=
  D ++ defaultTagDirectives.filter fun d => !D.any fun x => x.handle == d.handle

/-- A tag that can be read back in a document that declares `D`: ASCII, and no `,`, `[` or `]` behind the
prefix of a directive in force. -/
def TagReadable (D : List TagDirective) (t : Str) : Prop :=
  (∀ c ∈ t, c.toNat < 128) ∧ ∀ d ∈ allDirectives D, ∀ sfx, t = d.prefix_ ++ sfx → ∀ c ∈ sfx, c ∉ (cs! ",[]")

/-- A string that can be read back in folded style: no line starts with a space, and every line after the
first that is not empty has at least two characters, the second of which is not a space. -/
def FoldReadable (v : Str) : Prop :=
  v.head? ≠ some ' ' ∧ ∀ p b x r, v = p ++ b :: x :: r → isLineBreak b = true → isLineBreak x = false →
    x ≠ ' ' ∧ ∃ y r', r = y :: r' ∧ y ≠ ' ' ∧ isLineBreak y = false

/-- The events can be read back; `D` are the directives declared by the document they are in. -/
def Readable (canonical : Bool) : List TagDirective → List EventData → Prop
  | _, [] => True
  | D, e :: es =>
    (∀ v tags i, e = .documentStart v tags i → ∀ d ∈ tags, ∀ c ∈ d.prefix_, c.toNat < 128) ∧
    (∀ t, writtenTag canonical e = some t → TagReadable D t) ∧
    (∀ anchor tag v p q, e = .scalar anchor tag v p q .folded → FoldReadable v) ∧
    Readable canonical (match e with | .documentStart _ tags _ => tags | _ => D) es

/-- The first document would be lost: it starts without `---` and its root is a plain empty scalar without
properties, for which nothing is written. -/
def FirstLost (canonical : Bool) (evs : List EventData) : Prop :=
  canonical = false ∧ ∃ enc tag q style rest, (style = .plain ∨ style = .any) ∧
    evs = .streamStart enc :: .documentStart none [] true :: .scalar none tag [] true q style :: rest

end Yaml.Spec
