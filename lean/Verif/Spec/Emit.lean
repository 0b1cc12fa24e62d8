import Verif.Chars

/-
Which events an emitter has to accept, apart from their order.
-/

namespace Yaml.Spec

/-- ASCII letters, digits, `_` and `-`. -/
def NameChar (c : Char) : Prop := c.isAlphanum = true ∨ c = '_' ∨ c = '-'

/-- An anchor or alias name. -/
def NameOk (n : Str) : Prop := n ≠ [] ∧ ∀ c ∈ n, NameChar c

/-- A tag handle: `!`, or `!` name `!` (the name may be empty). -/
def HandleOk (h : Str) : Prop := h = ['!'] ∨ ∃ n : Str, h = '!' :: n ++ ['!'] ∧ ∀ c ∈ n, NameChar c

/-- A `%TAG` directive. -/
def DirectiveOk (t : TagDirective) : Prop := HandleOk t.handle ∧ t.prefix_ ≠ []

/-- The contents of an event are valid (`canonical`: the emitter's canonical mode, in which tags are
always written). -/
def EventOk (canonical : Bool) : EventData → Prop
  | .documentStart version tags _ =>
    (∀ v, version = some v → v.major = 1 ∧ (v.minor = 1 ∨ v.minor = 2)) ∧ (∀ t ∈ tags, DirectiveOk t)
      ∧ (tags.map (·.handle)).Nodup
  | .alias name => NameOk name
  | .scalar anchor tag _ plainImplicit quotedImplicit _ =>
    (∀ a, anchor = some a → NameOk a)
      ∧ (tag = none → plainImplicit = true ∨ quotedImplicit = true)
      ∧ (∀ t, tag = some t → (canonical = true ∨ (plainImplicit = false ∧ quotedImplicit = false)) → t ≠ [])
  | .sequenceStart anchor tag implicit _ | .mappingStart anchor tag implicit _ =>
    (∀ a, anchor = some a → NameOk a) ∧ (∀ t, tag = some t → (canonical = true ∨ implicit = false) → t ≠ [])
  | _ => True

/-- The tag of an event, if it has one. -/
def eventTag : EventData → Option Str
  | .scalar _ tag _ _ _ _ | .sequenceStart _ tag _ _ | .mappingStart _ tag _ _ => tag
  | _ => none

/-- Cutting `t` after as many bytes as `p` has does not split a character of `t`. -/
def CutOk (p t : Str) : Prop := strLen p < strLen t → ∃ a b, t = a ++ b ∧ strLen a = strLen p

/-- The `%TAG` directives an event declares. -/
def declared : EventData → List TagDirective
  | .documentStart _ tags _ => tags
  | _ => []

/-- The prefixes of these directives do not cut the tag of the event inside a character. -/
def TagFits (ds : List TagDirective) (e : EventData) : Prop := ∀ t, eventTag e = some t → ∀ d ∈ ds, CutOk d.prefix_ t

/-- No tag of the events is cut inside a character by a prefix declared in the events or a default
prefix (`!` and `tag:yaml.org,2002:`). -/
def TagsFit (evs : List EventData) : Prop := ∀ e ∈ evs, TagFits (defaultTagDirectives ++ evs.flatMap declared) e

/-- The tag of the event, if any, consists of ASCII characters. -/
def AsciiTag (e : EventData) : Prop := ∀ t, eventTag e = some t → ∀ c ∈ t, c.toNat < 128

end Yaml.Spec
