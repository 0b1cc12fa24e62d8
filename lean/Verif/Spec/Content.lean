import Verif.Spec.Events

/-
What the events of the parser say about the tokens they were made from, independent of the parser
model: tags, anchors, aliases, scalar values and directives.
-/

namespace Yaml.Spec

/-- The tag shorthands (handle and suffix; the handle of a verbatim tag is empty) among tokens. -/
def tagsIn (c : List Token) : List (Str × Str) :=
  c.filterMap fun t => match t.data with | .tag handle suffix => some (handle, suffix) | _ => none
/-- The anchors among tokens. -/
def anchorsIn (c : List Token) : List Str :=
  c.filterMap fun t => match t.data with | .anchor a => some a | _ => none
/-- The aliases among tokens. -/
def aliasesIn (c : List Token) : List Str :=
  c.filterMap fun t => match t.data with | .alias a => some a | _ => none
/-- The scalars among tokens. -/
def scalarsIn (c : List Token) : List (Str × ScalarStyle) :=
  c.filterMap fun t => match t.data with | .scalar v s => some (v, s) | _ => none
/-- The `%TAG` directives among tokens. -/
def tagDirectivesIn (c : List Token) : List TagDirective :=
  c.filterMap fun t => match t.data with | .tagDirective h p => some ⟨h, p⟩ | _ => none
/-- The `%YAML` directives among tokens. -/
def versionsIn (c : List Token) : List VersionDirective :=
  c.filterMap fun t => match t.data with | .versionDirective a b => some ⟨a, b⟩ | _ => none

/-- The prefix of a tag handle in a document with the `%TAG` directives `D`. -/
def prefixOf (D : List TagDirective) (handle : Str) : Option Str :=
  let all : List TagDirective := D ++ [⟨cs! "!", cs! "!"⟩, ⟨cs! "!!", cs! "tag:yaml.org,2002:"⟩]
  (all.find? (fun d => d.handle = handle)).map (·.prefix_)

/-- The tag of a node with the given tag properties: none, the verbatim tag, or prefix and
suffix. -/
def TagIs (D : List TagDirective) : List (Str × Str) → Option Str → Prop
  | [], tag => tag = none
  | [(handle, suffix)], tag =>
    if handle = [] then tag = some suffix else ∃ pre, prefixOf D handle = some pre ∧ tag = some (pre ++ suffix)
  | _, _ => False

/-- No content at all. -/
def Plain (c : List Token) : Prop :=
  aliasesIn c = [] ∧ anchorsIn c = [] ∧ tagsIn c = [] ∧ tagDirectivesIn c = [] ∧ versionsIn c = [] ∧ scalarsIn c = []

/-- The event says exactly what is in the tokens `c`, in a document with the `%TAG` directives `D`. -/
def Carries (D : List TagDirective) (c : List Token) : EventData → Prop
  | .scalar anchor tag value plainImplicit quotedImplicit style =>
    anchorsIn c = anchor.toList ∧ TagIs D (tagsIn c) tag ∧ aliasesIn c = [] ∧ tagDirectivesIn c = [] ∧ versionsIn c = [] ∧
    ((scalarsIn c = [(value, style)] ∧ (plainImplicit = true ↔ style = .plain ∧ tag = none ∨ tag = some ['!']) ∧
        (quotedImplicit = true ↔ style ≠ .plain ∧ tag = none)) ∨
      (scalarsIn c = [] ∧ value = [] ∧ style = .plain ∧ (plainImplicit = true ↔ tag = none ∨ tag = some []) ∧ quotedImplicit = false))
  | .sequenceStart anchor tag implicit _ =>
    anchorsIn c = anchor.toList ∧ TagIs D (tagsIn c) tag ∧ aliasesIn c = [] ∧ tagDirectivesIn c = [] ∧ versionsIn c = [] ∧ scalarsIn c = [] ∧
    (implicit = true ↔ tag = none ∨ tag = some [])
  | .mappingStart anchor tag implicit _ =>
    anchorsIn c = anchor.toList ∧ TagIs D (tagsIn c) tag ∧ aliasesIn c = [] ∧ tagDirectivesIn c = [] ∧ versionsIn c = [] ∧ scalarsIn c = [] ∧
    (implicit = true ↔ tag = none ∨ tag = some [])
  | .alias anchor =>
    aliasesIn c = [anchor] ∧ anchorsIn c = [] ∧ tagsIn c = [] ∧ tagDirectivesIn c = [] ∧ versionsIn c = [] ∧ scalarsIn c = []
  | .documentStart version tags implicit =>
    versionsIn c = version.toList ∧ tagDirectivesIn c = tags ∧ (tags.map (·.handle)).Nodup ∧
    (∀ v, version = some v → v.major = 1 ∧ (v.minor = 1 ∨ v.minor = 2)) ∧
    aliasesIn c = [] ∧ anchorsIn c = [] ∧ tagsIn c = [] ∧ scalarsIn c = [] ∧
    (implicit = false ↔ ∃ t ∈ c, t.data = .documentStart)
  | .documentEnd implicit => Plain c ∧ (implicit = false ↔ ∃ t ∈ c, t.data = .documentEnd)
  | .streamStart e => Plain c ∧ ∃ t, c = [t] ∧ t.data = .streamStart e
  | .streamEnd => Plain c ∧ ∃ c0 t, c = c0 ++ [t] ∧ t.data = .streamEnd
  | .sequenceEnd => Plain c
  | .mappingEnd => Plain c

/-- The `%TAG` directives in force after an event, if `D` were before: those which the document
lists, none between documents. -/
def dirsAfter (D : List TagDirective) : EventData → List TagDirective
  | .documentStart _ tags _ => tags
  | .documentEnd _ => []
  | _ => D

/-- The `%TAG` directives in force after the events `evs`: those listed by the document the events
are in. -/
def inForce (evs : List Event) : List TagDirective := evs.foldl (fun D e => dirsAfter D e.data) []

/-- The events were made from consecutive shares of the tokens, each event saying exactly what is in
its share. -/
inductive Made : List Token → List Event → Prop
  | nil : Made [] []
  | snoc {ts c : List Token} {evs : List Event} {e : Event} (h : Made ts evs) (hc : Carries (inForce evs) c e.data) :
      Made (ts ++ c) (evs ++ [e])

/-- The anchor of a node event. -/
def anchorOf (e : Event) : Option Str :=
  match e.data with
  | .scalar anchor _ _ _ _ _ => anchor
  | .sequenceStart anchor _ _ _ => anchor
  | .mappingStart anchor _ _ _ => anchor
  | _ => none
/-- The tag of a node event. -/
def tagOf (e : Event) : Option Str :=
  match e.data with
  | .scalar _ tag _ _ _ _ => tag
  | .sequenceStart _ tag _ _ => tag
  | .mappingStart _ tag _ _ => tag
  | _ => none
/-- The name in an alias event. -/
def aliasOf (e : Event) : Option Str :=
  match e.data with
  | .alias anchor => some anchor
  | _ => none
/-- Value and style of a scalar event. -/
def scalarOf (e : Event) : Option (Str × ScalarStyle) :=
  match e.data with
  | .scalar _ _ value _ _ style => some (value, style)
  | _ => none
/-- `SequenceStart`, `MappingStart` or `Scalar`. -/
def isNodeEvent (e : Event) : Bool :=
  match e.data with
  | .scalar _ _ _ _ _ _ => true
  | .sequenceStart _ _ _ _ => true
  | .mappingStart _ _ _ _ => true
  | _ => false
/-- `StreamEnd`. -/
def isStreamEndEvent (e : Event) : Bool := e.data = .streamEnd

end Yaml.Spec
