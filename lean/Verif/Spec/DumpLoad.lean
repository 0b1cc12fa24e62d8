import Verif.Spec.Dump
import Verif.Spec.RoundTrip

/-
When a loaded document is a copy of the document that was dumped.
-/

namespace Yaml.Spec

/-- Two lists of the same length whose elements are related one by one. -/
inductive All2 {α β : Type} (R : α → β → Prop) : List α → List β → Prop
  | nil : All2 R [] []
  | cons {a : α} {b : β} {as : List α} {bs : List β} (h : R a b) (hs : All2 R as bs) : All2 R (a :: as) (b :: bs)

/-- The tag that a node of this kind has if none is given. -/
def defaultTag : NodeData → Str
  | .scalar _ _ => (cs! "tag:yaml.org,2002:str")
  | .sequence _ _ => (cs! "tag:yaml.org,2002:seq")
  | .mapping _ _ => (cs! "tag:yaml.org,2002:map")
  | .noNode => []

/-- `n'` is a copy of `n`, with references renumbered by `ρ`: the same kind, content and tag (where the tag `!` is the same as
no tag), any style. -/
def CopyNode (ρ : Nat → Nat) (n n' : Node) : Prop :=
  n'.tag = tagOr n.tag (defaultTag n.data) ∧
    match n.data, n'.data with
    | .scalar v _, .scalar v' _ => v' = v
    | .sequence items _, .sequence items' _ => items' = items.map ρ
    | .mapping pairs _, .mapping pairs' _ => pairs' = pairs.map fun p => (ρ p.1, ρ p.2)
    | _, _ => False

/-- The nodes of `d'` are copies of the nodes `ids` of `d`, in this order; the directives are the same. -/
def CopyBy (ids : List Nat) (d d' : Document) : Prop :=
  All2 (fun j n' => ∃ n, d.nodes[j - 1]? = some n ∧ CopyNode (place ids) n n') ids d'.nodes ∧
    d'.versionDirective = d.versionDirective ∧ d'.tagDirectives = d.tagDirectives ∧
    (d'.startImplicit = true → d.startImplicit = true) ∧ (d'.endImplicit = true → d.endImplicit = true)

/-- `d'` is a copy of `d`: `ids` are the nodes of `d` that can be reached from the root, the root first, each once; the nodes
of `d'` are copies of them in this order; the directives are the same. -/
def Copy (d d' : Document) : Prop :=
  ∃ ids : List Nat, ids.Nodup ∧ (∀ j, j ∈ ids ↔ Reach d.nodes 1 j) ∧ ids.head? = some 1 ∧ CopyBy ids d d'

/-- The same node, in any style and at any place. -/
def SameNode (n n' : Node) : Prop :=
  n'.tag = n.tag ∧
    match n.data, n'.data with
    | .scalar v _, .scalar v' _ => v' = v
    | .sequence items _, .sequence items' _ => items' = items
    | .mapping pairs _, .mapping pairs' _ => pairs' = pairs
    | _, _ => False

/-- The same document but for styles and places: the same nodes under the same numbers, the same directives. -/
def SameDocument (d d' : Document) : Prop :=
  All2 SameNode d.nodes d'.nodes ∧ d'.versionDirective = d.versionDirective ∧ d'.tagDirectives = d.tagDirectives ∧
    (d'.startImplicit = true → d.startImplicit = true) ∧ (d'.endImplicit = true → d.endImplicit = true)

/-- The document can be read back: the prefixes of its directives are ASCII, its tags, where they are written, can be read back, and
so can its folded scalars. -/
structure ReadableDoc (canonical : Bool) (d : Document) : Prop where
  prefixes : ∀ t ∈ d.tagDirectives, ∀ c ∈ t.prefix_, c.toNat < 128
  tags : ∀ n ∈ d.nodes, ∀ t, n.tag = some t → canonical = true ∨ t ≠ defaultTag n.data → TagReadable d.tagDirectives t
  folded : ∀ n ∈ d.nodes, ∀ v, n.data = .scalar v .folded → FoldReadable v

/-- Nothing but a line break would be written for the document: it starts without `---`, and its root is a plain empty scalar with the default tag. -/
def LostDoc (canonical : Bool) (d : Document) : Prop :=
  canonical = false ∧ d.versionDirective = none ∧ d.tagDirectives = [] ∧ d.startImplicit = true ∧
    ∃ n style, d.nodes.head? = some n ∧ n.data = .scalar [] style ∧ (style = .plain ∨ style = .any) ∧ n.tag = some (cs! "tag:yaml.org,2002:str")

end Yaml.Spec
