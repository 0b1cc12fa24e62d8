import Verif.Spec.Documents
import Verif.Spec.Content

/-
The document that the events of one document denote, independent of the loader: the events form a
tree; its nodes other than aliases are numbered from 1 in document order; an alias stands for the
node that carries its anchor.
-/

namespace Yaml.Spec

/-- A node: an alias or a scalar, or a collection with its start event, its children (keys and values
alternate in a mapping) and its end event. -/
inductive Tree where
  | leaf (event : Event)
  | coll (start : Event) (children : List Tree) (stop : Event)

mutual
/-- The events of a node. -/
def Tree.events : Tree → List Event
  | .leaf e => [e]
  | .coll s cs t => s :: (eventsAll cs ++ [t])
/-- The events of several nodes. -/
def eventsAll : List Tree → List Event
  | [] => []
  | t :: ts => t.events ++ eventsAll ts
end

/-- The events at the ends of a collection fit, and a mapping has as many keys as values. -/
def Ends (s t : EventData) (n : Nat) : Prop :=
  (∃ a g i y, s = .sequenceStart a g i y ∧ t = .sequenceEnd) ∨ (∃ a g i y, s = .mappingStart a g i y ∧ t = .mappingEnd ∧ n % 2 = 0)

mutual
/-- The events are where they belong. -/
def Tree.Good : Tree → Prop
  | .leaf e => (∃ a, e.data = .alias a) ∨ ∃ a g v i j y, e.data = .scalar a g v i j y
  | .coll s cs t => Ends s.data t.data cs.length ∧ GoodAll cs
def GoodAll : List Tree → Prop
  | [] => True
  | t :: ts => t.Good ∧ GoodAll ts
end

/-- The tag of a loaded node: the default if there is none or it is `!`. -/
def tagOr (tag : Option Str) (default : Str) : Option Str :=
  if tag = none ∨ tag = some ['!'] then some default else tag

/-- Anchors seen so far, with the number of their node. -/
abbrev Names := List (Str × Nat)

/-- The node named `a`. -/
def Names.find (names : Names) (a : Str) : Option Nat := (names.find? (fun x => x.1 = a)).map (·.2)

/-- Name node `n`; a name can be given only once. -/
def Names.define (names : Names) (anchor : Option Str) (n : Nat) : Option Names :=
  match anchor with
  | none => some names
  | some a => if names.any (fun x => x.1 = a) then none else some (names ++ [(a, n)])

/-- Keys and values. -/
def pairUp : List Nat → List (Nat × Nat)
  | k :: v :: r => (k, v) :: pairUp r
  | _ => []

mutual
/-- Compose a node after `n` nodes and the anchors `names`: which node it is, the new nodes in
document order (its own first) and the anchors afterwards.  `none`: an alias without anchor, or an
anchor used twice. -/
def Tree.compose (names : Names) (n : Nat) : Tree → Option (Nat × List Node × Names)
  | .leaf e =>
    match e.data with
    | .alias a => (names.find a).map fun i => (i, [], names)
    | .scalar anchor tag value _ _ style =>
      (names.define anchor (n + 1)).map fun names =>
        (n + 1, [⟨.scalar value style, tagOr tag (cs! "tag:yaml.org,2002:str"), e.startMark, e.endMark⟩], names)
    | _ => none
  | .coll s cs t =>
    match s.data with
    | .sequenceStart anchor tag _ style =>
      (names.define anchor (n + 1)).bind fun names =>
      (composeAll names (n + 1) cs).map fun q =>
        (n + 1, ⟨.sequence q.1 style, tagOr tag (cs! "tag:yaml.org,2002:seq"), s.startMark, t.endMark⟩ :: q.2.1, q.2.2)
    | .mappingStart anchor tag _ style =>
      (names.define anchor (n + 1)).bind fun names =>
      (composeAll names (n + 1) cs).map fun q =>
        (n + 1, ⟨.mapping (pairUp q.1) style, tagOr tag (cs! "tag:yaml.org,2002:map"), s.startMark, t.endMark⟩ :: q.2.1, q.2.2)
    | _ => none
/-- Compose nodes one after the other: which nodes they are, the new nodes, the anchors. -/
def composeAll (names : Names) (n : Nat) : List Tree → Option (List Nat × List Node × Names)
  | [] => some ([], [], names)
  | t :: ts =>
    (t.compose names n).bind fun q =>
    (composeAll q.2.2 (n + q.2.1.length) ts).map fun r => (q.1 :: r.1, q.2.1 ++ r.2.1, r.2.2)
end

/-- `d` is the document with the events `evs`. -/
def DocumentOf (evs : List Event) (d : Document) : Prop :=
  ∃ (first last : Event) (root : Tree) (version : Option VersionDirective) (tags : List TagDirective) (i j : Bool) (names : Names),
    evs = first :: (root.events ++ [last]) ∧ root.Good ∧
    first.data = .documentStart version tags i ∧ last.data = .documentEnd j ∧
    root.compose [] 0 = some (1, d.nodes, names) ∧
    d.versionDirective = version ∧ d.tagDirectives = tags ∧ d.startImplicit = i ∧ d.endImplicit = j ∧
    d.startMark = first.startMark ∧ d.endMark = last.endMark

/-- The documents `ds` with the events `evs`, one after the other. -/
inductive DocumentsOf : List Event → List Document → Prop
  | nil : DocumentsOf [] []
  | snoc {evs devs : List Event} {ds : List Document} {d : Document} (h : DocumentsOf evs ds) (hd : DocumentOf devs d) : DocumentsOf (evs ++ devs) (ds ++ [d])

/-- `e` is the error for the node event `ev` after the node events `devs` of the same document: an alias
without an anchor before it, or an anchor that was used before. -/
inductive AnchorError (devs : List Event) (ev : Event) : Err → Prop
  | undefined {a : Str} (ha : ev.data = .alias a) (hn : ∀ e ∈ devs, anchorOf e ≠ some a) :
      AnchorError devs ev (.composer "" Mark.zero "found undefined alias" ev.startMark)
  | duplicate {a : Str} {first : Event} (ha : anchorOf ev = some a) (hm : first ∈ devs) (hf : anchorOf first = some a) :
      AnchorError devs ev (.composer "found duplicate anchor; first occurrence" first.startMark "second occurrence" ev.startMark)

/-- Every alias has its anchor before it and no anchor is used twice. -/
def AnchorsOk (devs : List Event) : Prop := ∀ p ev s, devs = p ++ ev :: s → ∀ e, ¬ AnchorError p ev e

/-- The document without nodes. -/
def emptyDocument : Document := ⟨[], none, [], false, false, Mark.zero, Mark.zero⟩

/-- The stream was ended. -/
def AtEnd (evs : List Event) : Prop := ∃ e ∈ evs, isStreamEndEvent e = true

/-- What a history of successful calls of `load` read and returned: the start of the stream, the events of
the documents, and the end of the stream if (and only if) the last calls returned the empty document. -/
def LoadHistory (evs : List Event) (ds : List Document) : Prop :=
  ∃ s body tail ds1 n, evs = s ++ body ++ tail ∧ DocumentsOf body ds1 ∧ ds = ds1 ++ List.replicate n emptyDocument ∧
    ((n = 0 ∧ tail = []) ∨ (n ≠ 0 ∧ ∃ e, tail = [e] ∧ isStreamEndEvent e = true)) ∧ ((ds = [] ∧ s = []) ∨ (ds ≠ [] ∧ ∃ e, s.map (·.data) = [.streamStart e])) ∧
    (AtEnd evs ↔ n ≠ 0)

end Yaml.Spec
