import Verif.Spec.Compose
import Verif.Spec.Emit

/-
The events of a document, independent of the dumper: its nodes form a graph (from node 1); the first time a node
is met it is written in full, with its name if it has one, and every later time as an alias to its
name.
-/

namespace Yaml.Spec

/-- An event without position. -/
def ev (d : EventData) : Event := ⟨d, Mark.zero, Mark.zero⟩

mutual
/-- `Unfolds nodes name seen i t seen'`: if the nodes `seen` have been written (in this order), then node `i` is written
as `t`, and afterwards the nodes `seen'` have been written. -/
inductive Unfolds (nodes : List Node) (name : Nat → Option Str) : List Nat → Nat → Tree → List Nat → Prop
  | alias {seen : List Nat} {i : Nat} {a : Str} (hi : i ∈ seen) (hn : name i = some a) : Unfolds nodes name seen i (.leaf (ev (.alias a))) seen
  | scalar {seen : List Nat} {i : Nat} {tag : Option Str} {m m' : Mark} {v : Str} {st : ScalarStyle} (hi : i ∉ seen) (h0 : 0 < i)
      (hd : nodes[i - 1]? = some ⟨.scalar v st, tag, m, m'⟩) :
      Unfolds nodes name seen i (.leaf (ev (.scalar (name i) tag v (tag = some (cs! "tag:yaml.org,2002:str")) (tag = some (cs! "tag:yaml.org,2002:str")) st))) (seen ++ [i])
  | sequence {seen seen' : List Nat} {i : Nat} {tag : Option Str} {m m' : Mark} {items : List Nat} {st : CollStyle} {ts : List Tree} (hi : i ∉ seen) (h0 : 0 < i)
      (hd : nodes[i - 1]? = some ⟨.sequence items st, tag, m, m'⟩) (h : UnfoldsAll nodes name (seen ++ [i]) items ts seen') :
      Unfolds nodes name seen i (.coll (ev (.sequenceStart (name i) tag (tag = some (cs! "tag:yaml.org,2002:seq")) st)) ts (ev .sequenceEnd)) seen'
  | mapping {seen seen' : List Nat} {i : Nat} {tag : Option Str} {m m' : Mark} {pairs : List (Nat × Nat)} {st : CollStyle} {ts : List Tree} (hi : i ∉ seen) (h0 : 0 < i)
      (hd : nodes[i - 1]? = some ⟨.mapping pairs st, tag, m, m'⟩) (h : UnfoldsAll nodes name (seen ++ [i]) (pairs.flatMap fun p => [p.1, p.2]) ts seen') :
      Unfolds nodes name seen i (.coll (ev (.mappingStart (name i) tag (tag = some (cs! "tag:yaml.org,2002:map")) st)) ts (ev .mappingEnd)) seen'
/-- The same for nodes one after the other. -/
inductive UnfoldsAll (nodes : List Node) (name : Nat → Option Str) : List Nat → List Nat → List Tree → List Nat → Prop
  | nil {seen : List Nat} : UnfoldsAll nodes name seen [] [] seen
  | cons {seen seen' seen'' : List Nat} {i : Nat} {is : List Nat} {t : Tree} {ts : List Tree} (h : Unfolds nodes name seen i t seen')
      (hs : UnfoldsAll nodes name seen' is ts seen'') : UnfoldsAll nodes name seen (i :: is) (t :: ts) seen''
end

/-- Node `j` can be reached from node `i`. -/
inductive Reach (nodes : List Node) : Nat → Nat → Prop
  | refl (i : Nat) : Reach nodes i i
  | step {i j k : Nat} {n : Node} (h : Reach nodes i j) (hn : nodes[j - 1]? = some n) (hk : k ∈ refs n.data) : Reach nodes i k

/-- The nodes that are referred to twice at the top: among the root and its children. -/
def SharedAtTop (nodes : List Node) (i : Nat) : Prop :=
  ∃ root, nodes[0]? = some root ∧ 2 ≤ (1 :: refs root.data).count i

/-- The nodes that are referred to twice at all, counting one reference to the root. -/
def Shared (nodes : List Node) (i : Nat) : Prop := 2 ≤ (1 :: nodes.flatMap fun n => refs n.data).count i

/-- The names of the nodes: those referred to twice at the top have one, and all are different. -/
structure Named (nodes : List Node) (name : Nat → Option Str) : Prop where
  some_iff : ∀ i, (name i).isSome = true ↔ 1 ≤ i ∧ i ≤ nodes.length ∧ SharedAtTop nodes i
  inj : ∀ i j a, name i = some a → name j = some a → i = j
  ok : ∀ i a, name i = some a → NameOk a

/-- The events of a document whose root is written as `t`. -/
def docEvents (d : Document) (t : Tree) : List Event :=
  ev (.documentStart d.versionDirective d.tagDirectives d.startImplicit) :: (t.events ++ [ev (.documentEnd d.endImplicit)])

/-- The position of a node among the nodes written (counting from 1). -/
def place (final : List Nat) (j : Nat) : Nat := final.idxOf j + 1

/-- A node with its references renumbered and its tag as a loader completes it. -/
def renumber (ρ : Nat → Nat) (n : Node) : Node :=
  match n.data with
  | .scalar v st => ⟨.scalar v st, tagOr n.tag (cs! "tag:yaml.org,2002:str"), Mark.zero, Mark.zero⟩
  | .sequence items st => ⟨.sequence (items.map ρ) st, tagOr n.tag (cs! "tag:yaml.org,2002:seq"), Mark.zero, Mark.zero⟩
  | .mapping pairs st => ⟨.mapping (pairs.map fun p => (ρ p.1, ρ p.2)) st, tagOr n.tag (cs! "tag:yaml.org,2002:map"), Mark.zero, Mark.zero⟩
  | .noNode => n

/-- The nodes with these numbers, renumbered. -/
def renumbered (nodes : List Node) (ρ : Nat → Nat) (l : List Nat) : List Node := l.filterMap fun j => nodes[j - 1]?.map (renumber ρ)

/-- The document can be dumped: it has a root, every reference is to an existing node, every node is a scalar, a sequence or a
mapping with a tag, its directives are valid, and only children of the root (and the root itself) are referred to more than once. -/
structure Dumpable (d : Document) : Prop where
  root : d.nodes ≠ []
  wf : WellFormed d.nodes
  nodes : ∀ n ∈ d.nodes, n.data ≠ .noNode
  tagged : ∀ n ∈ d.nodes, ∃ t, n.tag = some t ∧ t ≠ []
  shared : ∀ i, Shared d.nodes i → SharedAtTop d.nodes i
  directives : ∀ c, EventOk c (.documentStart d.versionDirective d.tagDirectives d.startImplicit)

/-- `es` are the events of the document `d`: its nodes in the order of the graph, each once in full. -/
def DumpOf (d : Document) (es : List Event) : Prop :=
  ∃ name t seen, Named d.nodes name ∧ Unfolds d.nodes name [] 1 t seen ∧ es = docEvents d t

/-- `es` are the events of the documents, one after the other. -/
inductive DumpsOf : List Document → List Event → Prop
  | nil : DumpsOf [] []
  | cons {d : Document} {ds : List Document} {es es' : List Event} (h : DumpOf d es) (hs : DumpsOf ds es') : DumpsOf (d :: ds) (es ++ es')

/-- All tags of the document consist of ASCII characters. -/
def AsciiTags (d : Document) : Prop := ∀ n ∈ d.nodes, ∀ t, n.tag = some t → ∀ c ∈ t, c.toNat < 128

end Yaml.Spec
