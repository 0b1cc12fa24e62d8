import Verif.Document

/-
Specification of documents: which node tables are well formed.  Independent of the functions
that build or load them.
-/

namespace Yaml.Spec

/-- The node ids a node refers to. -/
def refs : NodeData → List Nat
  | .noNode => []
  | .scalar _ _ => []
  | .sequence items _ => items
  | .mapping pairs _ => pairs.flatMap fun p => [p.1, p.2]

/-- Every reference is the id (counting from 1) of an existing node. -/
def WellFormed (nodes : List Node) : Prop :=
  ∀ n ∈ nodes, ∀ r ∈ refs n.data, 1 ≤ r ∧ r ≤ nodes.length

/-- `id` is the id of the node `n` of `d`. -/
def HasNode (d : Document) (id : Int) (n : Node) : Prop :=
  ∃ i : Nat, id = (i : Int) + 1 ∧ d.nodes[i]? = some n

end Yaml.Spec
