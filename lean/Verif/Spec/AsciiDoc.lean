import Verif.Document

/-
Documents whose scalars are ASCII (for C68).
-/

namespace Yaml.Spec

/-- The values of the scalar nodes are ASCII. -/
def AsciiDocument (d : Document) : Prop :=
  ∀ n ∈ d.nodes, ∀ value style, n.data = .scalar value style → ∀ c ∈ value, c.toNat < 128

end Yaml.Spec
