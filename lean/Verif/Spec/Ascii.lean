import Verif.Emitter

/-
Events whose scalars are ASCII (for C68).
-/

namespace Yaml.Spec

/-- If the event is a scalar, its value is ASCII. -/
def AsciiEvent (ev : Event) : Prop :=
  ∀ anchor tag value plain quoted style, ev.data = .scalar anchor tag value plain quoted style → ∀ c ∈ value, c.toNat < 128

end Yaml.Spec
