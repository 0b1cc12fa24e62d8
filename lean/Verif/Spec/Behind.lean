import Verif.Spec.LineBreaks
import Verif.Spec.Directives
import Verif.Spec.DumpLoad

/-
Results that differ only in where in the text they come from: the second comes from a text that is the first without its
first `n` lines.  The index of marks is not compared.
-/

namespace Yaml.Spec

/-- The same position, `n` lines further down; or both the default position, which is given to what has no place in the
text. -/
def Lower (n : Nat) (m m' : Mark) : Prop := Below n m m' ∨ (m = Mark.zero ∧ m' = Mark.zero)

/-- The same token, `n` lines further down. -/
structure TokenLower (n : Nat) (t t' : Token) : Prop where
  data : t.data = t'.data
  start : Lower n t.startMark t'.startMark
  stop : Lower n t.endMark t'.endMark

/-- The same event, `n` lines further down. -/
structure EventLower (n : Nat) (e e' : Event) : Prop where
  data : e.data = e'.data
  start : Lower n e.startMark e'.startMark
  stop : Lower n e.endMark e'.endMark

/-- The same node, `n` lines further down. -/
structure NodeLower (n : Nat) (x x' : Node) : Prop where
  data : x.data = x'.data
  tag : x.tag = x'.tag
  start : Lower n x.startMark x'.startMark
  stop : Lower n x.endMark x'.endMark

/-- The same document, `n` lines further down. -/
structure DocumentLower (n : Nat) (d d' : Document) : Prop where
  nodes : All2 (NodeLower n) d.nodes d'.nodes
  version : d.versionDirective = d'.versionDirective
  tags : d.tagDirectives = d'.tagDirectives
  startImplicit : d.startImplicit = d'.startImplicit
  endImplicit : d.endImplicit = d'.endImplicit
  start : Lower n d.startMark d'.startMark
  stop : Lower n d.endMark d'.endMark

/-- The same error, `n` lines further down. -/
inductive ErrLower (n : Nat) : Err → Err → Prop
  | same (e : Err) (h : e.problemMark = none) : ErrLower n e e
  | scanner (c p : String) {a a' b b' : Mark} (h : Lower n a a') (h' : Lower n b b') : ErrLower n (.scanner c a p b) (.scanner c a' p b')
  | parser (c p : String) {a a' b b' : Mark} (h : Lower n a a') (h' : Lower n b b') : ErrLower n (.parser c a p b) (.parser c a' p b')
  | composer (c p : String) {a a' b b' : Mark} (h : Lower n a a') (h' : Lower n b b') : ErrLower n (.composer c a p b) (.composer c a' p b')

/-- The same result of a call, `n` lines further down. -/
inductive ResultLower {α : Type} (n : Nat) (R : α → α → Prop) : Out α → Out α → Prop
  | ok {a a' : α} (h : R a a') : ResultLower n R (.ok a) (.ok a')
  | err {e e' : Err} (h : ErrLower n e e') : ResultLower n R (.err e) (.err e')
  | panic (p : PanicSite) : ResultLower n R (.panic p) (.panic p)
  | fuel : ResultLower n R .fuel .fuel

/-- `Behind T m B`: in the text `T`, the rest of the line at the position `m` has nothing but blanks and perhaps a comment, and the lines
below it are `B`. -/
def Behind (T : Str) (m : Mark) (B : Str) : Prop :=
  ∃ A w t0 v, T = A ++ (w ++ t0) ∧ position A = m ∧ LineRest w ∧ BreakAt t0 v B

end Yaml.Spec
