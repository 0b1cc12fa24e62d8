import Verif.Spec.Scalars

/-
What the text of a plain scalar denotes (YAML 1.1, section 9.1.3; no tabs at the start of continuation
lines), independent of the scanner model.
-/

namespace Yaml.Spec

/-- `Gap t v t'`: `t` starts with spaces and line breaks, then comes `t'`; the breaks denote `v`. -/
inductive Gap : Str → Str → Str → Prop
  | stop (t : Str) (h : Solid t) : Gap t [] t
  | space {t v t' : Str} (h : Gap t v t') : Gap (' ' :: t) v t'
  | brk {t t1 v t' : Str} {c : Char} (hb : BreakAt t c t1) (h : Gap t1 v t') : Gap t (c :: v) t'

/-- Flow indicators. -/
def isFlowIndicator (c : Char) : Prop := c = ',' ∨ c = '[' ∨ c = ']' ∨ c = '{' ∨ c = '}'

/-- A plain scalar ends here: at the end of the text, at `:` followed by white space or the end, in flow
context at a flow indicator. -/
def PlainStop (flow : Bool) (t : Str) : Prop :=
  t = [] ∨ (∃ r, t = ':' :: r ∧ ∀ c r', r = c :: r' → IsBlank c ∨ isLineBreak c = true) ∨
    (flow = true ∧ ∃ c r, t = c :: r ∧ isFlowIndicator c)

/-- The first character of `c :: t` can be part of a plain scalar. -/
structure PlainChar (flow : Bool) (c : Char) (t : Str) : Prop where
  solid : ¬ IsBlank c ∧ isLineBreak c = false
  go : ¬ PlainStop flow (c :: t)
  colon : flow = true → c = ':' → ∀ d r, t = d :: r → ¬ isFlowIndicator d ∧ d ≠ '?'

/-- `PlainBody flow n t v t'`: after the first character of a plain scalar, `t` up to `t'` denotes `v`;
continuation lines are indented by at least `n` (in block context). -/
inductive PlainBody (flow : Bool) (n : Int) : Str → Str → Str → Prop
  | done (t : Str) : PlainBody flow n t [] t
  | char {c : Char} {t v t' : Str} (hc : PlainChar flow c t) (h : PlainBody flow n t v t') : PlainBody flow n (c :: t) (c :: v) t'
  | blanks {b : Str} {c : Char} {t v t' : Str} (hne : b ≠ []) (hb : ∀ x ∈ b, IsBlank x) (hc : PlainChar flow c t) (hx : c ≠ '#')
      (h : PlainBody flow n t v t') : PlainBody flow n (b ++ c :: t) (b ++ c :: v) t'
  | fold {b t0 bs t v t' : Str} {c : Char} (hb : ∀ x ∈ b, IsBlank x) (hf : Gap t0 bs (c :: t)) (hn : bs ≠ [])
      (hi : ∃ p x k, t0 = p ++ x :: (List.replicate k ' ' ++ c :: t) ∧ isLineBreak x = true ∧ (flow = false → n ≤ k) ∧
        (k = 0 → ¬ IsDocMarker (c :: t)))
      (hc : PlainChar flow c t) (hx : c ≠ '#') (h : PlainBody flow n t v t') :
      PlainBody flow n (b ++ t0) (Spec.fold bs ++ c :: v) t'

/-- `PlainEnd flow n t brk t'`: a plain scalar ends before `t`; white space up to `t'` separates it from
what follows, with a line break in it iff `brk`. -/
inductive PlainEnd (flow : Bool) (n : Int) : Str → Bool → Str → Prop
  | here {t : Str} (h : PlainStop flow t) : PlainEnd flow n t false t
  | gap {b t bs t' : Str} (hb : ∀ x ∈ b, IsBlank x) (hg : Gap t bs t') (hne : b ++ t ≠ t')
      (h : PlainStop flow t' ∨ t'.head? = some '#' ∨
        (bs ≠ [] ∧ flow = false ∧ ∃ p c k, t = p ++ c :: (List.replicate k ' ' ++ t') ∧ isLineBreak c = true ∧ (k : Int) < n) ∨
        (bs ≠ [] ∧ IsDocMarker t' ∧ ∃ p c, t = p ++ c :: t' ∧ isLineBreak c = true)) :
      PlainEnd flow n (b ++ t) (bs ≠ []) t'

/-- `PlainScalar flow n t v brk rest`: `t` starts with a plain scalar that denotes `v` and the white space after
it; then comes `rest`. -/
def PlainScalar (flow : Bool) (n : Int) (t v : Str) (brk : Bool) (rest : Str) : Prop :=
  ∃ c t1 v1 t', t = c :: t1 ∧ v = c :: v1 ∧ PlainChar flow c t1 ∧ c ≠ '#' ∧ PlainBody flow n t1 v1 t' ∧ PlainEnd flow n t' brk rest

end Yaml.Spec
