import Verif.Chars
import Verif.Spec.Position

/-
What the text of a quoted scalar denotes (YAML 1.1, sections 5.7, 7.3 and 4.2.3), independent of
the scanner model.
-/

namespace Yaml.Spec

/-- A blank: space or tab. -/
def IsBlank (c : Char) : Prop := c = ' ' ∨ c = '\t'

/-- The character a line break denotes: LS and PS denote themselves, the others a line feed. -/
def breakValue (c : Char) : Char := if c = '\u2028' ∨ c = '\u2029' then c else '\n'

/-- `BreakAt t c t'`: `t` starts with a line break denoting `c`, followed by `t'`.  CR LF is one line break. -/
inductive BreakAt : Str → Char → Str → Prop
  | crlf (t : Str) : BreakAt ('\r' :: '\n' :: t) '\n' t
  | one (c : Char) (t : Str) (hb : isLineBreak c = true) (hc : ¬ (c = '\r' ∧ t.head? = some '\n')) :
      BreakAt (c :: t) (breakValue c) t

/-- `t` starts with a character that is neither a blank nor a line break, or is empty. -/
def Solid (t : Str) : Prop := ∀ c r, t = c :: r → ¬ IsBlank c ∧ isLineBreak c = false

/-- `Folds t v t'`: `t` starts with blanks and line breaks, then comes `t'`; the breaks denote `v`. -/
inductive Folds : Str → Str → Str → Prop
  | stop (t : Str) (h : Solid t) : Folds t [] t
  | blank (c : Char) {t v t' : Str} (hc : IsBlank c) (h : Folds t v t') : Folds (c :: t) v t'
  | brk {t t1 v t' : Str} {c : Char} (hb : BreakAt t c t1) (h : Folds t1 v t') : Folds t (c :: v) t'

/-- Line folding: a single line feed becomes a space; otherwise the first line feed is dropped. -/
def fold : Str → Str
  | [] => []
  | b :: bs => if b = '\n' then (if bs = [] then [' '] else bs) else b :: bs

/-- `t` starts with a document marker `---` or `...` (followed by a blank, a line break or the end). -/
def IsDocMarker (t : Str) : Prop :=
  ∃ r, (t = '-' :: '-' :: '-' :: r ∨ t = '.' :: '.' :: '.' :: r) ∧ ∀ c r', r = c :: r' → IsBlank c ∨ isLineBreak c = true

/-- A hexadecimal digit and its value. -/
def HexDigit (c : Char) (n : Nat) : Prop :=
  (n < 10 ∧ c.toNat = 48 + n) ∨ (10 ≤ n ∧ n < 16 ∧ (c.toNat = 55 + n ∨ c.toNat = 87 + n))

/-- A hexadecimal number, most significant digit first. -/
inductive HexNum : Str → Nat → Prop
  | nil : HexNum [] 0
  | snoc {ds : Str} {k n : Nat} {c : Char} (h : HexNum ds k) (hc : HexDigit c n) : HexNum (ds ++ [c]) (16 * k + n)

/-- A Unicode scalar value. -/
def IsScalar (n : Nat) : Prop := n < 0xD800 ∨ (0xDFFF < n ∧ n < 0x110000)

/-- The single-character escapes and the code points they denote. -/
def escapes : List (Char × Nat) :=
  [('0', 0x00), ('a', 0x07), ('b', 0x08), ('t', 0x09), ('\t', 0x09), ('n', 0x0A), ('v', 0x0B), ('f', 0x0C), ('r', 0x0D),
   ('e', 0x1B), (' ', 0x20), ('"', 0x22), ('/', 0x2F), ('\\', 0x5C), ('N', 0x85), ('_', 0xA0), ('L', 0x2028), ('P', 0x2029)]

/-- The numeric escapes and their number of hexadecimal digits. -/
def codes : List (Char × Nat) := [('x', 2), ('u', 4), ('U', 8)]

/-- `Escape t c`: after a backslash, `t` denotes `c`. -/
inductive Escape : Str → Char → Prop
  | simple {e : Char} {n : Nat} (h : (e, n) ∈ escapes) : Escape [e] (Char.ofNat n)
  | code {e : Char} {k n : Nat} {ds : Str} (h : (e, k) ∈ codes) (hk : ds.length = k) (hn : HexNum ds n) (hs : IsScalar n) :
      Escape (e :: ds) (Char.ofNat n)

/-- The quote character. -/
def quote (single : Bool) : Char := if single then '\'' else '"'

/-- `Body single t v t'`: inside a quoted scalar, reading `t` up to `t'` denotes `v`.  Runs of blanks
within a line stand for themselves; line breaks with the blanks around them are folded (a
continuation line must not start with a document marker); in a double-quoted scalar a backslash
starts an escape, and before a line break suppresses the folded break. -/
inductive Body (single : Bool) : Str → Str → Str → Prop
  | done (t : Str) : Body single t [] t
  | char (c : Char) {t v t' : Str} (h1 : ¬ IsBlank c) (h2 : isLineBreak c = false) (h3 : c ≠ quote single)
      (h4 : single = false → c ≠ '\\') (h : Body single t v t') : Body single (c :: t) (c :: v) t'
  | quote {t v t' : Str} (hs : single = true) (h : Body single t v t') : Body single ('\'' :: '\'' :: t) ('\'' :: v) t'
  | escape {x t v t' : Str} {c : Char} (hs : single = false) (hx : Escape x c) (h : Body single t v t') :
      Body single ('\\' :: (x ++ t)) (c :: v) t'
  | blanks {b t v t' : Str} (hb : ∀ c ∈ b, IsBlank c) (hn : b ≠ []) (ht : Solid t) (h : Body single t v t') :
      Body single (b ++ t) (b ++ v) t'
  | fold {t0 bs t v t' : Str} (hf : Folds t0 bs t) (hn : bs ≠ [])
      (hd : (∃ p c, t0 = p ++ c :: t ∧ IsBlank c) ∨ ¬ IsDocMarker t) (h : Body single t v t') :
      Body single t0 (Spec.fold bs ++ v) t'
  | cont {t0 t1 bs t v t' : Str} {c : Char} (hs : single = false) (h0 : BreakAt t0 c t1) (hf : Folds t1 bs t)
      (hd : (∃ p c, t0 = p ++ c :: t ∧ IsBlank c) ∨ ¬ IsDocMarker t) (h : Body single t v t') :
      Body single ('\\' :: t0) (bs ++ v) t'

/-- `Quoted single t v rest`: `t` starts with a complete quoted scalar that denotes `v`; then comes `rest`. -/
def Quoted (single : Bool) (t v rest : Str) : Prop :=
  ∃ body, t = quote single :: body ∧ Body single body v (quote single :: rest) ∧ (single = true → rest.head? ≠ some '\'')

end Yaml.Spec
