import Verif.Spec.Scalars
import Verif.Spec.Directives

/-
What the text of a block scalar denotes (YAML 1.1, sections 9.2 and 9.3), independent of the scanner model.
-/

namespace Yaml.Spec

/-- How final line breaks are treated. -/
inductive Chomp where
  | strip | clip | keep
deriving DecidableEq

/-- `Header h chomp inc`: the block scalar header `h` (after `|` or `>`); `inc = 0`: no indentation indicator. -/
inductive Header : Str → Chomp → Nat → Prop
  | none : Header [] .clip 0
  | strip : Header ['-'] .strip 0
  | keep : Header ['+'] .keep 0
  | digit {d : Char} {n : Nat} (hn : n ≠ 0 ∧ n < 10) (hd : d.toNat = 48 + n) : Header [d] .clip n
  | digitStrip {d : Char} {n : Nat} (hn : n ≠ 0 ∧ n < 10) (hd : d.toNat = 48 + n) : Header [d, '-'] .strip n
  | digitKeep {d : Char} {n : Nat} (hn : n ≠ 0 ∧ n < 10) (hd : d.toNat = 48 + n) : Header [d, '+'] .keep n
  | stripDigit {d : Char} {n : Nat} (hn : n ≠ 0 ∧ n < 10) (hd : d.toNat = 48 + n) : Header ['-', d] .strip n
  | keepDigit {d : Char} {n : Nat} (hn : n ≠ 0 ∧ n < 10) (hd : d.toNat = 48 + n) : Header ['+', d] .keep n

/-- A content line, its line break and the breaks of the blank lines after it. -/
structure Line where
  text : Str
  brk : Char
  blank : Str

/-- `BlankLines n t bs t'`: lines of at most `n` spaces, whose breaks denote `bs`. -/
inductive BlankLines (n : Nat) : Str → Str → Str → Prop
  | stop (t : Str) : BlankLines n t [] t
  | line {k : Nat} {t t1 bs t' : Str} {c : Char} (hk : k ≤ n) (hb : BreakAt t c t1) (h : BlankLines n t1 bs t') :
      BlankLines n (List.replicate k ' ' ++ t) (c :: bs) t'

/-- `Lines n t ls t'`: content lines indented by `n`, each with the blank lines after it. -/
inductive Lines (n : Nat) : Str → List Line → Str → Prop
  | done (t : Str) : Lines n t [] t
  | line {l t t1 bs t2 t' : Str} {c : Char} {ls : List Line} (hl : l ≠ []) (hn : ∀ x ∈ l, isLineBreak x = false) (hb : BreakAt t c t1)
      (hbl : BlankLines n t1 bs t2) (h : Lines n t2 ls t') : Lines n (List.replicate n ' ' ++ (l ++ t)) (⟨l, c, bs⟩ :: ls) t'

/-- The line starts with white space (is "more indented"). -/
def Line.indented (l : Line) : Bool :=
  match l.text with
  | [] => false
  | c :: _ => c == ' ' || c == '\t'

/-- The line breaks between two content lines: in a folded scalar a line feed between two lines that are
not more indented is folded. -/
def between (folded : Bool) (l m : Line) : Str :=
  if folded = true ∧ l.brk = '\n' ∧ l.indented = false ∧ m.indented = false then (if l.blank = [] then [' '] else l.blank) else l.brk :: l.blank

/-- The content without the final line breaks. -/
def content (folded : Bool) : List Line → Str
  | [] => []
  | [l] => l.text
  | l :: m :: ls => l.text ++ (between folded l m ++ content folded (m :: ls))

/-- The final line breaks. -/
def ending (chomp : Chomp) (bs : Str) (ls : List Line) : Str :=
  match ls.getLast? with
  | none => if chomp = .keep then bs else []
  | some l => if chomp = .strip then [] else if chomp = .clip then [l.brk] else l.brk :: l.blank

/-- `BlockScalar folded n0 t v rest`: in a block of indentation `n0` (-1: at top level) `t` starts with a block
scalar that denotes `v`; then comes `rest`, less indented than the scalar, or the end.  Behind the header (`hd`) the line
may have a comment (`l`).  Without indentation indicator the first line of the content tells the indentation (`n`): it
does not start with white space of its own, and the blank lines before it are not longer. -/
def BlockScalar (folded : Bool) (n0 : Int) (t v rest : Str) : Prop :=
  ∃ (hd : Str) (chomp : Chomp) (inc : Nat) (l t0 : Str) (c : Char) (t1 : Str) (n : Nat) (bs t2 : Str) (ls : List Line) (t3 : Str) (k : Nat),
    Header hd chomp inc ∧ t = (if folded then '>' else '|') :: (hd ++ (l ++ t0)) ∧ LineRest l ∧ BreakAt t0 c t1 ∧
    (inc ≠ 0 → (n : Int) = (if 0 ≤ n0 then n0 else 0) + inc) ∧
    (inc = 0 → n0 < n ∧ n ≠ 0 ∧ (∀ x ls', ls = x :: ls' → x.indented = false) ∧ (ls = [] → (k : Int) ≤ n0 ∨ k = 0)) ∧
    BlankLines n t1 bs t2 ∧ Lines n t2 ls t3 ∧
    t3 = List.replicate k ' ' ++ rest ∧ k < n ∧ Solid rest ∧
    v = (if ls = [] then [] else bs) ++ content folded ls ++ ending chomp bs ls

end Yaml.Spec
