import Verif.Spec.Plain
import Verif.Spec.Block
import Verif.Spec.Directives
import Verif.Spec.Tokens

/-
What the text of a whole input says about its tokens, independent of the scanner model: which pieces of
the text are tokens, how each is spelled, and what may stand between them.
-/

namespace Yaml.Spec

/-! ### Between tokens -/

/-- `Separates bol g rest`: the text `g`, before `rest`, separates tokens: blanks, line breaks, comments up to
the end of their line, and byte order marks at the beginning of a line (`bol`: `g` starts there). -/
inductive Separates : Bool → Str → Str → Prop
  | nil {bol : Bool} (rest : Str) : Separates bol [] rest
  | blank {bol : Bool} {c : Char} {g rest : Str} (hc : IsBlank c) (h : Separates false g rest) : Separates bol (c :: g) rest
  | brk {bol : Bool} {c : Char} {g rest : Str} (hc : isLineBreak c = true) (h : Separates true g rest) : Separates bol (c :: g) rest
  | bom {g rest : Str} (h : Separates false g rest) : Separates true ('\uFEFF' :: g) rest
  | comment {bol : Bool} {com g rest : Str} (hc : ∀ c ∈ com, isLineBreak c = false)
      (he : ∀ c r, g ++ rest = c :: r → isLineBreak c = true) (h : Separates false g rest) :
      Separates bol ('#' :: (com ++ g)) rest

/-! ### Plain scalars -/

/-- `PlainRun flow n t v t'`: after the first character of a plain scalar, `t` up to `t'` denotes `v`.  Blanks
within a line stand for themselves, line breaks with the blanks around them are folded; a continuation line is
indented by at least `n` (in block context) and neither a comment nor a document marker. -/
inductive PlainRun (flow : Bool) (n : Int) : Str → Str → Str → Prop
  | done (t : Str) : PlainRun flow n t [] t
  | char {c : Char} {t v t' : Str} (hc : PlainChar flow c t) (h : PlainRun flow n t v t') : PlainRun flow n (c :: t) (c :: v) t'
  | blanks {b : Str} {c : Char} {t v t' : Str} (hb : ∀ x ∈ b, IsBlank x) (hn : b ≠ []) (hc : PlainChar flow c t) (hx : c ≠ '#')
      (h : PlainRun flow n t v t') : PlainRun flow n (b ++ c :: t) (b ++ c :: v) t'
  | fold {t0 bs t v t' : Str} {c : Char} (hf : Folds t0 bs (c :: t)) (hn : bs ≠ [])
      (hi : ∃ p x b, t0 = p ++ x :: (b ++ c :: t) ∧ isLineBreak x = true ∧ (∀ y ∈ b, IsBlank y) ∧ (flow = false → n ≤ b.length) ∧
        (b = [] → ¬ IsDocMarker (c :: t)))
      (hc : PlainChar flow c t) (hx : c ≠ '#') (h : PlainRun flow n t v t') :
      PlainRun flow n t0 (Spec.fold bs ++ c :: v) t'

/-- A plain scalar cannot go on at `t`: here or after white space it stops, or there is a comment, a line
that is not indented enough, or a document marker. -/
def PlainEnds (flow : Bool) (n : Int) (t : Str) : Prop :=
  PlainStop flow t ∨ ∃ bs t', Folds t bs t' ∧ t ≠ t' ∧
    (PlainStop flow t' ∨ t'.head? = some '#' ∨
      (flow = false ∧ ∃ p x b, t = p ++ x :: (b ++ t') ∧ isLineBreak x = true ∧ (∀ y ∈ b, IsBlank y) ∧ (b.length : Int) < n) ∨
      (IsDocMarker t' ∧ ∃ p x, t = p ++ x :: t' ∧ isLineBreak x = true))

/-- `PlainText flow n w v rest`: `w`, before `rest`, is a plain scalar that denotes `v`. -/
def PlainText (flow : Bool) (n : Int) (w v rest : Str) : Prop :=
  ∃ c w1 v1, w = c :: w1 ∧ v = c :: v1 ∧ PlainChar flow c (w1 ++ rest) ∧ c ≠ '#' ∧ PlainRun flow n (w1 ++ rest) v1 rest ∧ PlainEnds flow n rest

/-- A plain scalar may start at `t`: not with an indicator, except for `-`, and in block context `?` and `:`, directly
followed by something. -/
def PlainFirst (flow : Bool) (t : Str) : Prop :=
  ∃ c r, t = c :: r ∧ (c ∉ (cs! "-?:,[]{}#&*!|>'\"%@`") ∨ (c = '-' ∨ flow = false ∧ (c = '?' ∨ c = ':')) ∧ ¬ EndsTag r)

/-! ### Ends of lines -/

/-- Blanks, then possibly a comment. -/
def HeaderRest (t : Str) : Prop :=
  ∃ sp com, t = sp ++ com ∧ (∀ c ∈ sp, IsBlank c) ∧ (com = [] ∨ ∃ x, com = '#' :: x ∧ ∀ c ∈ x, isLineBreak c = false)

/-- Nothing but blanks and a comment before the end of the line. -/
def EndsLine (t : Str) : Prop := ∃ com r, t = com ++ r ∧ HeaderRest com ∧ ∀ c r', r = c :: r' → isLineBreak c = true

/-! ### Block scalars -/

/-- `Leading t m`: `m` is the largest indentation among the blank lines (of spaces) that `t` starts with and the
first line that is not blank. -/
inductive Leading : Str → Nat → Prop
  | last {k : Nat} {t : Str} (h : ∀ c r, t = c :: r → c ≠ ' ' ∧ isLineBreak c = false) : Leading (List.replicate k ' ' ++ t) k
  | blank {k m : Nat} {t t1 : Str} {c : Char} (hb : BreakAt t c t1) (h : Leading t1 m) : Leading (List.replicate k ' ' ++ t) (max k m)

/-- `BlockText folded n0 w v rest`: `w`, before `rest`, is a block scalar in a block of indentation `n0` (-1: at top
level) that denotes `v`.  Its header may be followed by a comment.  Its indentation is given by the header, or else
by its first lines.  What follows is less indented, or the end. -/
def BlockText (folded : Bool) (n0 : Int) (w v rest : Str) : Prop :=
  ∃ (hd : Str) (chomp : Chomp) (inc : Nat) (com t0 t1 : Str) (n : Nat) (bs t2 : Str) (ls : List Line) (k : Nat) (after : Str),
    Header hd chomp inc ∧ w ++ rest = (if folded then '>' else '|') :: (hd ++ (com ++ t0)) ∧ HeaderRest com ∧
    ((∃ c, BreakAt t0 c t1) ∨ t0 = [] ∧ t1 = []) ∧
    (inc ≠ 0 → (n : Int) = (if 0 ≤ n0 then n0 else 0) + inc) ∧
    (inc = 0 → ∃ m, Leading t1 m ∧ (n : Int) = max (max (n0 + 1) 1) m) ∧
    BlankLines n t1 bs t2 ∧ Lines n t2 ls rest ∧
    rest = List.replicate k ' ' ++ after ∧ (k < n ∧ Solid after ∨ k ≤ n ∧ after = []) ∧
    v = (if ls = [] then [] else bs) ++ content folded ls ++ ending chomp bs ls

/-! ### Tags and directives -/

/-- `OctetText t n`: `t` is the percent-escape of the octet `n`. -/
def OctetText (t : Str) (n : Nat) : Prop :=
  ∃ a b x y, t = ['%', a, b] ∧ HexDigit a x ∧ HexDigit b y ∧ n = 16 * x + y

/-- Number of octets of a UTF-8 sequence that starts with this octet (0: none does). -/
def leadWidth (n : Nat) : Nat :=
  if n < 128 then 1 else if 192 ≤ n ∧ n < 224 then 2 else if 224 ≤ n ∧ n < 240 then 3 else if 240 ≤ n ∧ n < 248 then 4 else 0

/-- `UriSpelled verbatim t v`: `t` spells `v`.  Percent-escapes come in groups: a leading octet and as many
trailing octets as it announces.  (Each octet becomes a character of its own, which is wrong for groups of more
than one octet: finding 4.) -/
inductive UriSpelled (verbatim : Bool) : Str → Str → Prop
  | nil : UriSpelled verbatim [] []
  | char {c : Char} {t v : Str} (hc : UriChar verbatim c) (h : UriSpelled verbatim t v) : UriSpelled verbatim (c :: t) (c :: v)
  | escape {l : Str × Nat} {ts : List (Str × Nat)} {t v : Str} (hl : OctetText l.1 l.2) (hw : leadWidth l.2 = ts.length + 1)
      (ht : ∀ p ∈ ts, OctetText p.1 p.2 ∧ 128 ≤ p.2 ∧ p.2 < 192) (h : UriSpelled verbatim t v) :
      UriSpelled verbatim (l.1 ++ (ts.flatMap (·.1) ++ t)) (Char.ofNat l.2 :: (ts.map (fun p => Char.ofNat p.2) ++ v))

/-- `TagSpelled t handle suffix`: the tag `t` has this handle and suffix. -/
inductive TagSpelled : Str → Str → Str → Prop
  | verbatim {u v : Str} (h : UriSpelled true u v) (hv : v ≠ []) : TagSpelled (cs! "!<" ++ (u ++ ['>'])) [] v
  | named {n u v : Str} (hn : ∀ c ∈ n, NameChar c) (h : UriSpelled false u v) (hv : v ≠ []) : TagSpelled ('!' :: n ++ '!' :: u) ('!' :: n ++ ['!']) v
  | primary {n u v : Str} (hn : ∀ c ∈ n, NameChar c) (hu : ∀ c r, u = c :: r → ¬ NameChar c ∧ c ≠ '!') (h : UriSpelled false u v) (hv : n ++ v ≠ []) :
      TagSpelled ('!' :: (n ++ u)) ['!'] (n ++ v)
  | bare : TagSpelled ['!'] [] ['!']

/-- `DirectiveSpelled t d`: the text `t` behind the `%` declares `d`. -/
inductive DirectiveSpelled : Str → TokenData → Prop
  | version {sp maj min : Str} (hsp : sp ≠ [] ∧ ∀ c ∈ sp, IsBlank c) (hM : ∀ c ∈ maj, IsDigit c) (hm : ∀ c ∈ min, IsDigit c)
      (hML : 1 ≤ maj.length ∧ maj.length ≤ 9) (hmL : 1 ≤ min.length ∧ min.length ≤ 9) :
      DirectiveSpelled (cs! "YAML" ++ (sp ++ (maj ++ '.' :: min))) (.versionDirective (decimal maj) (decimal min))
  | tag {sp sp' h u v : Str} (hsp : sp ≠ [] ∧ ∀ c ∈ sp, IsBlank c) (hsp' : sp' ≠ [] ∧ ∀ c ∈ sp', IsBlank c) (hh : HandleOk h)
      (hu : UriSpelled true u v) (hv : v ≠ []) :
      DirectiveSpelled (cs! "TAG" ++ (sp ++ (h ++ (sp' ++ u)))) (.tagDirective h v)

/-! ### Tokens -/

/-- `Spells flow n t w rest`: the text `w`, before `rest`, spells the token `t` (`flow`: inside a flow collection;
otherwise in a block of indentation `n`, -1 at top level).  Tokens the scanner infers from the layout have no text
of their own. -/
def Spells (flow : Bool) (n : Int) (t : Token) (w rest : Str) : Prop :=
  match t.data with
  | .streamStart _ => w = []
  | .streamEnd => w = [] ∧ rest = []
  | .blockSequenceStart => w = []
  | .blockMappingStart => w = []
  | .blockEnd => w = []
  | .versionDirective _ _ => t.startMark.column = 0 ∧ (∃ x, w = '%' :: x ∧ DirectiveSpelled x t.data) ∧ EndsLine rest
  | .tagDirective _ _ => t.startMark.column = 0 ∧ (∃ x, w = '%' :: x ∧ DirectiveSpelled x t.data) ∧ EndsLine rest ∧ EndsTag rest
  | .documentStart => t.startMark.column = 0 ∧ w = cs! "---" ∧ EndsTag rest
  | .documentEnd => t.startMark.column = 0 ∧ w = cs! "..." ∧ EndsTag rest
  | .flowSequenceStart => w = ['[']
  | .flowSequenceEnd => w = [']']
  | .flowMappingStart => w = ['{']
  | .flowMappingEnd => w = ['}']
  | .flowEntry => w = [',']
  | .blockEntry => w = ['-'] ∧ EndsTag rest
  | .key => w = [] ∨ w = ['?'] ∧ (flow = false → EndsTag rest)
  | .value => w = [':'] ∧ (flow = false → EndsTag rest)
  | .alias n => w = '*' :: n ∧ NameOk n ∧ EndsName rest
  | .anchor n => w = '&' :: n ∧ NameOk n ∧ EndsName rest
  | .tag handle suffix => TagSpelled w handle suffix ∧ EndsTag rest
  | .scalar v style =>
    match style with
    | .any => False
    | .plain => PlainText flow (n + 1) w v rest ∧ PlainFirst flow (w ++ rest) ∧ (t.startMark.column = 0 → ¬ IsDocMarker (w ++ rest))
    | .singleQuoted => Quoted true (w ++ rest) v rest
    | .doubleQuoted => Quoted false (w ++ rest) v rest
    | .literal => flow = false ∧ BlockText false n w v rest
    | .folded => flow = false ∧ BlockText true n w v rest

/-- `m` is the mark of the place in `T` after `p`: its position, or at the end of the text the start of the next line. -/
def MarkAt (T p : Str) (m : Mark) : Prop := m = position p ∨ p = T ∧ m = endMark T

/-! ### Block structure -/

/-- Number of flow collections open after the token, if `d` are open before it. -/
def depthAfter (d : Nat) (t : Token) : Nat := if isFlowStart t then d + 1 else if isFlowEnd t then d - 1 else d

/-- Columns of the block collections open after the token, innermost first, if those in `st` are open before it. -/
def blocksAfter (st : List Nat) (t : Token) : List Nat :=
  if isBlockStart t then t.startMark.column :: st else if isBlockEnd t then st.tail else st

/-- Indentation of the innermost open block collection, -1 if there is none. -/
def indentation : List Nat → Int
  | [] => -1
  | c :: _ => c

/-- A token that ends everything that is open in block context. -/
def isBoundary (t : Token) : Bool :=
  match t.data with
  | .versionDirective _ _ => true
  | .tagDirective _ _ => true
  | .documentStart => true
  | .documentEnd => true
  | .streamEnd => true
  | _ => false

/-- `Laid d st t ts`: with `d` flow collections and the block collections `st` open, the token `t`, followed by
`ts`, agrees with the layout.  In block context: a block collection starts where its first entry or key is, to
the right of the collections that are open; it ends before the first token to the left of it, or at the end of the
document; entries and keys of the innermost open collection are at its column, and no other token is to the left of it.
Inside flow collections there is no block structure. -/
def Laid (d : Nat) (st : List Nat) (t : Token) (ts : List Token) : Prop :=
  if d = 0 then
    match t.data with
    | .blockSequenceStart => indentation st < t.startMark.column ∧ ∃ u, ts.head? = some u ∧ u.data = .blockEntry ∧ u.startMark = t.startMark
    | .blockMappingStart => indentation st < t.startMark.column ∧
        ∃ u, ts.head? = some u ∧ (u.data = .key ∨ u.data = .value) ∧ u.startMark = t.startMark
    | .blockEnd => st ≠ [] ∧ ((t.startMark.column : Int) < indentation st ∨
        ∃ n u r, ts = List.replicate n t ++ u :: r ∧ isBoundary u = true ∧ u.startMark = t.startMark)
    | .blockEntry => indentation st = t.startMark.column
    | .key => indentation st = t.startMark.column
    | _ => if isBoundary t then st = [] else indentation st ≤ t.startMark.column
  else isBlockStart t = false ∧ isBlockEnd t = false

/-- `LaidOut d st ts`: all tokens `ts` agree with the layout, and block collections end where the next token is (or else
at the end of the stream). -/
def LaidOut (d : Nat) (st : List Nat) : List Token → Prop
  | [] => True
  | t :: ts => Laid d st t ts ∧
      (isBlockEnd t = true → ∀ u, ts.head? = some u → u.startMark = t.startMark ∨ ∀ v ∈ ts, isBlockEnd v = true ∨ isStreamEnd v = true) ∧
      LaidOut (depthAfter d t) (blocksAfter st t) ts

/-! ### The whole text -/

/-- `Tiles T d st p ts q`: from the place after `p`, where `d` flow collections and the block collections `st` are
open, the tokens `ts` cover the text `T` up to the place after `q`: each is preceded by separating text, spelled by the
text between its marks, and where the layout wants it. -/
inductive Tiles (T : Str) : Nat → List Nat → Str → List Token → Str → Prop
  | nil {d : Nat} {st : List Nat} (p : Str) : Tiles T d st p [] p
  | cons {d : Nat} {st : List Nat} {p g w rest q : Str} {t : Token} {ts : List Token} (hT : T = p ++ (g ++ (w ++ rest)))
      (hg : Separates (decide ((position p).column = 0)) g (w ++ rest)) (hs : MarkAt T (p ++ g) t.startMark)
      (he : MarkAt T (p ++ g ++ w) t.endMark) (hw : Spells (d != 0) (indentation st) t w rest) (hl : Laid d st t ts)
      (h : Tiles T (depthAfter d t) (blocksAfter st t) (p ++ g ++ w) ts q) : Tiles T d st p (t :: ts) q

end Yaml.Spec
