import Verif.Spec.Plain
import Verif.Spec.Block
import Verif.Spec.Directives
import Verif.Spec.Lexemes
import Verif.Spec.TokenGrammar

/-
YAML texts and the events they denote, character by character: comments, flow and block collections,
scalars of all five styles, anchors, aliases, tags, directives and documents.  Independent of the scanner and parser models.

Columns, line breaks and indentation are part of the grammar.  Not part of it (YAML has them, or this library
reads them, but no claim is made): flow collections as simple keys, properties of one node on several lines, `:`
without a key, byte order marks within the text, shorthand tags with the characters `,[]` in flow context (finding 2).
-/

namespace Yaml.Spec

/-! ### White space -/

/-- White space between tokens: spaces, tabs (in flow context, and in block context up to the first line break where
`tabs`), line breaks and comments with the line break behind them. -/
inductive Space (flow : Bool) : Bool → Str → Prop
  | nil {tabs : Bool} : Space flow tabs []
  | space {tabs : Bool} {g : Str} (h : Space flow tabs g) : Space flow tabs (' ' :: g)
  | tab {g : Str} (h : Space flow true g) : Space flow true ('\t' :: g)
  | brk {tabs : Bool} {c : Char} {g : Str} (hc : isLineBreak c = true) (h : Space flow flow g) : Space flow tabs (c :: g)
  | comment {tabs : Bool} {com : Str} {c : Char} {g : Str} (hn : ∀ x ∈ com, isLineBreak x = false) (hc : isLineBreak c = true)
      (h : Space flow flow g) : Space flow tabs ('#' :: (com ++ c :: g))

/-- White space at the end of the text: the last comment needs no line break. -/
def SpaceEnd (tabs : Bool) (g : Str) : Prop :=
  ∃ g1 com, g = g1 ++ com ∧ Space false tabs g1 ∧ (com = [] ∨ ∃ x, com = '#' :: x ∧ ∀ c ∈ x, isLineBreak c = false)

/-- Blanks. -/
def AllBlank (b : Str) : Prop := ∀ c ∈ b, IsBlank c

/-- No line breaks. -/
def OneLine (w : Str) : Prop := ∀ c ∈ w, isLineBreak c = false

/-- Where one is in block context: `some k` in column `k` where a key or an entry of a block collection may start
(nothing but spaces and indicators before it on the line), `none` after something else. -/
abbrev Place := Option Nat

/-- The place after white space. -/
def Place.after (p : Place) (g : Str) : Place :=
  if g.any isLineBreak then some (position g).column else p.map (· + g.length)

/-- Not in column `n` or to the left of it. -/
def Place.deeper (n : Int) (p : Place) : Prop := ∀ k : Nat, p = some k → n < k

/-! ### Scalars and properties -/

/-- `PlainWord flow n w v t`: `w`, before `t`, is the text of a plain scalar that denotes `v`. -/
def PlainWord (flow : Bool) (n : Int) (w v t : Str) : Prop :=
  ∃ c w1 v1, w = c :: w1 ∧ v = c :: v1 ∧ PlainFirst flow (c :: (w1 ++ t)) ∧ PlainChar flow c (w1 ++ t) ∧ c ≠ '\uFEFF' ∧
    ¬ IsDocMarker (c :: (w1 ++ t)) ∧ PlainBody flow n (w1 ++ t) v1 t

/-- `QuotedWord single w v t`: `w`, before `t`, is the text of a quoted scalar that denotes `v`. -/
def QuotedWord (single : Bool) (w v t : Str) : Prop :=
  ∃ b, w = quote single :: (b ++ [quote single]) ∧ Quoted single (w ++ t) v t

/-- `ScalarText flow n w v style t`: `w`, before `t`, is a flow scalar in a block of indentation `n`. -/
inductive ScalarText (flow : Bool) (n : Int) : Str → Str → ScalarStyle → Str → Prop
  | plain {w v t r : Str} {brk : Bool} (h : PlainWord flow (n + 1) w v t) (he : PlainEnd flow (n + 1) t brk r) : ScalarText flow n w v .plain t
  | quoted {single : Bool} {w v t : Str} (h : QuotedWord single w v t) :
      ScalarText flow n w v (if single then .singleQuoted else .doubleQuoted) t

/-- `PropsText D w anchor tag t`: `w`, before `t`, is an anchor, a tag, or both. -/
inductive PropsText (D : List TagDirective) : Str → Option Str → Option Str → Str → Prop
  | anchor {n t : Str} (hn : NameOk n) (he : EndsName t) : PropsText D ('&' :: n) (some n) none t
  | tag {w h s t : Str} {tag : Option Str} (hw : TagText w h s) (ht : TagIs D [(h, s)] tag) (he : EndsTag t) : PropsText D w none tag t
  | anchorTag {n b w h s t : Str} {tag : Option Str} (hn : NameOk n) (hb : AllBlank b) (hne : b ≠ []) (hw : TagText w h s)
      (ht : TagIs D [(h, s)] tag) (he : EndsTag t) : PropsText D ('&' :: (n ++ (b ++ w))) (some n) tag t
  | tagAnchor {n b w h s t : Str} {tag : Option Str} (hn : NameOk n) (hb : AllBlank b) (hne : b ≠ []) (hw : TagText w h s)
      (ht : TagIs D [(h, s)] tag) (he : EndsName t) : PropsText D (w ++ (b ++ '&' :: n)) (some n) tag t

/-- The event of properties without content. -/
def bareNode (anchor tag : Option Str) : EventData := .scalar anchor tag [] (untagged tag) false .plain

/-- `KeyText D flow b t w es`: `w`, before `b ++ ':' :: t`, is a simple key: an alias, or a flow scalar and properties. -/
inductive KeyText (D : List TagDirective) (flow : Bool) (b t : Str) : Str → List EventData → Prop
  | alias {a : Str} (hn : NameOk a) (he : EndsName (b ++ ':' :: t)) : KeyText D flow b t ('*' :: a) [.alias a]
  | bare {w : Str} {anchor tag : Option Str} (hp : PropsText D w anchor tag (b ++ ':' :: t)) : KeyText D flow b t w [bareNode anchor tag]
  | plain {w v : Str} (h : PlainWord flow 0 w v (b ++ ':' :: t)) (hs : PlainStop flow (':' :: t)) :
      KeyText D flow b t w [scalarEvent none none v .plain]
  | quoted {w v : Str} {single : Bool} (h : QuotedWord single w v (b ++ ':' :: t)) :
      KeyText D flow b t w [scalarEvent none none v (if single then .singleQuoted else .doubleQuoted)]
  | propsPlain {p s w v : Str} {anchor tag : Option Str} (hp : PropsText D p anchor tag (s ++ (w ++ (b ++ ':' :: t)))) (hs : AllBlank s)
      (h : PlainWord flow 0 w v (b ++ ':' :: t)) (hc : PlainStop flow (':' :: t)) : KeyText D flow b t (p ++ (s ++ w)) [scalarEvent anchor tag v .plain]
  | propsQuoted {p s w v : Str} {single : Bool} {anchor tag : Option Str} (hp : PropsText D p anchor tag (s ++ (w ++ (b ++ ':' :: t)))) (hs : AllBlank s)
      (h : QuotedWord single w v (b ++ ':' :: t)) :
      KeyText D flow b t (p ++ (s ++ w)) [scalarEvent anchor tag v (if single then .singleQuoted else .doubleQuoted)]

/-- `Key D flow k b t es`: a simple key `k` and the blanks `b` before its `:`, on one line and not too long. -/
structure Key (D : List TagDirective) (flow : Bool) (k b t : Str) (es : List EventData) : Prop where
  text : KeyText D flow b t k es
  line : OneLine k
  blank : AllBlank b
  short : (position (k ++ b)).index ≤ 1024

/-! ### Flow style -/

mutual
/-- `FlowNode D w es t`: in flow context `w`, before `t`, is a node that denotes `es`. -/
inductive FlowNode (D : List TagDirective) : Str → List EventData → Str → Prop
  | alias {a t : Str} (hn : NameOk a) (he : EndsName t) : FlowNode D ('*' :: a) [.alias a] t
  | content {w t : Str} {es : List EventData} (h : FlowContent D true 0 w none none es t) : FlowNode D w es t
  | props {p g w t : Str} {anchor tag : Option Str} {es : List EventData} (hp : PropsText D p anchor tag (g ++ (w ++ t))) (hg : Space true true g)
      (h : FlowContent D true 0 w anchor tag es t) : FlowNode D (p ++ (g ++ w)) es t
  | bare {w t : Str} {anchor tag : Option Str} (hp : PropsText D w anchor tag t) : FlowNode D w [bareNode anchor tag] t
/-- `FlowContent D flow n w anchor tag es t`: a flow scalar or flow collection with these properties, in a block of
indentation `n`. -/
inductive FlowContent (D : List TagDirective) : Bool → Int → Str → Option Str → Option Str → List EventData → Str → Prop
  | scalar {flow : Bool} {n : Int} {w v t : Str} {style : ScalarStyle} {anchor tag : Option Str} (h : ScalarText flow n w v style t) :
      FlowContent D flow n w anchor tag [scalarEvent anchor tag v style] t
  | seq {flow : Bool} {n : Int} {w t : Str} {anchor tag : Option Str} {es : List EventData} (h : FlowItems D w es (']' :: t)) :
      FlowContent D flow n ('[' :: (w ++ [']'])) anchor tag (.sequenceStart anchor tag (untagged tag) .flow :: (es ++ [.sequenceEnd])) t
  | map {flow : Bool} {n : Int} {w t : Str} {anchor tag : Option Str} {es : List EventData} (h : FlowEntries D w es ('}' :: t)) :
      FlowContent D flow n ('{' :: (w ++ ['}'])) anchor tag (.mappingStart anchor tag (untagged tag) .flow :: (es ++ [.mappingEnd])) t
/-- What stands between `[` and `]`. -/
inductive FlowItems (D : List TagDirective) : Str → List EventData → Str → Prop
  | none {g t : Str} (hg : Space true true g) : FlowItems D g [] t
  | last {g w g' t : Str} {es : List EventData} (hg : Space true true g) (h : FlowItem D w es (g' ++ t)) (hg' : Space true true g') :
      FlowItems D (g ++ (w ++ g')) es t
  | more {g w g' r t : Str} {es fs : List EventData} (hg : Space true true g) (h : FlowItem D w es (g' ++ ',' :: (r ++ t))) (hg' : Space true true g')
      (hr : FlowItems D r fs t) : FlowItems D (g ++ (w ++ (g' ++ ',' :: r))) (es ++ fs) t
/-- An item of a flow sequence: a node or a single pair. -/
inductive FlowItem (D : List TagDirective) : Str → List EventData → Str → Prop
  | node {w t : Str} {es : List EventData} (h : FlowNode D w es t) : FlowItem D w es t
  | pair {k b v t : Str} {es ds : List EventData} (hk : Key D true k b (v ++ t) es) (hv : FlowOpt D v ds t) :
      FlowItem D (k ++ (b ++ ':' :: v)) (.mappingStart none none true .flow :: (es ++ (ds ++ [.mappingEnd]))) t
  | key {g k t : Str} {es : List EventData} (he : EndsTag (g ++ (k ++ t))) (hg : Space true true g) (hk : FlowNode D k es t) :
      FlowItem D ('?' :: (g ++ k)) (.mappingStart none none true .flow :: (es ++ [emptyNode, .mappingEnd])) t
  | keyPair {g k g' v t : Str} {es ds : List EventData} (he : EndsTag (g ++ (k ++ (g' ++ ':' :: (v ++ t))))) (hg : Space true true g)
      (hk : FlowNode D k es (g' ++ ':' :: (v ++ t))) (hg' : Space true true g') (hv : FlowOpt D v ds t) :
      FlowItem D ('?' :: (g ++ (k ++ (g' ++ ':' :: v)))) (.mappingStart none none true .flow :: (es ++ (ds ++ [.mappingEnd]))) t
/-- What stands between `{` and `}`. -/
inductive FlowEntries (D : List TagDirective) : Str → List EventData → Str → Prop
  | none {g t : Str} (hg : Space true true g) : FlowEntries D g [] t
  | last {g w g' t : Str} {es : List EventData} (hg : Space true true g) (h : FlowEntry D w es (g' ++ t)) (hg' : Space true true g') :
      FlowEntries D (g ++ (w ++ g')) es t
  | more {g w g' r t : Str} {es fs : List EventData} (hg : Space true true g) (h : FlowEntry D w es (g' ++ ',' :: (r ++ t))) (hg' : Space true true g')
      (hr : FlowEntries D r fs t) : FlowEntries D (g ++ (w ++ (g' ++ ',' :: r))) (es ++ fs) t
/-- An entry of a flow mapping. -/
inductive FlowEntry (D : List TagDirective) : Str → List EventData → Str → Prop
  | node {w t : Str} {es : List EventData} (h : FlowNode D w es t) : FlowEntry D w (es ++ [emptyNode]) t
  | pair {k b v t : Str} {es ds : List EventData} (hk : Key D true k b (v ++ t) es) (hv : FlowOpt D v ds t) :
      FlowEntry D (k ++ (b ++ ':' :: v)) (es ++ ds) t
  | key {k t : Str} {es : List EventData} (he : EndsTag (k ++ t)) (hk : FlowOpt D k es t) : FlowEntry D ('?' :: k) (es ++ [emptyNode]) t
  | keyPair {k g' v t : Str} {es ds : List EventData} (he : EndsTag (k ++ (g' ++ ':' :: (v ++ t)))) (hk : FlowOpt D k es (g' ++ ':' :: (v ++ t)))
      (hg' : Space true true g') (hv : FlowOpt D v ds t) : FlowEntry D ('?' :: (k ++ (g' ++ ':' :: v))) (es ++ ds) t
/-- A node or nothing. -/
inductive FlowOpt (D : List TagDirective) : Str → List EventData → Str → Prop
  | nothing {t : Str} : FlowOpt D [] [emptyNode] t
  | node {g w t : Str} {es : List EventData} (hg : Space true true g) (h : FlowNode D w es t) : FlowOpt D (g ++ w) es t
end

/-! ### Block style -/

/-- `Lead D n p l anchor tag p' t`: white space and possibly properties before the content `t` of a node in a block of
indentation `n`, from place `p` to place `p'`. -/
inductive Lead (D : List TagDirective) (n : Int) : Place → Str → Option Str → Option Str → Place → Str → Prop
  | space {p : Place} {g t : Str} (hg : Space false p.isNone g) : Lead D n p g none none (p.after g) t
  | props {p : Place} {g w g' t : Str} {anchor tag : Option Str} (hg : Space false p.isNone g) (hd : (p.after g).deeper n)
      (hp : PropsText D w anchor tag (g' ++ t)) (hg' : Space false true g') : Lead D n p (g ++ (w ++ g')) anchor tag (Place.after none g') t

/-- A block collection in column `c` ends before `t`: next comes a token further to the left, a document marker, or the end of the
text. -/
def Over (c : Nat) (p : Place) (t : Str) : Prop :=
  SpaceEnd p.isNone t ∨
  ∃ g x r, t = g ++ x :: r ∧ Space false p.isNone g ∧ ¬ IsBlank x ∧ isLineBreak x = false ∧ x ≠ '#' ∧ x ≠ '\uFEFF' ∧
    ((∃ k, p.after g = some k ∧ k < c) ∨ (p.after g = some 0 ∧ IsDocMarker (x :: r)))

mutual
/-- `BlockNode D indentless n p w es p' t`: in block context, in a block of indentation `n`, `w`, before `t`, is a node (possibly
empty) that denotes `es`; it starts at place `p` and ends at place `p'`. -/
inductive BlockNode (D : List TagDirective) : Bool → Int → Place → Str → List EventData → Place → Str → Prop
  | empty {i : Bool} {n : Int} {p : Place} {t : Str} : BlockNode D i n p [] [emptyNode] p t
  | alias {i : Bool} {n : Int} {p : Place} {g a t : Str} (hg : Space false p.isNone g) (hd : (p.after g).deeper n) (hn : NameOk a) (he : EndsName t) :
      BlockNode D i n p (g ++ '*' :: a) [.alias a] none t
  | bare {i : Bool} {n : Int} {p : Place} {g w t : Str} {anchor tag : Option Str} (hg : Space false p.isNone g) (hd : (p.after g).deeper n)
      (hp : PropsText D w anchor tag t) : BlockNode D i n p (g ++ w) [bareNode anchor tag] none t
  | flow {i : Bool} {n : Int} {p p1 : Place} {l w t : Str} {anchor tag : Option Str} {es : List EventData} (hl : Lead D n p l anchor tag p1 (w ++ t))
      (hd : p1.deeper n) (h : FlowContent D false n w anchor tag es t) : BlockNode D i n p (l ++ w) es none t
  /-- a literal or folded scalar; `w` includes its last line break -/
  | block {i : Bool} {n : Int} {p p1 : Place} {l w t v r : Str} {folded : Bool} {c : Char} {j : Nat} {anchor tag : Option Str}
      (hl : Lead D n p l anchor tag p1 (w ++ c :: t)) (hd : p1.deeper n) (h : BlockScalar folded n (w ++ c :: t) v r) (hc : isLineBreak c = true)
      (ht : t = List.replicate j ' ' ++ r) :
      BlockNode D i n p (l ++ (w ++ [c])) [scalarEvent anchor tag v (if folded then .folded else .literal)] (some 0) t
  | seq {i : Bool} {n : Int} {p p' : Place} {c : Nat} {l w t : Str} {anchor tag : Option Str} {es : List EventData}
      (hl : Lead D n p l anchor tag (some c) (w ++ t)) (hn : n < c) (h : BlockItems D c w es p' t) (ho : Over c p' t) :
      BlockNode D i n p (l ++ w) (.sequenceStart anchor tag (untagged tag) .block :: (es ++ [.sequenceEnd])) p' t
  | map {i : Bool} {n : Int} {p p' : Place} {c : Nat} {l w t : Str} {anchor tag : Option Str} {es : List EventData}
      (hl : Lead D n p l anchor tag (some c) (w ++ t)) (hn : n < c) (h : BlockEntries D c w es p' t) (ho : Over c p' t) :
      BlockNode D i n p (l ++ w) (.mappingStart anchor tag (untagged tag) .block :: (es ++ [.mappingEnd])) p' t
  /-- a sequence in the column of the mapping it belongs to -/
  | indentless {p p' : Place} {c : Nat} {l w t : Str} {anchor tag : Option Str} {es : List EventData}
      (hl : Lead D c p l anchor tag (some c) (w ++ t)) (h : BlockItems D c w es p' t) :
      BlockNode D true c p (l ++ w) (.sequenceStart anchor tag (untagged tag) .block :: (es ++ [.sequenceEnd])) p' t
/-- The entries of a block sequence in column `c`. -/
inductive BlockItems (D : List TagDirective) : Nat → Str → List EventData → Place → Str → Prop
  | one {c : Nat} {w t : Str} {es : List EventData} {p' : Place} (he : EndsTag (w ++ t)) (h : BlockNode D false c (some (c + 1)) w es p' t) :
      BlockItems D c ('-' :: w) es p' t
  | more {c : Nat} {w g r t : Str} {es fs : List EventData} {p p' : Place} (he : EndsTag (w ++ (g ++ (r ++ t))))
      (h : BlockNode D false c (some (c + 1)) w es p (g ++ (r ++ t))) (hg : Space false p.isNone g) (hc : p.after g = some c)
      (hr : BlockItems D c r fs p' t) : BlockItems D c ('-' :: (w ++ (g ++ r))) (es ++ fs) p' t
/-- The entries of a block mapping in column `c`. -/
inductive BlockEntries (D : List TagDirective) : Nat → Str → List EventData → Place → Str → Prop
  | one {c : Nat} {w t : Str} {es : List EventData} {p' : Place} (h : BlockEntry D c w es p' t) : BlockEntries D c w es p' t
  | more {c : Nat} {w g r t : Str} {es fs : List EventData} {p p' : Place} (h : BlockEntry D c w es p (g ++ (r ++ t))) (hg : Space false p.isNone g)
      (hc : p.after g = some c) (hr : BlockEntries D c r fs p' t) : BlockEntries D c (w ++ (g ++ r)) (es ++ fs) p' t
/-- An entry: `key: value`, `? key` or `? key` and `: value` below it. -/
inductive BlockEntry (D : List TagDirective) : Nat → Str → List EventData → Place → Str → Prop
  | simple {c : Nat} {k b v t : Str} {es ds : List EventData} {p' : Place} (hk : Key D false k b (v ++ t) es) (he : EndsTag (v ++ t))
      (hv : BlockNode D true c none v ds p' t) : BlockEntry D c (k ++ (b ++ ':' :: v)) (es ++ ds) p' t
  | key {c : Nat} {k t : Str} {es : List EventData} {p' : Place} (he : EndsTag (k ++ t)) (hk : BlockNode D true c (some (c + 1)) k es p' t) :
      BlockEntry D c ('?' :: k) (es ++ [emptyNode]) p' t
  | pair {c : Nat} {k g v t : Str} {es ds : List EventData} {p p' : Place} (he : EndsTag (k ++ (g ++ ':' :: (v ++ t))))
      (hk : BlockNode D true c (some (c + 1)) k es p (g ++ ':' :: (v ++ t))) (hg : Space false p.isNone g) (hc : p.after g = some c)
      (he' : EndsTag (v ++ t)) (hv : BlockNode D true c (some (c + 1)) v ds p' t) : BlockEntry D c ('?' :: (k ++ (g ++ ':' :: v))) (es ++ ds) p' t
end

/-! ### Documents -/

/-- `DirText w ds t`: lines of directives, from the beginning of a line, each with the white space and comments behind it. -/
inductive DirText : Str → List TokenData → Str → Prop
  | none {t : Str} : DirText [] [] t
  | line {w l b g r t : Str} {d : TokenData} {c : Char} {ds : List TokenData} (hw : DirectiveText w d) (hl : LineRest l)
      (hb : BreakAt (b ++ (g ++ (r ++ t))) c (g ++ (r ++ t))) (hg : Space false false g) (h0 : (position g).column = 0) (hr : DirText r ds t) :
      DirText ('%' :: (w ++ (l ++ (b ++ (g ++ r))))) (d :: ds) t

mutual
/-- Explicit documents up to the end of the text; directives may come first where `dirs`. -/
inductive YamlDocs : Bool → Place → Str → List EventData → Prop
  | none {dirs : Bool} {p : Place} {g : Str} (hg : SpaceEnd p.isNone g) : YamlDocs dirs p g []
  | doc {dirs : Bool} {p p' : Place} {g d w r : Str} {ds : List TokenData} {v : Option VersionDirective} {tags : List TagDirective}
      {es fs : List EventData} {explicit : Bool} (hg : Space false p.isNone g) (h0 : p.after g = some 0)
      (hd : DirText d ds (cs! "---" ++ (w ++ r))) (hds : IsDirectives ds v tags) (hdirs : dirs = false → d = []) (he : EndsTag (w ++ r))
      (h : BlockNode tags false (-1) none w es p' r) (hr : YamlEnd p' explicit r fs) :
      YamlDocs dirs p (g ++ (d ++ (cs! "---" ++ (w ++ r)))) (.documentStart v tags false :: (es ++ .documentEnd (!explicit) :: fs))
/-- After the content of a document: `...` (`explicit`) or not. -/
inductive YamlEnd : Place → Bool → Str → List EventData → Prop
  | implicit {p : Place} {r : Str} {fs : List EventData} (h : YamlDocs false p r fs) : YamlEnd p false r fs
  | explicit {p : Place} {g r : Str} {fs : List EventData} (hg : Space false p.isNone g) (h0 : p.after g = some 0) (he : EndsTag r) (h : YamlMore r fs) :
      YamlEnd p true (g ++ (cs! "..." ++ r)) fs
/-- After `...`. -/
inductive YamlMore : Str → List EventData → Prop
  | docs {r : Str} {fs : List EventData} (h : YamlDocs true none r fs) : YamlMore r fs
  | again {g r : Str} {fs : List EventData} (hg : Space false true g) (h0 : Place.after none g = some 0) (he : EndsTag r) (h : YamlMore r fs) :
      YamlMore (g ++ (cs! "..." ++ r)) fs
end

/-- `YamlText T es`: the text `T` denotes the events `es` (of the documents, without start and end of the stream). -/
inductive YamlText : Str → List EventData → Prop
  | explicit {T : Str} {es : List EventData} (h : YamlDocs true (some 0) T es) : YamlText T es
  | implicit {w r : Str} {p' : Place} {es fs : List EventData} {explicit : Bool} (hne : w ≠ []) (h : BlockNode [] false (-1) (some 0) w es p' r)
      (hr : YamlEnd p' explicit r fs) : YamlText (w ++ r) (.documentStart none [] true :: (es ++ .documentEnd (!explicit) :: fs))

/-- The whole stream. -/
def yamlStream (e : Encoding) (es : List EventData) : List EventData := .streamStart e :: (es ++ [.streamEnd])

end Yaml.Spec
