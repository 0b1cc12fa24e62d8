import Verif.Spec.Content

/-
The YAML grammar over tokens, with the events each phrase stands for, independent of the parser
model:

  stream    ::= STREAM-START implicit-document? explicit-document* STREAM-END
  node      ::= ALIAS | properties content? | content
  content   ::= SCALAR | block sequence | block mapping | flow sequence | flow mapping
  block sequence ::= BLOCK-SEQUENCE-START (BLOCK-ENTRY node?)* BLOCK-END
  indentless     ::= (BLOCK-ENTRY node?)+
  block mapping  ::= BLOCK-MAPPING-START (KEY node? (VALUE node?)?)* BLOCK-END
  flow sequence  ::= FLOW-SEQUENCE-START (item FLOW-ENTRY)* item? FLOW-SEQUENCE-END
  flow mapping   ::= FLOW-MAPPING-START (entry FLOW-ENTRY)* entry? FLOW-MAPPING-END
-/

namespace Yaml.Spec

/-- The properties of a node (anchor and tag in either order), with their meaning in a document with
the `%TAG` directives `D`. -/
inductive IsProps (D : List TagDirective) : List TokenData → Option Str → Option Str → Prop
  | none : IsProps D [] none none
  | anchor (a : Str) : IsProps D [.anchor a] (some a) none
  | tag {h s : Str} {t : Option Str} (ht : TagIs D [(h, s)] t) : IsProps D [.tag h s] none t
  | anchorTag (a : Str) {h s : Str} {t : Option Str} (ht : TagIs D [(h, s)] t) : IsProps D [.anchor a, .tag h s] (some a) t
  | tagAnchor (a : Str) {h s : Str} {t : Option Str} (ht : TagIs D [(h, s)] t) : IsProps D [.tag h s, .anchor a] (some a) t

/-- The event of a node that is not there. -/
def emptyNode : EventData := .scalar none none [] true false .plain

/-- Whether a collection or an empty node may be taken for untagged. -/
def untagged (tag : Option Str) : Bool := decide (tag = none ∨ tag = some [])

/-- The event of a scalar. -/
def scalarEvent (anchor tag : Option Str) (value : Str) (style : ScalarStyle) : EventData :=
  .scalar anchor tag value (decide (style = .plain ∧ tag = none ∨ tag = some ['!'])) (decide (style ≠ .plain ∧ tag = none)) style

/-- The phrases of the grammar. -/
inductive Phrase where
  /-- a node; in block context block collections may stand, and `indentless` says whether a sequence
  may stand without indentation (as the key or value of a block mapping) -/
  | node (block indentless : Bool)
  /-- a node or nothing -/
  | opt (block indentless : Bool)
  /-- the entries of a block sequence -/
  | items
  /-- the entries of a block mapping -/
  | entries
  /-- one item of a flow sequence -/
  | flowItem
  /-- the items of a flow sequence, with commas -/
  | flowItems
  /-- one entry of a flow mapping -/
  | flowEntry
  /-- the entries of a flow mapping, with commas -/
  | flowEntries

/-- The tokens are a phrase that stands for the events, in a document with the `%TAG` directives
`D`.  With `lax = true` two rules are added that are not YAML but that the parser follows; with
`lax = false` this is the grammar above. -/
inductive Derives (lax : Bool) (D : List TagDirective) : Phrase → List TokenData → List EventData → Prop
  | alias {b i : Bool} (name : Str) : Derives lax D (.node b i) [.alias name] [.alias name]
  | scalar {b i : Bool} {ps : List TokenData} {anchor tag : Option Str} (hp : IsProps D ps anchor tag) (value : Str) (style : ScalarStyle) :
      Derives lax D (.node b i) (ps ++ [.scalar value style]) [scalarEvent anchor tag value style]
  /-- properties alone: an empty scalar -/
  | bare {b i : Bool} {ps : List TokenData} {anchor tag : Option Str} (hp : IsProps D ps anchor tag) (hne : ps ≠ []) :
      Derives lax D (.node b i) ps [.scalar anchor tag [] (untagged tag) false .plain]
  | blockSeq {i : Bool} {ps ts : List TokenData} {anchor tag : Option Str} {es : List EventData} (hp : IsProps D ps anchor tag)
      (h : Derives lax D .items ts es) :
      Derives lax D (.node true i) (ps ++ .blockSequenceStart :: (ts ++ [.blockEnd])) (.sequenceStart anchor tag (untagged tag) .block :: (es ++ [.sequenceEnd]))
  | indentless {ps ts : List TokenData} {anchor tag : Option Str} {es : List EventData} (hp : IsProps D ps anchor tag)
      (h : Derives lax D .items ts es) (hne : ts ≠ []) :
      Derives lax D (.node true true) (ps ++ ts) (.sequenceStart anchor tag (untagged tag) .block :: (es ++ [.sequenceEnd]))
  | blockMap {i : Bool} {ps ts : List TokenData} {anchor tag : Option Str} {es : List EventData} (hp : IsProps D ps anchor tag)
      (h : Derives lax D .entries ts es) :
      Derives lax D (.node true i) (ps ++ .blockMappingStart :: (ts ++ [.blockEnd])) (.mappingStart anchor tag (untagged tag) .block :: (es ++ [.mappingEnd]))
  | flowSeq {b i : Bool} {ps ts : List TokenData} {anchor tag : Option Str} {es : List EventData} (hp : IsProps D ps anchor tag)
      (h : Derives lax D .flowItems ts es) :
      Derives lax D (.node b i) (ps ++ .flowSequenceStart :: (ts ++ [.flowSequenceEnd])) (.sequenceStart anchor tag (untagged tag) .flow :: (es ++ [.sequenceEnd]))
  | flowMap {b i : Bool} {ps ts : List TokenData} {anchor tag : Option Str} {es : List EventData} (hp : IsProps D ps anchor tag)
      (h : Derives lax D .flowEntries ts es) :
      Derives lax D (.node b i) (ps ++ .flowMappingStart :: (ts ++ [.flowMappingEnd])) (.mappingStart anchor tag (untagged tag) .flow :: (es ++ [.mappingEnd]))
  | nothing {b i : Bool} : Derives lax D (.opt b i) [] [emptyNode]
  | some {b i : Bool} {ts : List TokenData} {es : List EventData} (h : Derives lax D (.node b i) ts es) : Derives lax D (.opt b i) ts es
  | noItems : Derives lax D .items [] []
  | item {n ts : List TokenData} {es fs : List EventData} (h : Derives lax D (.opt true false) n es) (hs : Derives lax D .items ts fs) :
      Derives lax D .items (.blockEntry :: (n ++ ts)) (es ++ fs)
  | noEntries : Derives lax D .entries [] []
  /-- a key without a value -/
  | keyOnly {k ts : List TokenData} {es fs : List EventData} (h : Derives lax D (.opt true true) k es) (hs : Derives lax D .entries ts fs) :
      Derives lax D .entries (.key :: (k ++ ts)) (es ++ emptyNode :: fs)
  | keyValue {k v ts : List TokenData} {es ds fs : List EventData} (h : Derives lax D (.opt true true) k es) (hv : Derives lax D (.opt true true) v ds)
      (hs : Derives lax D .entries ts fs) : Derives lax D .entries (.key :: (k ++ .value :: (v ++ ts))) (es ++ (ds ++ fs))
  | itemNode {ts : List TokenData} {es : List EventData} (h : Derives lax D (.node false false) ts es) : Derives lax D .flowItem ts es
  /-- a single pair `? key`; the key may not be empty here -/
  | itemKey {k : List TokenData} {es : List EventData} (h : Derives lax D (.node false false) k es) :
      Derives lax D .flowItem (.key :: k) (.mappingStart none none true .flow :: (es ++ [emptyNode, .mappingEnd]))
  /-- a single pair `? key : value` -/
  | itemPair {k v : List TokenData} {es ds : List EventData} (h : Derives lax D (.node false false) k es) (hv : Derives lax D (.opt false false) v ds) :
      Derives lax D .flowItem (.key :: (k ++ .value :: v)) (.mappingStart none none true .flow :: (es ++ (ds ++ [.mappingEnd])))
  /-- not YAML: a single pair with nothing after `?`; the next token (`:`, `,` or `]`) is dropped -/
  | itemLax (hl : lax = true) {d : TokenData} (hd : d = .value ∨ d = .flowEntry ∨ d = .flowSequenceEnd) :
      Derives lax D .flowItem [.key, d] [.mappingStart none none true .flow, emptyNode, emptyNode, .mappingEnd]
  /-- not YAML: the same, with a value -/
  | itemLaxValue (hl : lax = true) {d : TokenData} (hd : d = .value ∨ d = .flowEntry ∨ d = .flowSequenceEnd) {v : List TokenData} {ds : List EventData}
      (hv : Derives lax D (.opt false false) v ds) :
      Derives lax D .flowItem (.key :: d :: .value :: v) (.mappingStart none none true .flow :: emptyNode :: (ds ++ [.mappingEnd]))
  | noFlowItems : Derives lax D .flowItems [] []
  | lastItem {n : List TokenData} {es : List EventData} (h : Derives lax D .flowItem n es) : Derives lax D .flowItems n es
  | moreItems {n ts : List TokenData} {es fs : List EventData} (h : Derives lax D .flowItem n es) (hs : Derives lax D .flowItems ts fs) :
      Derives lax D .flowItems (n ++ .flowEntry :: ts) (es ++ fs)
  | entryNode {ts : List TokenData} {es : List EventData} (h : Derives lax D (.node false false) ts es) : Derives lax D .flowEntry ts (es ++ [emptyNode])
  | entryKey {k : List TokenData} {es : List EventData} (h : Derives lax D (.opt false false) k es) : Derives lax D .flowEntry (.key :: k) (es ++ [emptyNode])
  | entryPair {k v : List TokenData} {es ds : List EventData} (h : Derives lax D (.opt false false) k es) (hv : Derives lax D (.opt false false) v ds) :
      Derives lax D .flowEntry (.key :: (k ++ .value :: v)) (es ++ ds)
  | noFlowEntries : Derives lax D .flowEntries [] []
  | lastEntry {n : List TokenData} {es : List EventData} (h : Derives lax D .flowEntry n es) : Derives lax D .flowEntries n es
  | moreEntries {n ts : List TokenData} {es fs : List EventData} (h : Derives lax D .flowEntry n es) (hs : Derives lax D .flowEntries ts fs) :
      Derives lax D .flowEntries (n ++ .flowEntry :: ts) (es ++ fs)

/-- Directives before a document: at most one `%YAML 1.1` or `%YAML 1.2`, and `%TAG` directives. -/
inductive IsDirectives : List TokenData → Option VersionDirective → List TagDirective → Prop
  | none : IsDirectives [] none []
  | version {ts : List TokenData} {tags : List TagDirective} (h : IsDirectives ts .none tags) (minor : Int) (hm : minor = 1 ∨ minor = 2) :
      IsDirectives (.versionDirective 1 minor :: ts) (some ⟨1, minor⟩) tags
  | tag {ts : List TokenData} {v : Option VersionDirective} {tags : List TagDirective} (h : IsDirectives ts v tags) (d : TagDirective)
      (hd : ∀ e ∈ tags, e.handle ≠ d.handle) : IsDirectives (.tagDirective d.handle d.prefix_ :: ts) v (d :: tags)

/-- How a document may end: with `...`, or with nothing. -/
def docEnd (explicit : Bool) : List TokenData := if explicit then [.documentEnd] else []

/-- The documents after the first. -/
inductive DerivesDocs (lax : Bool) : List TokenData → List EventData → Prop
  | none : DerivesDocs lax [] []
  /-- a further `...` means nothing -/
  | stray {ts : List TokenData} {es : List EventData} (h : DerivesDocs lax ts es) : DerivesDocs lax (.documentEnd :: ts) es
  | doc {ds n ts : List TokenData} {v : Option VersionDirective} {tags : List TagDirective} {es fs : List EventData} (hd : IsDirectives ds v tags)
      (h : Derives lax tags (.opt true false) n es) (explicit : Bool) (hs : DerivesDocs lax ts fs) (hne : explicit = false → ts.head? ≠ Option.some .documentEnd) :
      DerivesDocs lax (ds ++ .documentStart :: (n ++ (docEnd explicit ++ ts)))
        (.documentStart v tags false :: (es ++ .documentEnd (!explicit) :: fs))

/-- A whole stream: the first document may do without `---`. -/
inductive DerivesStream (lax : Bool) : List TokenData → List EventData → Prop
  | explicit (enc : Encoding) {ts : List TokenData} {es : List EventData} (h : DerivesDocs lax ts es) (hne : ts.head? ≠ some .documentEnd) :
      DerivesStream lax (.streamStart enc :: (ts ++ [.streamEnd])) (.streamStart enc :: (es ++ [.streamEnd]))
  | implicit (enc : Encoding) {n ts : List TokenData} {es fs : List EventData} (h : Derives lax [] (.node true false) n es) (explicit : Bool)
      (hs : DerivesDocs lax ts fs) (hne : explicit = false → ts.head? ≠ some .documentEnd) :
      DerivesStream lax (.streamStart enc :: (n ++ (docEnd explicit ++ (ts ++ [.streamEnd]))))
        (.streamStart enc :: (.documentStart none [] true :: (es ++ .documentEnd (!explicit) :: (fs ++ [.streamEnd]))))

end Yaml.Spec
