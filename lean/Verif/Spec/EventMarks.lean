import Verif.Spec.Content
import Verif.Spec.Position

/-
Where the events of the parser are: their marks, in terms of the tokens they were made from.  Independent of the parser
model.
-/

namespace Yaml.Spec

/-- An anchor or a tag. -/
def IsProperty (t : Token) : Prop := (∃ a, t.data = .anchor a) ∨ ∃ h s, t.data = .tag h s

/-- A `%YAML` or `%TAG` directive. -/
def IsDirective (t : Token) : Prop := (∃ a b, t.data = .versionDirective a b) ∨ ∃ h p, t.data = .tagDirective h p

/-- The indicators (and starts of collections) that may come before a node. -/
def IsIndicator (t : Token) : Prop :=
  t.data = .blockEntry ∨ t.data = .key ∨ t.data = .value ∨ t.data = .flowEntry ∨ t.data = .blockSequenceStart ∨ t.data = .blockMappingStart ∨
    t.data = .flowSequenceStart ∨ t.data = .flowMappingStart

/-- From the start of the first of the tokens to the end of the last. -/
def Spans (e : Event) (l : List Token) : Prop :=
  (∃ t, l.head? = some t ∧ e.startMark = t.startMark) ∧ ∃ t, l.getLast? = some t ∧ e.endMark = t.endMark

/-- An empty span. -/
def Point (e : Event) (m : Mark) : Prop := e.startMark = m ∧ e.endMark = m

/-- The token that starts a collection (a `-` for a sequence in the column of its mapping). -/
def Opens (t : TokenData) : EventData → Prop
  | .sequenceStart _ _ _ .flow => t = .flowSequenceStart
  | .sequenceStart _ _ _ _ => t = .blockSequenceStart ∨ t = .blockEntry
  | .mappingStart _ _ _ .flow => t = .flowMappingStart
  | .mappingStart _ _ _ _ => t = .blockMappingStart
  | _ => False

/-- The token that ends a collection. -/
def Closes (t : TokenData) : EventData → Prop
  | .sequenceEnd => t = .blockEnd ∨ t = .flowSequenceEnd
  | .mappingEnd => t = .blockEnd ∨ t = .flowMappingEnd
  | _ => False

/-- `Placed c rest e`: the event `e`, made from the share `c` of the tokens, with the tokens `rest` to come, has the right marks. -/
inductive Placed : List Token → List Token → Event → Prop
  | streamStart {t : Token} {rest : List Token} {e : Event} {enc : Encoding} (he : e.data = .streamStart enc) (hs : Spans e [t]) : Placed [t] rest e
  | streamEnd {c0 : List Token} {t : Token} {rest : List Token} {e : Event} (he : e.data = .streamEnd) (ht : t.data = .streamEnd) (hs : Spans e [t]) :
      Placed (c0 ++ [t]) rest e
  /-- from the first directive to `---`; `...` before it do not count -/
  | documentStart {c0 ds : List Token} {t : Token} {rest : List Token} {e : Event} {v : Option VersionDirective} {tags : List TagDirective}
      (he : e.data = .documentStart v tags false) (h0 : ∀ u ∈ c0, u.data = .documentEnd) (hds : ∀ u ∈ ds, IsDirective u)
      (ht : t.data = .documentStart) (hs : Spans e (ds ++ [t])) : Placed (c0 ++ (ds ++ [t])) rest e
  /-- an implicit start has the marks of the token that follows -/
  | implicitStart {t : Token} {rest : List Token} {e : Event} (he : e.data = .documentStart none [] true) (hs : Spans e [t]) : Placed [] (t :: rest) e
  | documentEnd {t : Token} {rest : List Token} {e : Event} (he : e.data = .documentEnd false) (ht : t.data = .documentEnd) (hs : Spans e [t]) :
      Placed [t] rest e
  | implicitEnd {t : Token} {rest : List Token} {e : Event} (he : e.data = .documentEnd true) (hs : Point e t.startMark) : Placed [] (t :: rest) e
  | alias {c0 : List Token} {t : Token} {rest : List Token} {e : Event} {n : Str} (he : e.data = .alias n) (h0 : ∀ u ∈ c0, IsIndicator u)
      (ht : t.data = .alias n) (hs : Spans e [t]) : Placed (c0 ++ [t]) rest e
  /-- from the first property, if any, to the end of the scalar -/
  | scalar {c0 ps : List Token} {t : Token} {rest : List Token} {e : Event} {a tag : Option Str} {v : Str} {p q : Bool} {s : ScalarStyle}
      (he : e.data = .scalar a tag v p q s) (h0 : ∀ u ∈ c0, IsIndicator u) (hp : ∀ u ∈ ps, IsProperty u) (hn : a = none → tag = none → ps = [])
      (ht : t.data = .scalar v s)
      (hs : Spans e (ps ++ [t])) : Placed (c0 ++ (ps ++ [t])) rest e
  /-- properties without content -/
  | bare {c0 ps : List Token} {rest : List Token} {e : Event} {a tag : Option Str} {p : Bool}
      (he : e.data = .scalar a tag [] p false .plain) (h0 : ∀ u ∈ c0, IsIndicator u) (hp : ∀ u ∈ ps, IsProperty u) (hs : Spans e ps) : Placed (c0 ++ ps) rest e
  /-- from the first property, if any, to the end of the token that opens the collection -/
  | opens {c0 ps : List Token} {t : Token} {rest : List Token} {e : Event} (h0 : ∀ u ∈ c0, IsIndicator u) (hp : ∀ u ∈ ps, IsProperty u)
      (ht : Opens t.data e.data) (hs : Spans e (ps ++ [t])) : Placed (c0 ++ ps) (t :: rest) e
  /-- the mapping of a single pair in a flow sequence has the marks of its `Key` token -/
  | pair {c0 : List Token} {t : Token} {rest : List Token} {e : Event} (he : e.data = .mappingStart none none true .flow) (h0 : ∀ u ∈ c0, IsIndicator u)
      (ht : t.data = .key) (hs : Spans e [t]) : Placed (c0 ++ [t]) rest e
  | closes {c0 : List Token} {t : Token} {rest : List Token} {e : Event} (h0 : ∀ u ∈ c0, IsIndicator u) (ht : Closes t.data e.data) (hs : Spans e [t]) :
      Placed (c0 ++ [t]) rest e
  /-- collections without closing token have the marks of the token that follows -/
  | ends {t : Token} {rest : List Token} {e : Event} (he : e.data = .sequenceEnd ∨ e.data = .mappingEnd) (hs : Spans e [t]) : Placed [] (t :: rest) e
  /-- an omitted node is after the last indicator before it or before the token that follows -/
  | omittedAfter {c0 : List Token} {t : Token} {rest : List Token} {e : Event} (he : e.data = .scalar none none [] true false .plain)
      (h0 : ∀ u ∈ c0, IsIndicator u) (hs : Point e t.endMark) : Placed (c0 ++ [t]) rest e
  | omittedBefore {c0 : List Token} {t : Token} {rest : List Token} {e : Event} (he : e.data = .scalar none none [] true false .plain)
      (h0 : ∀ u ∈ c0, IsIndicator u) (hs : Point e t.startMark) : Placed c0 (t :: rest) e

/-- `Located all c evs`: the events `evs` were made from consecutive shares of the tokens `all`, `c` altogether, and have the marks that
belong to their shares. -/
inductive Located (all : List Token) : List Token → List Event → Prop
  | nil : Located all [] []
  | snoc {ts c rest : List Token} {evs : List Event} {e : Event} (h : Located all ts evs) (hs : all = ts ++ (c ++ rest)) (hp : Placed c rest e) :
      Located all (ts ++ c) (evs ++ [e])

/-- No event ends before it starts, and starts never go backwards. -/
def EventsOrdered (evs : List Event) : Prop :=
  evs.Pairwise (fun a b => le a.startMark b.startMark) ∧ ∀ e ∈ evs, le e.startMark e.endMark

/-- What a parser error says: the problem is at the start of one of the tokens `all`; the context, if any, is the start of this or an
earlier token. -/
def ErrorPlaced (all : List Token) (context : String) (contextMark problemMark : Mark) : Prop :=
  ∃ A t B, all = A ++ t :: B ∧ problemMark = t.startMark ∧
    (context = "" ∧ contextMark = ⟨0, 0, 0⟩ ∨ ∃ u ∈ A ++ [t], contextMark = u.startMark)

end Yaml.Spec
