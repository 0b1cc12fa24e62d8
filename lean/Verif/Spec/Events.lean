import Verif.Basic

/-
The YAML event grammar, independent of the parser and emitter models:

  stream   ::= StreamStart document* StreamEnd
  document ::= DocumentStart node DocumentEnd
  node     ::= Alias | Scalar | SequenceStart node* SequenceEnd | MappingStart (node node)* MappingEnd
-/

namespace Yaml.Spec

mutual
/-- The events of one node. -/
inductive IsNode : List EventData → Prop
  | alias (anchor : Str) : IsNode [.alias anchor]
  | scalar (anchor tag : Option Str) (value : Str) (plainImplicit quotedImplicit : Bool) (style : ScalarStyle) :
      IsNode [.scalar anchor tag value plainImplicit quotedImplicit style]
  | sequence (anchor tag : Option Str) (implicit : Bool) (style : CollStyle) {ns : List EventData} (h : IsNodes ns) :
      IsNode (.sequenceStart anchor tag implicit style :: ns ++ [.sequenceEnd])
  | mapping (anchor tag : Option Str) (implicit : Bool) (style : CollStyle) {ps : List EventData} (h : IsPairs ps) :
      IsNode (.mappingStart anchor tag implicit style :: ps ++ [.mappingEnd])
/-- `node*` -/
inductive IsNodes : List EventData → Prop
  | nil : IsNodes []
  | cons {n ns : List EventData} (h : IsNode n) (hs : IsNodes ns) : IsNodes (n ++ ns)
/-- `(node node)*` -/
inductive IsPairs : List EventData → Prop
  | nil : IsPairs []
  | cons {k v ps : List EventData} (hk : IsNode k) (hv : IsNode v) (hs : IsPairs ps) : IsPairs (k ++ v ++ ps)
end

/-- `document*` -/
inductive IsDocuments : List EventData → Prop
  | nil : IsDocuments []
  | cons (version : Option VersionDirective) (tags : List TagDirective) (i j : Bool) {n ds : List EventData} (h : IsNode n)
      (hs : IsDocuments ds) : IsDocuments (.documentStart version tags i :: n ++ .documentEnd j :: ds)

/-- The events of a whole stream. -/
inductive IsStream : List EventData → Prop
  | mk (e : Encoding) {ds : List EventData} (h : IsDocuments ds) : IsStream (.streamStart e :: ds ++ [.streamEnd])

/-- The beginning of a stream. -/
def IsStreamPrefix (evs : List EventData) : Prop := ∃ rest, IsStream (evs ++ rest)

end Yaml.Spec
