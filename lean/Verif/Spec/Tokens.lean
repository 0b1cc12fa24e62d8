import Verif.Spec.Position

/-
Specification of token streams, independent of the scanner model.
-/

namespace Yaml.Spec

/-- `BlockSequenceStart` or `BlockMappingStart`. -/
def isBlockStart (t : Token) : Bool := t.data = .blockSequenceStart || t.data = .blockMappingStart
/-- `BlockEnd`. -/
def isBlockEnd (t : Token) : Bool := t.data = .blockEnd
/-- `StreamStart`. -/
def isStreamStart (t : Token) : Bool :=
  match t.data with
  | .streamStart _ => true
  | _ => false
/-- `StreamEnd`. -/
def isStreamEnd (t : Token) : Bool := t.data = .streamEnd
/-- `FlowSequenceStart` or `FlowMappingStart`. -/
def isFlowStart (t : Token) : Bool := t.data = .flowSequenceStart || t.data = .flowMappingStart
/-- `FlowSequenceEnd` or `FlowMappingEnd`. -/
def isFlowEnd (t : Token) : Bool := t.data = .flowSequenceEnd || t.data = .flowMappingEnd

/-- Number of flow collections open after the tokens (an end without a start counts as nothing). -/
def flowDepth (ts : List Token) : Nat :=
  ts.foldl (fun n t => if isFlowStart t then n + 1 else if isFlowEnd t then n - 1 else n) 0

/-- The block tokens of a prefix never close more than was opened. -/
def BlocksNest (ts : List Token) : Prop :=
  ∀ pre post, ts = pre ++ post → pre.countP isBlockEnd ≤ pre.countP isBlockStart

/-- Start marks never go backwards, and no token ends before it starts. -/
def MarksOrdered (ts : List Token) : Prop :=
  ts.Pairwise (fun a b => le a.startMark b.startMark) ∧ ∀ t ∈ ts, le t.startMark t.endMark

/-- All marks are positions in the text. -/
def MarksIn (T : List Char) (ts : List Token) : Prop :=
  ∀ t ∈ ts, IsMark T t.startMark ∧ IsMark T t.endMark

/-- A `Key` token of width zero (the scanner inserted it before a token that turned out to be a
key; a `Key` token for `'?'` has width one) is followed by a `Value` token on the same line and
at most 1024 bytes further. -/
def ImplicitKeysOk (ts : List Token) : Prop :=
  ∀ pre k post, ts = pre ++ k :: post → k.data = .key → k.startMark = k.endMark →
    ∃ v ∈ post, v.data = .value ∧ v.startMark.line = k.startMark.line ∧
      v.startMark.index ≤ k.startMark.index + 1024

/-- `StreamStart` is first and only first. -/
def StartsOnce (ts : List Token) : Prop :=
  ∀ pre t post, ts = pre ++ t :: post → (isStreamStart t = true ↔ pre = [])

/-- Nothing follows a `StreamEnd`. -/
def EndsOnce (ts : List Token) : Prop := ∀ t ∈ ts.dropLast, isStreamEnd t = false

end Yaml.Spec
