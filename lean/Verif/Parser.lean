import Verif.Scanner
import Verif.Reader

/-
The parser.  Models: /repo/src/parser.rs, function by function.

The parser uses the scanner below it only through `peek`/`peek_mut`, `skip_token` and the flag
`stream_end_produced`; these are the operations `TokOp`.  `core::mem::take` on token data that
is followed immediately by `skip_token` is modelled as a plain read (the emptied token is gone);
where an error can come in between (`process_directives`) the write is modelled by `setFront`.
`states` and `marks` (`Vec` used as a stack) are lists with the top at the head.
-/

namespace Yaml

/-- Operations of the parser on the scanner. -/
inductive TokOp where
  /-- `self.scanner.peek()` / `peek_mut()` -/
  | peek
  /-- writing the token data through `peek_mut()` -/
  | setFront (d : TokenData)
  /-- `self.scanner.skip_token()` -/
  | skip
  /-- `self.scanner.stream_end_produced` -/
  | streamEnded
  /-- `parser.scanner.stream_start_produced` (used by `Document::load`) -/
  | streamStarted
deriving DecidableEq, Repr

/-- Results of the operations. -/
@[reducible] def TokOp.Ans : TokOp → Type
  | .peek => Except Err Token
  | .setFront _ => Unit
  | .skip => Unit
  | .streamEnded => Bool
  | .streamStarted => Bool

/-- `ParserState`, parser.rs lines 51-104. -/
inductive PSt where
  | streamStart
  | implicitDocumentStart
  | documentStart
  | documentContent
  | documentEnd
  | blockNode
  | blockNodeOrIndentlessSequence
  | flowNode
  | blockSequenceFirstEntry
  | blockSequenceEntry
  | indentlessSequenceEntry
  | blockMappingFirstKey
  | blockMappingKey
  | blockMappingValue
  | flowSequenceFirstEntry
  | flowSequenceEntry
  | flowSequenceEntryMappingKey
  | flowSequenceEntryMappingValue
  | flowSequenceEntryMappingEnd
  | flowMappingFirstKey
  | flowMappingKey
  | flowMappingValue
  | flowMappingEmptyValue
  | end_
deriving DecidableEq, Repr

/-- `AliasData`, parser.rs lines 106-115. -/
structure AliasData where
  anchor : Str
  index : Nat
  mark : Mark
deriving DecidableEq, Repr

/-- `ParserInner`, parser.rs lines 16-29. -/
structure PState where
  states : List PSt := []
  state : PSt := .streamStart
  marks : List Mark := []
  tagDirectives : List TagDirective := []
  aliases : List AliasData := []
deriving DecidableEq, Repr

/-- `Parser::new`, parser.rs lines 133-144. -/
def PState.new : PState := {}

/-- A parser method. -/
abbrev Pars := M TokOp TokOp.Ans PState

namespace Parser

/-- `self.scanner.peek()?` / `peek_mut()?`. -/
def peek : Pars Token := do
  match ← (M.prim TokOp.peek : Pars (Except Err Token)) with
  | .ok t => pure t
  | .error e => M.throw e

/-- `self.scanner.skip_token()`. -/
def skip : Pars Unit := M.prim TokOp.skip

/-- `self.inner.state = st`. -/
def setState (st : PSt) : Pars Unit := M.modify fun p => { p with state := st }

/-- `self.inner.states.push(st)`. -/
def pushState (st : PSt) : Pars Unit := M.modify fun p => { p with states := st :: p.states }

/-- `self.inner.state = self.inner.states.pop().unwrap()`. -/
def popState : Pars Unit := do
  match (← M.get).states with
  | [] => M.panic .statesEmpty
  | st :: rest => M.modify fun p => { p with state := st, states := rest }

/-- `self.inner.marks.push(mark)`. -/
def pushMark (m : Mark) : Pars Unit := M.modify fun p => { p with marks := m :: p.marks }

/-- `let _ = self.inner.marks.pop()`. -/
def dropMark : Pars Unit := M.modify fun p => { p with marks := p.marks.tail }

/-- `self.inner.marks.pop().unwrap()`. -/
def popMark : Pars Mark := do
  match (← M.get).marks with
  | [] => M.panic .marksEmpty
  | m :: rest => do
    M.modify fun p => { p with marks := rest }
    pure m

/-- `Error::parser(..)`, error.rs lines 89-101. -/
def parserError {α : Type} (context : String) (contextMark : Mark) (problem : String) (problemMark : Mark) :
    Pars α := M.throw (.parser context contextMark problem problemMark)

/-- `process_empty_scalar`, parser.rs lines 889-902. -/
def emptyScalar (mark : Mark) : Event := ⟨.scalar none none [] true false .plain, mark, mark⟩

/-- `append_tag_directive`, parser.rs lines 996-1017. -/
def appendTagDirective (value : TagDirective) (allowDuplicates : Bool) (mark : Mark) : Pars Unit := do
  let p ← M.get
  if p.tagDirectives.any (fun d => value.handle == d.handle) then
    if allowDuplicates then pure ()
    else parserError "" Mark.zero "found duplicate %TAG directive" mark
  else M.modify fun p => { p with tagDirectives := p.tagDirectives ++ [value] }

/-- The directive loop of `process_directives`, parser.rs lines 924-969.  The loop variables are
the `%YAML` directive and the `%TAG` directives so far; the result also carries the first token
after the directives. -/
def directiveLoop (F : Nat) :
    Pars (Option VersionDirective × List TagDirective × Token) :=
  M.loop F (fun ((version, tags) : Option VersionDirective × List TagDirective) => do
    let token ← peek
    match token.data with
    | .versionDirective major minor =>
      if version.isSome then
        parserError "" Mark.zero "found duplicate %YAML directive" token.startMark
      else if major != 1 || (minor != 1 && minor != 2) then
        parserError "" Mark.zero "found incompatible YAML document" token.startMark
      else do
        skip
        pure (.inl (some ⟨major, minor⟩, tags))
    | .tagDirective handle prefix_ => do
      (M.prim (TokOp.setFront (.tagDirective [] [])) : Pars Unit)
      appendTagDirective ⟨handle, prefix_⟩ false token.startMark
      skip
      pure (.inl (version, tags ++ [⟨handle, prefix_⟩]))
    | _ => pure (.inr (version, tags, token))) (none, [])

/-- `process_directives`, parser.rs lines 904-992; returns what it stores through its two
reference arguments. -/
def processDirectives (F : Nat) : Pars (Option VersionDirective × List TagDirective) := do
  let (version, tags, token) ← directiveLoop F
  appendTagDirective ⟨cs! "!", cs! "!"⟩ true token.startMark
  appendTagDirective ⟨cs! "!!", cs! "tag:yaml.org,2002:"⟩ true token.startMark
  pure (version, tags)

/-- `parse_stream_start`, parser.rs lines 230-253. -/
def parseStreamStart : Pars Event := do
  let token ← peek
  match token.data with
  | .streamStart encoding => do
    setState .implicitDocumentStart
    skip
    pure ⟨.streamStart encoding, token.startMark, token.endMark⟩
  | _ => parserError "" Mark.zero "did not find expected <stream-start>" token.startMark

/-- The `while let DocumentEnd` loop of `parse_document_start`, parser.rs lines 259-265. -/
def skipDocumentEnds (F : Nat) (implicit : Bool) : Pars Token :=
  if implicit then peek
  else M.loop F (fun (_ : Unit) => do
    let token ← peek
    if token.data == .documentEnd then do
      skip
      pure (.inl ())
    else pure (.inr token)) ()

/-- The tokens of the `matches!` in parser.rs lines 266-273. -/
def startsExplicitDocument : TokenData → Bool
  | .versionDirective _ _ => true
  | .tagDirective _ _ => true
  | .documentStart => true
  | .streamEnd => true
  | _ => false

/-- `parse_document_start`, parser.rs lines 255-326. -/
def parseDocumentStart (F : Nat) (implicit : Bool) : Pars Event := do
  let token ← skipDocumentEnds F implicit
  if implicit && !startsExplicitDocument token.data then do
    let _ ← processDirectives F
    pushState .documentEnd
    setState .blockNode
    pure ⟨.documentStart none [] true, token.startMark, token.endMark⟩
  else if token.data != .streamEnd then do
    let startMark := token.startMark
    let (version, tags) ← processDirectives F
    let token ← peek
    if token.data == .documentStart then do
      pushState .documentEnd
      setState .documentContent
      skip
      pure ⟨.documentStart version tags false, startMark, token.endMark⟩
    else parserError "" Mark.zero "did not find expected <document start>" token.startMark
  else do
    setState .end_
    skip
    pure ⟨.streamEnd, token.startMark, token.endMark⟩

/-- Node properties, parser.rs lines 392-420. -/
structure Props where
  anchor : Option Str
  /-- `tag_handle`, `tag_suffix` and `tag_mark` -/
  tag : Option (Str × Str × Mark)
  startMark : Mark
  endMark : Mark

/-- Anchor and tag properties in either order, parser.rs lines 392-420; `token` is the front
token. -/
def nodeProperties (token : Token) : Pars Props := do
  match token.data with
  | .anchor value => do
    skip
    let token2 ← peek
    match token2.data with
    | .tag handle suffix => do
      skip
      pure ⟨some value, some (handle, suffix, token2.startMark), token.startMark, token2.endMark⟩
    | _ => pure ⟨some value, none, token.startMark, token.endMark⟩
  | .tag handle suffix => do
    skip
    let token2 ← peek
    match token2.data with
    | .anchor value => do
      skip
      pure ⟨some value, some (handle, suffix, token.startMark), token.startMark, token2.endMark⟩
    | _ => pure ⟨none, some (handle, suffix, token.startMark), token.startMark, token.endMark⟩
  | _ => pure ⟨none, none, token.startMark, token.startMark⟩

/-- Tag resolution, parser.rs lines 422-442. -/
def resolveTag (props : Props) : Pars (Option Str) := do
  match props.tag with
  | none => pure none
  | some (handle, suffix, tagMark) =>
    if handle.isEmpty then pure (some suffix)
    else
      match (← M.get).tagDirectives.find? (fun d => d.handle == handle) with
      | some d => pure (some (d.prefix_ ++ suffix))
      | none => parserError "while parsing a node" props.startMark "found undefined tag handle" tagMark

/-- The content part of `parse_node`, parser.rs lines 444-568. -/
def nodeContent (block indentlessSequence : Bool) (props : Props) (tag : Option Str) : Pars Event := do
  let token ← peek
  let implicit := tag.isNone || tag == some []
  let anchor := props.anchor
  let startMark := props.startMark
  if indentlessSequence && token.data == .blockEntry then do
    setState .indentlessSequenceEntry
    pure ⟨.sequenceStart anchor tag implicit .block, startMark, token.endMark⟩
  else match token.data with
    | .scalar value style => do
      let plainImplicit := (style == .plain && tag.isNone) || tag == some (cs! "!")
      let quotedImplicit := !plainImplicit && tag.isNone
      popState
      skip
      pure ⟨.scalar anchor tag value plainImplicit quotedImplicit style, startMark, token.endMark⟩
    | .flowSequenceStart => do
      setState .flowSequenceFirstEntry
      pure ⟨.sequenceStart anchor tag implicit .flow, startMark, token.endMark⟩
    | .flowMappingStart => do
      setState .flowMappingFirstKey
      pure ⟨.mappingStart anchor tag implicit .flow, startMark, token.endMark⟩
    | d =>
      if block && d == .blockSequenceStart then do
        setState .blockSequenceFirstEntry
        pure ⟨.sequenceStart anchor tag implicit .block, startMark, token.endMark⟩
      else if block && d == .blockMappingStart then do
        setState .blockMappingFirstKey
        pure ⟨.mappingStart anchor tag implicit .block, startMark, token.endMark⟩
      else if anchor.isSome || tag.isSome then do
        popState
        pure ⟨.scalar anchor tag [] implicit false .plain, startMark, props.endMark⟩
      else
        parserError (if block then "while parsing a block node" else "while parsing a flow node")
          startMark "did not find expected node content" token.startMark

/-- `parse_node`, parser.rs lines 364-569. -/
def parseNode (block indentlessSequence : Bool) : Pars Event := do
  let token ← peek
  match token.data with
  | .alias value => do
    popState
    skip
    pure ⟨.alias value, token.startMark, token.endMark⟩
  | _ => do
    let props ← nodeProperties token
    let tag ← resolveTag props
    nodeContent block indentlessSequence props tag

/-- The tokens of the `if let` in parser.rs lines 330-334. -/
def endsDocumentContent : TokenData → Bool
  | .versionDirective _ _ => true
  | .tagDirective _ _ => true
  | .documentStart => true
  | .documentEnd => true
  | .streamEnd => true
  | _ => false

/-- `parse_document_content`, parser.rs lines 328-342. -/
def parseDocumentContent : Pars Event := do
  let token ← peek
  if endsDocumentContent token.data then do
    popState
    pure (emptyScalar token.startMark)
  else parseNode true false

/-- `parse_document_end`, parser.rs lines 344-362. -/
def parseDocumentEnd : Pars Event := do
  let token ← peek
  let explicit := token.data == .documentEnd
  M.when explicit skip
  M.modify fun p => { p with tagDirectives := [] }
  setState .documentStart
  pure ⟨.documentEnd (!explicit), token.startMark, if explicit then token.endMark else token.startMark⟩

/-- The `if first { .. }` prefix of the collection functions, parser.rs lines 572-577, 643-648,
711-716, 816-821. -/
def enterCollection (first : Bool) : Pars Unit :=
  M.when first (do
    let token ← peek
    pushMark token.startMark
    skip)

/-- The end of a collection: pop the state and the mark, skip the token (parser.rs lines 593-601,
666-674, 754-762, 858-866). -/
def leaveCollection (data : EventData) (token : Token) : Pars Event := do
  popState
  dropMark
  skip
  pure ⟨data, token.startMark, token.endMark⟩

/-- `parse_block_sequence_entry`, parser.rs lines 571-612. -/
def parseBlockSequenceEntry (first : Bool) : Pars Event := do
  enterCollection first
  let token ← peek
  match token.data with
  | .blockEntry => do
    let mark := token.endMark
    skip
    let token ← peek
    if token.data == .blockEntry || token.data == .blockEnd then do
      setState .blockSequenceEntry
      pure (emptyScalar mark)
    else do
      pushState .blockSequenceEntry
      parseNode true false
  | .blockEnd => leaveCollection .sequenceEnd token
  | _ => do
    let mark ← popMark
    parserError "while parsing a block collection" mark "did not find expected '-' indicator"
      token.startMark

/-- `parse_indentless_sequence_entry`, parser.rs lines 614-640. -/
def parseIndentlessSequenceEntry : Pars Event := do
  let token ← peek
  if token.data == .blockEntry then do
    let mark := token.endMark
    skip
    let token ← peek
    if token.data == .blockEntry || token.data == .key || token.data == .value
        || token.data == .blockEnd then do
      setState .indentlessSequenceEntry
      pure (emptyScalar mark)
    else do
      pushState .indentlessSequenceEntry
      parseNode true false
  else do
    popState
    pure ⟨.sequenceEnd, token.startMark, token.endMark⟩

/-- `parse_block_mapping_key`, parser.rs lines 642-685. -/
def parseBlockMappingKey (first : Bool) : Pars Event := do
  enterCollection first
  let token ← peek
  match token.data with
  | .key => do
    let mark := token.endMark
    skip
    let token ← peek
    if token.data == .key || token.data == .value || token.data == .blockEnd then do
      setState .blockMappingValue
      pure (emptyScalar mark)
    else do
      pushState .blockMappingValue
      parseNode true true
  | .blockEnd => leaveCollection .mappingEnd token
  | _ => do
    let mark ← popMark
    parserError "while parsing a block mapping" mark "did not find expected key" token.startMark

/-- `parse_block_mapping_value`, parser.rs lines 687-708. -/
def parseBlockMappingValue : Pars Event := do
  let token ← peek
  if token.data == .value then do
    let mark := token.endMark
    skip
    let token ← peek
    if token.data == .key || token.data == .value || token.data == .blockEnd then do
      setState .blockMappingKey
      pure (emptyScalar mark)
    else do
      pushState .blockMappingKey
      parseNode true true
  else do
    setState .blockMappingKey
    pure (emptyScalar token.startMark)

/-- The separator handling of the flow collections, parser.rs lines 720-734 and 825-839: unless
`first`, the front token must be a `FlowEntry`; returns the front token afterwards. -/
def flowSeparator (first : Bool) (token : Token) (context problem : String) : Pars Token := do
  if first then pure token
  else if token.data == .flowEntry then do
    skip
    peek
  else do
    let mark ← popMark
    parserError context mark problem token.startMark

/-- `parse_flow_sequence_entry`, parser.rs lines 710-763. -/
def parseFlowSequenceEntry (first : Bool) : Pars Event := do
  enterCollection first
  let token ← peek
  if token.data == .flowSequenceEnd then leaveCollection .sequenceEnd token
  else do
    let token ← flowSeparator first token "while parsing a flow sequence"
      "did not find expected ',' or ']'"
    if token.data == .key then do
      setState .flowSequenceEntryMappingKey
      skip
      pure ⟨.mappingStart none none true .flow, token.startMark, token.endMark⟩
    else if token.data == .flowSequenceEnd then leaveCollection .sequenceEnd token
    else do
      pushState .flowSequenceEntry
      parseNode false false

/-- `parse_flow_sequence_entry_mapping_key`, parser.rs lines 765-781. -/
def parseFlowSequenceEntryMappingKey : Pars Event := do
  let token ← peek
  if token.data == .value || token.data == .flowEntry || token.data == .flowSequenceEnd then do
    let mark := token.endMark
    skip
    setState .flowSequenceEntryMappingValue
    pure (emptyScalar mark)
  else do
    pushState .flowSequenceEntryMappingValue
    parseNode false false

/-- `parse_flow_sequence_entry_mapping_value`, parser.rs lines 783-801. -/
def parseFlowSequenceEntryMappingValue : Pars Event := do
  let token ← peek
  if token.data == .value then do
    skip
    let token ← peek
    if token.data == .flowEntry || token.data == .flowSequenceEnd then do
      setState .flowSequenceEntryMappingEnd
      pure (emptyScalar token.startMark)
    else do
      pushState .flowSequenceEntryMappingEnd
      parseNode false false
  else do
    setState .flowSequenceEntryMappingEnd
    pure (emptyScalar token.startMark)

/-- `parse_flow_sequence_entry_mapping_end`, parser.rs lines 803-813. -/
def parseFlowSequenceEntryMappingEnd : Pars Event := do
  let token ← peek
  setState .flowSequenceEntry
  pure ⟨.mappingEnd, token.startMark, token.endMark⟩

/-- `parse_flow_mapping_key`, parser.rs lines 815-867. -/
def parseFlowMappingKey (first : Bool) : Pars Event := do
  enterCollection first
  let token ← peek
  if token.data == .flowMappingEnd then leaveCollection .mappingEnd token
  else do
    let token ← flowSeparator first token "while parsing a flow mapping"
      "did not find expected ',' or '}'"
    if token.data == .key then do
      skip
      let token ← peek
      if token.data == .value || token.data == .flowEntry || token.data == .flowMappingEnd then do
        setState .flowMappingValue
        pure (emptyScalar token.startMark)
      else do
        pushState .flowMappingValue
        parseNode false false
    else if token.data == .flowMappingEnd then leaveCollection .mappingEnd token
    else do
      pushState .flowMappingEmptyValue
      parseNode false false

/-- `parse_flow_mapping_value`, parser.rs lines 869-887. -/
def parseFlowMappingValue (empty : Bool) : Pars Event := do
  let token ← peek
  if empty then do
    setState .flowMappingKey
    pure (emptyScalar token.startMark)
  else if token.data == .value then do
    skip
    let token ← peek
    if token.data == .flowEntry || token.data == .flowMappingEnd then do
      setState .flowMappingKey
      pure (emptyScalar token.startMark)
    else do
      pushState .flowMappingKey
      parseNode false false
  else do
    setState .flowMappingKey
    pure (emptyScalar token.startMark)

/-- `state_machine`, parser.rs lines 195-228. -/
def stateMachine (F : Nat) : PSt → Pars Event
  | .streamStart => parseStreamStart
  | .implicitDocumentStart => parseDocumentStart F true
  | .documentStart => parseDocumentStart F false
  | .documentContent => parseDocumentContent
  | .documentEnd => parseDocumentEnd
  | .blockNode => parseNode true false
  | .blockNodeOrIndentlessSequence => parseNode true true
  | .flowNode => parseNode false false
  | .blockSequenceFirstEntry => parseBlockSequenceEntry true
  | .blockSequenceEntry => parseBlockSequenceEntry false
  | .indentlessSequenceEntry => parseIndentlessSequenceEntry
  | .blockMappingFirstKey => parseBlockMappingKey true
  | .blockMappingKey => parseBlockMappingKey false
  | .blockMappingValue => parseBlockMappingValue
  | .flowSequenceFirstEntry => parseFlowSequenceEntry true
  | .flowSequenceEntry => parseFlowSequenceEntry false
  | .flowSequenceEntryMappingKey => parseFlowSequenceEntryMappingKey
  | .flowSequenceEntryMappingValue => parseFlowSequenceEntryMappingValue
  | .flowSequenceEntryMappingEnd => parseFlowSequenceEntryMappingEnd
  | .flowMappingFirstKey => parseFlowMappingKey true
  | .flowMappingKey => parseFlowMappingKey false
  | .flowMappingValue => parseFlowMappingValue false
  | .flowMappingEmptyValue => parseFlowMappingValue true
  | .end_ => M.panic .parserEndState

/-- `Parser::parse`, parser.rs lines 188-193. -/
def parse (F : Nat) : Pars Event := do
  let ended ← (M.prim TokOp.streamEnded : Pars Bool)
  let p ← M.get
  if ended || p.state == .end_ then pure (Event.new .streamEnd)
  else stateMachine F p.state

/-- `Iterator::next` for `Parser`, parser.rs lines 120-126. -/
def next (F : Nat) : Pars (Option (Except Err Event)) := do
  let ended ← (M.prim TokOp.streamEnded : Pars Bool)
  let p ← M.get
  if ended || p.state == .end_ then pure none
  else do pure (some (← M.catchErr (parse F)))

/-- `Parser::reset` (the `ParserInner` part), parser.rs lines 147-156. -/
def reset (_ : PState) : PState where
  states := []
  state := .streamStart
  marks := []
  tagDirectives := []
  aliases := []

/-- The parser's token operations carried out by the scanner: what `self.scanner.peek()` etc. do.
The result is a program over the scanner's own input operations.  A scanner panic ends the
program; the parser state reported with it (`p0`) is then meaningless. -/
def handle {β : Type} (F : Nat) (p0 : PState) : Free TokOp TokOp.Ans (Out β × PState) → SState →
    Free CharOp CharOp.Ans (Out β × (PState × SState))
  | .ret (o, p), s => .ret (o, (p, s))
  | .op .peek k, s => (Scanner.peek F s).bind fun
      | (.ok t, s') => handle F p0 (k (.ok t)) s'
      | (.err e, s') => handle F p0 (k (.error e)) s'
      | (.panic x, s') => .ret (.panic x, (p0, s'))
      | (.fuel, s') => .ret (.fuel, (p0, s'))
  | .op (.setFront d) k, s => (Scanner.setFront d s).bind fun r => handle F p0 (k ()) r.2
  | .op .skip k, s => (Scanner.skipToken s).bind fun
      | (.ok _, s') => handle F p0 (k ()) s'
      | (.err e, s') => .ret (.err e, (p0, s'))
      | (.panic x, s') => .ret (.panic x, (p0, s'))
      | (.fuel, s') => .ret (.fuel, (p0, s'))
  | .op .streamEnded k, s => handle F p0 (k s.streamEndProduced) s
  | .op .streamStarted k, s => handle F p0 (k s.streamStartProduced) s

/-- A parser method as a program on the whole `Parser` object (`inner` and `scanner`). -/
def onScanner {β : Type} (F : Nat) (m : Pars β) : M CharOp CharOp.Ans (PState × SState) β :=
  fun ps => handle F ps.1 (m ps.1) ps.2

end Parser
end Yaml
