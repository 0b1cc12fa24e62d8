import Verif.Chars
import Verif.Prog
import Verif.Utf

/-
The emitter.  Models: /repo/src/emitter.rs (all of it).

The emitter's fields are split in two: `EState` holds everything except the output buffer, the
raw buffer and the writer, which form the `Sink`.  Emitter functions are written against the
four primitive operations of `EmitOp`; `Sink.exec` below is what they do to the real buffers and
writer.  Stacks (`states`, `indents`) are lists with the top at the head.  `i32` counters are
unbounded integers.
-/

namespace Yaml

/-- `EmitterState`, emitter.rs lines 87-128. -/
inductive EmSt where
  | streamStart
  | firstDocumentStart
  | documentStart
  | documentContent
  | documentEnd
  | flowSequenceFirstItem
  | flowSequenceItem
  | flowMappingFirstKey
  | flowMappingKey
  | flowMappingSimpleValue
  | flowMappingValue
  | blockSequenceFirstItem
  | blockSequenceItem
  | blockMappingFirstKey
  | blockMappingKey
  | blockMappingSimpleValue
  | blockMappingValue
  | end_
deriving DecidableEq, Repr

/-- `Anchors`, emitter.rs lines 130-138. -/
structure Anchors where
  references : Int := 0
  anchor : Int := 0
  serialized : Bool := false
deriving DecidableEq, Repr

/-- The fields of `Emitter` except `write_handler`, `buffer`, `raw_buffer` and those of `Book`,
emitter.rs lines 16-79. -/
structure EState where
  encoding : Encoding
  canonical : Bool
  bestIndent : Int
  bestWidth : Int
  unicode : Bool
  lineBreak : Break
  states : List EmSt
  state : EmSt
  events : List Event
  indents : List Int
  tagDirectives : List TagDirective
  indent : Int
  flowLevel : Int
  rootContext : Bool
  sequenceContext : Bool
  mappingContext : Bool
  simpleKeyContext : Bool
  line : Int
  column : Int
  whitespace : Bool
  indention : Bool
  openEnded : Int
deriving DecidableEq, Repr

/-- The fields of `Emitter` that only `open`, `close` and `Document::dump` use, emitter.rs lines 71-80. -/
structure Book where
  opened : Bool := false
  closed : Bool := false
  anchors : List Anchors := []
  lastAnchorId : Int := 0
deriving DecidableEq, Repr

/-- `OUTPUT_BUFFER_SIZE`, lib.rs line 48. -/
def outputBufferSize : Nat := 16384

/-- What the emitter does to its output. -/
inductive EmitOp where
  /-- `flush_if_needed` -/
  | fin (encoding : Encoding)
  /-- the check at the start of `write_str` for `n` more bytes -/
  | room (n : Nat) (encoding : Encoding)
  /-- `flush` -/
  | flush (encoding : Encoding)
  /-- `self.buffer.push(c)` -/
  | push (c : Char)

/-- Answers: flushing can fail with the writer's error or panic. -/
def EmitAns : EmitOp → Type
  | .fin _ => Out Unit
  | .room _ _ => Out Unit
  | .flush _ => Out Unit
  | .push _ => Unit

/-- A writer (`&mut dyn Write`): the bytes it has accepted, and what its next `write_all` calls
will do.  `none`: accept everything; `some (k, e)`: accept at most `k` bytes, then fail with `e`.
After the script every call succeeds. -/
structure Writer where
  bytes : List UInt8
  script : List (Option (Nat × IoKind))
deriving DecidableEq, Repr

/-- `Write::write_all` on such a writer. -/
def Writer.writeAll (w : Writer) (bs : List UInt8) : Out Unit × Writer :=
  match w.script with
  | some (k, e) :: script => (.err (.io e), ⟨w.bytes ++ bs.take k, script⟩)
  | none :: script => (.ok (), ⟨w.bytes ++ bs, script⟩)
  | [] => (.ok (), ⟨w.bytes ++ bs, []⟩)

/-- The output half of `Emitter`: `write_handler`, `buffer`, `raw_buffer`, emitter.rs lines 17-27. -/
structure Sink where
  handler : Option Writer
  buffer : Str
  raw : List UInt8
deriving DecidableEq, Repr

namespace Sink

/-- `flush`, emitter.rs lines 1768-1812.  When a UTF-16 write fails neither buffer is cleared. -/
def flush (enc : Encoding) (k : Sink) : Out Unit × Sink :=
  match k.handler with
  | none => (.panic .noWriteHandler, k)
  | some w =>
    if enc = .any then (.panic .noEncoding, k)
    else if k.buffer.isEmpty then (.ok (), k)
    else if enc = .utf8 then
      match w.writeAll (utf8Encode k.buffer) with
      | (.ok _, w) => (.ok (), { k with handler := some w, buffer := [] })
      | (o, w) => (o, { k with handler := some w })
    else
      let raw := k.raw ++ utf16Encode (enc == .utf16be) k.buffer
      match w.writeAll raw with
      | (.ok _, w) => (.ok (), { handler := some w, buffer := [], raw := [] })
      | (o, w) => (o, { k with handler := some w, raw := raw })

/-- `flush_if_needed`, emitter.rs lines 320-326. -/
def flushIfNeeded (enc : Encoding) (k : Sink) : Out Unit × Sink :=
  if strLen k.buffer < outputBufferSize - 5 then (.ok (), k) else k.flush enc

/-- Performing one operation on the real buffers. -/
def step : (o : EmitOp) → Sink → EmitAns o × Sink
  | .fin enc, k => k.flushIfNeeded enc
  | .room n enc, k => if strLen k.buffer + n > outputBufferSize then k.flush enc else (.ok (), k)
  | .flush enc, k => k.flush enc
  | .push c, k => ((), { k with buffer := k.buffer ++ [c] })

/-- Running a program on the real buffers. -/
def exec {α : Type} : Free EmitOp EmitAns α → Sink → α × Sink
  | .ret a, k => (a, k)
  | .op o f, k => exec (f (step o k).1) (step o k).2

end Sink

/-- A method of the emitter. -/
abbrev Emit (α : Type) : Type := M EmitOp EmitAns EState α

/-- Turn an answer into the outcome of the calling method. -/
def M.ofOut {Op : Type} {Ans : Op → Type} {S α : Type} (o : Out α) : M Op Ans S α :=
  fun s => .ret (o, s)

namespace Emitter

/-- `Emitter::new`, emitter.rs lines 177-209. -/
def newState : EState where
  encoding := .any
  canonical := false
  bestIndent := 0
  bestWidth := 0
  unicode := false
  lineBreak := .any
  states := []
  state := .streamStart
  events := []
  indents := []
  tagDirectives := []
  indent := 0
  flowLevel := 0
  rootContext := false
  sequenceContext := false
  mappingContext := false
  simpleKeyContext := false
  line := 0
  column := 0
  whitespace := false
  indention := false
  openEnded := 0

/-- The output half of `Emitter::new`. -/
def newSink : Sink := ⟨none, [], []⟩

/-- `reset`, emitter.rs lines 212-214. -/
def reset (_ : EState × Sink) : EState × Sink := (newState, newSink)

/-! ### Settings, emitter.rs lines 244-295 -/

/-- `set_encoding`, emitter.rs lines 265-268. -/
def setEncoding (enc : Encoding) (s : EState) : Out Unit × EState :=
  if s.encoding = .any then (.ok (), { s with encoding := enc }) else (.panic .setEncodingTwice, s)

/-- `set_output`, emitter.rs lines 259-262. -/
def setOutput (w : Writer) (p : EState × Sink) : Out Unit × (EState × Sink) :=
  if p.2.handler.isSome then (.panic .outputAlreadySet, p)
  else (.ok (), (p.1, { p.2 with handler := some w }))

/-- `set_output_string`, emitter.rs lines 247-256 (the output vector is cleared first). -/
def setOutputString (p : EState × Sink) : Out Unit × (EState × Sink) :=
  if p.2.handler.isSome then (.panic .outputAlreadySet, p)
  else if p.1.encoding = .any then
    (.ok (), ({ p.1 with encoding := .utf8 }, { p.2 with handler := some ⟨[], []⟩ }))
  else if p.1.encoding ≠ .utf8 then (.panic .stringOutputUtf16, p)
  else (.ok (), (p.1, { p.2 with handler := some ⟨[], []⟩ }))

/-- `set_canonical`, emitter.rs lines 272-274. -/
def setCanonical (b : Bool) (s : EState) : EState := { s with canonical := b }
/-- `set_indent`, emitter.rs lines 277-279. -/
def setIndent (i : Int) (s : EState) : EState :=
  { s with bestIndent := if 1 < i ∧ i < 10 then i else 2 }
/-- `set_width`, emitter.rs lines 282-284. -/
def setWidth (w : Int) (s : EState) : EState := { s with bestWidth := if w ≥ 0 then w else -1 }
/-- `set_unicode`, emitter.rs lines 287-289. -/
def setUnicode (b : Bool) (s : EState) : EState := { s with unicode := b }
/-- `set_break`, emitter.rs lines 292-294. -/
def setBreak (b : Break) (s : EState) : EState := { s with lineBreak := b }

/-! ### Writing primitives -/

/-- `Error::emitter`, error.rs lines 117-120. -/
def emitterError {α : Type} (problem : String) : Emit α := M.throw (.emitter problem)

/-- `flush_if_needed`, emitter.rs lines 320-326 (see `Sink.flushIfNeeded`). -/
def flushIfNeeded : Emit Unit := do
  let s ← M.get
  let o ← M.prim (EmitOp.fin s.encoding)
  M.ofOut o

/-- `flush`, emitter.rs lines 1768-1812 (see `Sink.flush`). -/
def flush : Emit Unit := do
  let s ← M.get
  let o ← M.prim (EmitOp.flush s.encoding)
  M.ofOut o

/-- `self.buffer.push(c)`. -/
def push (c : Char) : Emit Unit := M.prim (EmitOp.push c)

/-- `self.buffer.push_str(s)`. -/
def pushAll : Str → Emit Unit
  | [] => pure ()
  | c :: cs => do push c; pushAll cs

/-- `self.column += n`. -/
def addColumn (n : Int) : Emit Unit := M.modify fun s => { s with column := s.column + n }

/-- `put`, emitter.rs lines 329-334. -/
def put (c : Char) : Emit Unit := do
  flushIfNeeded
  push c
  addColumn 1

/-- The characters of a line break in the chosen style, emitter.rs lines 339-345. -/
def breakChars : Break → Str
  | .cr => ['\r']
  | .ln => ['\n']
  | .crln => ['\r', '\n']
  | .any => []

/-- `self.column = 0; self.line += 1;`. -/
def nextLine : Emit Unit := M.modify fun s => { s with column := 0, line := s.line + 1 }

/-- `put_break`, emitter.rs lines 337-349. -/
def putBreak : Emit Unit := do
  flushIfNeeded
  let s ← M.get
  pushAll (breakChars s.lineBreak)
  nextLine

/-- `write_str`, emitter.rs lines 354-371. -/
def writeStr (str : Str) : Emit Unit := do
  let s ← M.get
  let o ← M.prim (EmitOp.room (strLen str) s.encoding)
  M.ofOut o
  addColumn str.length
  pushAll str

/-- `write_char`, emitter.rs lines 374-379. -/
def writeChar (c : Char) : Emit Unit := do
  flushIfNeeded
  push c
  addColumn 1

/-- `write_break`, emitter.rs lines 382-392. -/
def writeBreak (c : Char) : Emit Unit := do
  flushIfNeeded
  if c == '\n' then putBreak
  else do
    writeChar c
    nextLine

/-- `self.whitespace = w; self.indention = i`. -/
def setWI (w i : Bool) : Emit Unit := M.modify fun s => { s with whitespace := w, indention := i }

/-- `self.indention = i`. -/
def setIndention (i : Bool) : Emit Unit := M.modify fun s => { s with indention := i }

/-- `write_bom`, emitter.rs lines 1361-1365. -/
def writeBom : Emit Unit := do
  flushIfNeeded
  push '\uFEFF'

/-- `n` times `put(' ')`. -/
def putSpaces : Nat → Emit Unit
  | 0 => pure ()
  | n + 1 => do put ' '; putSpaces n

/-- `write_indent`, emitter.rs lines 1367-1378.  The loop `while self.column < indent` runs
`indent - column` times because each `put` moves the column by one. -/
def writeIndent : Emit Unit := do
  let s ← M.get
  let indent := if s.indent ≥ 0 then s.indent else 0
  M.when (!s.indention || decide (s.column > indent) || (decide (s.column = indent) && !s.whitespace))
    putBreak
  let s ← M.get
  putSpaces (indent - s.column).toNat
  setWI true true

/-- `write_indicator`, emitter.rs lines 1380-1394. -/
def writeIndicator (indicator : Str) (needWhitespace isWhitespace isIndention : Bool) : Emit Unit := do
  let s ← M.get
  M.when (needWhitespace && !s.whitespace) (put ' ')
  writeStr indicator
  M.modify fun s => { s with whitespace := isWhitespace, indention := s.indention && isIndention }

/-- `write_anchor`, emitter.rs lines 1396-1401. -/
def writeAnchor (value : Str) : Emit Unit := do
  writeStr value
  setWI false false

/-- `write_tag_handle`, emitter.rs lines 1403-1411. -/
def writeTagHandle (value : Str) : Emit Unit := do
  let s ← M.get
  M.when (!s.whitespace) (put ' ')
  writeStr value
  setWI false false

/-- `char::from_digit(n, 16).to_ascii_uppercase()` for `n < 16`. -/
def hexUpper (n : Nat) : Char :=
  if n < 10 then Char.ofNat (n + 48) else Char.ofNat (n - 10 + 65)

/-- The punctuation `write_tag_content` copies, emitter.rs lines 1424-1430. -/
def isTagPunct (c : Char) : Bool :=
  (cs! ";/?:@&=+$,_.~*'()[]").contains c

/-- `put` each character. -/
def putAll : Str → Emit Unit
  | [] => pure ()
  | c :: cs => do put c; putAll cs

/-- The URI escape of one byte, emitter.rs lines 1436-1445. -/
def uriEscape (b : UInt8) : Str := ['%', hexUpper (b.toNat / 16), hexUpper (b.toNat % 16)]

/-- The character loop of `write_tag_content`, emitter.rs lines 1418-1447. -/
def tagContentLoop : Str → Emit Unit
  | [] => pure ()
  | c :: cs => do
    if isAlpha c || isTagPunct c then writeChar c
    else putAll ((utf8Bytes c).flatMap uriEscape)
    tagContentLoop cs

/-- `write_tag_content`, emitter.rs lines 1413-1452. -/
def writeTagContent (value : Str) (needWhitespace : Bool) : Emit Unit := do
  let s ← M.get
  M.when (needWhitespace && !s.whitespace) (put ' ')
  tagContentLoop value
  setWI false false

/-! ### Scalars -/

/-- The loop of `write_plain_scalar`, emitter.rs lines 1463-1488. -/
def plainLoop (allowBreaks : Bool) : Str → Bool → Bool → Emit Unit
  | [], _, _ => pure ()
  | c :: cs, spaces, breaks => do
    if isSpace c then do
      let s ← M.get
      if allowBreaks && !spaces && decide (s.column > s.bestWidth) && !isSpaceO cs.head? then writeIndent
      else writeChar c
      plainLoop allowBreaks cs true breaks
    else if isBreak c then do
      M.when (!breaks && c == '\n') putBreak
      writeBreak c
      setIndention true
      plainLoop allowBreaks cs spaces true
    else do
      M.when breaks writeIndent
      writeChar c
      setIndention false
      plainLoop allowBreaks cs false false

/-- `write_plain_scalar`, emitter.rs lines 1454-1492. -/
def writePlain (value : Str) (allowBreaks : Bool) : Emit Unit := do
  let s ← M.get
  M.when (!s.whitespace && (!value.isEmpty || s.flowLevel != 0)) (put ' ')
  plainLoop allowBreaks value false false
  setWI false false

/-- The loop of `write_single_quoted_scalar`, emitter.rs lines 1500-1538.  Answers the final
value of `breaks`. -/
def singleLoop (allowBreaks : Bool) : Str → Bool → Bool → Bool → Emit Bool
  | [], _, breaks, _ => pure breaks
  | c :: cs, spaces, breaks, first => do
    if isSpace c then do
      let s ← M.get
      if allowBreaks && !spaces && decide (s.column > s.bestWidth) && !first && !cs.isEmpty
          && !isSpaceO cs.head? then writeIndent
      else writeChar c
      singleLoop allowBreaks cs true breaks false
    else if isBreak c then do
      M.when (!breaks && c == '\n') putBreak
      writeBreak c
      setIndention true
      singleLoop allowBreaks cs spaces true false
    else do
      M.when breaks writeIndent
      M.when (c == '\'') (put '\'')
      writeChar c
      setIndention false
      singleLoop allowBreaks cs false false false

/-- `write_single_quoted_scalar`, emitter.rs lines 1494-1546. -/
def writeSingleQuoted (value : Str) (allowBreaks : Bool) : Emit Unit := do
  writeIndicator ['\''] true false false
  let breaks ← singleLoop allowBreaks value false false true
  M.when breaks writeIndent
  writeIndicator ['\''] false false false
  setWI false false

/-- `width` upper-case hexadecimal digits of `n`, most significant first, emitter.rs lines 1615-1628. -/
def hexDigits : Nat → Nat → Str
  | 0, _ => []
  | k + 1, n => hexUpper (n / 16 ^ k % 16) :: hexDigits k n

/-- What follows the backslash when a character is escaped, emitter.rs lines 1561-1630. -/
def escapeText (c : Char) : Str :=
  if c.toNat = 0x00 then ['0']
  else if c.toNat = 0x07 then ['a']
  else if c.toNat = 0x08 then ['b']
  else if c.toNat = 0x09 then ['t']
  else if c.toNat = 0x0A then ['n']
  else if c.toNat = 0x0B then ['v']
  else if c.toNat = 0x0C then ['f']
  else if c.toNat = 0x0D then ['r']
  else if c.toNat = 0x1B then ['e']
  else if c.toNat = 0x22 then ['"']
  else if c.toNat = 0x5C then ['\\']
  else if c.toNat = 0x85 then ['N']
  else if c.toNat = 0xA0 then ['_']
  else if c.toNat = 0x2028 then ['L']
  else if c.toNat = 0x2029 then ['P']
  else if c.toNat ≤ 0xFF then 'x' :: hexDigits 2 c.toNat
  else if c.toNat ≤ 0xFFFF then 'u' :: hexDigits 4 c.toNat
  else 'U' :: hexDigits 8 c.toNat

/-- Must the character be escaped in a double-quoted scalar?  emitter.rs lines 1554-1559. -/
def mustEscape (unicode : Bool) (c : Char) : Bool :=
  !isPrintable c || (!unicode && !isAscii c) || isBom c || isBreak c || c == '"' || c == '\\'

/-- The loop of `write_double_quoted_scalar`, emitter.rs lines 1553-1655. -/
def doubleLoop (allowBreaks : Bool) : Str → Bool → Bool → Emit Unit
  | [], _, _ => pure ()
  | c :: cs, spaces, first => do
    let s ← M.get
    if mustEscape s.unicode c then do
      put '\\'
      putAll (escapeText c)
      doubleLoop allowBreaks cs false false
    else if isSpace c then do
      if allowBreaks && !spaces && decide (s.column > s.bestWidth) && !first && !cs.isEmpty then do
        writeIndent
        M.when (isSpaceO cs.head?) (put '\\')
      else writeChar c
      doubleLoop allowBreaks cs true false
    else do
      writeChar c
      doubleLoop allowBreaks cs false false

/-- `write_double_quoted_scalar`, emitter.rs lines 1548-1660. -/
def writeDoubleQuoted (value : Str) (allowBreaks : Bool) : Emit Unit := do
  writeIndicator ['"'] true false false
  doubleLoop allowBreaks value false true
  writeIndicator ['"'] false false false
  setWI false false

/-- `write_block_scalar_hints`, emitter.rs lines 1662-1696. -/
def writeBlockHints (value : Str) : Emit Unit := do
  let s ← M.get
  M.when (isSpaceO value.head? || isBreakO value.head?) (do
    if 0 ≤ s.bestIndent ∧ s.bestIndent ≤ 9 then
      writeIndicator [Char.ofNat (48 + s.bestIndent.toNat)] false false false
    else M.panic .indentHint)
  M.modify fun s => { s with openEnded := 0 }
  match value.reverse with
  | [] => writeIndicator ['-'] false false false
  | c :: rest =>
    if !isBreak c then writeIndicator ['-'] false false false
    else if isBreakzO rest.head? then do
      M.modify fun s => { s with openEnded := 2 }
      writeIndicator ['+'] false false false
    else pure ()

/-- The loop of `write_literal_scalar`, emitter.rs lines 1706-1719. -/
def literalLoop : Str → Bool → Emit Unit
  | [], _ => pure ()
  | c :: cs, breaks => do
    if isBreak c then do
      writeBreak c
      setIndention true
      literalLoop cs true
    else do
      M.when breaks writeIndent
      writeChar c
      setIndention false
      literalLoop cs false

/-- `write_literal_scalar`, emitter.rs lines 1698-1721. -/
def writeLiteral (value : Str) : Emit Unit := do
  writeIndicator ['|'] true false false
  writeBlockHints value
  putBreak
  setWI true true
  literalLoop value true

/-- The look-ahead of `write_folded_scalar`, emitter.rs lines 1738-1740: skip the line breaks
*and one further character*, then test whether what follows is a blank or the end (sic). -/
def foldedLookahead (cs : Str) : Bool := !isBlankzO ((cs.dropWhile isBreak).drop 1).head?

/-- The loop of `write_folded_scalar`, emitter.rs lines 1734-1764. -/
def foldedLoop : Str → Bool → Bool → Emit Unit
  | [], _, _ => pure ()
  | c :: cs, breaks, leadingSpaces => do
    if isBreak c then do
      M.when (!breaks && !leadingSpaces && c == '\n' && foldedLookahead cs) putBreak
      writeBreak c
      setIndention true
      foldedLoop cs true leadingSpaces
    else do
      M.when breaks writeIndent
      let leadingSpaces := if breaks then isBlank c else leadingSpaces
      let s ← M.get
      if !breaks && isSpace c && !isSpaceO cs.head? && decide (s.column > s.bestWidth) then writeIndent
      else writeChar c
      setIndention false
      foldedLoop cs false leadingSpaces

/-- `write_folded_scalar`, emitter.rs lines 1723-1765. -/
def writeFolded (value : Str) : Emit Unit := do
  writeIndicator ['>'] true false false
  writeBlockHints value
  putBreak
  setWI true true
  foldedLoop value true true

/-! ### Analysis -/

/-- `ScalarAnalysis`, emitter.rs lines 157-173. -/
structure ScalarAnalysis where
  value : Str
  multiline : Bool
  flowPlainAllowed : Bool
  blockPlainAllowed : Bool
  singleQuotedAllowed : Bool
  blockAllowed : Bool
  style : ScalarStyle
deriving DecidableEq, Repr

/-- `AnchorAnalysis`, emitter.rs lines 147-150. -/
structure AnchorAnalysis where
  anchor : Str
  alias_ : Bool
deriving DecidableEq, Repr

/-- `TagAnalysis`, emitter.rs lines 152-155. -/
structure TagAnalysis where
  handle : Str
  suffix : Str
deriving DecidableEq, Repr

/-- `Analysis`, emitter.rs lines 140-145. -/
structure Analysis where
  anchor : Option AnchorAnalysis := none
  tag : Option TagAnalysis := none
  scalar : Option ScalarAnalysis := none
deriving DecidableEq, Repr

/-- `analyze_version_directive`, emitter.rs lines 1061-1068. -/
def analyzeVersionDirective (v : VersionDirective) : Emit Unit :=
  if v.major ≠ 1 ∨ (v.minor ≠ 1 ∧ v.minor ≠ 2) then emitterError "incompatible %YAML directive"
  else pure ()

/-- `analyze_tag_directive`, emitter.rs lines 1070-1096.  The slice `[1..len - 1]` cannot panic:
the handle starts and ends with `!`. -/
def analyzeTagDirective (t : TagDirective) : Emit Unit := do
  if t.handle.isEmpty then emitterError "tag handle must not be empty"
  else if t.handle.head? ≠ some '!' then emitterError "tag handle must start with '!'"
  else if t.handle.getLast? ≠ some '!' then emitterError "tag handle must end with '!'"
  else if strLen t.handle > 2 && !((t.handle.drop 1).dropLast.all isAlpha) then
    emitterError "tag handle must contain alphanumerical characters only"
  else if t.prefix_.isEmpty then emitterError "tag prefix must not be empty"
  else pure ()

/-- `analyze_anchor`, emitter.rs lines 1098-1118. -/
def analyzeAnchor (anchor : Str) (alias_ : Bool) : Emit AnchorAnalysis :=
  if anchor.isEmpty then
    emitterError (if alias_ then "alias value must not be empty" else "anchor value must not be empty")
  else if !anchor.all isAlpha then
    emitterError (if alias_ then "alias value must contain alphanumerical characters only"
      else "anchor value must contain alphanumerical characters only")
  else pure ⟨anchor, alias_⟩

/-- `s.split_at(n)`: `none` when `n` is not a character boundary. -/
def splitBytes : Nat → Str → Option (Str × Str)
  | 0, s => some ([], s)
  | _ + 1, [] => none
  | n + 1, c :: cs =>
    if lenUtf8 c ≤ n + 1 then (splitBytes (n + 1 - lenUtf8 c) cs).map fun p => (c :: p.1, p.2)
    else none

/-- The directive loop of `analyze_tag`, emitter.rs lines 1131-1138. -/
def analyzeTagLoop (tag : Str) : List TagDirective → Emit TagAnalysis
  | [] => pure ⟨[], tag⟩
  | d :: ds =>
    if strLen d.prefix_ < strLen tag then
      match splitBytes (strLen d.prefix_) tag with
      | none => M.panic .tagSlice
      | some (pre, suffix) => if d.prefix_ == pre then pure ⟨d.handle, suffix⟩ else analyzeTagLoop tag ds
    else analyzeTagLoop tag ds

/-- `analyze_tag`, emitter.rs lines 1120-1141. -/
def analyzeTag (tag : Str) (tagDirectives : List TagDirective) : Emit TagAnalysis :=
  if tag.isEmpty then emitterError "tag value must not be empty"
  else analyzeTagLoop tag tagDirectives

/-- The flags `analyze_scalar` computes, emitter.rs lines 1144-1156. -/
structure Flags where
  blockIndicators : Bool := false
  flowIndicators : Bool := false
  lineBreaks : Bool := false
  specialCharacters : Bool := false
  leadingSpace : Bool := false
  leadingBreak : Bool := false
  trailingSpace : Bool := false
  trailingBreak : Bool := false
  breakSpace : Bool := false
  spaceBreak : Bool := false
  precededByWhitespace : Bool := false
  previousSpace : Bool := false
  previousBreak : Bool := false
deriving DecidableEq, Repr

/-- The indicator part of one step, emitter.rs lines 1184-1225. -/
def indicatorStep (first : Bool) (c : Char) (followed : Bool) (f : Flags) : Flags :=
  if first then
    if (cs! "#,[]{}&*!|>'\"%@`").contains c then
      { f with flowIndicators := true, blockIndicators := true }
    else if c == '?' || c == ':' then
      { f with flowIndicators := true, blockIndicators := f.blockIndicators || followed }
    else if c == '-' && followed then
      { f with flowIndicators := true, blockIndicators := true }
    else f
  else
    if (cs! ",?[]{}").contains c then { f with flowIndicators := true }
    else if c == ':' then
      { f with flowIndicators := true, blockIndicators := f.blockIndicators || followed }
    else if c == '#' && f.precededByWhitespace then
      { f with flowIndicators := true, blockIndicators := true }
    else f

/-- The whitespace part of one step, emitter.rs lines 1227-1266. -/
def spaceStep (unicode first : Bool) (c : Char) (last : Bool) (f : Flags) : Flags :=
  let f := if !isPrintable c || (!isAscii c && !unicode) then { f with specialCharacters := true } else f
  let f := if isBreak c then { f with lineBreaks := true } else f
  let f :=
    if isSpace c then
      { f with leadingSpace := f.leadingSpace || first, trailingSpace := f.trailingSpace || last,
               breakSpace := f.breakSpace || f.previousBreak, previousSpace := true,
               previousBreak := false }
    else if isBreak c then
      { f with leadingBreak := f.leadingBreak || first, trailingBreak := f.trailingBreak || last,
               spaceBreak := f.spaceBreak || f.previousSpace, previousSpace := false,
               previousBreak := true }
    else { f with previousSpace := false, previousBreak := false }
  { f with precededByWhitespace := isBlankzO (some c) }

/-- The loop of `analyze_scalar`, emitter.rs lines 1181-1268. -/
def analyzeLoop (unicode : Bool) : Str → Bool → Flags → Flags
  | [], _, f => f
  | c :: cs, first, f =>
    analyzeLoop unicode cs false
      (spaceStep unicode first c cs.isEmpty (indicatorStep first c (isBlankzO cs.head?) f))

/-- `str::starts_with`. -/
def startsWith (s p : Str) : Bool := s.take p.length == p

/-- The decisions at the end of `analyze_scalar`, emitter.rs lines 1270-1303. -/
def decideStyles (value : Str) (f : Flags) : ScalarAnalysis where
  value := value
  multiline := f.lineBreaks
  flowPlainAllowed := !(f.leadingSpace || f.leadingBreak || f.trailingSpace || f.trailingBreak
    || f.breakSpace || f.spaceBreak || f.specialCharacters || f.lineBreaks || f.flowIndicators)
  blockPlainAllowed := !(f.leadingSpace || f.leadingBreak || f.trailingSpace || f.trailingBreak
    || f.breakSpace || f.spaceBreak || f.specialCharacters || f.lineBreaks || f.blockIndicators)
  singleQuotedAllowed := !(f.breakSpace || f.spaceBreak || f.specialCharacters)
  blockAllowed := !(f.trailingSpace || f.spaceBreak || f.specialCharacters)
  style := .any

/-- `analyze_scalar`, emitter.rs lines 1143-1304. -/
def analyzeScalar (unicode : Bool) (value : Str) : ScalarAnalysis :=
  if value.isEmpty then ⟨[], false, false, true, true, false, .any⟩
  else
    let dash := startsWith value (cs! "---") || startsWith value (cs! "...")
    decideStyles value (analyzeLoop unicode value true
      { blockIndicators := dash, flowIndicators := dash, precededByWhitespace := true })

/-- The anchor of a node, analysed if there is one, emitter.rs lines 1326-1328 and 1347-1349. -/
def analyzeOptAnchor : Option Str → Emit (Option AnchorAnalysis)
  | some anchor => do let a ← analyzeAnchor anchor false; pure (some a)
  | none => pure none

/-- The tag of a node, analysed if there is one and it will be written (`write`),
emitter.rs lines 1329-1332 and 1350-1353. -/
def analyzeOptTag (write : Bool) (tagDirectives : List TagDirective) : Option Str → Emit (Option TagAnalysis)
  | some tag =>
    if write then do
      let t ← analyzeTag tag tagDirectives
      pure (some t)
    else pure none
  | none => pure none

/-- `analyze_event`, emitter.rs lines 1306-1359. -/
def analyzeEvent (event : Event) (tagDirectives : List TagDirective) : Emit Analysis := do
  let s ← M.get
  match event.data with
  | .alias anchor => do
    let a ← analyzeAnchor anchor true
    pure { anchor := some a }
  | .scalar anchor tag value plainImplicit quotedImplicit _ => do
    let a ← analyzeOptAnchor anchor
    let t ← analyzeOptTag (s.canonical || (!plainImplicit && !quotedImplicit)) tagDirectives tag
    pure { anchor := a, tag := t, scalar := some (analyzeScalar s.unicode value) }
  | .sequenceStart anchor tag implicit _ | .mappingStart anchor tag implicit _ => do
    let a ← analyzeOptAnchor anchor
    let t ← analyzeOptTag (s.canonical || !implicit) tagDirectives tag
    pure { anchor := a, tag := t }
  | _ => pure {}

/-! ### States -/

/-- `append_tag_directive`, emitter.rs lines 434-445. -/
def appendTagDirective (value : TagDirective) (allowDuplicates : Bool) : Emit Unit := do
  let s ← M.get
  if s.tagDirectives.any (fun t => value.handle == t.handle) then
    if allowDuplicates then pure () else emitterError "duplicate %TAG directive"
  else M.modify fun s => { s with tagDirectives := s.tagDirectives ++ [value] }

/-- `increase_indent`, emitter.rs lines 447-454. -/
def increaseIndent (flow indentless : Bool) : Emit Unit := M.modify fun s =>
  { s with
    indents := s.indent :: s.indents
    indent := if s.indent < 0 then (if flow then s.bestIndent else 0)
      else if indentless then s.indent else s.indent + s.bestIndent }

/-- `self.indent = self.indents.pop().unwrap()`. -/
def popIndent : Emit Unit := do
  match (← M.get).indents with
  | [] => M.panic .emitterIndentsEmpty
  | i :: rest => M.modify fun s => { s with indent := i, indents := rest }

/-- `self.state = self.states.pop().unwrap()`. -/
def popState : Emit Unit := do
  match (← M.get).states with
  | [] => M.panic .emitterStatesEmpty
  | st :: rest => M.modify fun s => { s with state := st, states := rest }

/-- `self.states.push(st)`. -/
def pushState (st : EmSt) : Emit Unit := M.modify fun s => { s with states := st :: s.states }
/-- `self.state = st`. -/
def setState (st : EmSt) : Emit Unit := M.modify fun s => { s with state := st }
/-- `self.open_ended = n`. -/
def setOpenEnded (n : Int) : Emit Unit := M.modify fun s => { s with openEnded := n }
/-- `self.flow_level += n`. -/
def addFlowLevel (n : Int) : Emit Unit := M.modify fun s => { s with flowLevel := s.flowLevel + n }

/-- `i32::MAX`. -/
def i32Max : Int := 2147483647

/-- The normalisation of the settings in `emit_stream_start`, emitter.rs lines 496-517. -/
def normalise (encoding : Encoding) (s : EState) : EState :=
  let s : EState := { s with encoding := if s.encoding = .any then encoding else s.encoding }
  let s : EState := { s with encoding := if s.encoding = .any then .utf8 else s.encoding }
  let s : EState := { s with bestIndent := if s.bestIndent < 2 ∨ s.bestIndent > 9 then 2 else s.bestIndent }
  let s : EState := { s with bestWidth :=
    if s.bestWidth ≥ 0 ∧ s.bestWidth ≤ s.bestIndent * 2 then 80 else s.bestWidth }
  let s : EState := { s with bestWidth := if s.bestWidth < 0 then i32Max else s.bestWidth }
  let s : EState := { s with lineBreak := if s.lineBreak = .any then .ln else s.lineBreak }
  { s with indent := -1, line := 0, column := 0, whitespace := true, indention := true }

/-- `emit_stream_start`, emitter.rs lines 493-526. -/
def emitStreamStart (event : Event) : Emit Unit := do
  setOpenEnded 0
  match event.data with
  | .streamStart encoding => do
    M.modify (normalise encoding)
    let s ← M.get
    M.when (s.encoding != .utf8) writeBom
    setState .firstDocumentStart
  | _ => emitterError "expected STREAM-START"

/-- The two loops over directives, emitter.rs lines 551-557. -/
def declareTags : List TagDirective → Emit Unit
  | [] => pure ()
  | t :: ts => do
    analyzeTagDirective t
    appendTagDirective t false
    declareTags ts

/-- Writing the `%TAG` lines, emitter.rs lines 580-585. -/
def writeTagLines : List TagDirective → Emit Unit
  | [] => pure ()
  | t :: ts => do
    writeIndicator (cs! "%TAG") true false false
    writeTagHandle t.handle
    writeTagContent t.prefix_ true
    writeIndent
    writeTagLines ts

/-- The default directives added last, emitter.rs lines 555-557. -/
def declareDefaults : List TagDirective → Emit Unit
  | [] => pure ()
  | t :: ts => do
    appendTagDirective t true
    declareDefaults ts

/-- `emit_document_start`, emitter.rs lines 528-609 (`check_empty_document` is `false`,
lines 884-886). -/
def emitDocumentStart (event : Event) (first : Bool) : Emit Unit := do
  match event.data with
  | .documentStart version tags implicit => do
    (match version with
      | some v => analyzeVersionDirective v
      | none => pure ())
    declareTags tags
    declareDefaults defaultTagDirectives
    let s ← M.get
    M.when ((version.isSome || !tags.isEmpty) && s.openEnded != 0) (do
      writeIndicator (cs! "...") true false false
      writeIndent)
    setOpenEnded 0
    (match version with
      | some v => do
        writeIndicator (cs! "%YAML") true false false
        if v.minor = 1 then writeIndicator (cs! "1.1") true false false
        else writeIndicator (cs! "1.2") true false false
        writeIndent
      | none => pure ())
    writeTagLines tags
    let implicit := implicit && first && !s.canonical && version.isNone && tags.isEmpty
    M.when (!implicit) (do
      writeIndent
      writeIndicator (cs! "---") true false false
      M.when s.canonical writeIndent)
    setState .documentContent
    setOpenEnded 0
  | .streamEnd => do
    let s ← M.get
    M.when (decide (s.openEnded = 2)) (do
      writeIndicator (cs! "...") true false false
      setOpenEnded 0
      writeIndent)
    flush
    setState .end_
  | _ => emitterError "expected DOCUMENT-START or STREAM-END"

/-- `emit_document_end`, emitter.rs lines 616-634. -/
def emitDocumentEnd (event : Event) : Emit Unit := do
  match event.data with
  | .documentEnd implicit => do
    writeIndent
    if !implicit then do
      writeIndicator (cs! "...") true false false
      setOpenEnded 0
      writeIndent
    else M.modify fun s => { s with openEnded := if s.openEnded = 0 then 1 else s.openEnded }
    flush
    M.modify fun s => { s with state := .documentStart, tagDirectives := [] }
  | _ => emitterError "expected DOCUMENT-END"

/-- `check_empty_sequence`, emitter.rs lines 888-895. -/
def checkEmptySequence (s : EState) (event : Event) : Bool :=
  match event.data, s.events with
  | .sequenceStart .., e :: _ => e.data == .sequenceEnd
  | _, _ => false

/-- `check_empty_mapping`, emitter.rs lines 897-904. -/
def checkEmptyMapping (s : EState) (event : Event) : Bool :=
  match event.data, s.events with
  | .mappingStart .., e :: _ => e.data == .mappingEnd
  | _, _ => false

/-- `check_simple_key`, emitter.rs lines 906-949.  (For a scalar the analysis always exists:
`analyze_event` made it; the `panic!` is modelled as answering `none`.) -/
def checkSimpleKey (s : EState) (event : Event) (a : Analysis) : Option Bool :=
  let length := (a.anchor.elim 0 fun a => strLen a.anchor)
    + (a.tag.elim 0 fun t => strLen t.handle + strLen t.suffix)
  match event.data with
  | .alias _ => some (decide ((a.anchor.elim 0 fun a => strLen a.anchor) ≤ 128))
  | .scalar .. =>
    match a.scalar with
    | none => none
    | some sc => some (!sc.multiline && decide (length + strLen sc.value ≤ 128))
  | .sequenceStart .. => some (checkEmptySequence s event && decide (length ≤ 128))
  | .mappingStart .. => some (checkEmptyMapping s event && decide (length ≤ 128))
  | _ => some false

/-- The style chosen by `select_scalar_style`, emitter.rs lines 969-1005. -/
def chooseStyle (s : EState) (sc : ScalarAnalysis) (noTag plainImplicit : Bool) (style : ScalarStyle) :
    ScalarStyle :=
  let style := if style = .any then .plain else style
  let style := if s.canonical then .doubleQuoted else style
  let style := if s.simpleKeyContext && sc.multiline then .doubleQuoted else style
  let style :=
    if style = .plain then
      if (s.flowLevel != 0 && !sc.flowPlainAllowed) || (s.flowLevel == 0 && !sc.blockPlainAllowed)
          || (sc.value.isEmpty && (s.flowLevel != 0 || s.simpleKeyContext))
          || (noTag && !plainImplicit) then .singleQuoted
      else .plain
    else style
  let style := if style = .singleQuoted && !sc.singleQuotedAllowed then .doubleQuoted else style
  if (style = .literal ∨ style = .folded) ∧ (!sc.blockAllowed || s.flowLevel != 0 || s.simpleKeyContext)
  then .doubleQuoted else style

/-- `select_scalar_style`, emitter.rs lines 951-1013: the style and the tag analysis to use. -/
def selectScalarStyle (plainImplicit quotedImplicit : Bool) (style : ScalarStyle)
    (sc : ScalarAnalysis) (tag : Option TagAnalysis) : Emit (ScalarStyle × Option TagAnalysis) := do
  let s ← M.get
  let noTag := tag.isNone
  if noTag && !plainImplicit && !quotedImplicit then
    emitterError "neither tag nor implicit flags are specified"
  else
    let style := chooseStyle s sc noTag plainImplicit style
    let tag := if noTag && !quotedImplicit && style != .plain then some ⟨['!'], []⟩ else tag
    pure (style, tag)

/-- `process_anchor`, emitter.rs lines 1015-1022. -/
def processAnchor (a : Option AnchorAnalysis) : Emit Unit := do
  match a with
  | none => pure ()
  | some a => do
    writeIndicator (if a.alias_ then ['*'] else ['&']) true false false
    writeAnchor a.anchor

/-- `process_tag`, emitter.rs lines 1024-1044. -/
def processTag (t : Option TagAnalysis) : Emit Unit := do
  match t with
  | none => pure ()
  | some t =>
    if t.handle.isEmpty && t.suffix.isEmpty then pure ()
    else if t.handle.isEmpty then do
      writeIndicator (cs! "!<") true false false
      writeTagContent t.suffix false
      writeIndicator (cs! ">") false false false
    else do
      writeTagHandle t.handle
      M.when (!t.suffix.isEmpty) (writeTagContent t.suffix false)

/-- `process_scalar`, emitter.rs lines 1046-1059. -/
def processScalar (style : ScalarStyle) (value : Str) : Emit Unit := do
  let s ← M.get
  match style with
  | .plain => writePlain value (!s.simpleKeyContext)
  | .singleQuoted => writeSingleQuoted value (!s.simpleKeyContext)
  | .doubleQuoted => writeDoubleQuoted value (!s.simpleKeyContext)
  | .literal => writeLiteral value
  | .folded => writeFolded value
  | .any => M.panic .emitterUnreachable

/-- `emit_alias`, emitter.rs lines 811-818. -/
def emitAlias (a : Analysis) : Emit Unit := do
  processAnchor a.anchor
  let s ← M.get
  M.when s.simpleKeyContext (put ' ')
  popState

/-- `emit_scalar`, emitter.rs lines 820-838. -/
def emitScalar (plainImplicit quotedImplicit : Bool) (style : ScalarStyle) (a : Analysis) : Emit Unit := do
  match a.scalar with
  | none => M.panic .emitterUnreachable
  | some sc => do
    let (style, tag) ← selectScalarStyle plainImplicit quotedImplicit style sc a.tag
    processAnchor a.anchor
    processTag tag
    increaseIndent true false
    processScalar style sc.value
    popIndent
    popState

/-- `emit_sequence_start`, emitter.rs lines 840-860. -/
def emitSequenceStart (event : Event) (style : CollStyle) (a : Analysis) : Emit Unit := do
  processAnchor a.anchor
  processTag a.tag
  let s ← M.get
  if s.flowLevel != 0 || s.canonical || style == .flow || checkEmptySequence s event then
    setState .flowSequenceFirstItem
  else setState .blockSequenceFirstItem

/-- `emit_mapping_start`, emitter.rs lines 862-882. -/
def emitMappingStart (event : Event) (style : CollStyle) (a : Analysis) : Emit Unit := do
  processAnchor a.anchor
  processTag a.tag
  let s ← M.get
  if s.flowLevel != 0 || s.canonical || style == .flow || checkEmptyMapping s event then
    setState .flowMappingFirstKey
  else setState .blockMappingFirstKey

/-- `emit_node`, emitter.rs lines 786-809. -/
def emitNode (event : Event) (root sequence mapping simpleKey : Bool) (a : Analysis) : Emit Unit := do
  M.modify fun s => { s with rootContext := root, sequenceContext := sequence,
                             mappingContext := mapping, simpleKeyContext := simpleKey }
  match event.data with
  | .alias _ => emitAlias a
  | .scalar _ _ _ p q style => emitScalar p q style a
  | .sequenceStart _ _ _ style => emitSequenceStart event style a
  | .mappingStart _ _ _ style => emitMappingStart event style a
  | _ => emitterError "expected SCALAR, SEQUENCE-START, MAPPING-START, or ALIAS"

/-- `emit_document_content`, emitter.rs lines 611-614. -/
def emitDocumentContent (event : Event) (a : Analysis) : Emit Unit := do
  pushState .documentEnd
  emitNode event true false false false a

/-- The end of a flow collection, emitter.rs lines 648-656 and 680-690. -/
def emitFlowEnd (first : Bool) (bracket : Char) : Emit Unit := do
  addFlowLevel (-1)
  popIndent
  let s ← M.get
  M.when (s.canonical && !first) (do
    writeIndicator [','] false false false
    writeIndent)
  writeIndicator [bracket] false false false
  popState

/-- The comma and possible line break before an item, emitter.rs lines 658-663 and 692-697. -/
def emitFlowSeparator (first : Bool) : Emit Unit := do
  M.when (!first) (writeIndicator [','] false false false)
  let s ← M.get
  M.when (s.canonical || decide (s.column > s.bestWidth)) writeIndent

/-- `emit_flow_sequence_item`, emitter.rs lines 636-666. -/
def emitFlowSequenceItem (event : Event) (first : Bool) (a : Analysis) : Emit Unit := do
  M.when first (do
    writeIndicator ['['] true true false
    increaseIndent true false
    addFlowLevel 1)
  match event.data with
  | .sequenceEnd => emitFlowEnd first ']'
  | _ => do
    emitFlowSeparator first
    pushState .flowSequenceItem
    emitNode event false true false false a

/-- The choice between a simple key and `?`, with the `panic!` of `check_simple_key`. -/
def simpleKeyTest (event : Event) (a : Analysis) : Emit Bool := do
  let s ← M.get
  match checkSimpleKey s event a with
  | some b => pure b
  | none => M.panic .emitterUnreachable

/-- `emit_flow_mapping_key`, emitter.rs lines 668-705. -/
def emitFlowMappingKey (event : Event) (first : Bool) (a : Analysis) : Emit Unit := do
  M.when first (do
    writeIndicator ['{'] true true false
    increaseIndent true false
    addFlowLevel 1)
  match event.data with
  | .mappingEnd => emitFlowEnd first '}'
  | _ => do
    emitFlowSeparator first
    let s ← M.get
    let simple ← if s.canonical then pure false else simpleKeyTest event a
    if simple then do
      pushState .flowMappingSimpleValue
      emitNode event false false true true a
    else do
      writeIndicator ['?'] true false false
      pushState .flowMappingValue
      emitNode event false false true false a

/-- `emit_flow_mapping_value`, emitter.rs lines 707-723. -/
def emitFlowMappingValue (event : Event) (simple : Bool) (a : Analysis) : Emit Unit := do
  if simple then writeIndicator [':'] false false false
  else do
    let s ← M.get
    M.when (s.canonical || decide (s.column > s.bestWidth)) writeIndent
    writeIndicator [':'] true false false
  pushState .flowMappingKey
  emitNode event false false true false a

/-- `emit_block_sequence_item`, emitter.rs lines 725-743. -/
def emitBlockSequenceItem (event : Event) (first : Bool) (a : Analysis) : Emit Unit := do
  let s ← M.get
  M.when first (increaseIndent false (s.mappingContext && !s.indention))
  match event.data with
  | .sequenceEnd => do
    popIndent
    popState
  | _ => do
    writeIndent
    writeIndicator ['-'] true false true
    pushState .blockSequenceItem
    emitNode event false true false false a

/-- `emit_block_mapping_key`, emitter.rs lines 745-768. -/
def emitBlockMappingKey (event : Event) (first : Bool) (a : Analysis) : Emit Unit := do
  M.when first (increaseIndent false false)
  match event.data with
  | .mappingEnd => do
    popIndent
    popState
  | _ => do
    writeIndent
    let simple ← simpleKeyTest event a
    if simple then do
      pushState .blockMappingSimpleValue
      emitNode event false false true true a
    else do
      writeIndicator ['?'] true false true
      pushState .blockMappingValue
      emitNode event false false true false a

/-- `emit_block_mapping_value`, emitter.rs lines 770-784. -/
def emitBlockMappingValue (event : Event) (simple : Bool) (a : Analysis) : Emit Unit := do
  if simple then writeIndicator [':'] false false false
  else do
    writeIndent
    writeIndicator [':'] true false true
  pushState .blockMappingKey
  emitNode event false false true false a

/-- `state_machine`, emitter.rs lines 456-491. -/
def stateMachine (event : Event) (a : Analysis) : Emit Unit := do
  match (← M.get).state with
  | .streamStart => emitStreamStart event
  | .firstDocumentStart => emitDocumentStart event true
  | .documentStart => emitDocumentStart event false
  | .documentContent => emitDocumentContent event a
  | .documentEnd => emitDocumentEnd event
  | .flowSequenceFirstItem => emitFlowSequenceItem event true a
  | .flowSequenceItem => emitFlowSequenceItem event false a
  | .flowMappingFirstKey => emitFlowMappingKey event true a
  | .flowMappingKey => emitFlowMappingKey event false a
  | .flowMappingSimpleValue => emitFlowMappingValue event true a
  | .flowMappingValue => emitFlowMappingValue event false a
  | .blockSequenceFirstItem => emitBlockSequenceItem event true a
  | .blockSequenceItem => emitBlockSequenceItem event false a
  | .blockMappingFirstKey => emitBlockMappingKey event true a
  | .blockMappingKey => emitBlockMappingKey event false a
  | .blockMappingSimpleValue => emitBlockMappingValue event true a
  | .blockMappingValue => emitBlockMappingValue event false a
  | .end_ => emitterError "expected nothing after STREAM-END"

/-! ### The event queue -/

/-- How an event changes the nesting level, emitter.rs lines 409-423. -/
def levelDelta : EventData → Int
  | .streamStart .. | .documentStart .. | .sequenceStart .. | .mappingStart .. => 1
  | .streamEnd | .documentEnd .. | .sequenceEnd | .mappingEnd => -1
  | _ => 0

/-- Does the nesting level return to 0 somewhere in the queue?  emitter.rs lines 406-429. -/
def levelReturns : Int → List Event → Bool
  | _, [] => false
  | level, e :: es =>
    let level := level + levelDelta e.data
    if level == 0 then true else levelReturns level es

/-- Is the first event ready to be processed?  `needs_mode_events`, emitter.rs lines 394-432. -/
def ready (events : List Event) : Bool :=
  match events with
  | [] => false
  | first :: _ =>
    match first.data with
    | .documentStart .. => decide (events.length > 1) || levelReturns 0 events
    | .sequenceStart .. => decide (events.length > 2) || levelReturns 0 events
    | .mappingStart .. => decide (events.length > 3) || levelReturns 0 events
    | _ => true

/-- Processing one event taken from the queue, the body of the loop in `emit`,
emitter.rs lines 305-314.  When the analysis or the state machine fails the tag directives taken
out of `self` are lost. -/
def process (event : Event) : Emit Unit := do
  let s ← M.get
  let tagDirectives := s.tagDirectives
  M.modify fun s => { s with tagDirectives := [] }
  let a ← analyzeEvent event tagDirectives
  stateMachine event a
  M.modify fun s => { s with tagDirectives :=
    if s.tagDirectives.isEmpty then tagDirectives else s.tagDirectives }

/-- The loop of `emit`, emitter.rs lines 304-315; each pass removes one event. -/
def emitLoop : Nat → Emit Unit
  | 0 => M.outOfFuel
  | F + 1 => do
    let s ← M.get
    match s.events with
    | e :: es =>
      if ready s.events then do
        M.modify fun s => { s with events := es }
        process e
        emitLoop F
      else pure ()
    | [] => pure ()

/-- `emit`, emitter.rs lines 302-317. -/
def emit (event : Event) : Emit Unit := do
  M.modify fun s => { s with events := s.events ++ [event] }
  let s ← M.get
  emitLoop (s.events.length + 1)

/-- Emitting several events, stopping at the first failure. -/
def emitAll : List Event → Emit Unit
  | [] => pure ()
  | e :: es => do emit e; emitAll es

/-! ### `open`, `close` and the anchors of the dumper -/

/-- Methods of the whole `Emitter`. -/
abbrev EmitB (α : Type) : Type := M EmitOp EmitAns (EState × Book) α

/-- A method that does not touch the fields of `Book`. -/
def lift {α : Type} (m : Emit α) : EmitB α := fun s => (m s.1).bind fun q => .ret (q.1, (q.2, s.2))

/-- Access to the fields of `Book`. -/
def getBook : EmitB Book := do return (← M.get).2

/-- Change of the fields of `Book`. -/
def modifyBook (f : Book → Book) : EmitB Unit := M.modify fun s => (s.1, f s.2)

/-- `open`, emitter.rs lines 220-226. -/
def open_ : EmitB Unit := do
  if (← getBook).opened then M.panic .openTwice
  else do
    lift (emit (Event.new (.streamStart .any)))
    modifyBook fun s => { s with opened := true }

/-- `close`, emitter.rs lines 232-241. -/
def close : EmitB Unit := do
  let s ← getBook
  if !s.opened then M.panic .closeUnopened
  else if s.closed then pure ()
  else do
    lift (emit (Event.new .streamEnd))
    modifyBook fun s => { s with closed := true }

/-- `reset_anchors`, emitter.rs lines 1814-1817. -/
def resetAnchors : EmitB Unit := modifyBook fun s => { s with anchors := [], lastAnchorId := 0 }

/-- `anchor_node_sub`, emitter.rs lines 1819-1825.  For index 0 the subtraction underflows: a panic, or an index
out of bounds, which also panics. -/
def anchorNodeSub (index : Nat) : EmitB Unit := do
  if index = 0 then M.panic .nodeIndex else
  match (← getBook).anchors[index - 1]? with
  | none => M.panic .nodeIndex
  | some a =>
    if a.references + 1 = 2 then
      modifyBook fun s => { s with
        lastAnchorId := s.lastAnchorId + 1
        anchors := s.anchors.set (index - 1)
          { a with references := a.references + 1, anchor := s.lastAnchorId + 1 } }
    else modifyBook fun s => { s with
      anchors := s.anchors.set (index - 1) { a with references := a.references + 1 } }

/-- `generate_anchor`, emitter.rs lines 1827-1829: `format!("id{:03}", n)` for `n > 0`. -/
def generateAnchor (n : Int) : Str :=
  let d := (Nat.repr n.toNat).toList
  ['i', 'd'] ++ List.replicate (3 - d.length) '0' ++ d

end Emitter
end Yaml
