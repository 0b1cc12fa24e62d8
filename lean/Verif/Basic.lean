/-
Plain data types of the public API.

Models: /repo/src/lib.rs (lines 73-166), /repo/src/error.rs (lines 1-170, 205-245),
/repo/src/token.rs (lines 1-88), /repo/src/event.rs (lines 1-100).

Simplifications: Rust `String`/`&str` values that carry document text are modelled as
`List Char` (Lean `Char` and Rust `char` are both Unicode scalar values); fixed
`&'static str` messages are Lean `String`s.  Integers are unbounded.
-/

namespace Yaml

/-- Document text.  Rust `String` (a sequence of Unicode scalar values). -/
abbrev Str := List Char

/-- `cs! "abc"` is the explicit list `['a', 'b', 'c']`. -/
syntax "cs! " str : term
macro_rules
  | `(cs! $s:str) => do
    let chars := s.getString.toList.toArray
    let elems ← chars.mapM fun c => `($(Lean.Syntax.mkCharLit c))
    `([$elems,*])

/-- `Mark`, error.rs lines 3-13. `u64` fields are unbounded here. -/
structure Mark where
  index : Nat := 0
  line : Nat := 0
  column : Nat := 0
deriving DecidableEq, Repr, Inhabited

/-- `Mark::default()`, error.rs line 4. -/
def Mark.zero : Mark := ⟨0, 0, 0⟩

/-- `Display for Mark`, error.rs lines 15-19. -/
def Mark.display (m : Mark) : String :=
  "line " ++ toString (m.line + 1) ++ " column " ++ toString (m.column + 1)

/-- The kind of an `std::io::Error`; only the kinds the crate can observe. -/
inductive IoKind where
  | unexpectedEof
  | interrupted
  | other
deriving DecidableEq, Repr

/-- `ErrorImpl` (and `Problem`), error.rs lines 21-42.  `outOfFuel` is not a Rust
value: it marks an exhausted step budget of the reader loop in the model and is proved
never to occur. -/
inductive Err where
  | reader (problem : String) (offset : Nat) (value : Int)
  | scanner (context : String) (contextMark : Mark) (problem : String) (problemMark : Mark)
  | parser (context : String) (contextMark : Mark) (problem : String) (problemMark : Mark)
  | composer (context : String) (contextMark : Mark) (problem : String) (problemMark : Mark)
  | emitter (problem : String)
  | io (kind : IoKind)
  | outOfFuel
deriving DecidableEq, Repr

/-- `ErrorKind`, error.rs lines 44-52. -/
inductive ErrorKind where
  | reader | scanner | parser | composer | emitter | io
deriving DecidableEq, Repr

/-- `Error::kind`, error.rs lines 118-127 (`outOfFuel` counts as a reader error). -/
def Err.kind : Err → ErrorKind
  | .reader .. => .reader
  | .scanner .. => .scanner
  | .parser .. => .parser
  | .composer .. => .composer
  | .emitter .. => .emitter
  | .io .. => .io
  | .outOfFuel => .reader

/-- `Error::problem_mark`, error.rs lines 129-136. -/
def Err.problemMark : Err → Option Mark
  | .reader .. | .emitter .. | .io .. | .outOfFuel => none
  | .scanner _ _ _ m | .parser _ _ _ m | .composer _ _ _ m => some m

/-- `Error::context_mark`, error.rs lines 138-149. -/
def Err.contextMark : Err → Option Mark
  | .reader .. | .emitter .. | .io .. | .outOfFuel => none
  | .scanner c m _ _ | .parser c m _ _ | .composer c m _ _ =>
    if c = "" then none else some m

/-- `Error::problem`, error.rs lines 151-157. -/
def Err.problem : Err → String
  | .reader p .. | .emitter p => p
  | .scanner _ _ p _ | .parser _ _ p _ | .composer _ _ p _ => p
  | .io _ => "I/O error"
  | .outOfFuel => ""

/-- `Error::context`, error.rs lines 159-170. -/
def Err.context : Err → Option String
  | .reader .. | .emitter .. | .io .. | .outOfFuel => none
  | .scanner c _ _ _ | .parser c _ _ _ | .composer c _ _ _ =>
    if c = "" then none else some c

/-- `Display for ErrorKind`, error.rs lines 199-210. -/
def ErrorKind.display : ErrorKind → String
  | .reader => "Reader"
  | .scanner => "Scanner"
  | .parser => "Parser"
  | .composer => "Composer"
  | .emitter => "Emitter"
  | .io => "I/O"

/-- `Display for Problem`, error.rs lines 212-227. -/
def displayProblem (context : String) (cm : Mark) (problem : String) (pm : Mark) : String :=
  if context = "" then pm.display ++ ": " ++ problem
  else pm.display ++ ": " ++ problem ++ " " ++ context ++ " (" ++ cm.display ++ ")"

/-- `Display for Error`, error.rs lines 229-245.  The text of an `io::Error` comes from
std and is a parameter. -/
def Err.display (ioText : IoKind → String) (e : Err) : String :=
  e.kind.display ++ " error: " ++
  match e with
  | .reader p o v => p ++ " (offset " ++ toString o ++ ", value " ++ toString v ++ ")"
  | .scanner c cm p pm | .parser c cm p pm | .composer c cm p pm => displayProblem c cm p pm
  | .emitter p => p
  | .io k => ioText k
  | .outOfFuel => ""

/-- `TryFrom<Error> for io::Error`, error.rs lines 183-197: `inl` is the extracted I/O error. -/
def Err.tryIntoIo : Err → IoKind ⊕ Err
  | .io k => .inl k
  | e => .inr e

/-- `Encoding`, lib.rs lines 95-108. -/
inductive Encoding where
  | any | utf8 | utf16le | utf16be
deriving DecidableEq, Repr, Inhabited

/-- `Break`, lib.rs lines 110-123. -/
inductive Break where
  | any | cr | ln | crln
deriving DecidableEq, Repr, Inhabited

/-- `ScalarStyle`, lib.rs lines 125-143. -/
inductive ScalarStyle where
  | any | plain | singleQuoted | doubleQuoted | literal | folded
deriving DecidableEq, Repr, Inhabited

/-- `SequenceStyle` (lib.rs 144-155) and `MappingStyle` (lib.rs 157-167): same shape. -/
inductive CollStyle where
  | any | block | flow
deriving DecidableEq, Repr, Inhabited

/-- `VersionDirective`, lib.rs lines 75-83. -/
structure VersionDirective where
  major : Int
  minor : Int
deriving DecidableEq, Repr

/-- `TagDirective`, lib.rs lines 85-93. -/
structure TagDirective where
  handle : Str
  prefix_ : Str
deriving DecidableEq, Repr

/-- `TokenData`, token.rs lines 15-88. -/
inductive TokenData where
  | streamStart (encoding : Encoding)
  | streamEnd
  | versionDirective (major minor : Int)
  | tagDirective (handle prefix_ : Str)
  | documentStart
  | documentEnd
  | blockSequenceStart
  | blockMappingStart
  | blockEnd
  | flowSequenceStart
  | flowSequenceEnd
  | flowMappingStart
  | flowMappingEnd
  | blockEntry
  | flowEntry
  | key
  | value
  | alias (value : Str)
  | anchor (value : Str)
  | tag (handle suffix : Str)
  | scalar (value : Str) (style : ScalarStyle)
deriving DecidableEq, Repr, Inhabited

/-- `Token`, token.rs lines 3-13. -/
structure Token where
  data : TokenData
  startMark : Mark
  endMark : Mark
deriving DecidableEq, Repr, Inhabited

/-- `EventData`, event.rs lines 17-82. -/
inductive EventData where
  | streamStart (encoding : Encoding)
  | streamEnd
  | documentStart (version : Option VersionDirective) (tags : List TagDirective) (implicit : Bool)
  | documentEnd (implicit : Bool)
  | alias (anchor : Str)
  | scalar (anchor : Option Str) (tag : Option Str) (value : Str)
      (plainImplicit quotedImplicit : Bool) (style : ScalarStyle)
  | sequenceStart (anchor : Option Str) (tag : Option Str) (implicit : Bool) (style : CollStyle)
  | sequenceEnd
  | mappingStart (anchor : Option Str) (tag : Option Str) (implicit : Bool) (style : CollStyle)
  | mappingEnd
deriving DecidableEq, Repr

/-- `Event`, event.rs lines 5-15. -/
structure Event where
  data : EventData
  startMark : Mark := Mark.zero
  endMark : Mark := Mark.zero
deriving DecidableEq, Repr

/-- `Event::new`, event.rs lines 84-92. -/
def Event.new (d : EventData) : Event := ⟨d, Mark.zero, Mark.zero⟩

/-- `DEFAULT_SCALAR_TAG = STR_TAG`, lib.rs lines 55, 69. -/
def strTag : Str := cs! "tag:yaml.org,2002:str"
/-- `DEFAULT_SEQUENCE_TAG = SEQ_TAG`, lib.rs lines 64, 71. -/
def seqTag : Str := cs! "tag:yaml.org,2002:seq"
/-- `DEFAULT_MAPPING_TAG = MAP_TAG`, lib.rs lines 66, 73. -/
def mapTag : Str := cs! "tag:yaml.org,2002:map"

/-- The two default tag directives, parser.rs lines 909-919 and emitter.rs lines 535-545. -/
def defaultTagDirectives : List TagDirective :=
  [⟨cs! "!", cs! "!"⟩, ⟨cs! "!!", cs! "tag:yaml.org,2002:"⟩]

/-- Every place in the modelled code where a Rust panic is written or implied
(`unwrap`, `expect`, `assert!`, indexing, `VecDeque::insert`, slicing). -/
inductive PanicSite where
  /-- scanner.rs 127, `skip_char`: `expect("unexpected end of tokens")` -/
  | skipCharEmpty
  /-- scanner.rs 158, `read_char`: `panic!("unexpected end of input")` -/
  | readCharEmpty
  /-- scanner.rs 166, `read_line_break`: `panic!("unexpected end of input")` -/
  | readLineBreakEmpty
  /-- scanner.rs 215, `scan`: `unreachable!` -/
  | scanNoToken
  /-- scanner.rs 225, 228, 235, 244, 247, 254, `peek`/`peek_mut`: `expect` on an empty queue -/
  | peekNoToken
  /-- scanner.rs 261, `skip_token`: `expect("SKIP_TOKEN but EOF")` -/
  | skipTokenEmpty
  /-- scanner.rs 445, 451, 709: `simple_keys.last_mut().unwrap()` -/
  | simpleKeysEmpty
  /-- scanner.rs 478, `increase_flow_level`: `assert!` -/
  | flowLevelOverflow
  /-- scanner.rs 499, `roll_indent`: `assert!(column <= i32::MAX)` -/
  | rollIndentOverflow
  /-- scanner.rs 509-510, 716: `VecDeque::insert` with an index beyond the length -/
  | insertOutOfRange
  /-- scanner.rs 527, `unroll_indent`: `indents.pop().unwrap()` -/
  | indentsEmpty
  /-- scanner.rs 317: `self.buffer[0]` -/
  | bufferIndex
  /-- macros.rs 41-50: `AS_DIGIT!` -/
  | asDigit
  /-- macros.rs 62-71: `AS_HEX_AT!` -/
  | asHex
  /-- scanner.rs 1112, `scan_tag`: `panic!("TODO: What is expected here?")` -/
  | tagTodo
  /-- scanner.rs 1541, `scan_flow_scalar`: `self.buffer.get(1).copied().unwrap()` -/
  | escapeAtEof
  /-- parser.rs 337, 387, 483, 543, 598, 637, 671, 759, 863: `self.inner.states.pop().unwrap()` -/
  | statesEmpty
  /-- parser.rs 604, 677, 726, 831: `self.inner.marks.pop().unwrap()` -/
  | marksEmpty
  /-- parser.rs 226: `panic!("parser end state reached unexpectedly")` -/
  | parserEndState
  /-- document.rs 261: `panic!("expected stream start")` -/
  | loadNoStreamStart
  /-- document.rs 312: `panic!("Expected YAML_DOCUMENT_START_EVENT")` -/
  | loadNoDocumentStart
  /-- document.rs 323-325: unexpected stream/document event while loading nodes -/
  | loadUnexpectedEvent
  /-- document.rs: `self.nodes[index as usize - 1]` (and the emitter's `anchors`) out of range -/
  | nodeIndex
  /-- document.rs 408: parent node is not a collection -/
  | loadBadParent
  /-- document.rs 504-509, 556-561: collection end without a current collection / of the wrong kind -/
  | loadBadEnd
  /-- document.rs 110-119, `get_node(0)`: subtraction underflow (panics when overflow checks are on) -/
  | indexUnderflow
  /-- document.rs 215-220: assertions of `append_sequence_item` -/
  | appendItemAssert
  /-- document.rs 228-234: assertions of `yaml_document_append_mapping_pair` -/
  | appendPairAssert
  /-- document.rs 635: `anchor.unwrap()` of a node that is to be dumped as an alias but has no anchor -/
  | dumpAliasNoAnchor
  /-- document.rs 627: `assert!(index > 0)` -/
  | dumpIndexZero
  /-- document.rs 644: `unreachable!` when dumping a `NoNode` -/
  | dumpNoNode
  /-- document.rs 584: `assert!(emitter.opened)` -/
  | dumpNotOpened
  /-- emitter.rs 655, 688, 736, 756, 816, 836: `self.states.pop().unwrap()` -/
  | emitterStatesEmpty
  /-- emitter.rs 649, 682, 735, 755, 835: `self.indents.pop().unwrap()` -/
  | emitterIndentsEmpty
  /-- emitter.rs 1769: `assert!(self.write_handler.is_some())` -/
  | noWriteHandler
  /-- emitter.rs 1770: `assert_ne!(self.encoding, Encoding::Any)` -/
  | noEncoding
  /-- emitter.rs 1133: `tag[0..prefix_len]` not on a character boundary -/
  | tagSlice
  /-- emitter.rs 1669: `best_indent` is not a digit -/
  | indentHint
  /-- emitter.rs 221: `assert!(!self.opened)` -/
  | openTwice
  /-- emitter.rs 233: `assert!(self.opened)` -/
  | closeUnopened
  /-- reader.rs 293: `read_handler.as_mut().expect("no read handler")` -/
  | noReadHandler
  /-- scanner.rs 56, 85: `assert!(self.read_handler.is_none())` -/
  | inputAlreadySet
  /-- emitter.rs 248, 260: `assert!(self.write_handler.is_none())` -/
  | outputAlreadySet
  /-- emitter.rs 252: `panic!("cannot output UTF-16 to String")` -/
  | stringOutputUtf16
  /-- emitter.rs 266, scanner.rs 91: `assert!(self.encoding == Encoding::Any)` -/
  | setEncodingTwice
  /-- emitter.rs 827, 924, 1057: `unreachable!`/`panic!` on a missing scalar analysis or style -/
  | emitterUnreachable
deriving DecidableEq, Repr

end Yaml
