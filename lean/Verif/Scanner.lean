import Verif.Chars
import Verif.Prog

/-
The scanner.  Models: /repo/src/scanner.rs, function by function.

Conventions and simplifications.
* The character buffer with its reader (`buffer`, `eof`, `encoding`, `offset`, `read_handler`)
  is accessed only through the four operations `CharOp`; `Reader.lean` gives them their
  meaning.  `buffer.get(i)` is pure, so a condition that reads the same position several
  times reads it once here.
* Every loop takes a step budget `F`.
* `indents` and `simple_keys` (`Vec` used as a stack) are lists with the top at the head.
* `i32`/`u64`/`usize` values are unbounded, except for the two explicit assertions
  (`flow_level != i32::MAX`, `column <= i32::MAX`), which are kept as panics.
-/

namespace Yaml

/-- What the scanner does to its input: `cache(n)` (scanner.rs 117-123), `buffer.get(i)`,
`buffer.pop_front()`, and reading `self.encoding`. -/
inductive CharOp where
  | cache (n : Nat)
  | get (i : Nat)
  | pop
  | enc
deriving DecidableEq, Repr

/-- Results of the operations; `cache` answers `some e` for `Err(e)`. -/
@[reducible] def CharOp.Ans : CharOp → Type
  | .cache _ => Option Err
  | .get _ => Option Char
  | .pop => Option Char
  | .enc => Encoding

/-- `SimpleKey`, parser.rs lines 37-49. -/
structure SimpleKey where
  possible : Bool
  required : Bool
  tokenNumber : Nat
  mark : Mark
deriving DecidableEq, Repr

/-- The scanner fields other than the input buffer, scanner.rs lines 16-51. -/
structure SState where
  mark : Mark
  streamStartProduced : Bool
  streamEndProduced : Bool
  flowLevel : Nat
  tokens : List Token
  tokensParsed : Nat
  tokenAvailable : Bool
  indents : List Int
  indent : Int
  simpleKeyAllowed : Bool
  simpleKeys : List SimpleKey
deriving DecidableEq, Repr

/-- `Scanner::new`, scanner.rs lines 62-81. -/
def SState.new : SState where
  mark := Mark.zero
  streamStartProduced := false
  streamEndProduced := false
  flowLevel := 0
  tokens := []
  tokensParsed := 0
  tokenAvailable := false
  indents := []
  indent := 0
  simpleKeyAllowed := false
  simpleKeys := []

/-- A scanner method. -/
abbrev Scan := M CharOp CharOp.Ans SState

namespace Scanner

/-- `i32::MAX`. -/
def i32Max : Nat := 2147483647

/-- `self.cache(n)?`, scanner.rs lines 117-123. -/
def cache (n : Nat) : Scan Unit := do
  match ← (M.prim (CharOp.cache n) : Scan (Option Err)) with
  | none => pure ()
  | some e => M.throw e

/-- `self.buffer.get(i).copied()`. -/
def at_ (i : Nat) : Scan (Option Char) := M.prim (CharOp.get i)

/-- `self.buffer.pop_front()`. -/
def popChar : Scan (Option Char) := M.prim CharOp.pop

/-- The current mark, `self.mark`. -/
def getMark : Scan Mark := do pure (← M.get).mark

/-- Replace the mark. -/
def setMark (f : Mark → Mark) : Scan Unit := M.modify fun s => { s with mark := f s.mark }

/-- `set_scanner_error`, scanner.rs lines 271-278. -/
def scannerError {α : Type} (context : String) (contextMark : Mark) (problem : String) : Scan α := do
  M.throw (.scanner context contextMark problem (← getMark))

/-- Mark update for a consumed character that is not a break, scanner.rs lines 128-130, 155-156. -/
def bumpMark (c : Char) (m : Mark) : Mark :=
  { m with index := m.index + lenUtf8 c, column := m.column + 1 }

/-- Mark update for a consumed line break of `w` bytes, scanner.rs lines 137-139, 143-145,
172-174, 184-186. -/
def newlineMark (w : Nat) (m : Mark) : Mark :=
  { index := m.index + w, line := m.line + 1, column := 0 }

/-- `skip_char`, scanner.rs lines 126-131. -/
def skipChar : Scan Unit := do
  match ← popChar with
  | none => M.panic .skipCharEmpty
  | some c => setMark (bumpMark c)

/-- `skip_line_break`, scanner.rs lines 134-149. -/
def skipLineBreak : Scan Unit := do
  match ← at_ 0 with
  | none => pure ()
  | some front =>
    let second ← at_ 1
    if front == '\r' && second == some '\n' then do
      let _ ← popChar
      let _ ← popChar
      setMark (newlineMark 2)
    else if isBreak front then do
      let _ ← popChar
      setMark (newlineMark (lenUtf8 front))
    else pure ()

/-- `read_char`, scanner.rs lines 152-160; returns the extended string. -/
def readChar (string : Str) : Scan Str := do
  match ← popChar with
  | none => M.panic .readCharEmpty
  | some c => do
    setMark (bumpMark c)
    pure (string ++ [c])

/-- `read_line_break`, scanner.rs lines 163-188; returns the extended string. -/
def readLineBreak (string : Str) : Scan Str := do
  match ← at_ 0 with
  | none => M.panic .readLineBreakEmpty
  | some front =>
    let second ← at_ 1
    if front == '\r' && second == some '\n' then do
      let _ ← popChar
      let _ ← popChar
      setMark (newlineMark 2)
      pure (string ++ ['\n'])
    else if isBreak front then do
      let _ ← popChar
      setMark (newlineMark (lenUtf8 front))
      pure (string ++ [if lenUtf8 front == 3 then front else '\n'])
    else pure string

/-- The loop shape `while p { self.skip_char(); self.cache(1)?; }`
(scanner.rs 808-813, 815-818, 864-870, 873-879, 933-936, 998-1001, 1340-1346, 1349-1355). -/
def skipWhile (F : Nat) (p : Option Char → Bool) : Scan Unit :=
  M.loop F (fun (_ : Unit) => do
    let c ← at_ 0
    if p c then do
      skipChar
      cache 1
      pure (.inl ())
    else pure (.inr ())) ()

/-- The loop shape `while p { self.read_char(&mut string); self.cache(1)?; }`
(scanner.rs 901-907, 1026-1033, 1141-1147, 1409-1412). -/
def readWhile (F : Nat) (p : Option Char → Bool) (string : Str) : Scan Str :=
  M.loop F (fun (string : Str) => do
    let c ← at_ 0
    if p c then do
      let string ← readChar string
      cache 1
      pure (.inl string)
    else pure (.inr string)) string

/-! ### Simple keys and indentation -/

/-- The loop of `stale_simple_keys` over the keys in `Vec` order (oldest first); an error
leaves the later keys untouched. -/
def staleList (m : Mark) : List SimpleKey → List SimpleKey × Option Mark
  | [] => ([], none)
  | k :: ks =>
    if k.possible && (decide (k.mark.line < m.line) || decide (k.mark.index + 1024 < m.index)) then
      if k.required then (k :: ks, some k.mark)
      else
        let r := staleList m ks
        ({ k with possible := false } :: r.1, r.2)
    else
      let r := staleList m ks
      (k :: r.1, r.2)

/-- `stale_simple_keys`, scanner.rs lines 415-433. -/
def staleSimpleKeys : Scan Unit := do
  let s ← M.get
  let r := staleList s.mark s.simpleKeys.reverse
  M.modify fun s => { s with simpleKeys := r.1.reverse }
  match r.2 with
  | none => pure ()
  | some m => scannerError "while scanning a simple key" m "could not find expected ':'"

/-- `remove_simple_key`, scanner.rs lines 450-464. -/
def removeSimpleKey : Scan Unit := do
  match (← M.get).simpleKeys with
  | [] => M.panic .simpleKeysEmpty
  | k :: ks =>
    if k.possible && k.required then
      scannerError "while scanning a simple key" k.mark "could not find expected ':'"
    else M.modify fun s => { s with simpleKeys := { k with possible := false } :: ks }

/-- `save_simple_key`, scanner.rs lines 435-448.  (`self.indent as u64 == column` is never
true for the initial indent `-1`.) -/
def saveSimpleKey : Scan Unit := do
  let s ← M.get
  let required := s.flowLevel == 0 && s.indent == (s.mark.column : Int)
  if s.simpleKeyAllowed then do
    let key : SimpleKey :=
      { possible := true, required := required,
        tokenNumber := s.tokensParsed + s.tokens.length, mark := s.mark }
    removeSimpleKey
    match (← M.get).simpleKeys with
    | [] => M.panic .simpleKeysEmpty
    | _ :: ks => M.modify fun s => { s with simpleKeys := key :: ks }
  else pure ()

/-- The empty simple key of scanner.rs lines 467-476 and 532-541. -/
def emptyKey : SimpleKey :=
  { possible := false, required := false, tokenNumber := 0, mark := Mark.zero }

/-- `increase_flow_level`, scanner.rs lines 466-484. -/
def increaseFlowLevel : Scan Unit := do
  M.modify fun s => { s with simpleKeys := emptyKey :: s.simpleKeys }
  if (← M.get).flowLevel == i32Max then M.panic .flowLevelOverflow
  else M.modify fun s => { s with flowLevel := s.flowLevel + 1 }

/-- `decrease_flow_level`, scanner.rs lines 486-491. -/
def decreaseFlowLevel : Scan Unit :=
  M.modify fun s =>
    if s.flowLevel != 0 then
      { s with flowLevel := s.flowLevel - 1, simpleKeys := s.simpleKeys.tail }
    else s

/-- `self.tokens.push_back(token)`. -/
def pushToken (t : Token) : Scan Unit := M.modify fun s => { s with tokens := s.tokens ++ [t] }

/-- `self.tokens.insert(n.wrapping_sub(self.tokens_parsed), token)`; `VecDeque::insert` panics
when the index exceeds the length (a wrapped difference certainly does). -/
def insertToken (number : Nat) (t : Token) : Scan Unit := do
  let s ← M.get
  if s.tokensParsed ≤ number ∧ number - s.tokensParsed ≤ s.tokens.length then
    M.modify fun s => { s with tokens := s.tokens.insertIdx (number - s.tokensParsed) t }
  else M.panic .insertOutOfRange

/-- `roll_indent`, scanner.rs lines 493-514; `number = none` is `-1`. -/
def rollIndent (column : Nat) (number : Option Nat) (data : TokenData) (mark : Mark) : Scan Unit := do
  let s ← M.get
  if s.flowLevel != 0 then pure ()
  else if s.indent < (column : Int) then do
    M.modify fun s => { s with indents := s.indent :: s.indents }
    if column > i32Max then M.panic .rollIndentOverflow
    else do
      M.modify fun s => { s with indent := (column : Int) }
      let token : Token := ⟨data, mark, mark⟩
      match number with
      | none => pushToken token
      | some n => insertToken n token
  else pure ()

/-- The `while` loop of `unroll_indent`, scanner.rs lines 520-528, by recursion on the stack. -/
def unrollLoop (column : Int) (mark : Mark) (indent : Int) (indents : List Int)
    (tokens : List Token) : Option (Int × List Int × List Token) :=
  if indent > column then
    match indents with
    | [] => none
    | i :: is => unrollLoop column mark i is (tokens ++ [⟨.blockEnd, mark, mark⟩])
  else some (indent, indents, tokens)

/-- `unroll_indent`, scanner.rs lines 516-529. -/
def unrollIndent (column : Int) : Scan Unit := do
  let s ← M.get
  if s.flowLevel != 0 then pure ()
  else match unrollLoop column s.mark s.indent s.indents s.tokens with
    | none => M.panic .indentsEmpty
    | some (i, is, ts) => M.modify fun s => { s with indent := i, indents := is, tokens := ts }

/-- Assignment to `self.simple_key_allowed`. -/
def allowSimpleKey (b : Bool) : Scan Unit := M.modify fun s => { s with simpleKeyAllowed := b }

/-! ### Lexical functions -/

/-- `scan_to_next_token`, scanner.rs lines 801-830. -/
def scanToNextToken (F : Nat) : Scan Unit :=
  M.loop F (fun (_ : Unit) => do
    cache 1
    let c ← at_ 0
    let s ← M.get
    M.when (s.mark.column == 0 && isBomO c) skipChar
    cache 1
    let s ← M.get
    skipWhile F fun c => c == some ' ' || ((s.flowLevel != 0 || !s.simpleKeyAllowed) && c == some '\t')
    let c ← at_ 0
    M.when (c == some '#') (skipWhile F fun c => !isBreakzO c)
    let c ← at_ 0
    if !isBreakO c then pure (.inr ())
    else do
      cache 2
      skipLineBreak
      M.when (s.flowLevel == 0) (allowSimpleKey true)
      pure (.inl ())) ()

/-- `scan_directive_name`, scanner.rs lines 897-924. -/
def scanDirectiveName (F : Nat) (startMark : Mark) : Scan Str := do
  cache 1
  let string ← readWhile F isAlphaO []
  let c ← at_ 0
  if string.isEmpty then
    scannerError "while scanning a directive" startMark "could not find expected directive name"
  else if !isBlankzO c then
    scannerError "while scanning a directive" startMark "found unexpected non-alphabetical character"
  else pure string

/-- `scan_version_directive_number`, scanner.rs lines 949-975 (`MAX_NUMBER_LENGTH = 9`, line 10). -/
def scanVersionDirectiveNumber (F : Nat) (startMark : Mark) : Scan Int := do
  cache 1
  let (value, length) ← M.loop F (fun ((value, length) : Int × Nat) => do
    let c ← at_ 0
    if isDigitO c then do
      let length := length + 1
      if length > 9 then
        scannerError "while scanning a %YAML directive" startMark "found extremely long version number"
      else
        match c.bind toDigit? with
        | none => M.panic .asDigit
        | some d => do
          skipChar
          cache 1
          pure (.inl (value * 10 + (d : Int), length))
    else pure (.inr (value, length))) ((0 : Int), (0 : Nat))
  if length == 0 then
    scannerError "while scanning a %YAML directive" startMark "did not find expected version number"
  else pure value

/-- `scan_version_directive_value`, scanner.rs lines 926-947. -/
def scanVersionDirectiveValue (F : Nat) (startMark : Mark) : Scan (Int × Int) := do
  cache 1
  skipWhile F isBlankO
  let major ← scanVersionDirectiveNumber F startMark
  let c ← at_ 0
  if c != some '.' then
    scannerError "while scanning a %YAML directive" startMark
      "did not find expected digit or '.' character"
  else do
    skipChar
    let minor ← scanVersionDirectiveNumber F startMark
    pure (major, minor)

/-- `scan_tag_handle`, scanner.rs lines 1123-1158. -/
def scanTagHandle (F : Nat) (directive : Bool) (startMark : Mark) : Scan Str := do
  cache 1
  let c ← at_ 0
  if c != some '!' then
    scannerError (if directive then "while scanning a tag directive" else "while scanning a tag")
      startMark "did not find expected '!'"
  else do
    let string ← readChar []
    cache 1
    let string ← readWhile F isAlphaO string
    let c ← at_ 0
    if c == some '!' then readChar string
    else if directive && string != cs! "!" then
      scannerError "while parsing a tag directive" startMark "did not find expected '!'"
    else pure string

/-- Width of a UTF-8 sequence by its first octet, scanner.rs lines 1247-1257. -/
def octetWidth (octet : Nat) : Nat :=
  if octet < 0x80 then 1
  else if octet / 32 == 6 then 2
  else if octet / 16 == 14 then 3
  else if octet / 8 == 30 then 4
  else 0

/-- `scan_uri_escapes`, scanner.rs lines 1222-1291.  The octet is pushed as the character with
that number (`char::from_u32(octet)`), as in the code. -/
def scanUriEscapes (F : Nat) (directive : Bool) (startMark : Mark) (string : Str) : Scan Str :=
  let ctx := if directive then "while parsing a %TAG directive" else "while parsing a tag"
  M.loop F (fun ((width, string) : Nat × Str) => do
    cache 3
    let c0 ← at_ 0
    let c1 ← at_ 1
    let c2 ← at_ 2
    if !(c0 == some '%' && isHexO c1 && isHexO c2) then
      scannerError ctx startMark "did not find URI escaped octet"
    else
      match c1.bind toHex?, c2.bind toHex? with
      | some a, some b => do
        let octet := a * 16 + b
        if width == 0 && octetWidth octet == 0 then
          scannerError ctx startMark "found an incorrect leading UTF-8 octet"
        else if width != 0 && octet / 64 != 2 then
          scannerError ctx startMark "found an incorrect trailing UTF-8 octet"
        else do
          let width := if width == 0 then octetWidth octet else width
          let string := string ++ [Char.ofNat octet]
          skipChar
          skipChar
          skipChar
          if width - 1 == 0 then pure (.inr string)
          else pure (.inl (width - 1, string))
      | _, _ => M.panic .asHex) (0, string)

/-- The characters accepted by the loop of `scan_tag_uri`, scanner.rs lines 1176-1197. -/
def isUriChar (uriChar : Bool) (c : Option Char) : Bool :=
  isAlphaO c || c == some ';' || c == some '/' || c == some '?' || c == some ':' || c == some '@'
    || c == some '&' || c == some '=' || c == some '+' || c == some '$' || c == some '.'
    || c == some '%' || c == some '!' || c == some '~' || c == some '*' || c == some '\''
    || c == some '(' || c == some ')'
    || (uriChar && (c == some ',' || c == some '[' || c == some ']'))

/-- `scan_tag_uri`, scanner.rs lines 1160-1220; `head` is `""` for `None`. -/
def scanTagUri (F : Nat) (uriChar directive : Bool) (head : Str) (startMark : Mark) : Scan Str := do
  cache 1
  let (string, length) ← M.loop F (fun ((string, length) : Str × Nat) => do
    let c ← at_ 0
    if isUriChar uriChar c then do
      let string ← if c == some '%' then scanUriEscapes F directive startMark string
                   else readChar string
      cache 1
      pure (.inl (string, length + 1))
    else pure (.inr (string, length))) (head.tail, strLen head)
  if length == 0 then
    scannerError (if directive then "while parsing a %TAG directive" else "while parsing a tag")
      startMark "did not find expected tag URI"
  else pure string

/-- `scan_tag_directive_value`, scanner.rs lines 978-1016. -/
def scanTagDirectiveValue (F : Nat) (startMark : Mark) : Scan (Str × Str) := do
  cache 1
  skipWhile F isBlankO
  let handle ← scanTagHandle F true startMark
  cache 1
  let c ← at_ 0
  if !isBlankO c then
    scannerError "while scanning a %TAG directive" startMark "did not find expected whitespace"
  else do
    skipWhile F isBlankO
    let prefix_ ← scanTagUri F true true [] startMark
    cache 1
    let c ← at_ 0
    if !isBlankzO c then
      scannerError "while scanning a %TAG directive" startMark
        "did not find expected whitespace or line break"
    else pure (handle, prefix_)

/-- The `if name == "YAML" .. else if name == "TAG" ..` part of `scan_directive`,
scanner.rs lines 839-862. -/
def scanDirectiveValue (F : Nat) (startMark : Mark) (name : Str) : Scan Token := do
  if name == cs! "YAML" then do
    let (major, minor) ← scanVersionDirectiveValue F startMark
    let endMark ← getMark
    pure ⟨.versionDirective major minor, startMark, endMark⟩
  else if name == cs! "TAG" then do
    let (handle, prefix_) ← scanTagDirectiveValue F startMark
    let endMark ← getMark
    pure ⟨.tagDirective handle prefix_, startMark, endMark⟩
  else scannerError "while scanning a directive" startMark "found unknown directive name"

/-- The rest of the line after a directive or a block scalar header: blanks and a comment
(scanner.rs lines 863-880 and 1339-1356). -/
def skipBlanksAndComment (F : Nat) : Scan Unit := do
  cache 1
  skipWhile F isBlankO
  let c ← at_ 0
  M.when (c == some '#') (skipWhile F fun c => !isBreakzO c)

/-- `scan_directive`, scanner.rs lines 832-895. -/
def scanDirective (F : Nat) : Scan Token := do
  let startMark ← getMark
  skipChar
  let name ← scanDirectiveName F startMark
  let token ← scanDirectiveValue F startMark name
  skipBlanksAndComment F
  let c ← at_ 0
  if isBreakzO c then do
    M.when (isBreakO c) (do cache 2; skipLineBreak)
    pure token
  else
    scannerError "while scanning a directive" startMark "did not find expected comment or line break"

/-- The characters that may follow an anchor or alias, scanner.rs lines 1036-1044. -/
def anchorFollow (c : Option Char) : Bool :=
  isBlankzO c || c == some '?' || c == some ':' || c == some ',' || c == some ']' || c == some '}'
    || c == some '%' || c == some '@' || c == some '`'

/-- `scan_anchor`, scanner.rs lines 1018-1066. (`length` counts the characters read, so
`length == 0` is "the string is empty".) -/
def scanAnchor (F : Nat) (alias : Bool) : Scan Token := do
  let startMark ← getMark
  skipChar
  cache 1
  let string ← readWhile F isAlphaO []
  let endMark ← getMark
  let c ← at_ 0
  if string.isEmpty || !anchorFollow c then
    scannerError (if alias then "while scanning an alias" else "while scanning an anchor") startMark
      "did not find expected alphabetic or numeric character"
  else pure ⟨if alias then .alias string else .anchor string, startMark, endMark⟩

/-- The handle/suffix part of `scan_tag`, scanner.rs lines 1074-1101. -/
def scanTagBody (F : Nat) (startMark : Mark) : Scan (Str × Str) := do
  cache 2
  let c1 ← at_ 1
  if c1 == some '<' then do
    skipChar
    skipChar
    let suffix ← scanTagUri F true false [] startMark
    let c ← at_ 0
    if c != some '>' then
      scannerError "while scanning a tag" startMark "did not find the expected '>'"
    else do
      skipChar
      pure ([], suffix)
  else do
    let handle ← scanTagHandle F false startMark
    if handle.head? == some '!' && decide (strLen handle > 1) && handle.getLast? == some '!' then do
      let suffix ← scanTagUri F false false [] startMark
      pure (handle, suffix)
    else do
      let suffix ← scanTagUri F false false handle startMark
      if suffix.isEmpty then pure (suffix, cs! "!")
      else pure (cs! "!", suffix)

/-- `scan_tag`, scanner.rs lines 1068-1121. -/
def scanTag (F : Nat) : Scan Token := do
  let startMark ← getMark
  let (handle, suffix) ← scanTagBody F startMark
  cache 1
  let c ← at_ 0
  if !isBlankzO c then
    if (← M.get).flowLevel == 0 || c != some ',' then
      scannerError "while scanning a tag" startMark "did not find expected whitespace or line break"
    else M.panic .tagTodo
  else do
    let endMark ← getMark
    pure ⟨.tag handle suffix, startMark, endMark⟩

/-- The spaces loop of `scan_block_scalar_breaks`, scanner.rs lines 1456-1459. -/
def skipIndent (F : Nat) (indent : Int) : Scan Unit :=
  M.loop F (fun (_ : Unit) => do
    let c ← at_ 0
    let m ← getMark
    if (indent == 0 || decide ((m.column : Int) < indent)) && isSpaceO c then do
      skipChar
      cache 1
      pure (.inl ())
    else pure (.inr ())) ()

/-- `scan_block_scalar_breaks`, scanner.rs lines 1445-1487; returns `(indent, breaks, end_mark)`. -/
def scanBlockScalarBreaks (F : Nat) (indent : Int) (breaks : Str) (startMark : Mark) :
    Scan (Int × Str × Mark) := do
  let endMark ← getMark
  let (maxIndent, breaks, endMark) ← M.loop F (fun ((maxIndent, breaks, endMark) : Int × Str × Mark) => do
    cache 1
    skipIndent F indent
    let m ← getMark
    let maxIndent := if (m.column : Int) > maxIndent then (m.column : Int) else maxIndent
    let c ← at_ 0
    if (indent == 0 || decide ((m.column : Int) < indent)) && isTabO c then
      scannerError "while scanning a block scalar" startMark
        "found a tab character where an indentation space is expected"
    else if !isBreakO c then pure (.inr (maxIndent, breaks, endMark))
    else do
      cache 2
      let breaks ← readLineBreak breaks
      let endMark ← getMark
      pure (.inl (maxIndent, breaks, endMark))) ((0 : Int), breaks, endMark)
  let s ← M.get
  if indent == 0 then
    let i := if maxIndent < s.indent + 1 then s.indent + 1 else maxIndent
    let i := if i < 1 then 1 else i
    pure (i, breaks, endMark)
  else pure (indent, breaks, endMark)

/-- `chomping` of a block scalar header: `+` is 1, `-` is -1, neither 0. -/
inductive Chomping where
  | strip | clip | keep
deriving DecidableEq, Repr

/-- Indentation indicator of a block scalar header, scanner.rs lines 1311-1321 and 1322-1331:
the digit, with the error for `0`. -/
def blockIndicatorDigit (startMark : Mark) (c : Option Char) : Scan Nat := do
  if c == some '0' then
    scannerError "while scanning a block scalar" startMark "found an indentation indicator equal to 0"
  else match c.bind toDigit? with
    | none => M.panic .asDigit
    | some d => do
      skipChar
      pure d

/-- Header of a block scalar after the indicator, scanner.rs lines 1305-1337. -/
def blockScalarHeader (startMark : Mark) : Scan (Chomping × Nat) := do
  cache 1
  let c ← at_ 0
  if c == some '+' || c == some '-' then do
    let chomping := if c == some '+' then Chomping.keep else Chomping.strip
    skipChar
    cache 1
    let c ← at_ 0
    if isDigitO c then do
      let increment ← blockIndicatorDigit startMark c
      pure (chomping, increment)
    else pure (chomping, 0)
  else if isDigitO c then do
    let increment ← blockIndicatorDigit startMark c
    cache 1
    let c ← at_ 0
    if c == some '+' || c == some '-' then do
      skipChar
      pure (if c == some '+' then Chomping.keep else Chomping.strip, increment)
    else pure (Chomping.clip, increment)
  else pure (Chomping.clip, 0)

/-- Loop variables of `scan_block_scalar`. -/
structure BlockVars where
  string : Str
  leadingBreak : Str
  trailingBreaks : Str
  leadingBlank : Bool
  indent : Int
  endMark : Mark

/-- Flushing the pending breaks before a content line, scanner.rs lines 1392-1407. -/
def blockFlush (literal : Bool) (trailingBlank : Bool) (v : BlockVars) : Str :=
  let string :=
    if !literal && v.leadingBreak.head? == some '\n' && !v.leadingBlank && !trailingBlank then
      if v.trailingBreaks.isEmpty then v.string ++ [' '] else v.string
    else v.string ++ v.leadingBreak
  string ++ v.trailingBreaks

/-- The content loop of `scan_block_scalar`, scanner.rs lines 1388-1421. -/
def blockContent (F : Nat) (literal : Bool) (startMark : Mark) (v : BlockVars) : Scan BlockVars :=
  M.loop F (fun (v : BlockVars) => do
    let c ← at_ 0
    let m ← getMark
    if (m.column : Int) != v.indent || c.isNone then pure (.inr v)
    else do
      let trailingBlank := isBlankO c
      let string := blockFlush literal trailingBlank v
      let string ← readWhile F (fun c => !isBreakzO c) string
      cache 2
      let leadingBreak ← readLineBreak []
      let (indent, trailingBreaks, endMark) ← scanBlockScalarBreaks F v.indent [] startMark
      pure (.inl { string := string, leadingBreak := leadingBreak, trailingBreaks := trailingBreaks,
                   leadingBlank := trailingBlank, indent := indent, endMark := endMark })) v

/-- `scan_block_scalar`, scanner.rs lines 1293-1443. -/
def scanBlockScalar (F : Nat) (literal : Bool) : Scan Token := do
  let startMark ← getMark
  skipChar
  let (chomping, increment) ← blockScalarHeader startMark
  skipBlanksAndComment F
  let c ← at_ 0
  if !isBreakzO c then
    scannerError "while scanning a block scalar" startMark "did not find expected comment or line break"
  else do
    M.when (isBreakO c) (do cache 2; skipLineBreak)
    let s ← M.get
    let indent : Int :=
      if increment != 0 then
        if s.indent ≥ 0 then s.indent + (increment : Int) else (increment : Int)
      else 0
    let (indent, trailingBreaks, endMark) ← scanBlockScalarBreaks F indent [] startMark
    cache 1
    let v ← blockContent F literal startMark
      { string := [], leadingBreak := [], trailingBreaks := trailingBreaks, leadingBlank := false,
        indent := indent, endMark := endMark }
    let string := if chomping != Chomping.strip then v.string ++ v.leadingBreak else v.string
    let string := if chomping == Chomping.keep then string ++ v.trailingBreaks else string
    pure ⟨.scalar string (if literal then .literal else .folded), startMark, v.endMark⟩

/-- The document indicator test of scanner.rs lines 1501-1508 and 1734-1741. -/
def isDocIndicator (m : Mark) (c0 c1 c2 c3 : Option Char) : Bool :=
  m.column == 0
    && ((c0 == some '-' && c1 == some '-' && c2 == some '-')
      || (c0 == some '.' && c1 == some '.' && c2 == some '.'))
    && isBlankzO c3

/-- Single-character escapes, scanner.rs lines 1541-1604. -/
def escapeChar : Char → Option Char
  | '0' => some '\x00'
  | 'a' => some '\x07'
  | 'b' => some '\x08'
  | 't' => some '\t'
  | '\t' => some '\t'
  | 'n' => some '\n'
  | 'v' => some '\x0B'
  | 'f' => some '\x0C'
  | 'r' => some '\r'
  | 'e' => some '\x1B'
  | ' ' => some ' '
  | '"' => some '"'
  | '/' => some '/'
  | '\\' => some '\\'
  | 'N' => some '\u0085'
  | '_' => some '\u00a0'
  | 'L' => some '\u2028'
  | 'P' => some '\u2029'
  | _ => none

/-- Numeric escapes: number of hex digits, scanner.rs lines 1605-1613. -/
def escapeCodeLength : Char → Option Nat
  | 'x' => some 2
  | 'u' => some 4
  | 'U' => some 8
  | _ => none

/-- `char::from_u32`. -/
def charFromU32 (n : Nat) : Option Char :=
  if n < 0xD800 ∨ (0xDFFF < n ∧ n < 0x110000) then some (Char.ofNat n) else none

/-- The hex digit loop, scanner.rs lines 1628-1638, for the positions `k, k+1, ..` (`n` of them). -/
def hexLoop (startMark : Mark) (n k value : Nat) : Scan Nat :=
  match n with
  | 0 => pure value
  | n + 1 => do
    let c ← at_ k
    if !isHexO c then
      scannerError "while parsing a quoted scalar" startMark "did not find expected hexdecimal number"
    else match c.bind toHex? with
      | none => M.panic .asHex
      | some d => hexLoop startMark n (k + 1) (value * 16 + d)

/-- `while k < code_length { self.skip_char(); k += 1; }`, scanner.rs lines 1649-1653. -/
def skipChars : Nat → Scan Unit
  | 0 => pure ()
  | n + 1 => do
    skipChar
    skipChars n

/-- An escape sequence that is not an escaped line break, scanner.rs lines 1539-1654.
Returns the extended string. -/
def scanEscape (startMark : Mark) (string : Str) : Scan Str := do
  match ← at_ 1 with
  | none => M.panic .escapeAtEof
  | some e =>
    match escapeChar e with
    | some ch => do
      skipChar
      skipChar
      pure (string ++ [ch])
    | none =>
      match escapeCodeLength e with
      | none =>
        scannerError "while parsing a quoted scalar" startMark "found unknown escape character"
      | some n => do
        skipChar
        skipChar
        cache n
        let value ← hexLoop startMark n 0 0
        match charFromU32 value with
        | none =>
          scannerError "while parsing a quoted scalar" startMark
            "found invalid Unicode character escape code"
        | some ch => do
          skipChars n
          pure (string ++ [ch])

/-- The closing quote of a flow scalar. -/
def quoteChar (single : Bool) : Char := if single then '\'' else '"'

/-- The non-blank loop of `scan_flow_scalar`, scanner.rs lines 1523-1660; returns the string and
`leading_blanks`. -/
def flowChunk (F : Nat) (single : Bool) (startMark : Mark) (string : Str) : Scan (Str × Bool) :=
  M.loop F (fun (string : Str) => do
    let c0 ← at_ 0
    let c1 ← at_ 1
    if isBlankzO c0 then pure (.inr (string, false))
    else if single && c0 == some '\'' && c1 == some '\'' then do
      skipChar
      skipChar
      cache 2
      pure (.inl (string ++ ['\'']))
    else if c0 == some (quoteChar single) then pure (.inr (string, false))
    else if !single && c0 == some '\\' && isBreakO c1 then do
      cache 3
      skipChar
      skipLineBreak
      pure (.inr (string, true))
    else if !single && c0 == some '\\' then do
      let string ← scanEscape startMark string
      cache 2
      pure (.inl string)
    else do
      let string ← readChar string
      cache 2
      pure (.inl string)) string

/-- Loop variables of the blank loops of the flow and plain scanners. -/
structure BlankVars where
  leadingBreak : Str := []
  trailingBreaks : Str := []
  whitespaces : Str := []
  leadingBlanks : Bool := false

/-- The blank loop of `scan_flow_scalar`, scanner.rs lines 1666-1684. -/
def flowBlanks (F : Nat) (v : BlankVars) : Scan BlankVars :=
  M.loop F (fun (v : BlankVars) => do
    let c ← at_ 0
    if isBlankO c then
      if v.leadingBlanks then do
        skipChar
        cache 1
        pure (.inl v)
      else do
        let w ← readChar v.whitespaces
        cache 1
        pure (.inl { v with whitespaces := w })
    else if isBreakO c then do
      cache 2
      if v.leadingBlanks then do
        let t ← readLineBreak v.trailingBreaks
        cache 1
        pure (.inl { v with trailingBreaks := t })
      else do
        let l ← readLineBreak v.leadingBreak
        cache 1
        pure (.inl { v with whitespaces := [], leadingBreak := l, leadingBlanks := true })
    else pure (.inr v)) v

/-- Joining after breaks, scanner.rs lines 1685-1703 (and 1776-1795): the text that the collected
blanks contribute.  Afterwards the collected strings are empty. -/
def joinBlanks (v : BlankVars) : Str :=
  if v.leadingBlanks then
    if v.leadingBreak.head? == some '\n' then
      if v.trailingBreaks.isEmpty then [' '] else v.trailingBreaks
    else v.leadingBreak ++ v.trailingBreaks
  else v.whitespaces

/-- Lines 1499-1522: look-ahead and the two errors at the head of the flow scalar loop. -/
def flowHead (startMark : Mark) : Scan Unit := do
  cache 4
  let c0 ← at_ 0
  let c1 ← at_ 1
  let c2 ← at_ 2
  let c3 ← at_ 3
  let m ← getMark
  if isDocIndicator m c0 c1 c2 c3 then
    scannerError "while scanning a quoted scalar" startMark "found unexpected document indicator"
  else if c0.isNone then
    scannerError "while scanning a quoted scalar" startMark "found unexpected end of stream"
  else cache 2

/-- The main loop of `scan_flow_scalar`, scanner.rs lines 1498-1704.  The collected blanks
(`leading_break`, `trailing_breaks`, `whitespaces`) are loop variables of the code; each pass
leaves `leading_break` and `trailing_breaks` empty, while `whitespaces` is cleared by
`leading_blanks = false` passes only (it is empty in the other case too, because line 1678
cleared it or nothing was read), so they are local to a pass here. -/
def flowBody (F : Nat) (single : Bool) (startMark : Mark) : Scan Str :=
  M.loop F (fun (string : Str) => do
    flowHead startMark
    let (string, leadingBlanks) ← flowChunk F single startMark string
    cache 1
    let c ← at_ 0
    if c == some (quoteChar single) then pure (.inr string)
    else do
      cache 1
      let v ← flowBlanks F { leadingBlanks := leadingBlanks }
      pure (.inl (string ++ joinBlanks v))) []

/-- `scan_flow_scalar`, scanner.rs lines 1489-1720. -/
def scanFlowScalar (F : Nat) (single : Bool) : Scan Token := do
  let startMark ← getMark
  skipChar
  let string ← flowBody F single startMark
  skipChar
  let endMark ← getMark
  pure ⟨.scalar string (if single then .singleQuoted else .doubleQuoted), startMark, endMark⟩

/-- Loop variables of `scan_plain_scalar`. -/
structure PlainVars where
  string : Str
  blanks : BlankVars
  endMark : Mark

/-- The `':'` error of scanner.rs lines 1749-1756. -/
def plainBadColon (flowLevel : Nat) (c0 c1 : Option Char) : Bool :=
  flowLevel != 0 && c0 == some ':'
    && (c1 == some ',' || c1 == some '?' || c1 == some '[' || c1 == some ']' || c1 == some '{'
      || c1 == some '}')

/-- The end-of-scalar test of scanner.rs lines 1765-1771. -/
def plainStop (flowLevel : Nat) (c0 c1 : Option Char) : Bool :=
  (c0 == some ':' && isBlankzO c1)
    || (flowLevel != 0 && (c0 == some ',' || c0 == some '[' || c0 == some ']' || c0 == some '{'
      || c0 == some '}'))

/-- The non-blank loop of `scan_plain_scalar`, scanner.rs lines 1748-1800.  On entering line
1775 with `leading_blanks` or non-empty `whitespaces` the collected blanks are joined and
cleared; `joinBlanks` of empty variables is empty, so joining is unconditional here. -/
def plainChunk (F : Nat) (startMark : Mark) (v : PlainVars) : Scan PlainVars :=
  M.loop F (fun (v : PlainVars) => do
    let c0 ← at_ 0
    let c1 ← at_ 1
    let s ← M.get
    if isBlankzO c0 then pure (.inr v)
    else if plainBadColon s.flowLevel c0 c1 then
      scannerError "while scanning a plain scalar" startMark "found unexpected ':'"
    else if plainStop s.flowLevel c0 c1 then pure (.inr v)
    else do
      let string ← readChar (v.string ++ joinBlanks v.blanks)
      let endMark ← getMark
      cache 2
      pure (.inl { string := string, blanks := {}, endMark := endMark })) v

/-- The blank loop of `scan_plain_scalar`, scanner.rs lines 1806-1832. -/
def plainBlanks (F : Nat) (indent : Int) (startMark : Mark) (v : BlankVars) : Scan BlankVars :=
  M.loop F (fun (v : BlankVars) => do
    let c ← at_ 0
    let m ← getMark
    if isBlankO c then
      if v.leadingBlanks && decide ((m.column : Int) < indent) && isTabO c then
        scannerError "while scanning a plain scalar" startMark
          "found a tab character that violates indentation"
      else if !v.leadingBlanks then do
        let w ← readChar v.whitespaces
        cache 1
        pure (.inl { v with whitespaces := w })
      else do
        skipChar
        cache 1
        pure (.inl v)
    else if isBreakO c then do
      cache 2
      if v.leadingBlanks then do
        let t ← readLineBreak v.trailingBreaks
        cache 1
        pure (.inl { v with trailingBreaks := t })
      else do
        let l ← readLineBreak v.leadingBreak
        cache 1
        pure (.inl { v with whitespaces := [], leadingBreak := l, leadingBlanks := true })
    else pure (.inr v)) v

/-- The main loop of `scan_plain_scalar`, scanner.rs lines 1732-1836. -/
def plainBody (F : Nat) (indent : Int) (startMark : Mark) : Scan PlainVars :=
  M.loop F (fun (v : PlainVars) => do
    cache 4
    let c0 ← at_ 0
    let c1 ← at_ 1
    let c2 ← at_ 2
    let c3 ← at_ 3
    let m ← getMark
    if isDocIndicator m c0 c1 c2 c3 then pure (.inr v)
    else if c0 == some '#' then pure (.inr v)
    else do
      let v ← plainChunk F startMark v
      let c ← at_ 0
      if !(isBlankO c || isBreakO c) then pure (.inr v)
      else do
        cache 1
        let b ← plainBlanks F indent startMark v.blanks
        let v := { v with blanks := b }
        let s ← M.get
        if s.flowLevel == 0 && decide ((s.mark.column : Int) < indent) then pure (.inr v)
        else pure (.inl v)) { string := [], blanks := {}, endMark := startMark }

/-- `scan_plain_scalar`, scanner.rs lines 1722-1850. -/
def scanPlainScalar (F : Nat) : Scan Token := do
  let s ← M.get
  let startMark := s.mark
  let v ← plainBody F (s.indent + 1) startMark
  M.when v.blanks.leadingBlanks (allowSimpleKey true)
  pure ⟨.scalar v.string .plain, startMark, v.endMark⟩

/-! ### Fetchers -/

/-- The common tail of the indicator fetchers: take the marks around `n` skipped characters and
queue the token. -/
def fetchIndicator (n : Nat) (data : TokenData) : Scan Unit := do
  let startMark ← getMark
  skipChars n
  let endMark ← getMark
  pushToken ⟨data, startMark, endMark⟩

/-- `fetch_stream_start`, scanner.rs lines 531-554. -/
def fetchStreamStart : Scan Unit := do
  M.modify fun s => { s with indent := -1, simpleKeys := emptyKey :: s.simpleKeys,
                             simpleKeyAllowed := true, streamStartProduced := true }
  let encoding ← (M.prim CharOp.enc : Scan Encoding)
  let m ← getMark
  pushToken ⟨.streamStart encoding, m, m⟩

/-- `fetch_stream_end`, scanner.rs lines 556-571. -/
def fetchStreamEnd : Scan Unit := do
  M.modify fun s =>
    if s.mark.column != 0 then { s with mark := { s.mark with column := 0, line := s.mark.line + 1 } }
    else s
  unrollIndent (-1)
  removeSimpleKey
  allowSimpleKey false
  let m ← getMark
  pushToken ⟨.streamEnd, m, m⟩

/-- `fetch_directive`, scanner.rs lines 573-580. -/
def fetchDirective (F : Nat) : Scan Unit := do
  unrollIndent (-1)
  removeSimpleKey
  allowSimpleKey false
  let token ← scanDirective F
  pushToken token

/-- `fetch_document_indicator`, scanner.rs lines 582-599. -/
def fetchDocumentIndicator (data : TokenData) : Scan Unit := do
  unrollIndent (-1)
  removeSimpleKey
  allowSimpleKey false
  fetchIndicator 3 data

/-- `fetch_flow_collection_start`, scanner.rs lines 601-615. -/
def fetchFlowCollectionStart (data : TokenData) : Scan Unit := do
  saveSimpleKey
  increaseFlowLevel
  allowSimpleKey true
  fetchIndicator 1 data

/-- `fetch_flow_collection_end`, scanner.rs lines 617-631. -/
def fetchFlowCollectionEnd (data : TokenData) : Scan Unit := do
  removeSimpleKey
  decreaseFlowLevel
  allowSimpleKey false
  fetchIndicator 1 data

/-- `fetch_flow_entry`, scanner.rs lines 633-646. -/
def fetchFlowEntry : Scan Unit := do
  removeSimpleKey
  allowSimpleKey true
  fetchIndicator 1 .flowEntry

/-- The check-and-roll prefix shared by scanner.rs lines 649-663, 679-693 and 732-746. -/
def startBlockCollection (data : TokenData) (problem : String) : Scan Unit := do
  let s ← M.get
  if s.flowLevel == 0 then
    if !s.simpleKeyAllowed then scannerError "" s.mark problem
    else rollIndent s.mark.column none data s.mark
  else pure ()

/-- `fetch_block_entry`, scanner.rs lines 648-676. -/
def fetchBlockEntry : Scan Unit := do
  startBlockCollection .blockSequenceStart "block sequence entries are not allowed in this context"
  removeSimpleKey
  allowSimpleKey true
  fetchIndicator 1 .blockEntry

/-- `fetch_key`, scanner.rs lines 678-706. -/
def fetchKey : Scan Unit := do
  startBlockCollection .blockMappingStart "mapping keys are not allowed in this context"
  removeSimpleKey
  allowSimpleKey ((← M.get).flowLevel == 0)
  fetchIndicator 1 .key

/-- `fetch_value`, scanner.rs lines 708-759. -/
def fetchValue : Scan Unit := do
  match (← M.get).simpleKeys with
  | [] => M.panic .simpleKeysEmpty
  | k :: ks =>
    if k.possible then do
      insertToken k.tokenNumber ⟨.key, k.mark, k.mark⟩
      M.modify fun s => { s with simpleKeys := { k with possible := false } :: ks }
      rollIndent k.mark.column (some k.tokenNumber) .blockMappingStart k.mark
      allowSimpleKey false
      fetchIndicator 1 .value
    else do
      startBlockCollection .blockMappingStart "mapping values are not allowed in this context"
      allowSimpleKey ((← M.get).flowLevel == 0)
      fetchIndicator 1 .value

/-- `fetch_anchor`, scanner.rs lines 761-767. -/
def fetchAnchor (F : Nat) (alias : Bool) : Scan Unit := do
  saveSimpleKey
  allowSimpleKey false
  pushToken (← scanAnchor F alias)

/-- `fetch_tag`, scanner.rs lines 769-775. -/
def fetchTag (F : Nat) : Scan Unit := do
  saveSimpleKey
  allowSimpleKey false
  pushToken (← scanTag F)

/-- `fetch_block_scalar`, scanner.rs lines 777-783. -/
def fetchBlockScalar (F : Nat) (literal : Bool) : Scan Unit := do
  removeSimpleKey
  allowSimpleKey true
  pushToken (← scanBlockScalar F literal)

/-- `fetch_flow_scalar`, scanner.rs lines 785-791. -/
def fetchFlowScalar (F : Nat) (single : Bool) : Scan Unit := do
  saveSimpleKey
  allowSimpleKey false
  pushToken (← scanFlowScalar F single)

/-- `fetch_plain_scalar`, scanner.rs lines 793-799. -/
def fetchPlainScalar (F : Nat) : Scan Unit := do
  saveSimpleKey
  allowSimpleKey false
  pushToken (← scanPlainScalar F)

/-- The final test of `fetch_next_token`, scanner.rs lines 381-404. -/
def canStartPlain (flowLevel : Nat) (c0 c1 : Option Char) : Bool :=
  !(isBlankzO c0 || c0 == some '-' || c0 == some '?' || c0 == some ':' || c0 == some ','
      || c0 == some '[' || c0 == some ']' || c0 == some '{' || c0 == some '}' || c0 == some '#'
      || c0 == some '&' || c0 == some '*' || c0 == some '!' || c0 == some '|' || c0 == some '>'
      || c0 == some '\'' || c0 == some '"' || c0 == some '%' || c0 == some '@' || c0 == some '`')
    || (c0 == some '-' && !isBlankO c1)
    || (flowLevel == 0 && (c0 == some '?' || c0 == some ':') && !isBlankzO c1)

/-- The dispatch of `fetch_next_token` on the look-ahead characters, scanner.rs lines 314-412. -/
def dispatch (F : Nat) (m : Mark) (flowLevel : Nat) (c0 c1 c2 c3 : Option Char) : Scan Unit :=
  if c0.isNone then fetchStreamEnd
  else if m.column == 0 && c0 == some '%' then fetchDirective F
  else if m.column == 0 && c0 == some '-' && c1 == some '-' && c2 == some '-' && isBlankzO c3 then
    fetchDocumentIndicator .documentStart
  else if m.column == 0 && c0 == some '.' && c1 == some '.' && c2 == some '.' && isBlankzO c3 then
    fetchDocumentIndicator .documentEnd
  else if c0 == some '[' then fetchFlowCollectionStart .flowSequenceStart
  else if c0 == some '{' then fetchFlowCollectionStart .flowMappingStart
  else if c0 == some ']' then fetchFlowCollectionEnd .flowSequenceEnd
  else if c0 == some '}' then fetchFlowCollectionEnd .flowMappingEnd
  else if c0 == some ',' then fetchFlowEntry
  else if c0 == some '-' && isBlankzO c1 then fetchBlockEntry
  else if c0 == some '?' && (flowLevel != 0 || isBlankzO c1) then fetchKey
  else if c0 == some ':' && (flowLevel != 0 || isBlankzO c1) then fetchValue
  else if c0 == some '*' then fetchAnchor F true
  else if c0 == some '&' then fetchAnchor F false
  else if c0 == some '!' then fetchTag F
  else if c0 == some '|' && flowLevel == 0 then fetchBlockScalar F true
  else if c0 == some '>' && flowLevel == 0 then fetchBlockScalar F false
  else if c0 == some '\'' then fetchFlowScalar F true
  else if c0 == some '"' then fetchFlowScalar F false
  else if canStartPlain flowLevel c0 c1 then fetchPlainScalar F
  else scannerError "while scanning for the next token" m "found character that cannot start any token"

/-- `fetch_next_token`, scanner.rs lines 304-413. -/
def fetchNextToken (F : Nat) : Scan Unit := do
  cache 1
  if !(← M.get).streamStartProduced then fetchStreamStart
  else do
    scanToNextToken F
    staleSimpleKeys
    unrollIndent (← getMark).column
    cache 4
    let c0 ← at_ 0
    let c1 ← at_ 1
    let c2 ← at_ 2
    let c3 ← at_ 3
    let s ← M.get
    dispatch F s.mark s.flowLevel c0 c1 c2 c3

/-- The `need_more_tokens` test of `fetch_more_tokens` once stale keys are removed,
scanner.rs lines 288-293. -/
def keyPending (s : SState) : Bool :=
  s.simpleKeys.any fun k => k.possible && k.tokenNumber == s.tokensParsed

/-- `fetch_more_tokens`, scanner.rs lines 280-302. -/
def fetchMoreTokens (F : Nat) : Scan Unit := do
  M.loop F (fun (_ : Unit) => do
    if (← M.get).tokens.isEmpty then do
      fetchNextToken F
      pure (.inl ())
    else do
      staleSimpleKeys
      if keyPending (← M.get) then do
        fetchNextToken F
        pure (.inl ())
      else pure (.inr ())) ()
  M.modify fun s => { s with tokenAvailable := true }

/-- `Scanner::scan`, scanner.rs lines 196-217. -/
def scan (F : Nat) : Scan Token := do
  let s ← M.get
  if s.streamEndProduced then pure ⟨.streamEnd, Mark.zero, Mark.zero⟩
  else do
    M.when (!s.tokenAvailable) (fetchMoreTokens F)
    match (← M.get).tokens with
    | [] => M.panic .scanNoToken
    | t :: ts => do
      M.modify fun s => { s with
        tokens := ts, tokenAvailable := false, tokensParsed := s.tokensParsed + 1,
        streamEndProduced := s.streamEndProduced || (t.data == .streamEnd) }
      pure t

/-- `Iterator::next` for `Scanner`, scanner.rs lines 1862-1868: `none` once the stream end was
produced, otherwise the result of `scan` (`Err` included). -/
def next (F : Nat) : Scan (Option (Except Err Token)) := do
  if (← M.get).streamEndProduced then pure none
  else do pure (some (← M.catchErr (scan F)))

/-- `peek` (and the fetching part of `peek_mut`), scanner.rs lines 220-255. -/
def peek (F : Nat) : Scan Token := do
  M.when (!(← M.get).tokenAvailable) (fetchMoreTokens F)
  match (← M.get).tokens with
  | [] => M.panic .peekNoToken
  | t :: _ => pure t

/-- Writing through the reference returned by `peek_mut`: replace the data of the front token. -/
def setFront (d : TokenData) : Scan Unit :=
  M.modify fun s => match s.tokens with
    | [] => s
    | t :: ts => { s with tokens := { t with data := d } :: ts }

/-- `skip_token`, scanner.rs lines 258-269. -/
def skipToken : Scan Unit := do
  M.modify fun s => { s with tokenAvailable := false, tokensParsed := s.tokensParsed + 1 }
  match (← M.get).tokens with
  | [] => M.panic .skipTokenEmpty
  | t :: ts => M.modify fun s => { s with tokens := ts, streamEndProduced := t.data == .streamEnd }

/-- `Scanner::reset` (the fields modelled by `SState`), scanner.rs lines 96-113. -/
def reset (_ : SState) : SState where
  mark := Mark.zero
  streamStartProduced := false
  streamEndProduced := false
  flowLevel := 0
  tokens := []
  tokensParsed := 0
  tokenAvailable := false
  indents := []
  indent := 0
  simpleKeyAllowed := false
  simpleKeys := []

end Scanner
end Yaml
