import Verif.Chars
import Verif.Utf
import Verif.Scanner

/-
The reader.  Models: /repo/src/reader.rs and `Scanner::cache` (scanner.rs 117-123).

The `BufRead` is a list of what its successive refills deliver.  Assumptions about the
`BufRead` (trusted base): end of input is permanent, `read_exact` is the default
implementation (retry on `Interrupted`, `UnexpectedEof` at the end) on top of
`fill_buf`/`consume`, and an error is reported once per item.  `debug_assert!` (reader.rs
line 199) is not modelled: the model is the code with debug assertions off.
-/

namespace Yaml

/-- One refill of the `BufRead`: a buffer of bytes, an `Interrupted` error, another error. -/
inductive SrcItem where
  | data (bs : List UInt8)
  | intr
  | fail (k : IoKind)
deriving DecidableEq, Repr

/-- The input part of the scanner state: `read_handler`, `eof`, `buffer`, `encoding`, `offset`
(scanner.rs lines 17-27). -/
structure Rd where
  items : List SrcItem
  eof : Bool := false
  buffer : List Char := []
  encoding : Encoding := .any
  offset : Nat := 0
deriving DecidableEq, Repr

namespace Reader

/-- `BufRead::fill_buf`: the bytes available now. -/
def fillBuf : List SrcItem → Except IoKind (List UInt8) × List SrcItem
  | [] => (.ok [], [])
  | .data [] :: r => fillBuf r
  | .data (b :: bs) :: r => (.ok (b :: bs), .data (b :: bs) :: r)
  | .intr :: r => (.error .interrupted, r)
  | .fail k :: r => (.error k, r)

/-- The loop `match reader.fill_buf() { .. Interrupted => () .. }`, reader.rs lines 58-65, 152-159. -/
def fillBufRetry : List SrcItem → Except IoKind (List UInt8) × List SrcItem
  | [] => (.ok [], [])
  | .data [] :: r => fillBufRetry r
  | .data (b :: bs) :: r => (.ok (b :: bs), .data (b :: bs) :: r)
  | .intr :: r => fillBufRetry r
  | .fail k :: r => (.error k, r)

/-- `BufRead::consume`. -/
def consume (n : Nat) : List SrcItem → List SrcItem
  | .data bs :: r => .data (bs.drop n) :: r
  | r => r

/-- `Read::read_exact` for `n` bytes; bytes read before an error are lost. -/
def readExact : Nat → List SrcItem → Except IoKind (List UInt8) × List SrcItem
  | 0, r => (.ok [], r)
  | _ + 1, [] => (.error .unexpectedEof, [])
  | n + 1, .intr :: r => readExact (n + 1) r
  | _ + 1, .fail k :: r => (.error k, r)
  | n + 1, .data bs :: r =>
    if n + 1 ≤ bs.length then (.ok (bs.take (n + 1)), .data (bs.drop (n + 1)) :: r)
    else
      let q := readExact (n + 1 - bs.length) r
      (q.1.map (bs ++ ·), q.2)

/-- `i32::from_be_bytes` / `from_le_bytes` of the BOM error values, reader.rs lines 27, 42. -/
def i32OfBytes (a b c d : UInt8) : Int :=
  let n : Int := a.toNat * 16777216 + b.toNat * 65536 + c.toNat * 256 + d.toNat
  if n < 2147483648 then n else n - 4294967296

/-- `yaml_parser_determine_encoding`, reader.rs lines 11-48. -/
def determineEncoding (items : List SrcItem) : Except Err (Option Encoding) × List SrcItem :=
  match fillBuf items with
  | (.error k, r) => (.error (.io k), r)
  | (.ok [], r) => (.ok none, r)
  | (.ok (b :: _), r) =>
    if b.toNat = 0xEF then
      match readExact 3 r with
      | (.error k, r) => (.error (.io k), r)
      | (.ok bom, r) =>
        if bom = [0xEF, 0xBB, 0xBF] then (.ok (some .utf8), r)
        else (.error (.reader "invalid byte order marker" 0
          (i32OfBytes (bom.getD 0 0) (bom.getD 1 0) (bom.getD 2 0) 0)), r)
    else if b.toNat = 0xFF ∨ b.toNat = 0xFE then
      match readExact 2 r with
      | (.error k, r) => (.error (.io k), r)
      | (.ok bom, r) =>
        if bom = [0xFF, 0xFE] then (.ok (some .utf16le), r)
        else if bom = [0xFE, 0xFF] then (.ok (some .utf16be), r)
        else (.error (.reader "invalid byte order marker" 0
          (i32OfBytes 0 0 (bom.getD 1 0) (bom.getD 0 0))), r)
    else (.ok (some .utf8), r)

/-- The loop `for ch in .. { push_char(out, ch, *offset)?; *offset += w(ch) }`
(reader.rs lines 71-74, 87-90 with `push_char`, lines 269-287). -/
def pushChars (w : Char → Nat) : List Char → List Char → Nat → Option Err × List Char × Nat
  | [], buf, off => (none, buf, off)
  | c :: cs, buf, off =>
    if isAllowed c then pushChars w cs (buf ++ [c]) (off + w c)
    else (some (.reader "control characters are not allowed" off c.toNat), buf, off)

/-- `utf8_char_width`, reader.rs lines 251-263. -/
def utf8CharWidth (b : UInt8) : Nat :=
  if b.toNat < 0x80 then 1
  else if b.toNat / 32 == 6 then 2
  else if b.toNat / 16 == 14 then 3
  else if b.toNat / 8 == 30 then 4
  else 0

/-- `read_utf8_char_unbuffered`, reader.rs lines 122-145. -/
def readUtf8Char (initial : UInt8) (r : Rd) : Option Err × Rd :=
  let width := utf8CharWidth initial
  match readExact width r.items with
  | (.error k, items) => (some (.io k), { r with items := items })
  | (.ok bytes, items) =>
    let r := { r with items := items }
    match utf8Run bytes with
    | (c :: _, _, .done) =>
      let q := pushChars (fun _ => width) [c] r.buffer r.offset
      (q.1, { r with buffer := q.2.1, offset := q.2.2 })
    | _ => (some (.reader "invalid UTF-8" r.offset ((bytes.getD 0 0).toNat : Int)), r)

/-- `read_utf8_buffered`, reader.rs lines 53-120. -/
def readUtf8 (r : Rd) : Except Err Bool × Rd :=
  match fillBufRetry r.items with
  | (.error k, items) => (.error (.io k), { r with items := items })
  | (.ok [], items) => (.ok false, { r with items := items })
  | (.ok (b :: bs), items) =>
    let r := { r with items := items }
    let run := utf8Run (b :: bs)
    let q := pushChars lenUtf8 run.1 r.buffer r.offset
    let r := { r with buffer := q.2.1, offset := q.2.2 }
    match q.1 with
    | some e => (.error e, r)
    | none =>
      match run.2.2 with
      | .done => (.ok true, { r with items := consume (b :: bs).length r.items })
      | .invalid =>
        (.error (.reader "invalid UTF-8" r.offset ((run.2.1.getD 0 0).toNat : Int)), r)
      | .incomplete =>
        if run.1 ≠ [] then
          (.ok true, { r with items := consume ((b :: bs).length - run.2.1.length) r.items })
        else
          match readUtf8Char b r with
          | (some e, r) => (.error e, r)
          | (none, r) => (.ok true, r)

/-- `read_utf16_char_unbuffered`, reader.rs lines 205-249. -/
def readUtf16Char (be : Bool) (r : Rd) : Option Err × Rd :=
  match readExact 2 r.items with
  | (.error k, items) => (some (.io k), { r with items := items })
  | (.ok bytes, items) =>
    let r := { r with items := items }
    let first := unit16 be (bytes.getD 0 0) (bytes.getD 1 0)
    if isSurrogate first then
      match readExact 2 r.items with
      | (.error k, items) => (some (.io k), { r with items := items })
      | (.ok bytes, items) =>
        let r := { r with items := items }
        let second := unit16 be (bytes.getD 0 0) (bytes.getD 1 0)
        match decode16 [first, second] with
        | some (.ok (c, _)) =>
          let q := pushChars (fun _ => 4) [c] r.buffer r.offset
          (q.1, { r with buffer := q.2.1, offset := q.2.2 })
        | some (.error u) => (some (.reader "invalid UTF-16" r.offset u), r)
        | none => (none, r)
    else
      let q := pushChars (fun _ => 2) [Char.ofNat first] r.buffer r.offset
      (q.1, { r with buffer := q.2.1, offset := q.2.2 })

/-- `read_utf16_buffered`, reader.rs lines 147-203.  As in the code, `used` counts 16-bit
units but is consumed as a number of bytes, and `offset` advances twice. -/
def readUtf16 (be : Bool) (r : Rd) : Except Err Bool × Rd :=
  match fillBufRetry r.items with
  | (.error k, items) => (.error (.io k), { r with items := items })
  | (.ok [], items) => (.ok false, { r with items := items })
  | (.ok (b :: bs), items) =>
    let r := { r with items := items }
    let units := units16 be (b :: bs)
    let run := utf16Run units.length units
    let q := pushChars (fun c => (utf16Units c).length) (run.map Prod.fst) r.buffer r.offset
    let r := { r with buffer := q.2.1, offset := q.2.2 }
    match q.1 with
    | some e => (.error e, r)
    | none =>
      let used := (run.map Prod.snd).sum
      if used ≠ 0 then
        (.ok true, { r with items := consume used r.items, offset := r.offset + used })
      else
        match readUtf16Char be r with
        | (some e, r) => (.error e, r)
        | (none, r) => (.ok true, r)

/-- The `match parser.encoding` of reader.rs lines 311-320 (`Any` is unreachable). -/
def readChunk (r : Rd) : Except Err Bool × Rd :=
  match r.encoding with
  | .any => (.error .outOfFuel, r)
  | .utf8 => readUtf8 r
  | .utf16le => readUtf16 false r
  | .utf16be => readUtf16 true r

/-- `(!0_usize).wrapping_div(2)` on a 64-bit target, reader.rs line 327. -/
def maxInput : Nat := 9223372036854775807

/-- The `while` loop and the final check of `yaml_parser_update_buffer`, reader.rs lines
306-330.  Every successful pass adds a character, so `fuel = length` passes suffice. -/
def updateLoop (length : Nat) : Nat → Rd → Option Err × Rd
  | fuel, r =>
    if r.buffer.length < length then
      if r.eof then (none, r)
      else
        match fuel with
        | 0 => (some .outOfFuel, r)
        | fuel + 1 =>
          match readChunk r with
          | (.error e, r) => (some e, r)
          | (.ok false, r) => (none, { r with eof := true })
          | (.ok true, r) => updateLoop length fuel r
    else if r.offset ≥ maxInput then (some (.reader "input is too long" r.offset (-1)), r)
    else (none, r)

/-- `yaml_parser_update_buffer`, reader.rs lines 289-331. -/
def updateBuffer (length : Nat) (r : Rd) : Option Err × Rd :=
  if r.buffer.length ≥ length then (none, r)
  else if r.encoding = .any then
    match determineEncoding r.items with
    | (.error e, items) => (some e, { r with items := items })
    | (.ok none, items) => (none, { r with items := items, eof := true })
    | (.ok (some e), items) => updateLoop length length { r with items := items, encoding := e }
  else updateLoop length length r

/-- `Scanner::cache`, scanner.rs lines 117-123. -/
def cache (n : Nat) (r : Rd) : Option Err × Rd :=
  if r.buffer.length ≥ n then (none, r) else updateBuffer n r

end Reader

/-- The meaning of the scanner's input operations over the real reader. -/
def execA {α : Type} : Free CharOp CharOp.Ans α → Rd → α × Rd
  | .ret a, r => (a, r)
  | .op (.cache n) k, r => let q := Reader.cache n r; execA (k q.1) q.2
  | .op (.get i) k, r => execA (k r.buffer[i]?) r
  | .op .pop k, r => execA (k r.buffer.head?) { r with buffer := r.buffer.tail }
  | .op .enc k, r => execA (k r.encoding) r

/-- The meaning of a scanner method over the real reader. -/
def runA {S α : Type} (m : M CharOp CharOp.Ans S α) (s : S) (r : Rd) : (Out α × S) × Rd :=
  execA (m s) r

end Yaml
