import Verif.Basic

/-
Decoding of UTF-8 and UTF-16.  Models the parts of Rust's standard library the reader calls:
`core::str::from_utf8` (with `valid_up_to`/`error_len`), `core::char::decode_utf16`, and the
encoders the emitter calls: `String` as UTF-8 bytes and `str::encode_utf16`.  These are read
from the std documentation, not from /repo; they are part of the trusted base.
-/

namespace Yaml

/-- Result of decoding one UTF-8 sequence at the head of a buffer.  `incomplete` is
`error_len() == None` (the buffer ended inside a so far valid sequence). -/
inductive Dec where
  | char (c : Char) (rest : List UInt8)
  | invalid
  | incomplete
deriving DecidableEq

/-- `10xxxxxx`. -/
def isCont (b : UInt8) : Bool := decide (0x80 ≤ b.toNat) && decide (b.toNat ≤ 0xBF)

/-- Allowed second bytes after a three-byte lead. -/
def second3Ok (b0 b1 : UInt8) : Bool :=
  if b0.toNat = 0xE0 then decide (0xA0 ≤ b1.toNat) && decide (b1.toNat ≤ 0xBF)
  else if b0.toNat = 0xED then decide (0x80 ≤ b1.toNat) && decide (b1.toNat ≤ 0x9F)
  else isCont b1

/-- Allowed second bytes after a four-byte lead. -/
def second4Ok (b0 b1 : UInt8) : Bool :=
  if b0.toNat = 0xF0 then decide (0x90 ≤ b1.toNat) && decide (b1.toNat ≤ 0xBF)
  else if b0.toNat = 0xF4 then decide (0x80 ≤ b1.toNat) && decide (b1.toNat ≤ 0x8F)
  else isCont b1

/-- One step of `core::str::from_utf8` (Unicode table 3-7). -/
def decodeOne (b0 : UInt8) (bs : List UInt8) : Dec :=
  if b0.toNat < 0x80 then .char (Char.ofNat b0.toNat) bs
  else if b0.toNat < 0xC2 then .invalid
  else if b0.toNat < 0xE0 then
    match bs with
    | [] => .incomplete
    | b1 :: r =>
      if isCont b1 then .char (Char.ofNat ((b0.toNat - 0xC0) * 64 + (b1.toNat - 0x80))) r
      else .invalid
  else if b0.toNat < 0xF0 then
    match bs with
    | [] => .incomplete
    | b1 :: r =>
      if second3Ok b0 b1 then
        match r with
        | [] => .incomplete
        | b2 :: r =>
          if isCont b2 then
            .char (Char.ofNat ((b0.toNat - 0xE0) * 4096 + (b1.toNat - 0x80) * 64 + (b2.toNat - 0x80))) r
          else .invalid
      else .invalid
  else if b0.toNat < 0xF5 then
    match bs with
    | [] => .incomplete
    | b1 :: r =>
      if second4Ok b0 b1 then
        match r with
        | [] => .incomplete
        | b2 :: r =>
          if isCont b2 then
            match r with
            | [] => .incomplete
            | b3 :: r =>
              if isCont b3 then
                .char (Char.ofNat ((b0.toNat - 0xF0) * 262144 + (b1.toNat - 0x80) * 4096
                  + (b2.toNat - 0x80) * 64 + (b3.toNat - 0x80))) r
              else .invalid
          else .invalid
      else .invalid
  else .invalid

/-- How `from_utf8` ended. -/
inductive Utf8End where
  | done | invalid | incomplete
deriving DecidableEq, Repr

/-- `core::str::from_utf8` on a whole buffer: the characters up to `valid_up_to()`, the bytes
from there on, and the kind of error.  `fuel` is the buffer length. -/
def utf8RunF : Nat → List UInt8 → List Char × List UInt8 × Utf8End
  | _, [] => ([], [], .done)
  | 0, bs => ([], bs, .done)
  | n + 1, b :: bs =>
    match decodeOne b bs with
    | .char c rest =>
      let r := utf8RunF n rest
      (c :: r.1, r.2.1, r.2.2)
    | .invalid => ([], b :: bs, .invalid)
    | .incomplete => ([], b :: bs, .incomplete)

/-- `core::str::from_utf8` on a buffer. -/
def utf8Run (bs : List UInt8) : List Char × List UInt8 × Utf8End := utf8RunF bs.length bs

/-- A 16-bit unit from two bytes, `u16::from_be_bytes` / `u16::from_le_bytes`. -/
def unit16 (be : Bool) (a b : UInt8) : Nat :=
  if be then a.toNat * 256 + b.toNat else b.toNat * 256 + a.toNat

/-- `available.chunks_exact(2).map(..)`. -/
def units16 (be : Bool) : List UInt8 → List Nat
  | a :: b :: r => unit16 be a b :: units16 be r
  | _ => []

/-- `0xD800..=0xDFFF`. -/
def isSurrogate (u : Nat) : Bool := decide (0xD800 ≤ u) && decide (u ≤ 0xDFFF)

/-- One item of `core::char::decode_utf16`: a character with the number of units it used, or
an unpaired surrogate. -/
def decode16 : List Nat → Option (Except Nat (Char × Nat))
  | [] => none
  | u :: us =>
    if !isSurrogate u then some (.ok (Char.ofNat u, 1))
    else if 0xDC00 ≤ u then some (.error u)
    else match us with
      | [] => some (.error u)
      | v :: _ =>
        if 0xDC00 ≤ v ∧ v ≤ 0xDFFF then
          some (.ok (Char.ofNat (0x10000 + (u - 0xD800) * 1024 + (v - 0xDC00)), 2))
        else some (.error u)

/-- The characters delivered by iterating `decode_utf16` up to the first error. -/
def utf16Run : Nat → List Nat → List (Char × Nat)
  | 0, _ => []
  | n + 1, us =>
    match decode16 us with
    | some (.ok (c, k)) => (c, k) :: utf16Run n (us.drop k)
    | _ => []

/-- UTF-8 bytes of a character (`char::encode_utf8`): Lean's own encoder. -/
def utf8Bytes (c : Char) : List UInt8 := String.utf8EncodeChar c

/-- UTF-8 bytes of a text. -/
def utf8Encode (t : List Char) : List UInt8 := t.flatMap utf8Bytes

/-- The UTF-16 units of a character (`char::encode_utf16`). -/
def utf16Units (c : Char) : List Nat :=
  if c.toNat < 0x10000 then [c.toNat]
  else [0xD800 + (c.toNat - 0x10000) / 1024, 0xDC00 + (c.toNat - 0x10000) % 1024]

/-- Bytes of a 16-bit unit, `u16::to_be_bytes` / `to_le_bytes`. -/
def unitBytes (be : Bool) (u : Nat) : List UInt8 :=
  if be then [UInt8.ofNat (u / 256), UInt8.ofNat (u % 256)]
  else [UInt8.ofNat (u % 256), UInt8.ofNat (u / 256)]

/-- UTF-16 bytes of a character. -/
def utf16Bytes (be : Bool) (c : Char) : List UInt8 := (utf16Units c).flatMap (unitBytes be)

/-- UTF-16 bytes of a text. -/
def utf16Encode (be : Bool) (t : List Char) : List UInt8 := t.flatMap (utf16Bytes be)

end Yaml
