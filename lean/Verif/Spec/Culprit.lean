import Verif.Spec.Source

/-
Specification for C65: what can be wrong with a stream of UTF-8 bytes, and where.  Independent of the reader: the
bytes of a text, characters, and the first place where they stop being the bytes of an acceptable text.
-/

namespace Yaml.Spec

/-- The bytes of the text itself: a byte order mark is skipped, unless the encoding was set by the caller. -/
def textBytes (enc : Encoding) (bs : List UInt8) : List UInt8 :=
  match enc, bs with
  | .any, 0xEF :: 0xBB :: 0xBF :: r => r
  | _, bs => bs

/-- The stream is (to be) read as UTF-8: the encoding is set to UTF-8, or it is to be found out and the stream does
not start with a byte order mark of UTF-16. -/
def Utf8Stream (enc : Encoding) (bs : List UInt8) : Prop :=
  enc = .utf8 ∨ (enc = .any ∧ ∀ be, ¬ bom16 be <+: bs)

/-- `Culprit S p off v`: the complaint `p` about the bytes `S`, with offset and value, is right: before the offset
is the encoding of a text of allowed characters, and at the offset there is something else, namely `v`. -/
inductive Culprit (S : List UInt8) : String → Nat → Int → Prop
  /-- A character that is not allowed: its offset and its code. -/
  | forbidden {T : List Char} {c : Char} {rest : List UInt8} : S = utf8Encode T ++ utf8Bytes c ++ rest → (∀ t ∈ T, Allowed t) →
      ¬ Allowed c → Culprit S "control characters are not allowed" (utf8Encode T).length c.toNat
  /-- Bytes that do not begin with a character: their offset and the first of them. -/
  | malformed {T : List Char} {b : UInt8} {rest : List UInt8} : S = utf8Encode T ++ b :: rest → (∀ t ∈ T, Allowed t) →
      (∀ c, ¬ utf8Bytes c <+: b :: rest) → Culprit S "invalid UTF-8" (utf8Encode T).length b.toNat
  /-- More than 2^63 - 1 bytes. -/
  | tooLong {T : List Char} {rest : List UInt8} : S = utf8Encode T ++ rest → (∀ t ∈ T, Allowed t) →
      9223372036854775807 ≤ (utf8Encode T).length → Culprit S "input is too long" (utf8Encode T).length (-1)

/-- The bytes end within a character: after an acceptable text comes a byte with which characters begin, all of them
longer than what is left. -/
def CutOff (S : List UInt8) : Prop :=
  ∃ T b t, S = utf8Encode T ++ b :: t ∧ (∀ c ∈ T, Allowed c) ∧ (∃ c q, utf8Bytes c = b :: q) ∧ ∀ c q, utf8Bytes c = b :: q → t.length < q.length

/-- The errors that reading a source with the encoding `enc` may end with, each with its cause. -/
inductive ReadFault (items : List SrcItem) (enc : Encoding) : Err → Prop
  /-- A place in the text. -/
  | text {p : String} {off : Nat} {v : Int} : Culprit (textBytes enc (bytesOf items)) p off v → ReadFault items enc (.reader p off v)
  /-- The first byte of a UTF-8 byte order mark, and then something else; the value is made of the first three bytes. -/
  | bom3 {a b : UInt8} {rest : List UInt8} : enc = .any → bytesOf items = 0xEF :: a :: b :: rest → ¬ (a = 0xBB ∧ b = 0xBF) →
      ReadFault items enc (.reader "invalid byte order marker" 0 (0xEF * 16777216 + a.toNat * 65536 + b.toNat * 256 - 4294967296))
  /-- The first byte of a UTF-16 byte order mark, and then something else; the value is made of the first two bytes. -/
  | bom2 {a b : UInt8} {rest : List UInt8} : enc = .any → bytesOf items = a :: b :: rest → a = 0xFF ∨ a = 0xFE →
      ReadFault items enc (.reader "invalid byte order marker" 0 (b.toNat * 256 + a.toNat))
  /-- The input ends within a character. -/
  | cut : CutOff (textBytes enc (bytesOf items)) → ReadFault items enc (.io .unexpectedEof)
  /-- The input ends within what begins like a byte order mark. -/
  | cutBom {t : List UInt8} {n : Nat} {b : UInt8} : enc = .any → bytesOf items = b :: t → (b = 0xEF ∧ n = 2 ∨ (b = 0xFF ∨ b = 0xFE) ∧ n = 1) →
      t.length < n → ReadFault items enc (.io .unexpectedEof)
  /-- The source failed. -/
  | failed {k : IoKind} : .fail k ∈ items → ReadFault items enc (.io k)
  /-- The source was interrupted when the first byte was asked for, to find out the encoding. -/
  | interrupted : enc = .any → ¬ Prompt items → ReadFault items enc (.io .interrupted)

/-- The stream is read as UTF-8 and its first bytes are not mistaken for half of a byte order mark (finding: a UTF-8
text without byte order mark is refused if its first byte is 0xEF). -/
def Plain8 (enc : Encoding) (bs : List UInt8) : Prop :=
  enc = .utf8 ∨ (enc = .any ∧ (bom8 <+: bs ∨ ∀ b, bs.head? = some b → b ≠ 0xEF ∧ b ≠ 0xFE ∧ b ≠ 0xFF))

end Yaml.Spec
