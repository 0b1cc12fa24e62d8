import Verif.Basic

/-
Character predicates.  Models: /repo/src/macros.rs (all of it) and the parts of Rust's
`char` API the crate uses (`len_utf8`, `is_digit`, `to_digit`, `is_ascii`).
-/

namespace Yaml

/-- `char::len_utf8`. -/
def lenUtf8 (c : Char) : Nat :=
  if c.toNat < 0x80 then 1
  else if c.toNat < 0x800 then 2
  else if c.toNat < 0x10000 then 3
  else 4

/-- `str::len` (bytes). -/
def strLen : Str → Nat
  | [] => 0
  | c :: cs => lenUtf8 c + strLen cs

/-- `is_alpha` on a character, macros.rs lines 19-29. -/
def isAlpha (c : Char) : Bool :=
  ('0' ≤ c && c ≤ '9') || ('A' ≤ c && c ≤ 'Z') || ('a' ≤ c && c ≤ 'z') || c == '_' || c == '-'

/-- `IS_ALPHA!`: `is_alpha(None) = false`, macros.rs lines 13-22. -/
def isAlphaO : Option Char → Bool
  | none => false
  | some c => isAlpha c

/-- `char::is_digit(10)` as used by `IS_DIGIT!`, macros.rs lines 31-39. -/
def isDigitO : Option Char → Bool
  | none => false
  | some c => '0' ≤ c && c ≤ '9'

/-- `char::to_digit(10)` as used by `AS_DIGIT!`, macros.rs lines 41-50. -/
def toDigit? (c : Char) : Option Nat :=
  if '0' ≤ c && c ≤ '9' then some (c.toNat - '0'.toNat) else none

/-- `char::to_digit(16)` as used by `IS_HEX_AT!`/`AS_HEX_AT!`, macros.rs lines 52-70. -/
def toHex? (c : Char) : Option Nat :=
  if '0' ≤ c && c ≤ '9' then some (c.toNat - '0'.toNat)
  else if 'a' ≤ c && c ≤ 'f' then some (c.toNat - 'a'.toNat + 10)
  else if 'A' ≤ c && c ≤ 'F' then some (c.toNat - 'A'.toNat + 10)
  else none

/-- `IS_HEX_AT!`, macros.rs lines 52-60. -/
def isHexO : Option Char → Bool
  | none => false
  | some c => (toHex? c).isSome

/-- `is_ascii`, macros.rs lines 73-75. -/
def isAscii (c : Char) : Bool := c.toNat < 0x80

/-- `is_printable`, macros.rs lines 77-91. -/
def isPrintable (c : Char) : Bool :=
  let n := c.toNat
  if n == 0xfeff || n == 0xfffe || n == 0xffff then false
  else n == 0x0a
    || (0x20 ≤ n && n ≤ 0x7e)
    || (0xa0 ≤ n && n ≤ 0xbf)
    || (0xc0 ≤ n && n ≤ 0xcfff)
    || (0xd000 ≤ n && n ≤ 0xd7ff)
    || (0xe000 ≤ n && n ≤ 0xefff)
    || (0xf000 ≤ n && n ≤ 0xfffd)
    || (0x10000 ≤ n && n ≤ 0x10ffff)

/-- `is_bom`, macros.rs lines 111-113 (sic: the code compares with U+7EFF). -/
def isBom (c : Char) : Bool := c.toNat == 0x7eff

/-- `IS_BOM!`, macros.rs lines 105-109. -/
def isBomO (c : Option Char) : Bool := c == some '\uFEFF'

/-- `is_space`, macros.rs lines 127-129. -/
def isSpaceO (c : Option Char) : Bool := c == some ' '
/-- `is_space` on a character. -/
def isSpace (c : Char) : Bool := c == ' '

/-- `is_tab`, macros.rs lines 143-145. -/
def isTabO (c : Option Char) : Bool := c == some '\t'

/-- `is_blank`, macros.rs lines 160-163. -/
def isBlankO (c : Option Char) : Bool := isSpaceO c || isTabO c
/-- `is_blank` on a character. -/
def isBlank (c : Char) : Bool := c == ' ' || c == '\t'

/-- `is_break` on a character, macros.rs lines 176-181. -/
def isBreak (c : Char) : Bool :=
  c == '\r' || c == '\n' || c == '\u0085' || c == '\u2028' || c == '\u2029'

/-- `is_break`, macros.rs lines 176-181. -/
def isBreakO : Option Char → Bool
  | none => false
  | some c => isBreak c

/-- `is_breakz`, macros.rs lines 183-186. -/
def isBreakzO : Option Char → Bool
  | none => true
  | some c => isBreak c

/-- `is_blankz`, macros.rs lines 165-168 (and `IS_BLANKZ_AT!`, lines 208-213). -/
def isBlankzO (c : Option Char) : Bool := isBlankO c || isBreakzO c

/-- The characters `push_char` accepts, reader.rs lines 269-287. -/
def isAllowed (c : Char) : Bool :=
  let n := c.toNat
  n == 0x09 || n == 0x0A || n == 0x0D
    || (0x20 ≤ n && n ≤ 0x7E)
    || n == 0x85
    || (0xA0 ≤ n && n ≤ 0xD7FF)
    || (0xE000 ≤ n && n ≤ 0xFFFD)
    || (0x10000 ≤ n && n ≤ 0x10FFFF)

end Yaml
