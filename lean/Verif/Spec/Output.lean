import Verif.Utf
import Verif.Chars

/-
What the output of an emitter is: an encoded text, of characters that are acceptable input.
-/

namespace Yaml.Spec

/-- The bytes of a text in the given encoding. -/
def encodeText : Encoding → Str → List UInt8
  | .utf16le, t => utf16Encode false t
  | .utf16be, t => utf16Encode true t
  | _, t => utf8Encode t

/-- A character an emitter may produce: acceptable input, not a byte order mark, and ASCII unless
Unicode output is allowed. -/
def OutChar (unicode : Bool) (c : Char) : Prop :=
  isAllowed c = true ∧ c ≠ '\uFEFF' ∧ (unicode = false → isAscii c = true)

/-- An output text: it starts with a byte order mark exactly when it is UTF-16 (and not empty), and
all other characters are fine. -/
def OutText (e : Encoding) (unicode : Bool) (t : Str) : Prop :=
  if e = .utf8 then ∀ c ∈ t, OutChar unicode c
  else t = [] ∨ ∃ r, t = '\uFEFF' :: r ∧ ∀ c ∈ r, OutChar unicode c

end Yaml.Spec
