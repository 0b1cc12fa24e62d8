import Verif.Reader

/-
Specification of input sources, independent of the reader model: which bytes a `BufRead` holds,
which errors it reports, and how a client takes characters from the reader.
-/

namespace Yaml

/-- The bytes a source holds. -/
def bytesOf : List SrcItem → List UInt8
  | [] => []
  | .data bs :: r => bs ++ bytesOf r
  | _ :: r => bytesOf r

/-- No I/O errors, except `Interrupted`. -/
def Quiet : List SrcItem → Prop
  | [] => True
  | .fail _ :: _ => False
  | _ :: r => Quiet r

/-- The first refill that is not empty is not an `Interrupted` error (the encoding detection does
not retry). -/
def Prompt : List SrcItem → Prop
  | [] => True
  | .data [] :: r => Prompt r
  | .data _ :: _ => True
  | _ :: _ => False

/-- The UTF-8 byte order mark. -/
def bom8 : List UInt8 := [0xEF, 0xBB, 0xBF]

/-- The UTF-16 byte order marks. -/
def bom16 (be : Bool) : List UInt8 := if be then [0xFE, 0xFF] else [0xFF, 0xFE]

/-- The refills of a `BufRead` deliver at most one byte each. -/
def OneByte (items : List SrcItem) : Prop := ∀ bs, SrcItem.data bs ∈ items → bs.length ≤ 1

/-- The characters allowed in YAML streams. -/
def Allowed (c : Char) : Prop :=
  c = '\t' ∨ c = '\n' ∨ c = '\r' ∨ (' ' ≤ c ∧ c ≤ '~') ∨ c = '\u0085' ∨ (0xA0 ≤ c.toNat ∧ c.toNat ≤ 0xD7FF) ∨
    (0xE000 ≤ c.toNat ∧ c.toNat ≤ 0xFFFD) ∨ (0x10000 ≤ c.toNat ∧ c.toNat ≤ 0x10FFFF)

/-- What a client of the reader gets: for each `n` of the list it asks for `n` characters of
look-ahead and then takes them (fewer at the end of the input), up to the first error. -/
def pull : List Nat → Rd → Except Err (List Char) × Rd
  | [], r => (.ok [], r)
  | n :: ns, r =>
    match Reader.cache n r with
    | (some e, r) => (.error e, r)
    | (none, r) =>
      let q := pull ns { r with buffer := r.buffer.drop n }
      (q.1.map (r.buffer.take n ++ ·), q.2)

end Yaml
