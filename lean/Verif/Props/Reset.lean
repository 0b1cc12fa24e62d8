import Verif.Lifecycle
import Verif.Props.Emitter

/-
C42: after `reset` an object behaves like a new one, whatever happened before: every later sequence of calls returns the
same results (Lifecycle.lean).
-/

namespace Yaml.Props
open Yaml

/-- C42 for `Scanner`. -/
theorem C42_scanner_reset (F : Nat) (before later : List ScannerCall) :
    (ScannerBox.new.after F (before ++ [.reset])).trace F later = ScannerBox.new.trace F later := by
  have e : ∀ o : ScannerBox, o.reset = ScannerBox.new := fun _ => rfl
  have : ∀ (cs : List ScannerCall) (o : ScannerBox), o.after F (cs ++ [.reset]) = ScannerBox.new := by
    intro cs
    induction cs with
    | nil => intro o; exact e _
    | cons c cs ih => intro o; exact ih _
  rw [this]

/-- C42 for `Parser` (and `Document::load`). -/
theorem C42_parser_reset (F : Nat) (before later : List ParserCall) :
    (ParserBox.new.after F (before ++ [.reset])).trace F later = ParserBox.new.trace F later := by
  have e : ∀ o : ParserBox, o.reset = ParserBox.new := fun _ => rfl
  have : ∀ (cs : List ParserCall) (o : ParserBox), o.after F (cs ++ [.reset]) = ParserBox.new := by
    intro cs
    induction cs with
    | nil => intro o; exact e _
    | cons c cs ih => intro o; exact ih _
  rw [this]

/-- C42 for `Emitter` (with `open`, `close` and `Document::dump`). -/
theorem C42_emitter_reset (before later : List EmitterCall) :
    (DumperObj.bare.after (before ++ [.reset])).trace later = DumperObj.bare.trace later := by
  have e : ∀ o : DumperObj, o.reset = DumperObj.bare := fun _ => rfl
  have : ∀ (cs : List EmitterCall) (o : DumperObj), o.after (cs ++ [.reset]) = DumperObj.bare := by
    intro cs
    induction cs with
    | nil => intro o; exact e _
    | cons c cs ih => intro o; exact ih _
  rw [this]

/-- The setters lead from a new object to the objects of the other theorems. -/
theorem C42_scanner_new (F : Nat) (items : List SrcItem) (enc : Encoding) :
    ScannerBox.new.after F [.setInput items, .setEncoding enc] = ⟨(ScannerObj.new items enc).s, (ScannerObj.new items enc).r, true⟩ := rfl

/-- The same for the parser. -/
theorem C42_parser_new (F : Nat) (items : List SrcItem) (enc : Encoding) :
    ParserBox.new.after F [.setInput items, .setEncoding enc] = ⟨(ParserObj.new items enc).p, (ParserObj.new items enc).s, (ParserObj.new items enc).r, true⟩ := rfl

/-! ### Examples: a scanner, a parser and an emitter in the middle of their work -/

/-- The state before `reset` is not that of a new scanner, and a new input is read from its start. -/
example : ScannerBox.new.after 50 [.setInput [.data (String.toUTF8 "[a, ").data.toList], .scan, .scan, .scan] ≠ ScannerBox.new ∧
    ((ScannerBox.new.after 50 [.setInput [.data (String.toUTF8 "[a, ").data.toList], .scan, .scan, .scan, .reset]).trace 50
      [.setInput [.data (String.toUTF8 "- b").data.toList], .scan, .scan]).length = 3 := by decide +kernel

example : ParserBox.new.after 50 [.setInput [.data (String.toUTF8 "[a, ").data.toList], .parse, .parse, .parse] ≠ ParserBox.new := by decide +kernel

example : DumperObj.bare.after [.setOutput ⟨[], []⟩, .set (.canonical true), .emit (.new (.streamStart .utf8)), .emit (.new (.documentStart none [] true))] ≠ DumperObj.bare := by
  decide +kernel

end Yaml.Props
