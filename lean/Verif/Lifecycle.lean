import Verif.Api
import Verif.EmitApi

/-
Objects over their whole life: before the input or output is set, and `reset`.

`ScannerObj`, `ParserObj` and `EmitterObj` are objects that have been given their input (output); here the
setters and `reset` are calls like the others.
-/

namespace Yaml

/-- Change the value of a call that returned `Ok`. -/
def Out.map {α β : Type} (f : α → β) : Out α → Out β
  | .ok a => .ok (f a)
  | .err e => .err e
  | .panic p => .panic p
  | .fuel => .fuel

/-- All fields of `Scanner` (scanner.rs lines 16-51); `input`: whether `read_handler` is `Some` (what it will deliver is
`r.items`). -/
structure ScannerBox where
  s : SState
  r : Rd
  input : Bool
deriving DecidableEq

/-- A call of a public method of `Scanner`. -/
inductive ScannerCall where
  | setInput (items : List SrcItem)
  | setEncoding (enc : Encoding)
  | scan
  | reset

namespace ScannerBox

/-- `Scanner::new`, scanner.rs lines 62-81. -/
def new : ScannerBox := ⟨SState.new, { items := [] }, false⟩

/-- `Scanner::set_input`, scanner.rs lines 84-87 (and `set_input_string`, lines 54-58). -/
def setInput (items : List SrcItem) (o : ScannerBox) : Out Unit × ScannerBox :=
  if o.input then (.panic .inputAlreadySet, o) else (.ok (), { o with r := { o.r with items := items }, input := true })

/-- `Scanner::set_encoding`, scanner.rs lines 90-93. -/
def setEncoding (enc : Encoding) (o : ScannerBox) : Out Unit × ScannerBox :=
  if o.r.encoding = .any then (.ok (), { o with r := { o.r with encoding := enc } }) else (.panic .setEncodingTwice, o)

/-- `Scanner::scan`, scanner.rs lines 196-217.  Without input the first `cache` panics (nothing has been read then, so the buffer
is empty). -/
def scan (F : Nat) (o : ScannerBox) : Out Token × ScannerBox :=
  if o.input then
    let q := ScannerObj.scan F ⟨o.s, o.r⟩
    (q.1, ⟨q.2.s, q.2.r, true⟩)
  else (.panic .noReadHandler, o)

/-- `Scanner::reset`, scanner.rs lines 96-113, field by field. -/
def reset (o : ScannerBox) : ScannerBox :=
  let o := { o with input := false, r := { o.r with items := [] } }
  let o := { o with r := { o.r with eof := false } }
  let o := { o with r := { o.r with buffer := [] } }
  let o := { o with r := { o.r with encoding := .any } }
  let o := { o with r := { o.r with offset := 0 } }
  let o := { o with s := { o.s with mark := Mark.zero } }
  let o := { o with s := { o.s with streamStartProduced := false } }
  let o := { o with s := { o.s with streamEndProduced := false } }
  let o := { o with s := { o.s with flowLevel := 0 } }
  let o := { o with s := { o.s with tokens := [] } }
  let o := { o with s := { o.s with tokensParsed := 0 } }
  let o := { o with s := { o.s with tokenAvailable := false } }
  let o := { o with s := { o.s with indents := [] } }
  let o := { o with s := { o.s with indent := 0 } }
  let o := { o with s := { o.s with simpleKeyAllowed := false } }
  { o with s := { o.s with simpleKeys := [] } }

/-- One call, with what it returns. -/
def call (F : Nat) (o : ScannerBox) : ScannerCall → Out (Option Token) × ScannerBox
  | .setInput items => let q := o.setInput items; (q.1.map fun _ => none, q.2)
  | .setEncoding enc => let q := o.setEncoding enc; (q.1.map fun _ => none, q.2)
  | .scan => let q := o.scan F; (q.1.map some, q.2)
  | .reset => (.ok none, o.reset)

/-- The results of calls one after the other. -/
def trace (F : Nat) (o : ScannerBox) : List ScannerCall → List (Out (Option Token))
  | [] => []
  | c :: cs => (o.call F c).1 :: trace F (o.call F c).2 cs

/-- The object after calls. -/
def after (F : Nat) (o : ScannerBox) : List ScannerCall → ScannerBox
  | [] => o
  | c :: cs => after F (o.call F c).2 cs

end ScannerBox

/-- All fields of `Parser` (parser.rs lines 11-29). -/
structure ParserBox where
  p : PState
  b : ScannerBox
deriving DecidableEq

/-- A call of a public method on a `Parser`. -/
inductive ParserCall where
  | setInput (items : List SrcItem)
  | setEncoding (enc : Encoding)
  | parse
  | load
  | reset

/-- What a call returns. -/
inductive ParserResult where
  | unit
  | event (e : Event)
  | document (d : Document)

namespace ParserBox

/-- `Parser::new`, parser.rs lines 133-144. -/
def new : ParserBox := ⟨PState.new, ScannerBox.new⟩

/-- `Parser::reset`, parser.rs lines 147-156, field by field. -/
def reset (o : ParserBox) : ParserBox :=
  let o := { o with b := o.b.reset }
  let o := { o with p := { o.p with states := [] } }
  let o := { o with p := { o.p with state := .streamStart } }
  let o := { o with p := { o.p with marks := [] } }
  let o := { o with p := { o.p with tagDirectives := [] } }
  { o with p := { o.p with aliases := [] } }

/-- Run a parser method; without input the first `cache` panics. -/
def run {α : Type} (F : Nat) (m : Pars α) (o : ParserBox) : Out α × ParserBox :=
  if o.b.input then
    let q := ParserObj.run F m ⟨o.p, o.b.s, o.b.r⟩
    (q.1, ⟨q.2.p, ⟨q.2.s, q.2.r, true⟩⟩)
  else (.panic .noReadHandler, o)

/-- One call, with what it returns: `set_input` and `set_encoding` (parser.rs lines 159-176), `parse` (lines 188-193),
`Document::load` (document.rs lines 251-290), `reset`. -/
def call (F : Nat) (o : ParserBox) : ParserCall → Out ParserResult × ParserBox
  | .setInput items => let q := o.b.setInput items; (q.1.map fun _ => .unit, { o with b := q.2 })
  | .setEncoding enc => let q := o.b.setEncoding enc; (q.1.map fun _ => .unit, { o with b := q.2 })
  | .parse => let q := o.run F (Parser.parse F); (q.1.map .event, q.2)
  | .load => let q := o.run F (Document.load F); (q.1.map .document, q.2)
  | .reset => (.ok .unit, o.reset)

/-- The results of calls one after the other. -/
def trace (F : Nat) (o : ParserBox) : List ParserCall → List (Out ParserResult)
  | [] => []
  | c :: cs => (o.call F c).1 :: trace F (o.call F c).2 cs

/-- The object after calls. -/
def after (F : Nat) (o : ParserBox) : List ParserCall → ParserBox
  | [] => o
  | c :: cs => after F (o.call F c).2 cs

end ParserBox

/-- A call of a public method on an `Emitter`. -/
inductive EmitterCall where
  | setOutput (w : Writer)
  | setOutputString
  | setEncoding (enc : Encoding)
  | set (x : Setting)
  | emit (ev : Event)
  | flush
  | open_
  | close
  | dump (d : Document)
  | reset

namespace DumperObj

/-- `Emitter::new`, emitter.rs lines 177-209, before any output is set. -/
def bare : DumperObj := ⟨⟨Emitter.newState, Emitter.newSink⟩, {}⟩

/-- `Emitter::reset`, emitter.rs lines 212-214. -/
def reset (o : DumperObj) : DumperObj :=
  let p := Emitter.reset (o.o.s, o.o.k)
  ⟨⟨p.1, p.2⟩, {}⟩

/-- One call, with what it returns. -/
def call (o : DumperObj) : EmitterCall → Out Unit × DumperObj
  | .setOutput w => let q := Emitter.setOutput w (o.o.s, o.o.k); (q.1, ⟨⟨q.2.1, q.2.2⟩, o.b⟩)
  | .setOutputString => let q := Emitter.setOutputString (o.o.s, o.o.k); (q.1, ⟨⟨q.2.1, q.2.2⟩, o.b⟩)
  | .setEncoding enc => let q := Emitter.setEncoding enc o.o.s; (q.1, ⟨⟨q.2, o.o.k⟩, o.b⟩)
  | .set x => (.ok (), ⟨o.o.set x, o.b⟩)
  | .emit e => o.emit e
  | .flush => let q := o.o.flush; (q.1, ⟨q.2, o.b⟩)
  | .open_ => o.open_
  | .close => o.close
  | .dump d => o.dump d
  | .reset => (.ok (), o.reset)

/-- The results of calls one after the other, each with the bytes its writer has got. -/
def trace (o : DumperObj) : List EmitterCall → List (Out Unit × List UInt8)
  | [] => []
  | c :: cs => ((o.call c).1, (o.call c).2.o.written) :: trace (o.call c).2 cs

/-- The object after calls. -/
def after (o : DumperObj) : List EmitterCall → DumperObj
  | [] => o
  | c :: cs => after (o.call c).2 cs

end DumperObj
end Yaml
