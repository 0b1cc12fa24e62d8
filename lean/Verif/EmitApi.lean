import Verif.Dumper

/-
The emitter as a public object, and histories of calls on it.
-/

namespace Yaml

/-- An `Emitter` (emitter.rs lines 16-79) with its writer: the emitter state proper and the output
half (`write_handler`, `buffer`, `raw_buffer`), without the fields that only `open`, `close` and
`Document::dump` use. -/
structure EmitterObj where
  s : EState
  k : Sink
deriving DecidableEq

/-- A call of one of the setters of emitter.rs lines 270-294. -/
inductive Setting where
  | canonical (b : Bool)
  | indent (i : Int)
  | width (w : Int)
  | unicode (b : Bool)
  | lineBreak (b : Break)
deriving DecidableEq, Repr

namespace EmitterObj

/-- Run an emitter method on the object. -/
def run {α : Type} (m : Emit α) (o : EmitterObj) : Out α × EmitterObj :=
  let q := Sink.exec (m o.s) o.k
  (q.1.1, ⟨q.1.2, q.2⟩)

/-- One call of a setter, emitter.rs lines 270-294. -/
def set (o : EmitterObj) : Setting → EmitterObj
  | .canonical b => { o with s := Emitter.setCanonical b o.s }
  | .indent i => { o with s := Emitter.setIndent i o.s }
  | .width w => { o with s := Emitter.setWidth w o.s }
  | .unicode b => { o with s := Emitter.setUnicode b o.s }
  | .lineBreak b => { o with s := Emitter.setBreak b o.s }

/-- `Emitter::new`, `set_encoding` (if `enc` is not `any`), the setters `cfg` in order and
`set_output`, emitter.rs lines 177-209 and 258-294. -/
def new (enc : Encoding) (cfg : List Setting) (w : Writer) : EmitterObj :=
  let o : EmitterObj := ⟨(Emitter.setEncoding enc Emitter.newState).2, Emitter.newSink⟩
  let o := cfg.foldl set o
  let p := (Emitter.setOutput w (o.s, o.k)).2
  ⟨p.1, p.2⟩

/-- One call of `Emitter::emit`, emitter.rs lines 302-317. -/
def emit (ev : Event) (o : EmitterObj) : Out Unit × EmitterObj := o.run (Emitter.emit ev)

/-- One call of `Emitter::flush`, emitter.rs lines 1768-1812. -/
def flush (o : EmitterObj) : Out Unit × EmitterObj := o.run Emitter.flush

/-- `Emits o evs o'`: successive calls of `emit` on `o` with the events `evs`, and any number of calls
of `flush` in between, returned `Ok` and left `o'`. -/
inductive Emits (o : EmitterObj) : List Event → EmitterObj → Prop
  | nil : Emits o [] o
  | snoc {evs : List Event} {ev : Event} {o1 o2 : EmitterObj} (h : Emits o evs o1)
      (hs : o1.emit ev = (.ok (), o2)) : Emits o (evs ++ [ev]) o2
  | flush {evs : List Event} {o1 o2 : EmitterObj} (h : Emits o evs o1)
      (hs : o1.flush = (.ok (), o2)) : Emits o evs o2

/-- Calls of `emit` with the events, one after the other, up to the first that fails. -/
def feed : List Event → EmitterObj → Out Unit × EmitterObj
  | [], o => (.ok (), o)
  | e :: es, o =>
    match o.emit e with
    | (.ok _, o') => feed es o'
    | r => r

/-- The bytes the writer has accepted. -/
def written (o : EmitterObj) : List UInt8 := (o.k.handler.map (·.bytes)).getD []

end EmitterObj

/-- An `Emitter` with all its fields. -/
structure DumperObj where
  o : EmitterObj
  b : Book := {}
deriving DecidableEq

namespace DumperObj

/-- Run a method of the whole emitter. -/
def run {α : Type} (m : Emitter.EmitB α) (o : DumperObj) : Out α × DumperObj :=
  let q := Sink.exec (m (o.o.s, o.b)) o.o.k
  (q.1.1, ⟨⟨q.1.2.1, q.2⟩, q.1.2.2⟩)

/-- One call of `Emitter::emit`, emitter.rs lines 302-317. -/
def emit (ev : Event) (o : DumperObj) : Out Unit × DumperObj := o.run (Emitter.lift (Emitter.emit ev))

/-- One call of `Emitter::open`, emitter.rs lines 220-226. -/
def open_ (o : DumperObj) : Out Unit × DumperObj := o.run Emitter.open_

/-- One call of `Emitter::close`, emitter.rs lines 232-241. -/
def close (o : DumperObj) : Out Unit × DumperObj := o.run Emitter.close

/-- One call of `Document::dump`, document.rs lines 571-600. -/
def dump (d : Document) (o : DumperObj) : Out Unit × DumperObj := o.run (Document.dump d)

/-- Calls of `dump` with the documents, one after the other, up to the first that fails. -/
def dumpAll : List Document → DumperObj → Out Unit × DumperObj
  | [], o => (.ok (), o)
  | d :: ds, o =>
    match o.dump d with
    | (.ok _, o') => dumpAll ds o'
    | r => r

/-- The objects a program can have: a new emitter, after any calls of `emit`, `open`, `close` and `dump`. -/
inductive Reached : DumperObj → Prop
  | new (enc : Encoding) (cfg : List Setting) (w : Writer) : Reached ⟨EmitterObj.new enc cfg w, {}⟩
  | emit {o : DumperObj} (h : Reached o) (ev : Event) : Reached (o.emit ev).2
  | open_ {o : DumperObj} (h : Reached o) : Reached o.open_.2
  | close {o : DumperObj} (h : Reached o) : Reached o.close.2
  | dump {o : DumperObj} (h : Reached o) (d : Document) : Reached (o.dump d).2

end DumperObj
end Yaml
