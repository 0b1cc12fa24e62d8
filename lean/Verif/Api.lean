import Verif.Reader
import Verif.Document

/-
The public objects, and histories of calls on them.
-/

namespace Yaml

/-- A `Scanner` with its `BufRead` (scanner.rs lines 10-59): the scanner state proper
and the input part. -/
structure ScannerObj where
  s : SState
  r : Rd
deriving DecidableEq

namespace ScannerObj

/-- `Scanner::new`, `set_input` and (if `enc` is not `any`) `set_encoding`, scanner.rs lines 62-93,
over a `BufRead` that will deliver `items`. -/
def new (items : List SrcItem) (enc : Encoding := .any) : ScannerObj :=
  ⟨SState.new, { items := items, encoding := enc }⟩

/-- One call of `Scanner::scan`, scanner.rs lines 196-217.  `F` bounds the number of passes of
every loop of the code. -/
def scan (F : Nat) (o : ScannerObj) : Out Token × ScannerObj :=
  let q := runA (Scanner.scan F) o.s o.r
  (q.1.1, ⟨q.1.2, q.2⟩)

/-- One call of `Iterator::next`, scanner.rs lines 1862-1868. -/
def next (F : Nat) (o : ScannerObj) : Out (Option (Except Err Token)) × ScannerObj :=
  let q := runA (Scanner.next F) o.s o.r
  (q.1.1, ⟨q.1.2, q.2⟩)

/-- `Reads F o ts o'`: successive calls of `scan` on `o` returned `Ok` with the tokens `ts` and
left `o'`. -/
inductive Reads (F : Nat) (o : ScannerObj) : List Token → ScannerObj → Prop
  | nil : Reads F o [] o
  | snoc {ts : List Token} {t : Token} {o1 o2 : ScannerObj} (h : Reads F o ts o1)
      (hs : o1.scan F = (.ok t, o2)) : Reads F o (ts ++ [t]) o2

/-- `Calls F o o'`: `o'` is the scanner after any number of calls of `scan` that returned `Ok` or
`Err`. -/
inductive Calls (F : Nat) (o : ScannerObj) : ScannerObj → Prop
  | nil : Calls F o o
  | ok {t : Token} {o1 o2 : ScannerObj} (h : Calls F o o1) (hs : o1.scan F = (.ok t, o2)) : Calls F o o2
  | err {e : Err} {o1 o2 : ScannerObj} (h : Calls F o o1) (hs : o1.scan F = (.err e, o2)) : Calls F o o2

end ScannerObj

/-- A `Parser` (parser.rs lines 9-29): the parser proper and the scanner it owns with its
`BufRead`. -/
structure ParserObj where
  p : PState
  s : SState
  r : Rd
deriving DecidableEq

namespace ParserObj

/-- `Parser::new`, `set_input` and (if `enc` is not `any`) `set_encoding`, parser.rs lines 133-172,
over a `BufRead` that will deliver `items`. -/
def new (items : List SrcItem) (enc : Encoding := .any) : ParserObj :=
  ⟨PState.new, SState.new, { items := items, encoding := enc }⟩

/-- The scanner inside the parser. -/
def scanner (o : ParserObj) : ScannerObj := ⟨o.s, o.r⟩

/-- Run a parser method on the object. -/
def run {α : Type} (F : Nat) (m : Pars α) (o : ParserObj) : Out α × ParserObj :=
  let q := runA (Parser.onScanner F m) (o.p, o.s) o.r
  (q.1.1, ⟨q.1.2.1, q.1.2.2, q.2⟩)

/-- One call of `Parser::parse`, parser.rs lines 188-193. -/
def parse (F : Nat) (o : ParserObj) : Out Event × ParserObj := o.run F (Parser.parse F)

/-- One call of `Iterator::next`, parser.rs lines 120-126. -/
def next (F : Nat) (o : ParserObj) : Out (Option (Except Err Event)) × ParserObj := o.run F (Parser.next F)

/-- One call of `Document::load`, document.rs lines 251-290. -/
def load (F : Nat) (o : ParserObj) : Out Document × ParserObj := o.run F (Document.load F)

/-- `Parses F o evs o'`: successive calls of `parse` on `o` returned `Ok` with the events `evs` and
left `o'`. -/
inductive Parses (F : Nat) (o : ParserObj) : List Event → ParserObj → Prop
  | nil : Parses F o [] o
  | snoc {evs : List Event} {e : Event} {o1 o2 : ParserObj} (h : Parses F o evs o1)
      (hs : o1.parse F = (.ok e, o2)) : Parses F o (evs ++ [e]) o2

/-- `Loads F o ds o'`: successive calls of `Document::load` on `o` returned `Ok` with the documents
`ds` and left `o'`. -/
inductive Loads (F : Nat) (o : ParserObj) : List Document → ParserObj → Prop
  | nil : Loads F o [] o
  | snoc {ds : List Document} {d : Document} {o1 o2 : ParserObj} (h : Loads F o ds o1)
      (hs : o1.load F = (.ok d, o2)) : Loads F o (ds ++ [d]) o2

end ParserObj
end Yaml
