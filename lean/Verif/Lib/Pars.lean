import Verif.Lib.TokRun
import Verif.Lib.Grammar
import Verif.Spec.Content

/-
The parser over a list of tokens: one call of `parse` does one step of the event grammar, and its
event says what the tokens said.
-/

namespace Yaml
open Spec
set_option linter.unusedSimpArgs false
set_option linter.unusedVariables false

/-! ### Rules -/

section
variable {P : PanicSite → Prop} {E : Err → PState → Toks → Prop} {p : PState} {g : Toks}

theorem wpL_peek {Q : Token → PState → Toks → Prop} :
    M.wp stepL P E Parser.peek Q p g ↔ g.ended = false ∧ g.broken = false ∧
      match g.toks with
      | t :: _ => Q t p { g with started := true, peeked := true }
      | [] => ∀ e, g.fin = .err e → E e p { g with peeked := false, broken := true } := by
  unfold Parser.peek
  rw [M.wp_bind, M.wp_prim]
  show g.ended = false ∧ g.broken = false ∧ _ ↔ _
  refine and_congr_right fun h1 => and_congr_right fun h2 => ?_
  cases hg : g.toks <;> exact Iff.rfl

/-- The state of the tokens before the end. -/
abbrev lv (toks : List Token) (fin : Out Token) (st pk : Bool) : Toks := ⟨toks, fin, st, false, pk, false⟩

variable {toks : List Token} {fin : Out Token} {st pk : Bool}

theorem wp_peek {Q : Token → PState → Toks → Prop} (h1 : ∀ t ts, toks = t :: ts → Q t p (lv (t :: ts) fin true true))
    (h2 : ∀ e g, E e p g) : M.wp stepL P E Parser.peek Q p (lv toks fin st pk) := by
  rw [wpL_peek]
  refine ⟨rfl, rfl, ?_⟩
  cases toks with
  | nil => exact fun e _ => h2 e _
  | cons t ts => exact h1 t ts rfl

@[simp] theorem wp_peek_cons {Q : Token → PState → Toks → Prop} {t : Token} {ts : List Token} :
    M.wp stepL P E Parser.peek Q p (lv (t :: ts) fin st pk) ↔ Q t p (lv (t :: ts) fin true true) := by
  rw [wpL_peek]
  exact ⟨fun h => h.2.2, fun h => ⟨rfl, rfl, h⟩⟩

@[simp] theorem wp_skip {Q : Unit → PState → Toks → Prop} {t : Token} {ts : List Token} :
    M.wp stepL P E Parser.skip Q p (lv (t :: ts) fin st true) ↔ Q () p ⟨ts, fin, st, t.data == .streamEnd, false, false⟩ := by
  constructor
  · rintro ⟨_, _, _, t', ts', h, h'⟩
    cases h; exact h'
  · intro h; exact ⟨rfl, rfl, rfl, t, ts, rfl, h⟩

theorem wp_skip_lv {Q : Unit → PState → Toks → Prop} {t : Token} {ts : List Token} (ht : t.data ≠ .streamEnd) :
    M.wp stepL P E Parser.skip Q p (lv (t :: ts) fin st true) ↔ Q () p (lv ts fin st false) := by
  rw [wp_skip]
  have : (t.data == .streamEnd) = false := by simpa using ht
  rw [this]

@[simp] theorem wp_setState {Q : Unit → PState → Toks → Prop} {x : PSt} :
    M.wp stepL P E (Parser.setState x) Q p g ↔ Q () { p with state := x } g := Iff.rfl
@[simp] theorem wp_pushState {Q : Unit → PState → Toks → Prop} {x : PSt} :
    M.wp stepL P E (Parser.pushState x) Q p g ↔ Q () { p with states := x :: p.states } g := Iff.rfl
@[simp] theorem wp_pushMark {Q : Unit → PState → Toks → Prop} {x : Mark} :
    M.wp stepL P E (Parser.pushMark x) Q p g ↔ Q () { p with marks := x :: p.marks } g := Iff.rfl
@[simp] theorem wp_dropMark {Q : Unit → PState → Toks → Prop} :
    M.wp stepL P E Parser.dropMark Q p g ↔ Q () { p with marks := p.marks.tail } g := Iff.rfl
@[simp] theorem wp_parserError {α : Type} {Q : α → PState → Toks → Prop} {a : String} {b : Mark} {c : String} {d : Mark} :
    M.wp stepL P E (Parser.parserError a b c d) Q p g ↔ E (.parser a b c d) p g := Iff.rfl

theorem wp_popState {Q : Unit → PState → Toks → Prop} {x : PSt} {r : List PSt} (h : p.states = x :: r) :
    M.wp stepL P E Parser.popState Q p g ↔ Q () { p with state := x, states := r } g := by
  unfold Parser.popState
  rw [M.wp_bind, M.wp_get]
  simp only [h]
  exact Iff.rfl

theorem wp_popMark {Q : Mark → PState → Toks → Prop} {x : Mark} {r : List Mark} (h : p.marks = x :: r) :
    M.wp stepL P E Parser.popMark Q p g ↔ Q x { p with marks := r } g := by
  unfold Parser.popMark
  rw [M.wp_bind, M.wp_get]
  simp only [h]
  exact Iff.rfl

end

/-- Simplify a goal about a parser method. -/
macro "pws" loc:(Lean.Parser.Tactic.location)? : tactic => `(tactic| simp only [M.wp_bind, M.wp_pure, M.wp_get, M.wp_modify, M.wp_throw,
  M.wp_panic, M.next_inl, M.next_inr, wp_peek_cons, wp_setState, wp_pushState, wp_pushMark, wp_dropMark, wp_parserError] $[$loc]?)

/-! ### Abstraction of the parser state -/

/-- The stack of the parser states inside a document: the open collections (innermost first, each
as it was before the node that is being read), and the number of marks. -/
inductive Stk : List PSt → List Coll → Nat → Prop
  | bottom : Stk [.documentEnd] [] 0
  | blockSeq {r : List PSt} {f : List Coll} {m : Nat} (h : Stk r f m) : Stk (.blockSequenceEntry :: r) (.seq :: f) (m + 1)
  | indentless {r : List PSt} {f : List Coll} {m : Nat} (h : Stk r f m) : Stk (.indentlessSequenceEntry :: r) (.seq :: f) m
  | blockKey {r : List PSt} {f : List Coll} {m : Nat} (h : Stk r f m) : Stk (.blockMappingValue :: r) (.mapK :: f) (m + 1)
  | blockValue {r : List PSt} {f : List Coll} {m : Nat} (h : Stk r f m) : Stk (.blockMappingKey :: r) (.mapV :: f) (m + 1)
  | flowSeq {r : List PSt} {f : List Coll} {m : Nat} (h : Stk r f m) : Stk (.flowSequenceEntry :: r) (.seq :: f) (m + 1)
  | pairKey {r : List PSt} {f : List Coll} {m : Nat} (h : Stk r f m) : Stk (.flowSequenceEntryMappingValue :: r) (.mapK :: .seq :: f) (m + 1)
  | pairValue {r : List PSt} {f : List Coll} {m : Nat} (h : Stk r f m) : Stk (.flowSequenceEntryMappingEnd :: r) (.mapV :: .seq :: f) (m + 1)
  | flowKey {r : List PSt} {f : List Coll} {m : Nat} (h : Stk r f m) : Stk (.flowMappingValue :: r) (.mapK :: f) (m + 1)
  | flowKeyOnly {r : List PSt} {f : List Coll} {m : Nat} (h : Stk r f m) : Stk (.flowMappingEmptyValue :: r) (.mapK :: f) (m + 1)
  | flowValue {r : List PSt} {f : List Coll} {m : Nat} (h : Stk r f m) : Stk (.flowMappingKey :: r) (.mapV :: f) (m + 1)

/-- Parser state, stack and tokens to come; state of the event grammar and number of marks. -/
inductive At : PSt → List PSt → List Token → GSt → Nat → Prop
  | streamStart {ts : List Token} : At .streamStart [] ts .start 0
  | implicitDoc {ts : List Token} : At .implicitDocumentStart [] ts .docs 0
  | docStart {ts : List Token} : At .documentStart [] ts .docs 0
  | done {ts : List Token} : At .end_ [] ts .done 0
  | content {r : List PSt} {f : List Coll} {m : Nat} {ts : List Token} (h : Stk r f m) : At .documentContent r ts (.inDoc f) m
  | node {r : List PSt} {f : List Coll} {m : Nat} {ts : List Token} (h : Stk r f m) : At .blockNode r ts (.inDoc f) m
  | after {x : PSt} {r : List PSt} {f : List Coll} {m : Nat} {ts : List Token} (h : Stk (x :: r) f m) : At x r ts (.after f) m
  | blockSeq {r : List PSt} {f : List Coll} {m : Nat} {t : Token} {ts : List Token} (h : Stk r f m) (ht : t.data = .blockSequenceStart) :
      At .blockSequenceFirstEntry r (t :: ts) (.inDoc (.seq :: f)) m
  | blockMap {r : List PSt} {f : List Coll} {m : Nat} {t : Token} {ts : List Token} (h : Stk r f m) (ht : t.data = .blockMappingStart) :
      At .blockMappingFirstKey r (t :: ts) (.inDoc (.mapK :: f)) m
  | flowSeq {r : List PSt} {f : List Coll} {m : Nat} {t : Token} {ts : List Token} (h : Stk r f m) (ht : t.data = .flowSequenceStart) :
      At .flowSequenceFirstEntry r (t :: ts) (.inDoc (.seq :: f)) m
  | flowMap {r : List PSt} {f : List Coll} {m : Nat} {t : Token} {ts : List Token} (h : Stk r f m) (ht : t.data = .flowMappingStart) :
      At .flowMappingFirstKey r (t :: ts) (.inDoc (.mapK :: f)) m
  | pair {r : List PSt} {f : List Coll} {m : Nat} {ts : List Token} (h : Stk r f m) :
      At .flowSequenceEntryMappingKey r ts (.inDoc (.mapK :: .seq :: f)) (m + 1)

theorem Stk.ne {r : List PSt} {f : List Coll} {m : Nat} (h : Stk r f m) : ∃ x r', r = x :: r' := by
  cases h <;> exact ⟨_, _, rfl⟩

/-- How many events a state can still yield without reading a token. -/
def rank : PSt → Nat
  | .implicitDocumentStart => 3
  | .documentEnd => 1
  | .documentContent => 1
  | .blockNode => 1
  | .indentlessSequenceEntry => 1
  | .blockMappingValue => 1
  | .flowSequenceEntryMappingKey => 3
  | .flowSequenceEntryMappingValue => 2
  | .flowSequenceEntryMappingEnd => 1
  | .flowMappingValue => 1
  | .flowMappingEmptyValue => 1
  | _ => 0

/-- A bound for the number of events to come. -/
def potential (p : PState) (toks : List Token) : Nat := 4 * toks.length + rank p.state + (p.states.map rank).sum

/-- Add a directive unless its handle is there. -/
def addDir (l : List TagDirective) (d : TagDirective) : List TagDirective :=
  if l.any (fun e => d.handle == e.handle) then l else l ++ [d]

/-- The tag directives the parser uses in a document that declares `D`. -/
def withDefaults (D : List TagDirective) : List TagDirective :=
  addDir (addDir D ⟨cs! "!", cs! "!"⟩) ⟨cs! "!!", cs! "tag:yaml.org,2002:"⟩

/-- Whether the state is inside a document. -/
def GSt.inside : GSt → Bool
  | .inDoc _ => true
  | .docEnd => true
  | _ => false

/-- The parser state between calls. -/
structure PGood (G : GSt) (D : List TagDirective) (p : PState) (toks : List Token) : Prop where
  pos : At p.state p.states toks G p.marks.length
  dirs : p.tagDirectives = if G.inside then withDefaults D else []
  decl : G.inside = false → D = []

/-- What a call of `parse` does: one event `ev`, made from the tokens `c`. -/
structure PStep (G : GSt) (D : List TagDirective) (p : PState) (toks : List Token) (ev : Event) (c : List Token) (G' : GSt)
    (p' : PState) (toks' : List Token) : Prop where
  step : gstep G ev.data = some G'
  split : toks = c ++ toks'
  carries : Carries D c ev.data
  good : PGood G' (dirsAfter D ev.data) p' toks'
  less : potential p' toks' < potential p toks
  aliases : p'.aliases = p.aliases

end Yaml
