import Verif.Props.Same
import Verif.Props.Parser
import Verif.Spec.Iterate

/-
C67: the iterators yield what the calls return.
-/

namespace Yaml.Props
open Yaml Spec
set_option linter.unusedVariables false
set_option linter.unusedSimpArgs false

variable {items : List SrcItem} {enc : Encoding} {F : Nat}

theorem some_catch {Op : Type} {Ans : Op → Type} {S α : Type} (m : M Op Ans S α) (s : S) :
    (do pure (some (← M.catchErr m)) : M Op Ans S (Option (Except Err α))) s = (m s).map (fun q => (item q.1, q.2)) := by
  show ((m s).bind _).bind _ = _
  rw [Free.bind_assoc]
  unfold Free.map
  congr 1
  funext ⟨x, s'⟩
  cases x <;> rfl

/-! ### The scanner -/

theorem scanner_next (o : ScannerObj) : if o.s.streamEndProduced then
      o.next F = (.ok none, o) ∧ o.scan F = (.ok ⟨.streamEnd, Mark.zero, Mark.zero⟩, o)
    else o.next F = (item (o.scan F).1, (o.scan F).2) := by
  obtain ⟨s, r⟩ := o
  have e : Scanner.next F s = if s.streamEndProduced then Free.ret (.ok none, s) else (Scanner.scan F s).map (fun q => (item q.1, q.2)) := by
    show (if s.streamEndProduced then (pure none : Scan _) else (do pure (some (← M.catchErr (Scanner.scan F))))) s = _
    split
    · rfl
    · rw [some_catch]
  cases h : s.streamEndProduced with
  | true =>
    rw [if_pos rfl]
    rw [h] at e
    constructor
    · unfold ScannerObj.next runA
      rw [e]; rfl
    · have : Scanner.scan F s = .ret (.ok ⟨.streamEnd, Mark.zero, Mark.zero⟩, s) := by
        unfold Scanner.scan
        show (M.bind M.get _) s = _
        simp [M.bind, M.get, Free.bind, M.cont, h]
        rfl
      simp [ScannerObj.scan, runA, this, execA]
  | false =>
    rw [if_neg (by simp)]
    rw [h] at e
    unfold ScannerObj.next ScannerObj.scan runA
    simp only [Bool.false_eq_true, if_false] at e
    rw [e, execA_map]

/-- C67.  One call of a scanner's iterator, whatever has happened to the scanner: the item for what `scan` returns, or `None` where
`scan` returns a stream end without reading or changing anything. -/
theorem C67_scanner_step (o : ScannerObj) :
    (o.next F = (.ok none, o) ∧ ∃ t, isStreamEnd t = true ∧ o.scan F = (.ok t, o)) ∨ o.next F = (item (o.scan F).1, (o.scan F).2) := by
  have := scanner_next (F := F) o
  split at this
  · exact .inl ⟨this.1, _, rfl, this.2⟩
  · exact .inr this

theorem item_ne_none {α : Type} (x : Out α) : item x ≠ .ok none := by
  cases x <;> simp [item]

/-- C67.  The iterator is fused: after `None` it returns `None` forever. -/
theorem C67_scanner_fused {F' : Nat} {o o' : ScannerObj} (h : o.next F = (.ok none, o')) : o'.next F' = (.ok none, o') := by
  have h1 := scanner_next (F := F) o
  split at h1
  · rename_i hp
    rw [h] at h1
    have : o' = o := (Prod.mk.inj h1.1).2
    subst this
    have h2 := scanner_next (F := F') o'
    rw [if_pos hp] at h2
    exact h2.1
  · rw [h] at h1
    exact absurd (Prod.mk.inj h1).1.symm (item_ne_none _)

theorem live_step {o : ScannerObj} (hb : ∃ b, R b o.r) (hi : Idle o.s) (hF : Ample F o) :
    match o.scan F with
    | (.ok t, o') => (∃ b, R b o'.r) ∧ ((isStreamEnd t = false ∧ Idle o'.s) ∨ (isStreamEnd t = true ∧ SDone o'.s))
    | (.err _, o') => (∃ b, R b o'.r) ∧ Idle o'.s
    | _ => True := by
  obtain ⟨b, hR⟩ := hb
  have hb := text_le hR
  have hF : o.r.buffer.length + srcSize o.r.items + 2 < F := hF
  have hw := wpB_scan (F := F) (s := o.s) (b := b) (P := fun _ => True) (E := fun _ s' _ => Idle s')
    (Q := fun t s' _ => (isStreamEnd t = false ∧ Idle s') ∨ (isStreamEnd t = true ∧ SDone s')) (fun _ _ => True) hi trivial
    (by omega) ⟨fun _ => trivial, fun _ => trivial, fun _ _ => trivial⟩
    (Or.inr ⟨trivial, trivial⟩) (fun _ _ _ _ _ _ _ => trivial) (fun _ _ _ _ _ => trivial)
    (fun _ _ _ _ _ _ h => h.idle)
    (fun t ts s' b' _ _ _ ha ht => by
      rcases ha.take (t := t) (ts := ts) ht with h | h
      · exact Or.inl ⟨by simp [isStreamEnd, h.1], h.2⟩
      · exact Or.inr ⟨by simp [isStreamEnd, h.1], h.2⟩)
  obtain ⟨b', h1, h2⟩ := runA_of_wp hw hR
  unfold ScannerObj.scan
  dsimp only
  generalize runA (Scanner.scan F) o.s o.r = q at h1 h2
  obtain ⟨⟨out, s'⟩, r'⟩ := q
  cases out with
  | ok t => exact ⟨⟨b', h1⟩, h2⟩
  | err e => exact ⟨⟨b', h1⟩, h2⟩
  | panic p => trivial
  | fuel => trivial

/-- C67.  After any calls of `scan`, errors included, the iterator returns `None` exactly if a stream end was returned. -/
theorem C67_scanner_none_iff {rs : List (Out Token)} {o : ScannerObj} (h : Called (ScannerObj.new items enc) rs o) :
    o.next F = (.ok none, o) ↔ ∃ t, .ok t ∈ rs ∧ isStreamEnd t = true := by
  have key : (∃ b, R b o.r) ∧ ((Idle o.s ∧ ¬ ∃ t, .ok t ∈ rs ∧ isStreamEnd t = true) ∨ (SDone o.s ∧ ∃ t, .ok t ∈ rs ∧ isStreamEnd t = true)) := by
    induction h with
    | nil =>
      obtain ⟨T, hT⟩ := Future.exists enc items
      obtain ⟨b, hR, _⟩ := Run.start hT
      exact ⟨⟨b, hR⟩, .inl ⟨Or.inl rfl, by simp⟩⟩
    | @ok rs t F o1 o2 h hF hs ih =>
      obtain ⟨hb, ⟨hi, hn⟩ | ⟨hd, hn⟩⟩ := ih
      · have := live_step hb hi hF
        rw [hs] at this
        obtain ⟨g1, ⟨g2, g3⟩ | ⟨g2, g3⟩⟩ := this
        · refine ⟨g1, .inl ⟨g3, ?_⟩⟩
          rintro ⟨u, hu, he⟩
          rcases List.mem_append.1 hu with hu | hu
          · exact hn ⟨u, hu, he⟩
          · simp only [List.mem_singleton, Out.ok.injEq] at hu
            subst hu
            rw [g2] at he; simp at he
        · exact ⟨g1, .inr ⟨g3, t, by simp, g2⟩⟩
      · rw [(hd.scan F).1] at hs
        obtain ⟨_, rfl⟩ := Prod.mk.inj hs
        obtain ⟨u, hu, he⟩ := hn
        exact ⟨hb, .inr ⟨hd, u, List.mem_append_left _ hu, he⟩⟩
    | @err rs e F o1 o2 h hF hs ih =>
      obtain ⟨hb, ⟨hi, hn⟩ | ⟨hd, hn⟩⟩ := ih
      · have := live_step hb hi hF
        rw [hs] at this
        refine ⟨this.1, .inl ⟨this.2, ?_⟩⟩
        rintro ⟨u, hu, he⟩
        rcases List.mem_append.1 hu with hu | hu
        · exact hn ⟨u, hu, he⟩
        · simp at hu
      · rw [(hd.scan F).1] at hs
        simp at hs
  have hx := scanner_next (F := F) o
  obtain ⟨_, ⟨hi, hn⟩ | ⟨hd, hn⟩⟩ := key
  · rw [if_neg (by rw [hi.notProduced]; simp)] at hx
    refine ⟨fun h => ?_, fun h => absurd h hn⟩
    rw [hx] at h
    exact absurd (Prod.mk.inj h).1 (item_ne_none _)
  · rw [if_pos hd.produced] at hx
    exact ⟨fun _ => hn, fun _ => hx.1⟩

/-- C67.  The items of a scanner, up to the first error: the results of calling `scan`, and nothing behind the stream end. -/
theorem C67_scanner_items (k : Nat) (hF : srcSize items + 2 < F) :
    iterateOk (ScannerObj.next F) k (ScannerObj.new items enc) = itemsOf isStreamEnd (callsOk (ScannerObj.scan F) k (ScannerObj.new items enc)) := by
  obtain ⟨T, hT⟩ := Future.exists enc items
  have hl := hT.length_le
  have done : ∀ (k : Nat) (o : ScannerObj), SDone o.s → iterateOk (ScannerObj.next F) k o = (callsOk (ScannerObj.scan F) k o).map (fun _ => .ok none) := by
    intro k
    induction k with
    | zero => intro o _; rfl
    | succ k ih =>
      intro o hd
      unfold iterateOk callsOk
      rw [(hd.scan F).1, (hd.scan F).2]
      dsimp only
      rw [List.map_cons, ih o hd]
  have main : ∀ (k : Nat) (hist : List Token) (o : ScannerObj), Run T hist o →
      iterateOk (ScannerObj.next F) k o = itemsOf isStreamEnd (callsOk (ScannerObj.scan F) k o) := by
    intro k
    induction k with
    | zero => intro _ o _; rfl
    | succ k ih =>
      intro hist o hr
      have hid : Idle o.s := by obtain ⟨b, _, _, _, _, h, _⟩ := hr; exact h
      have hx := scanner_next (F := F) o
      rw [if_neg (by rw [hid.notProduced]; simp)] at hx
      have hs := hr.scan (F := F) (by omega)
      unfold iterateOk callsOk
      rw [hx]
      generalize o.scan F = q at hs
      obtain ⟨x, o'⟩ := q
      cases x with
      | ok t =>
        show _ :: _ = itemsOf isStreamEnd (.ok t :: _)
        unfold itemsOf
        congr 1
        rcases hs with ⟨h1, h2⟩ | ⟨h1, h2⟩
        · rw [if_neg (by simp [isStreamEnd, h1])]
          exact ih _ _ h2
        · rw [if_pos (by simp [isStreamEnd, h1])]
          exact done _ _ h2.done
      | err e => rfl
      | panic p => rfl
      | fuel => rfl
  exact main k [] _ (Run.start hT)

/-! ### The parser -/

theorem skip_no_err (s : SState) : ∃ x s', Scanner.skipToken s = .ret (x, s') ∧ ∀ e, x ≠ .err e := by
  cases h : s.tokens with
  | nil =>
    refine ⟨.panic .skipTokenEmpty, { s with tokenAvailable := false, tokensParsed := s.tokensParsed + 1 }, ?_, by simp⟩
    unfold Scanner.skipToken
    show ((match s.tokens with
      | [] => M.panic .skipTokenEmpty
      | t :: ts => M.modify fun s => { s with tokens := ts, streamEndProduced := t.data == .streamEnd } : Scan Unit) { s with tokenAvailable := false, tokensParsed := s.tokensParsed + 1 }) = _
    rw [h]; rfl
  | cons t ts =>
    refine ⟨.ok (), { s with tokenAvailable := false, tokensParsed := s.tokensParsed + 1, tokens := ts, streamEndProduced := t.data == .streamEnd }, ?_, by simp⟩
    unfold Scanner.skipToken
    show ((match s.tokens with
      | [] => M.panic .skipTokenEmpty
      | t :: ts => M.modify fun s => { s with tokens := ts, streamEndProduced := t.data == .streamEnd } : Scan Unit) { s with tokenAvailable := false, tokensParsed := s.tokensParsed + 1 }) = _
    rw [h]; rfl

theorem handle_item {p0 : PState} (t : Free TokOp TokOp.Ans (Out α × PState)) (s : SState) :
    Parser.handle F p0 (t.map (fun q => (item q.1, q.2))) s = (Parser.handle F p0 t s).map (fun q => (item q.1, q.2)) := by
  induction t generalizing s with
  | ret a => rfl
  | op o k ih =>
    cases o with
    | peek =>
      show Parser.handle F p0 (.op .peek (fun a => (k a).map _)) s = _
      simp only [Parser.handle]
      unfold Free.map
      rw [Free.bind_assoc]
      congr 1
      funext ⟨x, s'⟩
      cases x with
      | ok t => exact ih _ _
      | err e => exact ih _ _
      | panic x => rfl
      | fuel => rfl
    | setFront d =>
      show Parser.handle F p0 (.op (.setFront d) (fun a => (k a).map _)) s = _
      simp only [Parser.handle]
      unfold Free.map
      rw [Free.bind_assoc]
      congr 1
      funext ⟨x, s'⟩
      exact ih _ _
    | skip =>
      show Parser.handle F p0 (.op .skip (fun a => (k a).map _)) s = _
      simp only [Parser.handle]
      obtain ⟨x, s', h1, h2⟩ := skip_no_err s
      rw [h1]
      cases x with
      | ok t => exact ih _ _
      | err e => exact absurd rfl (h2 e)
      | panic x => rfl
      | fuel => rfl
    | streamEnded => exact ih _ _
    | streamStarted => exact ih _ _

/-- What tells a parser that it has reached the end. -/
def AtLast (o : ParserObj) : Prop := (o.s.streamEndProduced || o.p.state == .end_) = true

theorem parser_next (o : ParserObj) : (AtLast o → o.next F = (.ok none, o) ∧ o.parse F = (.ok (Event.new .streamEnd), o)) ∧
    (¬ AtLast o → o.next F = (item (o.parse F).1, (o.parse F).2)) := by
  obtain ⟨p, s, r⟩ := o
  unfold AtLast
  dsimp only
  constructor
  · intro h
    constructor
    · unfold ParserObj.next ParserObj.run runA Parser.onScanner
      have : execA (Parser.handle F p (Parser.next F p) s) r = ((.ok none, (p, s)), r) := by
        show execA (Parser.handle F p ((if s.streamEndProduced || p.state == .end_ then pure none
        else do pure (some (← M.catchErr (Parser.parse F))) : Pars _) p) s) r = _
        rw [if_pos h]; rfl
      dsimp only
      rw [this]
    · unfold ParserObj.parse ParserObj.run runA Parser.onScanner
      have : execA (Parser.handle F p (Parser.parse F p) s) r = ((.ok (Event.new .streamEnd), (p, s)), r) := by
        show execA (Parser.handle F p ((if s.streamEndProduced || p.state == .end_ then pure (Event.new .streamEnd)
        else Parser.stateMachine F p.state : Pars _) p) s) r = _
        rw [if_pos h]; rfl
      dsimp only
      rw [this]
  · intro h
    have e : Parser.handle F p (Parser.next F p) s = (Parser.handle F p (Parser.parse F p) s).map (fun q => (item q.1, q.2)) := by
      rw [← handle_item, ← some_catch]
      show Parser.handle F p ((if s.streamEndProduced || p.state == .end_ then pure none
        else do pure (some (← M.catchErr (Parser.parse F))) : Pars _) p) s = _
      rw [if_neg h]
    unfold ParserObj.next ParserObj.parse ParserObj.run runA Parser.onScanner
    dsimp only
    rw [e, execA_map]

/-- C67.  One call of a parser's iterator, whatever has happened to the parser. -/
theorem C67_parser_step (o : ParserObj) :
    (o.next F = (.ok none, o) ∧ ∃ e, isStreamEndEvent e = true ∧ o.parse F = (.ok e, o)) ∨ o.next F = (item (o.parse F).1, (o.parse F).2) := by
  obtain ⟨h1, h2⟩ := parser_next (F := F) o
  by_cases h : AtLast o
  · exact .inl ⟨(h1 h).1, _, rfl, (h1 h).2⟩
  · exact .inr (h2 h)

/-- C67.  The parser's iterator is fused, as it promises (`FusedIterator`). -/
theorem C67_parser_fused {F' : Nat} {o o' : ParserObj} (h : o.next F = (.ok none, o')) : o'.next F' = (.ok none, o') := by
  obtain ⟨h1, h2⟩ := parser_next (F := F) o
  by_cases hl : AtLast o
  · have := (h1 hl).1
    rw [h] at this
    have : o' = o := (Prod.mk.inj this).2
    subst this
    exact ((parser_next (F := F') o').1 hl).1
  · have := h2 hl
    rw [h] at this
    exact absurd (Prod.mk.inj this).1.symm (item_ne_none _)

theorem rel_flag {g : Toks} {s : SState} {r : Rd} (h : Rel F g s r) (hb : g.broken = false) : s.streamEndProduced = g.ended := by
  cases h with
  | fresh hb he hk hst hs => rw [he]; exact hs.notEnded
  | front hb he hk hse => rw [he]; exact hse
  | ended hb he hk hst hs => rw [he]; exact hs
  | broken hb' hk => rw [hb] at hb'; simp at hb'

/-- After calls of `parse` that succeeded, the parser is at the end exactly if it has said so. -/
theorem atLast_iff {evs : List Event} {o : ParserObj} (hF : 4 * srcSize items + 4 < F) (h : ParserObj.Parses F (ParserObj.new items enc) evs o) :
    AtLast o ↔ ∃ e ∈ evs, isStreamEndEvent e = true := by
  obtain ⟨T, ts, fin, evs1, n, G, D, c, toks, st, pk, hT, h1, h2, h3, h4, g1, g2, g3⟩ := parses_inv hF h
  have e1 := rel_flag g2.rel rfl
  have e2 : AtLast o ↔ o.p.state = .end_ := by
    unfold AtLast
    rw [e1]
    simp
  rw [e2]
  cases n with
  | zero =>
    simp only [List.replicate_zero, List.append_nil] at g1
    subst g1
    exact ended_state g2
  | succ n =>
    have := g3 (by simp)
    refine ⟨fun _ => ⟨⟨.streamEnd, Mark.zero, Mark.zero⟩, ?_, rfl⟩, fun _ => this⟩
    rw [g1]; simp

/-- C67.  After any calls of `parse` that succeeded the iterator returns `None` exactly if a stream end was returned. -/
theorem C67_parser_none_iff {evs : List Event} {o : ParserObj} (hF : 4 * srcSize items + 4 < F) (h : ParserObj.Parses F (ParserObj.new items enc) evs o) :
    o.next F = (.ok none, o) ↔ ∃ e ∈ evs, isStreamEndEvent e = true := by
  rw [← atLast_iff hF h]
  obtain ⟨h1, h2⟩ := parser_next (F := F) o
  refine ⟨fun hn => ?_, fun hl => (h1 hl).1⟩
  by_cases hl : AtLast o
  · exact hl
  · rw [h2 hl] at hn
    exact absurd (Prod.mk.inj hn).1 (item_ne_none _)

/-- C67.  The items of a parser, up to the first error: the results of calling `parse`, and nothing behind the stream end. -/
theorem C67_parser_items (k : Nat) (hF : 4 * srcSize items + 4 < F) :
    iterateOk (ParserObj.next F) k (ParserObj.new items enc) = itemsOf isStreamEndEvent (callsOk (ParserObj.parse F) k (ParserObj.new items enc)) := by
  have done : ∀ (k : Nat) (o : ParserObj), AtLast o → iterateOk (ParserObj.next F) k o = (callsOk (ParserObj.parse F) k o).map (fun _ => .ok none) := by
    intro k
    induction k with
    | zero => intro o _; rfl
    | succ k ih =>
      intro o hd
      obtain ⟨h1, h2⟩ := (parser_next (F := F) o).1 hd
      unfold iterateOk callsOk
      rw [h1, h2]
      dsimp only
      rw [List.map_cons, ih o hd]
  have main : ∀ (k : Nat) (evs : List Event) (o : ParserObj), ParserObj.Parses F (ParserObj.new items enc) evs o → ¬ AtLast o →
      iterateOk (ParserObj.next F) k o = itemsOf isStreamEndEvent (callsOk (ParserObj.parse F) k o) := by
    intro k
    induction k with
    | zero => intro _ o _ _; rfl
    | succ k ih =>
      intro evs o hp hl
      unfold iterateOk callsOk
      rw [(parser_next (F := F) o).2 hl]
      generalize hq : o.parse F = q
      obtain ⟨x, o'⟩ := q
      cases x with
      | ok e =>
        show _ :: _ = itemsOf isStreamEndEvent (.ok e :: _)
        unfold itemsOf
        congr 1
        have hp' : ParserObj.Parses F (ParserObj.new items enc) (evs ++ [e]) o' := .snoc hp hq
        have hi := atLast_iff hF hp'
        rw [atLast_iff hF hp] at hl
        cases he : isStreamEndEvent e with
        | true =>
          rw [if_pos rfl]
          exact done _ _ (hi.2 ⟨e, by simp, he⟩)
        | false =>
          rw [if_neg (by simp)]
          refine ih _ _ hp' ?_
          rw [hi]
          rintro ⟨u, hu, hv⟩
          rcases List.mem_append.1 hu with hu | hu
          · exact hl ⟨u, hu, hv⟩
          · simp only [List.mem_singleton] at hu
            subst hu
            rw [he] at hv; simp at hv
      | err e => rfl
      | panic p => rfl
      | fuel => rfl
  refine main k [] _ .nil ?_
  rw [atLast_iff hF .nil]
  simp

/-! ### A concrete case -/

/-- `- a` in two parts. -/
def iterSample : List SrcItem := [.data [0x2D], .data [0x20, 0x61]]

/-- The items are not trivial: five tokens and then `None`, seven events and then `None`; an error comes out as an item. -/
theorem C67_sample : 4 * srcSize iterSample + 4 < 60 ∧
    (iterateOk (ScannerObj.next 60) 8 (ScannerObj.new iterSample)).map (fun x => match x with | .ok (some (.ok t)) => some t.data | _ => none) =
      [some (.streamStart .utf8), some .blockSequenceStart, some .blockEntry, some (.scalar ['a'] .plain), some .blockEnd, some .streamEnd, none, none] ∧
    (iterateOk (ParserObj.next 60) 9 (ParserObj.new iterSample)).drop 6 = [.ok (some (.ok ⟨.streamEnd, ⟨3, 1, 0⟩, ⟨3, 1, 0⟩⟩)), .ok none, .ok none] ∧
    (iterateOk (ParserObj.next 60) 9 (ParserObj.new [.data [0x61], .fail .other])).drop 1 = [.ok (some (.error (.io .other)))] := by
  decide +kernel

/-- `n` calls of `scan` and what they leave; `none` if one panics or has too few passes. -/
def callN (F : Nat) : Nat → List (Out Token) × ScannerObj → Option (List (Out Token) × ScannerObj)
  | 0, q => some q
  | n + 1, q =>
    if q.2.r.buffer.length + srcSize q.2.r.items + 2 < F then
      match q.2.scan F with
      | (.ok t, o') => callN F n (q.1 ++ [.ok t], o')
      | (.err e, o') => callN F n (q.1 ++ [.err e], o')
      | _ => none
    else none

theorem callN_called {F : Nat} {o0 : ScannerObj} : ∀ (n : Nat) {q q' : List (Out Token) × ScannerObj}, Called o0 q.1 q.2 → callN F n q = some q' → Called o0 q'.1 q'.2 := by
  intro n
  induction n with
  | zero => intro q q' h hq; simp only [callN, Option.some.injEq] at hq; subst hq; exact h
  | succ n ih =>
    intro q q' h hq
    unfold callN at hq
    split at hq
    · rename_i hF
      split at hq
      · rename_i t o' hs; exact ih (q := (_, o')) (.ok h hF hs) hq
      · rename_i e o' hs; exact ih (q := (_, o')) (.err h hF hs) hq
      · simp at hq
    · simp at hq

/-- `& "a"`. -/
def errorSample : ScannerObj := ScannerObj.new [.data [0x26, 0x20, 0x22, 0x61, 0x22]]

/-- An error in the middle: of four calls the second fails, the last returns the stream end. -/
theorem C67_sample_error : ∃ rs o rs' o', Called errorSample rs o ∧ rs.length = 3 ∧ (rs.any fun x => match x with | .err _ => true | _ => false) = true ∧
    (rs.any fun x => match x with | .ok t => isStreamEnd t | _ => false) = false ∧
    Called errorSample rs' o' ∧ rs'.length = 4 ∧ (rs'.any fun x => match x with | .ok t => isStreamEnd t | _ => false) = true := by
  have h3 : (callN 99 3 ([], errorSample)).isSome = true ∧ (callN 99 4 ([], errorSample)).isSome = true := by decide +kernel
  obtain ⟨q, hq⟩ := Option.isSome_iff_exists.1 h3.1
  obtain ⟨q', hq'⟩ := Option.isSome_iff_exists.1 h3.2
  have a : ((callN 99 3 ([], errorSample)).map fun q => (q.1.length, (q.1.any fun x => match x with | .err _ => true | _ => false), (q.1.any fun x => match x with | .ok t => isStreamEnd t | _ => false))) =
      some (3, true, false) := by decide +kernel
  have b : ((callN 99 4 ([], errorSample)).map fun q => (q.1.length, (q.1.any fun x => match x with | .ok t => isStreamEnd t | _ => false))) = some (4, true) := by decide +kernel
  rw [hq] at a
  rw [hq'] at b
  simp only [Option.map_some, Option.some.injEq, Prod.mk.injEq] at a b
  exact ⟨_, _, _, _, callN_called 3 (q := ([], errorSample)) .nil hq, a.1, a.2.1, a.2.2, callN_called 4 (q := ([], errorSample)) .nil hq', b.1, b.2⟩

end Yaml.Props
