import Verif.Lib.ParsRun
import Verif.Props.Scanner

/-
C16-C20 and the parser parts of C07, C08 and C15, C46: the event stream.

`Parses F o evs o'` (Api.lean): successive calls of `Parser::parse` on `o` all returned `Ok`, with the
events `evs`, and left the parser `o'`.  `ParserObj.new items enc` is a new parser over a `BufRead`
delivering `items`, with `set_encoding(enc)`.  No assumption is made on the input; `F` bounds the
passes of each loop and `C08_parse_terminates` shows that it is never used up.
-/

namespace Yaml.Props
open Yaml Spec ParserObj

variable {enc : Encoding} {items : List SrcItem} {T : List Char} {F : Nat} {evs : List Event} {o : ParserObj}

/-- The tokens of the input. -/
theorem tokens_of_input (hT : Future enc items T) (hF : 4 * srcSize items + 4 < F) :
    ∃ ts fin, Scans F (ScannerObj.new items enc) ts fin ∧ ts.length ≤ 4 * T.length + 2 ∧ ts.length < F ∧
      ((∃ e, fin = .err e ∧ ErrMarks T e) ∨ ∃ x, fin = .panic x ∧ Bad T x) := by
  have hl := hT.length_le
  obtain ⟨ts, x, h1, h2, h3⟩ := Run.scans (T := T) (F := F) (by omega) _ [] (ScannerObj.new items enc) (Run.start hT) (Nat.le_refl _)
  simp only [List.nil_append] at h2
  exact ⟨ts, x, h1, h2.1, by omega, h3⟩

theorem parses_inv (hF : 4 * srcSize items + 4 < F) (h : Parses F (new items enc) evs o) :
    ∃ T ts fin evs1 n G D c toks st pk, Future enc items T ∧ Scans F (ScannerObj.new items enc) ts fin ∧ ts.length ≤ 4 * T.length + 2 ∧ ts.length < F ∧
      ((∃ e, fin = .err e ∧ ErrMarks T e) ∨ ∃ x, fin = .panic x ∧ Bad T x) ∧
      evs = evs1 ++ List.replicate n ⟨.streamEnd, Mark.zero, Mark.zero⟩ ∧ PInv F ts fin evs1 o G D c toks st pk ∧
      (n ≠ 0 → o.p.state = .end_) := by
  obtain ⟨T, hT⟩ := Future.exists enc items
  obtain ⟨ts, fin, h1, h2, h3, h4⟩ := tokens_of_input hT hF
  obtain ⟨evs1, n, G, D, c, toks, st, pk, g1, g2, g3⟩ := h.inv h1 h3 (h4.imp (fun ⟨e, h, _⟩ => ⟨e, h⟩) (fun ⟨e, h, _⟩ => ⟨e, h⟩))
  exact ⟨T, ts, fin, evs1, n, G, D, c, toks, st, pk, hT, h1, h2, h3, h4, g1, g2, g3⟩

/-- `StreamEnd` only at the end. -/
def EventsEndOnce (evs : List Event) : Prop := ∀ e ∈ evs.dropLast, isStreamEndEvent e = false

theorem ended_state {F : Nat} {ts : List Token} {fin : Out Token} {evs : List Event} {o : ParserObj} {G : GSt} {D : List TagDirective} {c toks : List Token}
    {st pk : Bool} (h : PInv F ts fin evs o G D c toks st pk) : o.p.state = .end_ ↔ ∃ e ∈ evs, isStreamEndEvent e = true := by
  rw [h.good.pos.done_iff]
  constructor
  · rintro rfl
    obtain ⟨es', he⟩ := h.run.ended.2.2 rfl (by simp)
    have : EventData.streamEnd ∈ evs.map (·.data) := by rw [he]; simp
    obtain ⟨e, he, hd⟩ := List.mem_map.1 this
    exact ⟨e, he, by simp [isStreamEndEvent, hd]⟩
  · rintro ⟨e, he, hd⟩
    refine h.run.ended.1 ?_
    have hd : e.data = .streamEnd := by simpa [isStreamEndEvent] using hd
    exact List.mem_map.2 ⟨e, he, hd⟩

/-- Up to the first `StreamEnd`. -/
theorem parses_once (hF : 4 * srcSize items + 4 < F) (h : Parses F (new items enc) evs o) (he : EventsEndOnce evs) :
    ∃ T ts fin G D c toks st pk, Future enc items T ∧ Scans F (ScannerObj.new items enc) ts fin ∧ ts.length ≤ 4 * T.length + 2 ∧ ts.length < F ∧
      ((∃ e, fin = .err e ∧ ErrMarks T e) ∨ ∃ x, fin = .panic x ∧ Bad T x) ∧ PInv F ts fin evs o G D c toks st pk := by
  obtain ⟨T, ts, fin, evs1, n, G, D, c, toks, st, pk, hT, h1, h2, h3, h4, g1, g2, g3⟩ := parses_inv hF h
  have : n = 0 := by
    cases n with
    | zero => rfl
    | succ n =>
      exfalso
      obtain ⟨e, hm, hd⟩ := (ended_state g2).1 (g3 (by simp))
      rw [g1, List.replicate_succ', ← List.append_assoc, EventsEndOnce, List.dropLast_concat] at he
      rw [he e (by simp [hm])] at hd
      simp at hd
  subst this
  simp at g1
  subst g1
  exact ⟨T, ts, fin, G, D, c, toks, st, pk, hT, h1, h2, h3, h4, g2⟩

/-! ### Small evaluator for concrete cases -/

/-- At most `n` calls of `parse`: the events, and the first result that is not `Ok`. -/
def parseN (F : Nat) : Nat → ParserObj → List Event × Option (Out Event) × ParserObj
  | 0, o => ([], none, o)
  | n + 1, o =>
    match o.parse F with
    | (.ok e, o') =>
      let q := parseN F n o'
      (e :: q.1, q.2)
    | (r, o') => ([], some r, o')

theorem Parses.cons {e : Event} {o0 o1 : ParserObj} (hs : o0.parse F = (.ok e, o1)) (h : Parses F o1 evs o) : Parses F o0 (e :: evs) o := by
  induction h with
  | nil => exact .snoc .nil hs
  | snoc h' hs' ih => exact .snoc (evs := e :: _) ih hs'

theorem parseN_parses (n : Nat) (o0 : ParserObj) : (parseN F n o0).2.1 = none → Parses F o0 (parseN F n o0).1 (parseN F n o0).2.2 := by
  induction n generalizing o0 with
  | zero => intro _; exact .nil
  | succ n ih =>
    intro h
    unfold parseN at h ⊢
    generalize hs : o0.parse F = q at h
    obtain ⟨r, o1⟩ := q
    cases r with
    | ok e => exact Parses.cons hs (ih o1 h)
    | err e => simp at h
    | panic e => simp at h
    | fuel => simp at h

/-- `%TAG !e! x:\n--- !e!a &b c\n...\n- *b\n` -/
def sampleDocs : List SrcItem :=
  [.data [0x25, 0x54, 0x41, 0x47, 0x20, 0x21, 0x65, 0x21, 0x20, 0x78, 0x3A, 0x0A, 0x2D, 0x2D, 0x2D, 0x20, 0x21, 0x65, 0x21, 0x61, 0x20, 0x26, 0x62, 0x20, 0x63],
   .data [0x0A, 0x2E, 0x2E, 0x2E, 0x0A, 0x2D, 0x2D, 0x2D, 0x0A, 0x2D, 0x20, 0x2A, 0x62, 0x0A]]

/-- The hypotheses of the theorems below are met by the whole event stream of two documents. -/
theorem sample_parses : Parses 400 (new sampleDocs) (parseN 400 10 (new sampleDocs)).1 (parseN 400 10 (new sampleDocs)).2.2 ∧
    4 * srcSize sampleDocs + 4 < 400 ∧ (parseN 400 10 (new sampleDocs)).1.map (·.data) = [.streamStart .utf8,
      .documentStart none [⟨['!', 'e', '!'], ['x', ':']⟩] false, .scalar (some ['b']) (some ['x', ':', 'a']) ['c'] false false .plain,
      .documentEnd false, .documentStart none [] false, .sequenceStart none none true .block, .alias ['b'], .sequenceEnd, .documentEnd true, .streamEnd] ∧
    EventsEndOnce (parseN 400 10 (new sampleDocs)).1 :=
  ⟨parseN_parses _ _ (by decide +kernel), by decide +kernel, by decide +kernel, by unfold EventsEndOnce; decide +kernel⟩

/-! ### C16 -/

/-- C16.  The events returned so far are the beginning of a stream of the event grammar. -/
theorem C16_events_follow_grammar (hF : 4 * srcSize items + 4 < F) (h : Parses F (new items enc) evs o) (he : EventsEndOnce evs) :
    IsStreamPrefix (evs.map (·.data)) := by
  obtain ⟨T, ts, fin, G, D, c, toks, st, pk, _, _, _, _, _, hp⟩ := parses_once hF h he
  exact hp.run.prefix

/-- C16.  Once `StreamEnd` was returned, the events form a whole stream. -/
theorem C16_events_complete (hF : 4 * srcSize items + 4 < F) (h : Parses F (new items enc) evs o) (he : EventsEndOnce evs)
    (hend : ∃ e ∈ evs, isStreamEndEvent e = true) : IsStream (evs.map (·.data)) := by
  obtain ⟨T, ts, fin, G, D, c, toks, st, pk, _, _, _, _, _, hp⟩ := parses_once hF h he
  have := (hp.good.pos.done_iff).1 ((ended_state hp).2 hend)
  subst this
  exact hp.run.stream

example : ∃ e ∈ (parseN 400 10 (new sampleDocs)).1, isStreamEndEvent e = true := by decide +kernel

/-! ### C17 -/

/-- C17.  If a call of `parse` (all calls before having returned `Ok`) panics, then it is a panic of
the scanner: a scanner alone, on the same input, returns some tokens and then panics the same way. -/
theorem C17_parse_panics_only_in_scanner (hF : 4 * srcSize items + 4 < F) (h : Parses F (new items enc) evs o) {x : PanicSite}
    (hx : (o.parse F).1 = .panic x) :
    ∃ ts so, ScannerObj.Reads F (ScannerObj.new items enc) ts so ∧ (so.scan F).1 = .panic x := by
  obtain ⟨T, ts, fin, evs1, n, G, D, c, toks, st, pk, hT, h1, h2, h3, h4, g1, g2, g3⟩ := parses_inv hF h
  by_cases hend : o.p.state = .end_
  · rw [PInv.ended hend] at hx; simp at hx
  · have := g2.parse h3 (h4.imp (fun ⟨e, h, _⟩ => ⟨e, h⟩) (fun ⟨e, h, _⟩ => ⟨e, h⟩)) hend
    generalize o.parse F = q at this hx
    obtain ⟨r, o'⟩ := q
    subst hx
    have this : fin = .panic x := this
    subst this
    rcases h1.fails with ⟨_, h⟩ | ⟨so, h5, h6⟩
    · simp at h
    · exact ⟨ts, so, h5, h6⟩

/-- The conclusion of C17 is not vacuous: such panics exist (see C07). -/
example : ((parseN 400 1 (new [.data [0x22, 0x5C]])).2.2.parse 400).1 = .panic .escapeAtEof := by decide +kernel

/-- C17 with C07: for texts where none of the known defects of the scanner can show, `parse` does not
panic. -/
theorem C17_no_panic_partial (hT : Future enc items T) (hF : 4 * srcSize items + 4 < F)
    (hlast : ∀ c, T.getLast? = some c → isLineBreak c = true) (htag : ¬ ('!' ∈ T ∧ ',' ∈ T)) (hlen : T.length ≤ 2147483647)
    (h : Parses F (new items enc) evs o) (x : PanicSite) : (o.parse F).1 ≠ .panic x := by
  intro hx
  obtain ⟨ts, so, h1, h2⟩ := C17_parse_panics_only_in_scanner hF h hx
  exact C07_no_panic_partial hT (by omega) hlast htag hlen h1 x h2

/-! ### C08 -/

/-- C08, parser.  Every call of `parse` returns. -/
theorem C08_parse_terminates (hF : 4 * srcSize items + 4 < F) (h : Parses F (new items enc) evs o) : (o.parse F).1 ≠ .fuel := by
  intro hx
  obtain ⟨T, ts, fin, evs1, n, G, D, c, toks, st, pk, hT, h1, h2, h3, h4, g1, g2, g3⟩ := parses_inv hF h
  by_cases hend : o.p.state = .end_
  · rw [PInv.ended hend] at hx; simp at hx
  · have := g2.parse h3 (h4.imp (fun ⟨e, h, _⟩ => ⟨e, h⟩) (fun ⟨e, h, _⟩ => ⟨e, h⟩)) hend
    generalize o.parse F = q at this hx
    obtain ⟨r, o'⟩ := q
    subst hx
    exact this

/-- C08, parser.  The number of events is linear in the length of the text. -/
theorem C08_event_count (hT : Future enc items T) (hF : 4 * srcSize items + 4 < F) (h : Parses F (new items enc) evs o) (he : EventsEndOnce evs) :
    evs.length ≤ 16 * T.length + 8 := by
  obtain ⟨T', ts, fin, G, D, c, toks, st, pk, hT', h1, h2, _, _, hp⟩ := parses_once hF h he
  have : T' = T := hT'.unique hT
  subst this
  have := hp.pot
  omega

/-- C08, parser.  A linear number of calls reaches `StreamEnd` or a call that does not return `Ok`. -/
theorem C08_events_end (hT : Future enc items T) (hF : 4 * srcSize items + 4 < F) :
    ∃ evs o, Parses F (new items enc) evs o ∧ evs.length ≤ 16 * T.length + 8 ∧
      ((∃ e, evs.getLast? = some e ∧ isStreamEndEvent e = true) ∨ ∀ e, (o.parse F).1 ≠ .ok e) := by
  have main : ∀ (n : Nat) (evs : List Event) (o : ParserObj), 16 * T.length + 9 - evs.length ≤ n → (∀ e ∈ evs, isStreamEndEvent e = false) →
      Parses F (new items enc) evs o →
      ∃ evs o, Parses F (new items enc) evs o ∧ evs.length ≤ 16 * T.length + 8 ∧
        ((∃ e, evs.getLast? = some e ∧ isStreamEndEvent e = true) ∨ ∀ e, (o.parse F).1 ≠ .ok e) := by
    intro n
    induction n with
    | zero =>
      intro evs o hn hne h
      have := C08_event_count hT hF h (fun t ht => hne t (List.dropLast_subset _ ht))
      omega
    | succ n ih =>
      intro evs o hn hne h
      have hc := C08_event_count hT hF h (fun t ht => hne t (List.dropLast_subset _ ht))
      generalize hs : o.parse F = q
      obtain ⟨r, o'⟩ := q
      cases r with
      | ok e =>
        have h' := Parses.snoc h hs
        cases hd : isStreamEndEvent e with
        | true =>
          refine ⟨_, _, h', C08_event_count hT hF h' ?_, Or.inl ⟨e, by simp, hd⟩⟩
          intro t ht
          rw [List.dropLast_concat] at ht
          exact hne t ht
        | false =>
          refine ih _ _ (by simp; omega) ?_ h'
          intro t' ht'
          rcases List.mem_append.1 ht' with ht' | ht'
          · exact hne t' ht'
          · simp at ht'; subst ht'; exact hd
      | err e => exact ⟨evs, o, h, hc, Or.inr (by rw [hs]; simp)⟩
      | panic e => exact ⟨evs, o, h, hc, Or.inr (by rw [hs]; simp)⟩
      | fuel => exact ⟨evs, o, h, hc, Or.inr (by rw [hs]; simp)⟩
  exact main _ [] _ (Nat.le_refl _) (by intro t ht; simp at ht) .nil

/-! ### C20 -/

theorem next_ended {o : ParserObj} (hend : o.p.state = .end_) : o.next F = (.ok none, o) := by
  obtain ⟨p, s, r⟩ := o
  have hend : p.state = .end_ := hend
  unfold ParserObj.next ParserObj.run runA Parser.onScanner
  have : execA (Parser.handle F p (Parser.next F p) s) r = ((.ok none, (p, s)), r) := by
    show execA (Parser.handle F p ((if s.streamEndProduced || p.state == .end_ then pure none
    else do pure (some (← M.catchErr (Parser.parse F))) : Pars _) p) s) r = _
    have : (s.streamEndProduced || p.state == .end_) = true := by rw [hend]; simp
    rw [if_pos this]; rfl
  dsimp only
  rw [this]

/-- C20.  Once `StreamEnd` was returned, `parse` returns `StreamEnd` and the iterator `None`, and the
parser no longer changes or reads input. -/
theorem C20_end_is_sticky (hF : 4 * srcSize items + 4 < F) (h : Parses F (new items enc) evs o) (hend : ∃ e ∈ evs, isStreamEndEvent e = true) :
    (∃ e, isStreamEndEvent e = true ∧ o.parse F = (.ok e, o)) ∧ o.next F = (.ok none, o) := by
  obtain ⟨T, ts, fin, evs1, n, G, D, c, toks, st, pk, hT, h1, h2, h3, h4, g1, g2, g3⟩ := parses_inv hF h
  have hs : o.p.state = .end_ := by
    by_cases hn : n = 0
    · subst hn
      simp at g1; subst g1
      exact (ended_state g2).2 hend
    · exact g3 hn
  exact ⟨⟨_, rfl, PInv.ended hs⟩, next_ended hs⟩

/-! ### C18, C19, C46 -/

/-- C46.  The events were made from the tokens which a scanner alone returns first on the same
input: consecutive shares of them, each event saying exactly what is in its share. -/
theorem C46_events_say_what_tokens_say (hF : 4 * srcSize items + 4 < F) (h : Parses F (new items enc) evs o) (he : EventsEndOnce evs) :
    ∃ ts so, ScannerObj.Reads F (ScannerObj.new items enc) ts so ∧ Made ts evs := by
  obtain ⟨T, ts, fin, G, D, c, toks, st, pk, hT, h1, h2, h3, h4, hp⟩ := parses_once hF h he
  obtain ⟨so, hr⟩ := h1.reads hp.split
  exact ⟨c, so, hr, hp.made⟩

/-- The share of an event in the middle. -/
theorem made_at {ts : List Token} {pre post : List Event} {e : Event} (h : Made ts (pre ++ e :: post)) :
    ∃ ts1 c ts2, ts = ts1 ++ (c ++ ts2) ∧ Made ts1 pre ∧ Carries (inForce pre) c e.data := by
  generalize hl : pre ++ e :: post = l at h
  induction h generalizing post with
  | nil => simp at hl
  | @snoc ts c evs' e' h hc ih =>
    rcases List.eq_nil_or_concat post with rfl | ⟨post', x, rfl⟩
    · obtain ⟨rfl, h2⟩ := List.append_inj' hl rfl
      cases h2
      exact ⟨ts, c, [], by simp, h, hc⟩
    · rw [List.concat_eq_append, ← List.cons_append, ← List.append_assoc] at hl
      obtain ⟨h1, h2⟩ := List.append_inj' hl rfl
      obtain ⟨ts1, c1, ts2, rfl, g1, g2⟩ := ih h1
      exact ⟨ts1, c1, ts2 ++ c, by simp, g1, g2⟩

theorem endsOnce_prefix {pre post : List Event} (h : EventsEndOnce (pre ++ post)) : EventsEndOnce pre := by
  intro e he
  apply h
  cases post with
  | nil => simpa using he
  | cons x xs =>
    rw [List.dropLast_append_of_ne_nil (by simp)]
    exact List.mem_append_left _ (List.dropLast_subset _ he)

/-- The tag of a node event, from what its share of tokens says. -/
theorem Carries.tagOf {D : List TagDirective} {c : List Token} {e : Event} (hc : Carries D c e.data) (hn : isNodeEvent e = true) :
    TagIs D (tagsIn c) (tagOf e) := by
  obtain ⟨d, m1, m2⟩ := e
  cases d <;> first | (simp [isNodeEvent] at hn; done) | exact hc.2.1

/-- C18.  The tag of every node event is what its tokens (a share `c` of the tokens of the input)
say: no tag without a tag token, a verbatim tag as it is, a shorthand by the prefix that the
document's `%TAG` directives (or the defaults) give for its handle. -/
theorem C18_tags_resolve {pre post : List Event} {e : Event} (hF : 4 * srcSize items + 4 < F)
    (h : Parses F (new items enc) (pre ++ e :: post) o) (he : EventsEndOnce (pre ++ e :: post)) (hn : isNodeEvent e = true) :
    ∃ ts1 c ts2 so, ScannerObj.Reads F (ScannerObj.new items enc) (ts1 ++ (c ++ ts2)) so ∧ Made ts1 pre ∧
      TagIs (inForce pre) (tagsIn c) (tagOf e) ∧ anchorsIn c = (anchorOf e).toList := by
  obtain ⟨ts, so, h1, h2⟩ := C46_events_say_what_tokens_say hF h he
  obtain ⟨ts1, c, ts2, rfl, g1, g2⟩ := made_at h2
  refine ⟨ts1, c, ts2, so, h1, g1, Carries.tagOf g2 hn, ?_⟩
  obtain ⟨d, m1, m2⟩ := e
  cases d <;> first | (simp [isNodeEvent] at hn; done) | exact g2.1

/-- C18.  Every tag token was resolved: with an undeclared handle no event is ever returned for it
(by C08 and C17 the call that meets it returns `Err`). -/
theorem C18_undeclared_handles_rejected (hF : 4 * srcSize items + 4 < F) (h : Parses F (new items enc) evs o) (he : EventsEndOnce evs) :
    ∃ ts so, ScannerObj.Reads F (ScannerObj.new items enc) ts so ∧ Made ts evs ∧
      ∀ t ∈ ts, ∀ handle suffix, t.data = .tag handle suffix → handle = [] ∨
        ∃ pre e post p, evs = pre ++ e :: post ∧ prefixOf (inForce pre) handle = some p ∧ tagOf e = some (p ++ suffix) := by
  obtain ⟨ts, so, h1, h2⟩ := C46_events_say_what_tokens_say hF h he
  refine ⟨ts, so, h1, h2, ?_⟩
  clear h1 h he
  induction h2 with
  | nil => simp
  | @snoc ts c evs e h hc ih =>
    intro t ht handle suffix htd
    rcases List.mem_append.1 ht with ht | ht
    · rcases ih t ht handle suffix htd with h | ⟨pre, e', post, p, rfl, h1, h2⟩
      · exact Or.inl h
      · exact Or.inr ⟨pre, e', post ++ [e], p, by simp, h1, h2⟩
    · have hin : (handle, suffix) ∈ tagsIn c := by
        unfold tagsIn
        rw [List.mem_filterMap]
        exact ⟨t, ht, by rw [htd]⟩
      have hn : isNodeEvent e = true := by
        obtain ⟨d, m1, m2⟩ := e
        cases d with
        | scalar | sequenceStart | mappingStart => rfl
        | alias => rw [hc.2.2.1] at hin; simp at hin
        | documentStart => rw [hc.2.2.2.2.2.2.1] at hin; simp at hin
        | documentEnd | streamStart | streamEnd => rw [hc.1.2.2.1] at hin; simp at hin
        | sequenceEnd | mappingEnd => rw [hc.2.2.1] at hin; simp at hin
      have := Carries.tagOf hc hn
      generalize hl : tagsIn c = l at hin this
      match l, this with
      | [], _ => simp at hin
      | [(a, b)], this =>
        simp at hin
        obtain ⟨rfl, rfl⟩ := hin
        have this : if handle = [] then tagOf e = some suffix else ∃ p, prefixOf (inForce evs) handle = some p ∧ tagOf e = some (p ++ suffix) := this
        by_cases h0 : handle = []
        · exact Or.inl h0
        · rw [if_neg h0] at this
          obtain ⟨p, h1, h2⟩ := this
          exact Or.inr ⟨evs, e, [], p, rfl, h1, h2⟩
      | _ :: _ :: _, this => exact this.elim

/-- A concrete case: the tag of the sample is made from the prefix declared in its document. -/
example : prefixOf [⟨['!', 'e', '!'], ['x', ':']⟩] ['!', 'e', '!'] = some ['x', ':'] ∧
    (parseN 400 10 (new sampleDocs)).1.filterMap tagOf = [['x', ':', 'a']] ∧
    (∃ e, (parseN 400 9 (new [.data [0x21, 0x65, 0x21, 0x61, 0x20, 0x63]])).2.1 = some (.err e)) := by
  refine ⟨by decide +kernel, by decide +kernel, ?_⟩
  have : (match (parseN 400 9 (new [.data [0x21, 0x65, 0x21, 0x61, 0x20, 0x63]])).2.1 with | some (.err _) => true | _ => false) = true := by decide +kernel
  split at this
  · rename_i e h; exact ⟨e, h⟩
  · simp at this

/-- C19.  The `%TAG` directives in force inside a document are those its `DocumentStart` lists. -/
theorem C19_directives_scoped {pre mid post : List Event} {d e : Event} {v : Option VersionDirective} {tags : List TagDirective} {i : Bool}
    (hF : 4 * srcSize items + 4 < F) (h : Parses F (new items enc) (pre ++ d :: (mid ++ e :: post)) o)
    (he : EventsEndOnce (pre ++ d :: (mid ++ e :: post))) (hd : d.data = .documentStart v tags i)
    (hmid : ∀ x ∈ mid, (∀ j, x.data ≠ .documentEnd j) ∧ ∀ v t j, x.data ≠ .documentStart v t j) (hn : isNodeEvent e = true) :
    ∃ ts1 c ts2 so, ScannerObj.Reads F (ScannerObj.new items enc) (ts1 ++ (c ++ ts2)) so ∧ Made ts1 (pre ++ d :: mid) ∧
      TagIs tags (tagsIn c) (tagOf e) := by
  have e1 : pre ++ d :: (mid ++ e :: post) = (pre ++ d :: mid) ++ e :: post := by simp
  rw [e1] at h he
  obtain ⟨ts1, c, ts2, so, h1, h2, h3, _⟩ := C18_tags_resolve hF h he hn
  refine ⟨ts1, c, ts2, so, h1, h2, ?_⟩
  have : inForce (pre ++ d :: mid) = tags := by
    unfold inForce
    rw [List.foldl_append, List.foldl_cons]
    have hd' : ∀ D, dirsAfter D d.data = tags := by intro D; rw [hd]; rfl
    rw [hd']
    clear h he h2 h3 e1
    induction mid with
    | nil => rfl
    | cons x mid ih =>
      rw [List.foldl_cons]
      have : dirsAfter tags x.data = tags := by
        have := hmid x (by simp)
        unfold dirsAfter
        split
        · rename_i h; exact absurd h (this.2 _ _ _)
        · rename_i h; exact absurd h (this.1 _)
        · rfl
      rw [this]
      exact ih (fun x hx => hmid x (by simp [hx]))
  rw [← this]; exact h3

/-- C19.  A `DocumentStart` lists exactly the `%TAG` directives among its tokens, in order; no handle
is declared twice and there is at most one `%YAML`.  C15: the version is 1.1 or 1.2. -/
theorem C19_directives_listed {pre post : List Event} {d : Event} {v : Option VersionDirective} {tags : List TagDirective} {i : Bool}
    (hF : 4 * srcSize items + 4 < F) (h : Parses F (new items enc) (pre ++ d :: post) o) (he : EventsEndOnce (pre ++ d :: post))
    (hd : d.data = .documentStart v tags i) :
    ∃ ts1 c ts2 so, ScannerObj.Reads F (ScannerObj.new items enc) (ts1 ++ (c ++ ts2)) so ∧ Made ts1 pre ∧
      tagDirectivesIn c = tags ∧ (tags.map (·.handle)).Nodup ∧ versionsIn c = v.toList := by
  obtain ⟨ts, so, h1, h2⟩ := C46_events_say_what_tokens_say hF h he
  obtain ⟨ts1, c, ts2, rfl, g1, g2⟩ := made_at h2
  rw [hd] at g2
  exact ⟨ts1, c, ts2, so, h1, g1, g2.2.1, g2.2.2.1, g2.1⟩

/-- C15, parser part.  A document that declares a version other than 1.1 or 1.2 is never accepted. -/
theorem C15_versions_accepted {d : Event} {v : VersionDirective} {tags : List TagDirective} {i : Bool}
    (hF : 4 * srcSize items + 4 < F) (h : Parses F (new items enc) evs o) (hm : d ∈ evs)
    (hd : d.data = .documentStart (some v) tags i) : v.major = 1 ∧ (v.minor = 1 ∨ v.minor = 2) := by
  obtain ⟨T, ts, fin, evs1, n, G, D, c, toks, st, pk, hT, h1, h2, h3, h4, g1, g2, g3⟩ := parses_inv hF h
  rw [g1] at hm
  rcases List.mem_append.1 hm with hm | hm
  · obtain ⟨pre, post, rfl⟩ := List.append_of_mem hm
    obtain ⟨ts1, c, ts2, _, _, g⟩ := made_at g2.made
    rw [hd] at g
    exact g.2.2.2.1 v rfl
  · have := (List.mem_replicate.1 hm).2
    subst this
    simp at hd

/-- `%YAML 1.2\n--- a` is accepted; `%YAML 2.0\n--- a` is not. -/
example : (∃ d ∈ (parseN 400 4 (new [.data [0x25, 0x59, 0x41, 0x4D, 0x4C, 0x20, 0x31, 0x2E, 0x32, 0x0A, 0x2D, 0x2D, 0x2D, 0x20, 0x61, 0x0A]])).1,
      d.data = .documentStart (some ⟨1, 2⟩) [] false) ∧
    (parseN 400 4 (new [.data [0x25, 0x59, 0x41, 0x4D, 0x4C, 0x20, 0x32, 0x2E, 0x30, 0x0A, 0x2D, 0x2D, 0x2D, 0x20, 0x61, 0x0A]])).2.1 =
      some (.err (.parser "" Mark.zero "found incompatible YAML document" ⟨0, 0, 0⟩)) := by
  decide +kernel

/-- C46.  Anchors, aliases and scalars of the events are those of the tokens, in order; events for
omitted (empty) scalars come in addition. -/
theorem C46_content_conserved (hF : 4 * srcSize items + 4 < F) (h : Parses F (new items enc) evs o) (he : EventsEndOnce evs) :
    ∃ ts so, ScannerObj.Reads F (ScannerObj.new items enc) ts so ∧ Made ts evs ∧
      evs.filterMap anchorOf = anchorsIn ts ∧ evs.filterMap aliasOf = aliasesIn ts ∧
      (scalarsIn ts).Sublist (evs.filterMap scalarOf) ∧
      (evs.filterMap scalarOf).filter (fun x => x ≠ ([], .plain)) = (scalarsIn ts).filter (fun x => x ≠ ([], .plain)) := by
  obtain ⟨ts, so, h1, h2⟩ := C46_events_say_what_tokens_say hF h he
  refine ⟨ts, so, h1, h2, ?_⟩
  clear h1 h he
  induction h2 with
  | nil => exact ⟨rfl, rfl, .slnil, rfl⟩
  | @snoc ts c evs e h hc ih =>
    obtain ⟨i1, i2, i3, i4⟩ := ih
    have key : [e].filterMap anchorOf = anchorsIn c ∧ [e].filterMap aliasOf = aliasesIn c ∧ (scalarsIn c).Sublist ([e].filterMap scalarOf) ∧
        ([e].filterMap scalarOf).filter (fun x => x ≠ ([], .plain)) = (scalarsIn c).filter (fun x => x ≠ ([], .plain)) := by
      obtain ⟨d, m1, m2⟩ := e
      cases d with
      | scalar anchor tag value pi qi style =>
        refine ⟨?_, hc.2.2.1.symm, ?_⟩
        · rw [hc.1]; cases anchor <;> rfl
        · rcases hc.2.2.2.2.2 with ⟨h, _⟩ | ⟨h, rfl, rfl, _⟩
          · rw [h]; exact ⟨.refl _, rfl⟩
          · rw [h]; exact ⟨by simp, by simp [scalarOf]⟩
      | sequenceStart anchor tag i style =>
        refine ⟨?_, hc.2.2.1.symm, ?_⟩
        · rw [hc.1]; cases anchor <;> rfl
        · rw [hc.2.2.2.2.2.1]; exact ⟨by simp, rfl⟩
      | mappingStart anchor tag i style =>
        refine ⟨?_, hc.2.2.1.symm, ?_⟩
        · rw [hc.1]; cases anchor <;> rfl
        · rw [hc.2.2.2.2.2.1]; exact ⟨by simp, rfl⟩
      | alias a => rw [hc.1, hc.2.1, hc.2.2.2.2.2]; exact ⟨rfl, rfl, by simp, rfl⟩
      | documentStart v t i => rw [hc.2.2.2.2.2.1, hc.2.2.2.2.1, hc.2.2.2.2.2.2.2.1]; exact ⟨rfl, rfl, by simp, rfl⟩
      | documentEnd i => rw [hc.1.2.1, hc.1.1, hc.1.2.2.2.2.2]; exact ⟨rfl, rfl, by simp, rfl⟩
      | streamStart i => rw [hc.1.2.1, hc.1.1, hc.1.2.2.2.2.2]; exact ⟨rfl, rfl, by simp, rfl⟩
      | streamEnd => rw [hc.1.2.1, hc.1.1, hc.1.2.2.2.2.2]; exact ⟨rfl, rfl, by simp, rfl⟩
      | sequenceEnd => rw [hc.2.1, hc.1, hc.2.2.2.2.2]; exact ⟨rfl, rfl, by simp, rfl⟩
      | mappingEnd => rw [hc.2.1, hc.1, hc.2.2.2.2.2]; exact ⟨rfl, rfl, by simp, rfl⟩
    obtain ⟨k1, k2, k3, k4⟩ := key
    rw [List.filterMap_append, List.filterMap_append, List.filterMap_append, List.filter_append, i1, i2, i4, k1, k2, k4]
    unfold anchorsIn aliasesIn scalarsIn at *
    simp only [List.filterMap_append, List.filter_append]
    exact ⟨trivial, trivial, i3.append k3, trivial⟩

/-- C46.  When `StreamEnd` was returned the events say all of the tokens up to `StreamEnd`. -/
theorem C46_whole_stream (hF : 4 * srcSize items + 4 < F) (h : Parses F (new items enc) evs o) (he : EventsEndOnce evs)
    (hend : ∃ e ∈ evs, isStreamEndEvent e = true) :
    ∃ ts t so, ScannerObj.Reads F (ScannerObj.new items enc) (ts ++ [t]) so ∧ Made (ts ++ [t]) evs ∧ t.data = .streamEnd := by
  obtain ⟨ts, so, h1, h2⟩ := C46_events_say_what_tokens_say hF h he
  cases h2 with
  | nil => simp at hend
  | @snoc ts' c evs' e hm hc =>
    have : isStreamEndEvent e = true := by
      obtain ⟨e', he', hd'⟩ := hend
      rcases List.mem_append.1 he' with he' | he'
      · rw [he e' (by rw [List.dropLast_concat]; exact he')] at hd'; simp at hd'
      · simp at he'; subst he'; exact hd'
    have hd : e.data = .streamEnd := by simpa [isStreamEndEvent] using this
    obtain ⟨_, c0, t, rfl, ht⟩ : Plain c ∧ ∃ c0 t, c = c0 ++ [t] ∧ t.data = .streamEnd := by rw [hd] at hc; exact hc
    refine ⟨ts' ++ c0, t, so, by simpa using h1, ?_, ht⟩
    rw [List.append_assoc]
    exact .snoc hm hc

/-! ### C45 -/

/-- Calls of `parse` whatever they return: the results. -/
def parseAll (F : Nat) : Nat → ParserObj → List (Out Event)
  | 0, _ => []
  | n + 1, o => (o.parse F).1 :: parseAll F n (o.parse F).2

/-- C45 is false for the parser: on `[a}` the call after the error panics (parser.rs,
`parse_flow_sequence_entry`: the error took the last mark off the stack). -/
theorem C45_refuted_parser : (parseAll 99 6 (new [.data [0x5B, 0x61, 0x7D]])).map
    (fun r => match r with | .ok _ => 0 | .err _ => 1 | .panic _ => 2 | .fuel => 3) = [0, 0, 0, 0, 1, 2] := by decide +kernel

end Yaml.Props
