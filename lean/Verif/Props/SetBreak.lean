import Verif.Lib.EmitBreak2
import Verif.Lib.EmitRun
import Verif.Spec.WithBreak
import Verif.Props.Emitter
import Verif.Props.LineBreaks

/-
C62: the line break chosen with `set_break` is the only thing it changes in the output.  Two emitters
that differ only in it accept the same events with the same results, and the output of one is the output
of the other with every LF replaced.
-/

namespace Yaml.Props
open Yaml Yaml.Spec Yaml.Emitter Yaml.EmitterObj

theorem withBreak_sub {b : Break} (hb : b ≠ .any) (W : Str) : withBreak (chosenBreak b) W = Eb.sub b W := by
  have e : chosenBreak b = breakChars b := by cases b <;> first | rfl | exact absurd rfl hb
  rw [e]
  induction W with
  | nil => rfl
  | cons c t ih =>
    unfold withBreak
    rw [ih]
    unfold Eb.sub
    rw [List.flatMap_cons]
    split <;> rfl

theorem new_break (enc : Encoding) (cfg : List Setting) (w : Writer) (b : Break) :
    (new enc (cfg ++ [.lineBreak b]) w).s = Eb.wb b (new enc (cfg ++ [.lineBreak .ln]) w).s := by
  unfold EmitterObj.new
  simp only [List.foldl_append, List.foldl_cons, List.foldl_nil, setOutput]
  split <;> split <;> first | rfl | (rename_i h1 h2; exact absurd h1 (by simp_all [set]))

theorem cfgUnicode_break (cfg : List Setting) (b : Break) : cfgUnicode (cfg ++ [.lineBreak b]) = cfgUnicode cfg := by
  simp [cfgUnicode]

theorem new_J (enc : Encoding) (cfg : List Setting) (w : Writer) : Eb.J (new enc (cfg ++ [.lineBreak .ln]) w).s := by
  refine ⟨?_, by rw [(fresh_new enc _ w).tags]; simp⟩
  unfold EmitterObj.new
  simp only [List.foldl_append, List.foldl_cons, List.foldl_nil, setOutput]
  split <;> rfl

theorem step_break {b : Break} (hb : b ≠ .any) {u : Unbuffered} (hs : Eb.J u.s) (ev : Event) :
    ((Unbuffered.emit ev ⟨Eb.wb b u.s, Eb.sub b u.text⟩).1 = (Unbuffered.emit ev u).1) ∧
    (Unbuffered.emit ev ⟨Eb.wb b u.s, Eb.sub b u.text⟩).2 =
      ⟨Eb.wb b (Unbuffered.emit ev u).2.s, Eb.sub b (Unbuffered.emit ev u).2.text⟩ ∧ Eb.J (Unbuffered.emit ev u).2.s := by
  obtain ⟨x, s', W', h1, h2, h3, _⟩ := Eb.bf_emit hb (ev := ev) hs u.text
  unfold Unbuffered.emit
  rw [h1, h2]
  exact ⟨rfl, rfl, h3⟩

theorem emits_break {b : Break} (hb : b ≠ .any) {u0 u : Unbuffered} {evs : List Event} (h0 : Eb.J u0.s) (h : u0.Emits evs u) :
    Eb.J u.s ∧ Unbuffered.Emits ⟨Eb.wb b u0.s, Eb.sub b u0.text⟩ evs ⟨Eb.wb b u.s, Eb.sub b u.text⟩ := by
  induction h with
  | nil => exact ⟨h0, .nil⟩
  | @snoc evs ev o1 o2 h hs ih =>
    obtain ⟨g1, g2⟩ := ih
    obtain ⟨k1, k2, k3⟩ := step_break hb g1 ev
    rw [hs] at k1 k2 k3
    exact ⟨k3, .snoc g2 (Prod.ext k1 k2)⟩

theorem Unbuffered.Emits.det {u0 u u' : Unbuffered} {evs : List Event} (h : u0.Emits evs u) (h' : u0.Emits evs u') : u = u' := by
  induction h generalizing u' with
  | nil =>
    generalize he : ([] : List Event) = l at h'
    cases h' with
    | nil => rfl
    | snoc => exact absurd he (by simp)
  | @snoc evs ev o1 o2 h hs ih =>
    generalize he : evs ++ [ev] = l at h'
    cases h' with
    | nil => exact absurd he (by simp)
    | snoc h1 h2 =>
      obtain ⟨rfl, e⟩ := List.append_inj' he rfl
      cases e
      obtain rfl := ih h1
      rw [hs] at h2
      exact (Prod.mk.inj h2).2

/-- C28 with what is known of the text. -/
theorem buffered_text {enc : Encoding} {cfg : List Setting} {w : Writer} {evs : List Event} {o : EmitterObj}
    (h : Emits (new enc cfg w) evs o) :
    ∃ u : Unbuffered, Unbuffered.Emits ⟨(new enc cfg w).s, []⟩ evs u ∧ OutText (streamEnc enc evs) (cfgUnicode cfg) u.text ∧
      o.written ++ encodeText (streamEnc enc evs) o.k.buffer = w.bytes ++ encodeText (streamEnc enc evs) u.text := by
  obtain ⟨o', h1, h2, h3⟩ := emits_beside (w := w) (w' := ⟨w.bytes, []⟩) rfl (fun x hx => by cases hx) h
  obtain ⟨_, b, hb, hU⟩ := emits_unbuffered (fun x hx => by cases hx) h1 []
  rw [List.append_nil] at hb
  refine ⟨⟨o'.s, b.text⟩, ?_, hb.sink.text, ?_⟩
  · rw [new_state enc cfg w ⟨w.bytes, []⟩]; exact hU
  · obtain ⟨h4, h5, h6, v, v', h7, h8, h9, _⟩ := h3
    obtain ⟨w2, g1, g2⟩ := hb.sink.writer
    rw [h8] at g1; cases g1
    unfold EmitterObj.written
    rw [h7, ← h4]
    simp only [Option.map_some, Option.getD_some]
    rw [← h9]; exact g2

/-- C62.  Two emitters given the same encoding and settings, except that one writes LF and the other the
break `b`, that were fed the same events: the first has produced some text, and the second that text
with every LF replaced by `b`. -/
theorem C62_breaks (enc : Encoding) (cfg : List Setting) (w w' : Writer) (b : Break) (hb : b ≠ .any) (evs : List Event)
    (o o' : EmitterObj) (h : Emits (new enc (cfg ++ [.lineBreak .ln]) w) evs o)
    (h' : Emits (new enc (cfg ++ [.lineBreak b]) w') evs o') :
    ∃ text : Str, OutText (streamEnc enc evs) (cfgUnicode cfg) text ∧
      o.written ++ encodeText (streamEnc enc evs) o.k.buffer = w.bytes ++ encodeText (streamEnc enc evs) text ∧
      o'.written ++ encodeText (streamEnc enc evs) o'.k.buffer =
        w'.bytes ++ encodeText (streamEnc enc evs) (withBreak (chosenBreak b) text) := by
  obtain ⟨u, h1, ht, h2⟩ := buffered_text h
  obtain ⟨u', h1', h2'⟩ := C28_buffering enc _ w' evs o' h'
  refine ⟨u.text, by rw [cfgUnicode_break] at ht; exact ht, h2, ?_⟩
  obtain ⟨_, g⟩ := emits_break hb (new_J enc cfg w) h1
  have e : Unbuffered.mk (Eb.wb b (new enc (cfg ++ [.lineBreak .ln]) w).s) (Eb.sub b []) = ⟨(new enc (cfg ++ [.lineBreak b]) w').s, []⟩ := by
    rw [new_state enc _ w' w, new_break enc cfg w b]; rfl
  rw [e] at g
  rw [h2', Unbuffered.Emits.det h1' g, withBreak_sub hb]

/-- The next call of `emit` has the same result. -/
theorem next_break {enc : Encoding} {cfg : List Setting} {w : Writer} (hg : w.Good) {b : Break} (hb : b ≠ .any) {evs : List Event}
    {o o' : EmitterObj} (h : Emits (new enc (cfg ++ [.lineBreak .ln]) w) evs o)
    (h' : Emits (new enc (cfg ++ [.lineBreak b]) w) evs o') (ev : Event) : (o'.emit ev).1 = (o.emit ev).1 := by
  obtain ⟨p1, p, p2, p3⟩ := emits_unbuffered hg h [ev]
  obtain ⟨q1, q, q2, q3⟩ := emits_unbuffered hg h' [ev]
  have r1 := (emit_unbuffered (streamEnc_ne _ _) (by have := encOf_stream enc (evs ++ [ev]) []; rw [List.append_nil] at this; exact this) p2 p1).1
  have r2 := (emit_unbuffered (streamEnc_ne _ _) (by have := encOf_stream enc (evs ++ [ev]) []; rw [List.append_nil] at this; exact this) q2 q1).1
  obtain ⟨hJ, g⟩ := emits_break hb (new_J enc cfg w) p3
  have e : Unbuffered.mk (Eb.wb b (new enc (cfg ++ [.lineBreak .ln]) w).s) (Eb.sub b []) = ⟨(new enc (cfg ++ [.lineBreak b]) w).s, []⟩ := by
    rw [new_break enc cfg w b]; rfl
  rw [e] at g
  rw [r1, r2, Unbuffered.Emits.det q3 g]
  exact (step_break hb hJ ev).1

/-- C62.  With a writer that does not fail, every call of `emit` returns the same with either break:
the same `Ok`, the same error, the same panic. -/
theorem C62_results (enc : Encoding) (cfg : List Setting) (w : Writer) (hg : ∀ x ∈ w.script, x = none) (b : Break) (hb : b ≠ .any)
    (evs : List Event) (o o' : EmitterObj) (h : Emits (new enc (cfg ++ [.lineBreak .ln]) w) evs o)
    (h' : Emits (new enc (cfg ++ [.lineBreak b]) w) evs o') (ev : Event) : (o'.emit ev).1 = (o.emit ev).1 :=
  next_break hg hb h h' ev

/-- C62.  And the sequences of events accepted are the same. -/
theorem C62_accepted (enc : Encoding) (cfg : List Setting) (w : Writer) (hg : ∀ x ∈ w.script, x = none) (b : Break) (hb : b ≠ .any)
    (evs : List Event) :
    (∃ o, Emits (new enc (cfg ++ [.lineBreak .ln]) w) evs o) ↔ ∃ o', Emits (new enc (cfg ++ [.lineBreak b]) w) evs o' := by
  constructor
  · rintro ⟨o, h⟩
    induction h with
    | nil => exact ⟨_, .nil⟩
    | @snoc evs ev o1 o2 h hs ih =>
      obtain ⟨o', h'⟩ := ih
      have := next_break hg hb h h' ev
      rw [hs] at this
      exact ⟨(o'.emit ev).2, .snoc h' (Prod.ext this rfl)⟩
    | flush _ _ ih => exact ih
  · rintro ⟨o, h⟩
    induction h with
    | nil => exact ⟨_, .nil⟩
    | @snoc evs ev o1 o2 h hs ih =>
      obtain ⟨o', h'⟩ := ih
      have := next_break hg hb h' h ev
      rw [hs] at this
      exact ⟨(o'.emit ev).2, .snoc h' (Prod.ext this.symm rfl)⟩
    | flush _ _ ih => exact ih

/-- C62.  When the last event was a `DocumentEnd` or `StreamEnd`, the bytes the writers received. -/
theorem C62_written (enc : Encoding) (cfg : List Setting) (w w' : Writer) (b : Break) (hb : b ≠ .any) (evs : List Event) (ev : Event)
    (o o' : EmitterObj) (h : Emits (new enc (cfg ++ [.lineBreak .ln]) w) (evs ++ [ev]) o)
    (h' : Emits (new enc (cfg ++ [.lineBreak b]) w') (evs ++ [ev]) o') (hgram : IsStreamPrefix ((evs ++ [ev]).map (·.data)))
    (hend : ev.data = .streamEnd ∨ ∃ i, ev.data = .documentEnd i) :
    ∃ text : Str, OutText (streamEnc enc (evs ++ [ev])) (cfgUnicode cfg) text ∧
      o.written = w.bytes ++ encodeText (streamEnc enc (evs ++ [ev])) text ∧
      o'.written = w'.bytes ++ encodeText (streamEnc enc (evs ++ [ev])) (withBreak (chosenBreak b) text) := by
  obtain ⟨t, ht, h1, h2⟩ := C62_breaks enc cfg w w' b hb _ o o' h h'
  rw [(C28_drained enc _ w evs ev o h hgram hend).1, encodeText_nil, List.append_nil] at h1
  rw [(C28_drained enc _ w' evs ev o' h' hgram hend).1, encodeText_nil, List.append_nil] at h2
  exact ⟨t, ht, h1, h2⟩

theorem unix_break {b : Break} {T : Str} (h : '\r' ∉ T) : unixBreaks (withBreak (chosenBreak b) T) = unixBreaks T := by
  induction T with
  | nil => rfl
  | cons c t ih =>
    have h1 : c ≠ '\r' := fun e => h (by simp [e])
    have ih := ih fun e => h (by simp [e])
    have key : ∀ {c : Char} {t : Str}, c ≠ '\r' → unixBreaks (c :: t) = (if c = '\u0085' then '\n' else c) :: unixBreaks t := by
      intro c t hc
      rw [unixBreaks]
      · simp [hc]
      · intro x hx; exact absurd hx hc
    have cr : ∀ {t : Str}, t.head? ≠ some '\n' → unixBreaks ('\r' :: t) = '\n' :: unixBreaks t := by
      intro t ht
      rw [unixBreaks]
      · simp
      · intro x _ hx; simp [hx] at ht
    unfold withBreak
    split
    · rename_i e
      subst e
      rw [key (t := t) (by decide)]
      cases b with
      | cr =>
        show unixBreaks ('\r' :: withBreak ['\r'] t) = _
        rw [cr]
        · show '\n' :: unixBreaks (withBreak (chosenBreak .cr) t) = _
          rw [ih]; rfl
        · cases t with
          | nil => simp [withBreak]
          | cons d t =>
            unfold withBreak
            split
            · simp
            · simpa using ‹¬ d = '\n'›
      | ln => show unixBreaks ('\n' :: withBreak (chosenBreak .ln) t) = _; rw [key (by decide), ih]
      | any => show unixBreaks ('\n' :: withBreak (chosenBreak .any) t) = _; rw [key (by decide), ih]
      | crln => show unixBreaks ('\r' :: '\n' :: withBreak (chosenBreak .crln) t) = _; rw [Tw.ub_crlf, ih]; rfl
    · rw [key h1, key h1, ih]

theorem withBreak_allowed {b : Break} {T : Str} (h : ∀ c ∈ T, Allowed c) : ∀ c ∈ withBreak (chosenBreak b) T, Allowed c := by
  have hr : Allowed '\r' := allowed_iff.1 (by decide)
  have hn : Allowed '\n' := allowed_iff.1 (by decide)
  induction T with
  | nil => exact h
  | cons c t ih =>
    have ih := ih fun c hc => h c (by simp [hc])
    unfold withBreak
    split
    · intro d hd
      rcases List.mem_append.1 hd with hd | hd
      · cases b <;> simp [chosenBreak] at hd <;> (try rcases hd with rfl | rfl) <;> (try subst hd) <;> assumption
      · exact ih d hd
    · intro d hd
      rcases List.mem_cons.1 hd with rfl | hd
      · exact h d (by simp)
      · exact ih d hd

/-- C62.  Reading back: if the output with LF is UTF-8 and has no CR, the output with another break is
read as the same events with the same values, lines and columns. -/
theorem C62_read_back (enc : Encoding) (cfg : List Setting) (w w' : Writer) (b : Break) (hb : b ≠ .any) (evs : List Event) (ev : Event)
    (o o' : EmitterObj) (h : Emits (new enc (cfg ++ [.lineBreak .ln]) w) (evs ++ [ev]) o)
    (h' : Emits (new enc (cfg ++ [.lineBreak b]) w') (evs ++ [ev]) o') (hgram : IsStreamPrefix ((evs ++ [ev]).map (·.data)))
    (hend : ev.data = .streamEnd ∨ ∃ i, ev.data = .documentEnd i) (hw : w.bytes = []) (hw' : w'.bytes = [])
    (h8 : streamEnc enc (evs ++ [ev]) = .utf8) (hcr : 13 ∉ o.written) (items items' : List SrcItem) (hq : Quiet items) (hq' : Quiet items')
    (hi : bytesOf items = o.written) (hi' : bytesOf items' = o'.written) (hs : 4 * srcSize items < Reader.maxInput)
    (hs' : 4 * srcSize items' < Reader.maxInput) (F : Nat) (hF : 4 * srcSize items + 4 < F) (hF' : 4 * srcSize items' + 4 < F) (k : Nat) :
    (ParserObj.results (ParserObj.parse F) k (ParserObj.new items' .utf8)).map (placed eventPlaced) =
      (ParserObj.results (ParserObj.parse F) k (ParserObj.new items .utf8)).map (placed eventPlaced) := by
  obtain ⟨t, ht, h1, h2⟩ := C62_written enc cfg w w' b hb evs ev o o' h h' hgram hend
  rw [h8] at ht h1 h2
  rw [hw, List.nil_append] at h1
  rw [hw', List.nil_append] at h2
  unfold OutText at ht
  rw [if_pos rfl] at ht
  have ha : ∀ c ∈ t, Allowed c := fun c hc => allowed_iff.1 (ht c hc).1
  have hr : '\r' ∉ t := by
    intro hc
    refine hcr ?_
    rw [h1]
    exact List.mem_flatMap.2 ⟨_, hc, by decide⟩
  exact C59_events (unix_break hr) (withBreak_allowed ha) ha (.utf8 hq' (by rw [hi', h2]; rfl)) (.utf8 hq (by rw [hi, h1]; rfl)) hs' hs hF' hF k

/-- A stream with literal, folded, quoted and plain scalars over several lines. -/
def breakSample : List Event :=
  [.new (.streamStart .utf8), .new (.documentStart none [] true), .new (.mappingStart none none true .block),
   .new (.scalar none none (cs! "a") true true .plain), .new (.scalar none none (cs! "x\ny\n") true true .literal),
   .new (.scalar none none (cs! "b") true true .plain), .new (.scalar none none (cs! "x\ny") true true .singleQuoted),
   .new .mappingEnd, .new (.documentEnd true), .new .streamEnd]

example : (emitN breakSample (new .any [.width 8, .lineBreak .ln] ⟨[], []⟩)).1 = .ok () ∧
    (emitN breakSample (new .any [.width 8, .lineBreak .ln] ⟨[], []⟩)).2.written = utf8Encode (cs! "a: |\n  x\n  y\nb: 'x\n\n  y'\n") ∧
    (emitN breakSample (new .any [.width 8, .lineBreak .crln] ⟨[], []⟩)).1 = .ok () ∧
    (emitN breakSample (new .any [.width 8, .lineBreak .crln] ⟨[], []⟩)).2.written =
      utf8Encode (cs! "a: |\r\n  x\r\n  y\r\nb: 'x\r\n\r\n  y'\r\n") := by decide +kernel

/-- It meets the hypotheses of `C62_read_back`. -/
example : IsStream (breakSample.map (·.data)) ∧ streamEnc .any breakSample = .utf8 ∧
    13 ∉ (emitN breakSample (new .any ([.width 8] ++ [.lineBreak .ln]) ⟨[], []⟩)).2.written := by
  refine ⟨?_, by decide, by decide +kernel⟩
  exact IsStream.mk .utf8 (.cons none [] true true (IsNode.mapping none none true .block
    (.cons (.scalar none none (cs! "a") true true .plain) (.scalar none none (cs! "x\ny\n") true true .literal)
    (.cons (.scalar none none (cs! "b") true true .plain) (.scalar none none (cs! "x\ny") true true .singleQuoted) .nil))) .nil)

end Yaml.Props
