import Verif.Lib.Dump
import Verif.Lib.EmitRun
import Verif.Lib.Read8
import Verif.Props.Reader

/-
C26, C27, C28, C29, C35, C36, C37, C40 (part), C43: what `Emitter::emit` accepts and what reaches
the writer.

An emitter is made by `EmitterObj.new enc cfg w`: `Emitter::new`, `set_encoding(enc)`, the setters
`cfg` in order, `set_output(w)`.  `Emits o evs o'`: calls of `emit` with the events `evs` (and of `flush`
anywhere between) returned `Ok`.  `EventOk`, `TagsFit` are in Spec/Emit.lean, the grammar in
Spec/Events.lean, `encodeText` and `OutText` in Spec/Output.lean, the emitter without buffers in
Spec/Unbuffered.lean.
-/

namespace Yaml.Props
open Yaml Yaml.Spec Yaml.Emitter Yaml.EmitterObj

/-- The events an emitter may hold back: it looks ahead one event after a `DocumentStart`, two after
a `SequenceStart` and three after a `MappingStart`. -/
def Held : List Event → Prop
  | [] => True
  | x :: r => match x.data with
    | .documentStart _ _ _ => r = []
    | .sequenceStart _ _ _ _ => r.length ≤ 1
    | .mappingStart _ _ _ _ => r.length ≤ 2
    | _ => False

theorem held_of_ready {es : List Event} (h : ready es = false) : Held es := by
  cases es with
  | nil => trivial
  | cons x r =>
    unfold Held
    unfold ready at h
    obtain ⟨d, m1, m2⟩ := x
    cases d <;> simp at h ⊢
    · exact h.1
    · omega
    · omega

theorem Held.length_le {es : List Event} (h : Held es) : es.length ≤ 3 := by
  cases es with
  | nil => simp
  | cons x r =>
    unfold Held at h
    obtain ⟨d, m1, m2⟩ := x
    cases d <;> simp at h ⊢
    · simp [h]
    · omega
    · omega

theorem tagsFit_prefix {evs rest : List EventData} (h : TagsFit (evs ++ rest)) : TagsFit evs := by
  intro e he t ht d hd
  refine h e (List.mem_append_left _ he) t ht d ?_
  rw [List.flatMap_append]
  rcases List.mem_append.1 hd with h | h
  · exact List.mem_append_left _ h
  · exact List.mem_append_right _ (List.mem_append_left _ h)

theorem tagsFit_ascii {evs : List EventData} (h : ∀ e ∈ evs, AsciiTag e) : TagsFit evs :=
  fun e he t ht _ _ => cutOk_of_ascii (h e he t ht)

theorem not_rejected {c : Bool} {evs : List Event} (hg : IsStreamPrefix (evs.map (·.data))) (hok : ∀ x ∈ evs, EventOk c x.data) :
    ¬ Rejected c evs := by
  rintro ⟨done, x, rest, G, rfl, hrun, _, hbad⟩
  obtain ⟨G', hG'⟩ := (isStreamPrefix_iff _).1 hg
  rw [List.map_append] at hG'
  obtain ⟨G1, h1, h2⟩ := hG'.split
  have := h1.det hrun
  subst this
  refine hbad ⟨?_, hok x (by simp)⟩
  cases h2 with
  | cons hs _ => simp only at hs; rw [hs]; rfl

theorem streamPrefix_of_append {a b : List EventData} (h : IsStreamPrefix (a ++ b)) : IsStreamPrefix a := by
  obtain ⟨r, h⟩ := h
  exact ⟨b ++ r, by rw [← List.append_assoc]; exact h⟩

/-- Every beginning of a stream whose events are valid is accepted. -/
theorem feed_accepts (enc : Encoding) (cfg : List Setting) (w : Writer) (evs : List Event) (hw : w.Good)
    (hgram : IsStreamPrefix (evs.map (·.data))) (hok : ∀ x ∈ evs, EventOk (cfgCanonical cfg) x.data)
    (htags : TagsFit (evs.map (·.data))) :
    ∃ o, (new enc cfg w).feed evs = (.ok (), o) := by
  have key : ∀ (rev : List Event), IsStreamPrefix (rev.reverse.map (·.data)) → (∀ x ∈ rev.reverse, EventOk (cfgCanonical cfg) x.data) →
      TagsFit (rev.reverse.map (·.data)) → ∃ o, (new enc cfg w).feed rev.reverse = (.ok (), o) := by
    intro rev
    induction rev with
    | nil => intro _ _ _; exact ⟨_, rfl⟩
    | cons ev rev ih =>
      intro h1 h2 h3
      rw [List.reverse_cons] at h1 h2 h3 ⊢
      obtain ⟨o, hf⟩ := ih (streamPrefix_of_append (b := [ev.data]) (by simpa using h1)) (fun x hx => h2 x (List.mem_append_left _ hx))
        (tagsFit_prefix (rest := [ev.data]) (by simpa using h3))
      have ho := emits_of_feed hf
      obtain ⟨hg, b, hb, _⟩ := emits_unbuffered hw ho [ev]
      have henc := encOf_stream enc (rev.reverse ++ [ev]) []
      rw [List.append_nil] at henc
      obtain ⟨_, _, _, g⟩ := emit_unbuffered (streamEnc_ne _ _) henc hb hg
      rcases g with ⟨b', g1, _⟩ | ⟨m, _, g⟩ | ⟨_, g⟩
      · refine ⟨(o.emit ev).2, ?_⟩
        rw [feed_append, hf]
        have : o.emit ev = (.ok (), (o.emit ev).2) := Prod.ext g1 rfl
        simp only [feed]
        rw [this]
      · exact absurd g (not_rejected h1 h2)
      · exact absurd h3 g
  have := key evs.reverse
  rw [List.reverse_reverse] at this
  exact this hgram hok htags

/-- C26, acceptance: every beginning of a stream whose events are valid is accepted, whatever the
configuration, if the writer does not fail (and no tag is cut inside a character, see `C27_refuted`). -/
theorem C26_accepts (enc : Encoding) (cfg : List Setting) (w : Writer) (evs : List Event) (hw : w.Good)
    (hgram : IsStreamPrefix (evs.map (·.data))) (hok : ∀ x ∈ evs, EventOk (cfgCanonical cfg) x.data)
    (htags : TagsFit (evs.map (·.data))) :
    ∃ o, Emits (new enc cfg w) evs o := by
  obtain ⟨o, h⟩ := feed_accepts enc cfg w evs hw hgram hok htags
  exact ⟨o, emits_of_feed h⟩

/-- C26, soundness: what has been accepted is the beginning of a stream with valid events, except
for at most three events still held back. -/
theorem C26_accepted_is_grammatical (enc : Encoding) (cfg : List Setting) (w : Writer) (evs : List Event) (o : EmitterObj)
    (h : Emits (new enc cfg w) evs o) :
    ∃ done held, evs = done ++ held ∧ IsStreamPrefix (done.map (·.data)) ∧ (∀ x ∈ done, EventOk (cfgCanonical cfg) x.data) ∧ Held held := by
  obtain ⟨b, hb⟩ := emits_inv (fresh_new enc cfg w) h []
  obtain ⟨done, G, h1, h2, _, _, h3, _⟩ := hb.inv
  exact ⟨done, o.s.events, h1, h2.prefix, h3, held_of_ready hb.idle⟩

/-- C26: a complete stream is processed completely, nothing is held back or buffered. -/
theorem C26_complete (enc : Encoding) (cfg : List Setting) (w : Writer) (evs : List Event) (o : EmitterObj)
    (h : Emits (new enc cfg w) evs o) (hs : IsStream (evs.map (·.data))) :
    o.s.events = [] ∧ o.k.buffer = [] ∧ ∀ x ∈ evs, EventOk (cfgCanonical cfg) x.data := by
  obtain ⟨b, hb⟩ := emits_inv (fresh_new enc cfg w) h []
  obtain ⟨done, G, h1, h2, _, _, h3, h4, _⟩ := hb.inv
  have hrun := hs.run
  rw [h1, List.map_append] at hrun
  obtain ⟨G1, g1, g2⟩ := hrun.split
  have h5 := ready_of_stream g2 hb.idle
  rw [h5, List.append_nil] at h1
  subst h1
  refine ⟨h5, hb.sink.pend ?_, h3⟩
  obtain ⟨e, ds, hd, he⟩ : ∃ e ds, IsDocuments ds ∧ evs.map (·.data) = .streamStart e :: ds ++ [.streamEnd] := by
    generalize evs.map (·.data) = l at hs
    cases hs with
    | mk e hd => exact ⟨e, _, hd, rfl⟩
  have hl : (evs.map (·.data)).getLast? = some .streamEnd := by rw [he, List.getLast?_concat]
  rw [List.getLast?_map] at hl
  cases hx : evs.getLast? with
  | none => rw [hx] at hl; cases hl
  | some x =>
    rw [hx] at hl
    simp only [Option.map_some, Option.some.injEq] at hl
    exact h4 x hx (by rw [hl]; trivial)

/-- C26, rejection: if `emit` returns an error and the writer does not fail, it is an `Emitter` error, and
among the events given so far there is a first one that is invalid or leaves the grammar. -/
theorem C26_rejects (enc : Encoding) (cfg : List Setting) (w : Writer) (evs : List Event) (ev : Event) (o o' : EmitterObj) (err : Err)
    (hw : w.Good) (h : Emits (new enc cfg w) evs o) (he : o.emit ev = (.err err, o')) :
    (∃ m, err = .emitter m) ∧
    ∃ done x rest, evs ++ [ev] = done ++ x :: rest ∧ IsStreamPrefix (done.map (·.data)) ∧ (∀ y ∈ done, EventOk (cfgCanonical cfg) y.data) ∧
      ¬ (IsStreamPrefix ((done ++ [x]).map (·.data)) ∧ EventOk (cfgCanonical cfg) x.data) := by
  obtain ⟨hg, b, hb, _⟩ := emits_unbuffered hw h [ev]
  have henc := encOf_stream enc (evs ++ [ev]) []
  rw [List.append_nil] at henc
  obtain ⟨_, _, _, g⟩ := emit_unbuffered (streamEnc_ne _ _) henc hb hg
  rw [he] at g
  rcases g with ⟨b', g, _⟩ | ⟨m, g, done, x, rest, G, h1, h2, h3, h4⟩ | ⟨g, _⟩
  · cases g
  · cases g
    refine ⟨⟨m, rfl⟩, done, x, rest, h1, h2.prefix, h3, fun h5 => h4 ⟨?_, h5.2⟩⟩
    obtain ⟨G', hG'⟩ := (isStreamPrefix_iff _).1 h5.1
    rw [List.map_append] at hG'
    obtain ⟨G1, g1, g2⟩ := hG'.split
    have := g1.det h2
    subst this
    cases g2 with
    | cons hs _ => simp only at hs; rw [hs]; rfl
  · cases g

/-- C26, rejection is prompt: an invalid event, or one that leaves the grammar, is never followed by
more than two accepted events. -/
theorem C26_bad_event_not_accepted (enc : Encoding) (cfg : List Setting) (w : Writer) (done : List Event) (x : Event) (rest : List Event)
    (o : EmitterObj) (hbad : ¬ (IsStreamPrefix ((done ++ [x]).map (·.data)) ∧ EventOk (cfgCanonical cfg) x.data))
    (h : Emits (new enc cfg w) (done ++ x :: rest) o) : rest.length ≤ 2 := by
  obtain ⟨done', held, h1, h2, h3, h4⟩ := C26_accepted_is_grammatical enc cfg w _ o h
  have hl := h4.length_le
  by_cases hlen : done'.length ≤ done.length
  · have := congrArg List.length h1
    simp at this
    omega
  · exfalso
    obtain ⟨t, ht⟩ : ∃ t, done' = (done ++ [x]) ++ t := by
      have e1 : (done ++ [x]) ++ rest = done' ++ held := by simpa using h1
      refine ⟨(done'.drop (done ++ [x]).length), ?_⟩
      have := congrArg (List.take done'.length) e1
      rw [List.take_left, List.take_append] at this
      rw [← this, List.take_of_length_le (by simp; omega)]
      simp
    refine hbad ⟨?_, h3 x (by rw [ht]; simp)⟩
    rw [ht, List.map_append] at h2
    exact streamPrefix_of_append h2

/-- A stream with an anchored flow sequence in a mapping, with a tag and an alias. -/
def sampleStream : List Event :=
  [.streamStart .utf8, .documentStart none [⟨cs! "!e!", cs! "tag:e,"⟩] false,
   .mappingStart none none true .block, .scalar none none (cs! "k") true true .any,
   .sequenceStart (some (cs! "a")) (some (cs! "tag:e,x")) false .flow, .alias (cs! "a"),
   .scalar none (some (cs! "!b c")) (cs! "v: \u00e9\n") false false .any, .sequenceEnd, .mappingEnd,
   .documentEnd true, .streamEnd].map Event.new

/-- Emit the events one by one; the last outcome and the object. -/
def emitN : List Event → EmitterObj → Out Unit × EmitterObj
  | [], o => (.ok (), o)
  | e :: es, o => match o.emit e with
    | (.ok _, o) => emitN es o
    | r => r

theorem emitN_emits {evs : List Event} {o o1 : EmitterObj} (h : emitN evs o = (.ok (), o1)) :
    ∀ {o0 : EmitterObj} {pre : List Event}, Emits o0 pre o → Emits o0 (pre ++ evs) o1 := by
  induction evs generalizing o with
  | nil => intro o0 pre hp; cases h; simpa using hp
  | cons e es ih =>
    intro o0 pre hp
    unfold emitN at h
    generalize hq : o.emit e = q at h
    obtain ⟨r, o2⟩ := q
    cases r with
    | ok a =>
      have := ih h (Emits.snoc hp hq)
      simpa using this
    | err x => cases h
    | panic x => cases h
    | fuel => cases h

theorem sampleStream_isStream : IsStream (sampleStream.map (·.data)) := by
  have h0 := IsNodes.cons (IsNode.alias (cs! "a"))
    (IsNodes.cons (IsNode.scalar none (some (cs! "!b c")) (cs! "v: \u00e9\n") false false .any) IsNodes.nil)
  have h1 := IsNode.sequence (some (cs! "a")) (some (cs! "tag:e,x")) false .flow h0
  have h2 := IsNode.mapping none none true .block (.cons (.scalar none none (cs! "k") true true .any) h1 .nil)
  exact IsStream.mk .utf8 (.cons none [⟨cs! "!e!", cs! "tag:e,"⟩] false true h2 .nil)

/-- The hypotheses are met: the stream is grammatical and valid, it is accepted, and this is the text. -/
example : IsStream (sampleStream.map (·.data)) ∧ (∀ x ∈ sampleStream, EventOk false x.data) ∧ (∀ x ∈ sampleStream, AsciiTag x.data) ∧
    (emitN sampleStream (new .any [.unicode true] ⟨[], []⟩)).1 = .ok () ∧
    (emitN sampleStream (new .any [.unicode true] ⟨[], []⟩)).2.written =
      utf8Encode (cs! "%TAG !e! tag:e,\n---\nk: &a !e!x [*a, !b%20c 'v: é\n\n    ']\n") := by
  refine ⟨sampleStream_isStream, ?_, ?_, by decide +kernel, by decide +kernel⟩
  · simp [sampleStream, Event.new, EventOk, NameOk, NameChar, DirectiveOk, HandleOk]
    exact ⟨['e'], rfl, by decide⟩
  · simp [sampleStream, Event.new, AsciiTag, eventTag]

/-- And an event sequence that leaves the grammar, or has an invalid anchor, is rejected. -/
example : (emitN [.new (.streamStart .utf8), .new (.documentStart none [] true), .new .sequenceEnd] (new .any [] ⟨[], []⟩)).1 =
      .err (.emitter "expected SCALAR, SEQUENCE-START, MAPPING-START, or ALIAS") ∧
    (emitN [.new (.streamStart .utf8), .new (.documentStart none [] true), .new (.alias (cs! "a b"))] (new .any [] ⟨[], []⟩)).1 =
      .err (.emitter "alias value must contain alphanumerical characters only") := by
  decide +kernel

/-! ### C27 -/

/-- C27 does not hold: a tag that starts with a character that is not ASCII makes `emit` panic, because
the code compares the tag with the prefix `!` of the default directive by slicing off one byte. -/
theorem C27_refuted : ∃ (evs : List Event) (ev : Event) (o o' : EmitterObj),
    Emits (new .any [] ⟨[], []⟩) evs o ∧ IsStreamPrefix ((evs ++ [ev]).map (·.data)) ∧ (∀ x ∈ evs ++ [ev], EventOk false x.data) ∧
    o.emit ev = (.panic .tagSlice, o') := by
  have hrun : emitN [.new (.streamStart .utf8), .new (.documentStart none [] true)] (new .any [] ⟨[], []⟩) =
      (.ok (), (emitN [.new (.streamStart .utf8), .new (.documentStart none [] true)] (new .any [] ⟨[], []⟩)).2) := by
    decide +kernel
  refine ⟨[.new (.streamStart .utf8), .new (.documentStart none [] true)], .new (.scalar none (some (cs! "\u00e9a")) (cs! "x") false false .any), _,
    (EmitterObj.emit (.new (.scalar none (some (cs! "\u00e9a")) (cs! "x") false false .any))
      (emitN [.new (.streamStart .utf8), .new (.documentStart none [] true)] (new .any [] ⟨[], []⟩)).2).2,
    emitN_emits hrun .nil, ?_, ?_, ?_⟩
  · refine ⟨[.documentEnd true, .streamEnd], ?_⟩
    exact IsStream.mk .utf8 (.cons none [] true true (IsNode.scalar none (some (cs! "\u00e9a")) (cs! "x") false false .any) .nil)
  · simp [Event.new, EventOk]
  · decide +kernel

/-- C27 (part): unless a tag is cut inside a character by a tag prefix (in particular if all tags are
ASCII), `emit` returns; this holds for every event sequence, valid or not, every configuration and every
writer, up to the first error.  Missing: tags such as the one in `C27_refuted`. -/
theorem C27_no_panic_partial (enc : Encoding) (cfg : List Setting) (w : Writer) (evs : List Event) (ev : Event) (o : EmitterObj)
    (h : Emits (new enc cfg w) evs o) (htags : TagsFit ((evs ++ [ev]).map (·.data))) :
    (o.emit ev).1 = .ok () ∨ ∃ err, (o.emit ev).1 = .err err := by
  obtain ⟨b, hb⟩ := emits_inv (fresh_new enc cfg w) h [ev]
  have henc := encOf_stream enc (evs ++ [ev]) []
  rw [List.append_nil] at henc
  rcases emit_cases (streamEnc_ne _ _) henc hb with ⟨o', b', h1, _⟩ | ⟨o', k, h1⟩ | ⟨o', m, h1, _⟩ | ⟨o', _, h2⟩
  · rw [h1]; exact Or.inl rfl
  · rw [h1]; exact Or.inr ⟨_, rfl⟩
  · rw [h1]; exact Or.inr ⟨_, rfl⟩
  · exact absurd htags h2

/-- C27: the only panic there is. -/
theorem C27_only_panic (enc : Encoding) (cfg : List Setting) (w : Writer) (evs : List Event) (ev : Event) (o : EmitterObj)
    (h : Emits (new enc cfg w) evs o) :
    (o.emit ev).1 = .ok () ∨ (∃ err, (o.emit ev).1 = .err err) ∨ ((o.emit ev).1 = .panic .tagSlice ∧ ¬ TagsFit ((evs ++ [ev]).map (·.data))) := by
  by_cases htags : TagsFit ((evs ++ [ev]).map (·.data))
  · exact (C27_no_panic_partial enc cfg w evs ev o h htags).imp id Or.inl
  · obtain ⟨b, hb⟩ := emits_inv (fresh_new enc cfg w) h [ev]
    have henc := encOf_stream enc (evs ++ [ev]) []
    rw [List.append_nil] at henc
    rcases emit_cases (streamEnc_ne _ _) henc hb with ⟨o', b', h1, _⟩ | ⟨o', k, h1⟩ | ⟨o', m, h1, _⟩ | ⟨o', h1, h2⟩
    · rw [h1]; exact Or.inl rfl
    · rw [h1]; exact Or.inr (Or.inl ⟨_, rfl⟩)
    · rw [h1]; exact Or.inr (Or.inl ⟨_, rfl⟩)
    · rw [h1]; exact Or.inr (Or.inr ⟨rfl, h2⟩)

/-! ### C28 -/

/-- C28.  At any time the bytes the writer has accepted, followed by the encoding of the buffered
characters, are what was there before followed by the encoding of the text an emitter without any
buffer produces for the same events; the size of the buffer does not appear. -/
theorem C28_buffering (enc : Encoding) (cfg : List Setting) (w : Writer) (evs : List Event) (o : EmitterObj)
    (h : Emits (new enc cfg w) evs o) :
    ∃ u : Unbuffered, Unbuffered.Emits ⟨(new enc cfg w).s, []⟩ evs u ∧
      o.written ++ encodeText (streamEnc enc evs) o.k.buffer = w.bytes ++ encodeText (streamEnc enc evs) u.text := by
  obtain ⟨o', h1, h2, h3⟩ := emits_beside (w := w) (w' := ⟨w.bytes, []⟩) rfl (fun x hx => by cases hx) h
  obtain ⟨_, b, hb, hU⟩ := emits_unbuffered (fun x hx => by cases hx) h1 []
  rw [List.append_nil] at hb
  refine ⟨⟨o'.s, b.text⟩, ?_, ?_⟩
  · rw [new_state enc cfg w ⟨w.bytes, []⟩]; exact hU
  · obtain ⟨h4, h5, h6, v, v', h7, h8, h9, _⟩ := h3
    obtain ⟨w2, g1, g2⟩ := hb.sink.writer
    rw [h8] at g1; cases g1
    unfold EmitterObj.written
    rw [h7, ← h4]
    simp only [Option.map_some, Option.getD_some]
    rw [← h9]; exact g2

/-- C28.  After a `DocumentEnd` or `StreamEnd` of a grammatical sequence nothing is buffered: the writer
has everything. -/
theorem C28_drained (enc : Encoding) (cfg : List Setting) (w : Writer) (evs : List Event) (ev : Event) (o : EmitterObj)
    (h : Emits (new enc cfg w) (evs ++ [ev]) o) (hgram : IsStreamPrefix ((evs ++ [ev]).map (·.data)))
    (hend : ev.data = .streamEnd ∨ ∃ i, ev.data = .documentEnd i) : o.k.buffer = [] ∧ o.k.raw = [] := by
  obtain ⟨b, hb⟩ := emits_inv (fresh_new enc cfg w) h []
  obtain ⟨done, G, h1, h2, _, _, h3, h4, _⟩ := hb.inv
  refine ⟨hb.sink.pend ?_, hb.sink.raw⟩
  suffices hq : o.s.events = [] by
    rw [hq, List.append_nil] at h1
    refine h4 ev (by rw [← h1]; simp) ?_
    rcases hend with h | ⟨i, h⟩ <;> rw [h] <;> trivial
  obtain ⟨G', hG'⟩ := (isStreamPrefix_iff _).1 hgram
  rw [h1, List.map_append] at hG'
  obtain ⟨G1, g1, g2⟩ := hG'.split
  have hd := hb.idle
  generalize hes : o.s.events = es at *
  rcases List.eq_nil_or_concat es with rfl | ⟨es', x, rfl⟩
  · rfl
  · exfalso
    rw [List.concat_eq_append] at *
    have hx : x = ev := by
      have := congrArg List.getLast? h1
      simp at this
      exact this.symm
    subst hx
    exact not_ready_ends hend g2 hd

/-! ### C29 -/

/-- C29.  Next to the emitter with the given writer, take one with a writer that never fails.  As long
as the calls return `Ok` both writers have accepted the same bytes; and the next call either does the
same to both, or it returns an I/O error and the failing writer has a prefix of what the other one has.
(If a tag is cut inside a character the call may also panic, see `C27_refuted`.) -/
theorem C29_failing_writer (enc : Encoding) (cfg : List Setting) (w : Writer) (evs : List Event) (ev : Event) (o : EmitterObj)
    (h : Emits (new enc cfg w) evs o) :
    ∃ o', Emits (new enc cfg ⟨w.bytes, []⟩) evs o' ∧ o.written = o'.written ∧
      (((o.emit ev).1 = (o'.emit ev).1 ∧ (o.emit ev).2.written = (o'.emit ev).2.written) ∨
       ((o.emit ev).2.written <+: (o'.emit ev).2.written ∧
        ((∃ k, (o.emit ev).1 = .err (.io k)) ∨ ¬ TagsFit ((evs ++ [ev]).map (·.data))))) := by
  obtain ⟨o', h1, h2, h3⟩ := emits_beside (w := w) (w' := ⟨w.bytes, []⟩) rfl (fun x hx => by cases hx) h
  obtain ⟨b, hb⟩ := emits_inv (fresh_new enc cfg ⟨w.bytes, []⟩) h1 [ev]
  have henc := encOf_stream enc (evs ++ [ev]) []
  rw [List.append_nil] at henc
  refine ⟨o', h1, beside_written h3, ?_⟩
  rcases emit_beside (streamEnc_ne _ _) henc h2 h3 hb with ⟨g1, g2, g3⟩ | ⟨g1, g2⟩
  · exact Or.inl ⟨g1, beside_written g3⟩
  · refine Or.inr ⟨g2, ?_⟩
    rcases g1 with g1 | ⟨_, g1⟩
    · exact Or.inl g1
    · exact Or.inr g1

/-- A writer that fails in the middle of the text: the call that flushes returns the error, and a prefix
has been written. -/
example : (emitN sampleStream (new .any [.unicode true] ⟨[], [some (7, .other)]⟩)).1 = .err (.io .other) ∧
    (emitN sampleStream (new .any [.unicode true] ⟨[], [some (7, .other)]⟩)).2.written = utf8Encode (cs! "%TAG !e") ∧
    (emitN (sampleStream.take 9) (new .any [.unicode true] ⟨[], [some (7, .other)]⟩)).1 = .ok () := by
  decide +kernel

/-! ### C35, C36, C37 -/

/-- The text behind the bytes: what the writer got, with what is still buffered, is the encoding of a
text that satisfies `OutText`. -/
theorem output_text (enc : Encoding) (cfg : List Setting) (w : Writer) (evs : List Event) (o : EmitterObj)
    (h : Emits (new enc cfg w) evs o) :
    ∃ text, o.written ++ encodeText (streamEnc enc evs) o.k.buffer = w.bytes ++ encodeText (streamEnc enc evs) text ∧
      OutText (streamEnc enc evs) (cfgUnicode cfg) text := by
  obtain ⟨b, hb⟩ := emits_inv (fresh_new enc cfg w) h []
  rw [List.append_nil] at hb
  obtain ⟨v, h1, h2⟩ := hb.sink.writer
  refine ⟨b.text, ?_, hb.sink.text⟩
  unfold EmitterObj.written
  rw [h1]
  exact h2

/-- C35.  Without Unicode, the text consists of ASCII characters, after a byte order mark if the
encoding is UTF-16. -/
theorem C35_ascii (enc : Encoding) (cfg : List Setting) (w : Writer) (evs : List Event) (o : EmitterObj)
    (h : Emits (new enc cfg w) evs o) (hu : cfgUnicode cfg = false) :
    ∃ text, o.written ++ encodeText (streamEnc enc evs) o.k.buffer = w.bytes ++ encodeText (streamEnc enc evs) text ∧
      (streamEnc enc evs = .utf8 → ∀ c ∈ text, c.toNat < 128) ∧
      (streamEnc enc evs ≠ .utf8 → ∀ c ∈ text.drop 1, c.toNat < 128) := by
  obtain ⟨text, h1, h2⟩ := output_text enc cfg w evs o h
  have asc : ∀ c, OutChar (cfgUnicode cfg) c → c.toNat < 128 := fun c hc => by
    have := hc.2.2 hu
    simpa [isAscii] using this
  refine ⟨text, h1, fun he c hc => ?_, fun he c hc => ?_⟩
  · unfold OutText at h2
    rw [if_pos he] at h2
    exact asc c (h2 c hc)
  · unfold OutText at h2
    rw [if_neg he] at h2
    rcases h2 with rfl | ⟨r, rfl, hr⟩
    · simp at hc
    · exact asc c (hr c (by simpa using hc))

/-- C35, bytes: with UTF-8 output and without Unicode, every byte the writer gets is below 128. -/
theorem C35_ascii_bytes (enc : Encoding) (cfg : List Setting) (w : Writer) (evs : List Event) (o : EmitterObj)
    (h : Emits (new enc cfg w) evs o) (hu : cfgUnicode cfg = false) (he : streamEnc enc evs = .utf8) :
    ∃ bytes, o.written = w.bytes ++ bytes ∧ ∀ x ∈ bytes, x < 128 := by
  obtain ⟨text, h1, h2, _⟩ := C35_ascii enc cfg w evs o h hu
  have hpre := written_extends h
  obtain ⟨bytes, hb⟩ := hpre
  refine ⟨bytes, hb.symm, fun x hx => ?_⟩
  rw [← hb, List.append_assoc, List.append_cancel_left_eq, he] at h1
  have : x ∈ encodeText .utf8 text := by rw [← h1]; exact List.mem_append_left _ hx
  exact utf8_ascii_bytes (h2 he) x this

/-- C36.  Every character of the text is one the reader accepts. -/
theorem C36_acceptable (enc : Encoding) (cfg : List Setting) (w : Writer) (evs : List Event) (o : EmitterObj)
    (h : Emits (new enc cfg w) evs o) :
    ∃ text, o.written ++ encodeText (streamEnc enc evs) o.k.buffer = w.bytes ++ encodeText (streamEnc enc evs) text ∧
      ∀ c ∈ text, Allowed c := by
  obtain ⟨text, h1, h2⟩ := output_text enc cfg w evs o h
  refine ⟨text, h1, fun c hc => ?_⟩
  unfold OutText at h2
  split at h2
  · exact allowed_iff.1 (h2 c hc).1
  · rcases h2 with rfl | ⟨r, rfl, hr⟩
    · cases hc
    · rcases List.mem_cons.1 hc with rfl | hc
      · unfold Allowed; decide
      · exact allowed_iff.1 (hr c hc).1

/-- C36, consequence: the bytes written for a UTF-8 stream after a `DocumentEnd` or `StreamEnd` can be read
again by the reader with `set_encoding(Utf8)`, in any chunks, and it delivers exactly the text. -/
theorem C36_readable (cfg : List Setting) (evs : List Event) (ev : Event) (o : EmitterObj)
    (h : Emits (new .utf8 cfg ⟨[], []⟩) (evs ++ [ev]) o) (hgram : IsStreamPrefix ((evs ++ [ev]).map (·.data)))
    (hend : ev.data = .streamEnd ∨ ∃ i, ev.data = .documentEnd i) :
    ∃ text, (∀ c ∈ text, OutChar (cfgUnicode cfg) c) ∧ o.written = utf8Encode text ∧
      ∀ (items : List SrcItem) (ns : List Nat), Quiet items → bytesOf items = o.written → 4 * srcSize items < Reader.maxInput →
        (pull ns { items := items, encoding := .utf8 }).1 = .ok (text.take ns.sum) := by
  obtain ⟨text, h1, h2⟩ := output_text .utf8 cfg _ _ o h
  rw [(C28_drained .utf8 cfg _ evs ev o h hgram hend).1] at h1
  have he : streamEnc .utf8 (evs ++ [ev]) = .utf8 := streamEnc_set _ (by decide)
  rw [he] at h1 h2
  unfold OutText at h2
  rw [if_pos rfl] at h2
  simp only [encodeText_nil, List.append_nil, List.nil_append] at h1
  refine ⟨text, h2, h1, fun items ns hq hb hs => ?_⟩
  exact (C01_utf8_delivered_forced items text ns hq (fun c hc => allowed_iff.1 (h2 c hc).1) (by rw [hb, h1]; rfl) hs).1

/-- C37.  The bytes are the encoding of a text in the encoding of the stream: UTF-8 without a byte
order mark, or UTF-16 in the selected order after a byte order mark. -/
theorem C37_encoding (enc : Encoding) (cfg : List Setting) (w : Writer) (evs : List Event) (o : EmitterObj)
    (h : Emits (new enc cfg w) evs o) (hn : evs ≠ []) (hfirst : ∀ x, evs.head? = some x → ∃ en, x.data = .streamStart en) :
    ∃ text : Str, '\uFEFF' ∉ text ∧
      (streamEnc enc evs = .utf8 ∧ o.written ++ utf8Encode o.k.buffer = w.bytes ++ utf8Encode text ∨
       streamEnc enc evs = .utf16le ∧ o.written ++ utf16Encode false o.k.buffer = w.bytes ++ [0xFF, 0xFE] ++ utf16Encode false text ∨
       streamEnc enc evs = .utf16be ∧ o.written ++ utf16Encode true o.k.buffer = w.bytes ++ [0xFE, 0xFF] ++ utf16Encode true text) := by
  obtain ⟨b, hb⟩ := emits_inv (fresh_new enc cfg w) h []
  rw [List.append_nil] at hb
  obtain ⟨v, h1, h2⟩ := hb.sink.writer
  have ht := hb.sink.text
  have hw : o.written = v.bytes := by unfold EmitterObj.written; rw [h1]; rfl
  have hne : streamEnc enc evs = .utf8 ∨ b.text ≠ [] := by
    obtain ⟨done, G, g1, g2, gI, _⟩ := hb.inv
    by_cases hG : G = .start
    · subst hG
      have hd := g2.not_start' rfl
      simp at hd
      subst hd
      simp only [List.nil_append] at g1
      exfalso
      have hr := hb.idle
      rw [← g1] at hr
      cases evs with
      | nil => exact hn rfl
      | cons x r =>
        obtain ⟨en, hx⟩ := hfirst x rfl
        obtain ⟨d, m1, m2⟩ := x
        simp only at hx
        subst hx
        simp [ready] at hr
    · exact (gI.run hG).1.bom
  rw [← hw] at h2
  have hnb : ∀ (r : Str), (∀ c ∈ r, OutChar (cfgUnicode cfg) c) → '\uFEFF' ∉ r := fun r hr hc => (hr _ hc).2.1 rfl
  have hne' := streamEnc_ne enc evs
  generalize streamEnc enc evs = e at *
  unfold OutText at ht
  by_cases he : e = .utf8
  · rw [if_pos he] at ht
    subst he
    exact ⟨b.text, hnb _ ht, Or.inl ⟨rfl, h2⟩⟩
  · rw [if_neg he] at ht
    rcases ht with ht | ⟨r, hr, hr'⟩
    · exact absurd ht (hne.resolve_left he)
    · refine ⟨r, hnb _ hr', Or.inr ?_⟩
      rw [hr] at h2
      cases e with
      | any => exact absurd rfl hne'
      | utf8 => exact absurd rfl he
      | utf16le =>
        refine Or.inl ⟨rfl, ?_⟩
        rw [List.append_assoc]; exact h2
      | utf16be =>
        refine Or.inr ⟨rfl, ?_⟩
        rw [List.append_assoc]; exact h2

/-- The three encodings of a small document. -/
example : (emitN ([.streamStart .utf8, .documentStart none [] true, .scalar none none (cs! "a\u00e9") true true .any, .documentEnd true,
      .streamEnd].map Event.new) (new .any [] ⟨[], []⟩)).2.written = utf8Encode (cs! "\"a\\xE9\"\n") ∧
    (emitN ([.streamStart .utf16be, .documentStart none [] true, .scalar none none (cs! "a\u00e9") true true .any, .documentEnd true,
      .streamEnd].map Event.new) (new .any [.unicode true] ⟨[], []⟩)).2.written = [0xFE, 0xFF, 0, 0x61, 0, 0xE9, 0, 0x0A] ∧
    (emitN ([.streamStart .any, .documentStart none [] true, .scalar none none (cs! "a\u00e9") true true .any, .documentEnd true,
      .streamEnd].map Event.new) (new .utf16le [.unicode true] ⟨[7], []⟩)).2.written = [7, 0xFF, 0xFE, 0x61, 0, 0xE9, 0, 0x0A, 0] := by
  decide +kernel

/-! ### C43 and C40 -/

/-- C43.  Whatever the setters were called with, once the stream has started the indentation step is
between 2 and 9 and the line width (unlimited: the largest `i32`) larger than twice that. -/
theorem C43_settings (enc : Encoding) (cfg : List Setting) (w : Writer) (x : Event) (en : Encoding) (evs : List Event) (o : EmitterObj)
    (hx : x.data = .streamStart en) (h : Emits (new enc cfg w) (x :: evs) o) :
    2 ≤ o.s.bestIndent ∧ o.s.bestIndent ≤ 9 ∧ 2 * o.s.bestIndent < o.s.bestWidth ∧ o.s.lineBreak ≠ .any := by
  obtain ⟨b, hb⟩ := emits_inv (fresh_new enc cfg w) h []
  obtain ⟨done, G, g1, g2, gI, _⟩ := hb.inv
  have hG : G ≠ .start := by
    rintro rfl
    have hd := g2.not_start' rfl
    simp at hd
    subst hd
    simp only [List.nil_append] at g1
    have hr := hb.idle
    rw [← g1] at hr
    obtain ⟨d, m1, m2⟩ := x
    simp only at hx
    subst hx
    simp [ready] at hr
  have := (gI.run hG).2
  exact ⟨this.indent.1, this.indent.2, this.width, this.brk⟩

example : (emitN [.new (.streamStart .utf8)] (new .any [.indent 37, .width 3] ⟨[], []⟩)).2.s.bestIndent = 2 ∧
    (emitN [.new (.streamStart .utf8)] (new .any [.indent 9, .width 18] ⟨[], []⟩)).2.s.bestWidth = 80 ∧
    (emitN [.new (.streamStart .utf8)] (new .any [.indent 9, .width (-7)] ⟨[], []⟩)).2.s.bestWidth = 2147483647 := by
  decide +kernel

end Yaml.Props
