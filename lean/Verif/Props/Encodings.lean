import Verif.Lib.EmitEnc2
import Verif.Props.Settings

/-
C64: the encoding changes only the bytes.  An emitter set to UTF-16 produces the text that the one set to
UTF-8 produces, after a byte order mark, and accepts the same events.
-/

namespace Yaml.Props
open Yaml Yaml.Spec Yaml.Emitter Yaml.EmitterObj

/-- The two emitters without buffers. -/
def Beside8 (b : Encoding) (u u' : Unbuffered) : Prop :=
  u'.s = Ec.wb b u.s ∧ ((u.text = [] ∧ u'.text = [] ∧ Ec.P0 u.s) ∨ (u'.text = '\uFEFF' :: u.text ∧ Ec.J u.s))

theorem Beside8.emit {b : Encoding} (hb : b ≠ .any) (hu : b ≠ .utf8) {u u' : Unbuffered} (h : Beside8 b u u') (ev : Event) :
    (Unbuffered.emit ev u').1 = (Unbuffered.emit ev u).1 ∧ Beside8 b (Unbuffered.emit ev u).2 (Unbuffered.emit ev u').2 := by
  obtain ⟨s, t⟩ := u
  obtain ⟨s', t'⟩ := u'
  obtain ⟨h1, h2⟩ := h
  dsimp only at h1 h2
  subst h1
  unfold Unbuffered.emit
  dsimp only
  rcases h2 with ⟨rfl, rfl, h2⟩ | ⟨rfl, h2⟩
  · obtain ⟨x, s', W, W', e1, e2, h3, _⟩ := Ec.pf_emit hb hu (ev := ev) h2
    rw [e1, e2]
    exact ⟨rfl, rfl, h3⟩
  · obtain ⟨x, s', W', e1, e2, h3, _⟩ := Ec.bf_emit (b := b) (ev := ev) h2 t
    have e2 : execText (Emitter.emit ev (Ec.wb b s)) ('\uFEFF' :: t) = ((x, Ec.wb b s'), '\uFEFF' :: W') := e2
    rw [e1, e2]
    exact ⟨rfl, rfl, Or.inr ⟨rfl, h3⟩⟩

theorem Beside8.emits {b : Encoding} (hb : b ≠ .any) (hu : b ≠ .utf8) {u0 u0' u : Unbuffered} {evs : List Event} (h0 : Beside8 b u0 u0')
    (h : u0.Emits evs u) : ∃ u', u0'.Emits evs u' ∧ Beside8 b u u' := by
  induction h with
  | nil => exact ⟨_, .nil, h0⟩
  | @snoc evs ev o1 o2 h hs ih =>
    obtain ⟨u', h1, h2⟩ := ih
    have g := h2.emit hb hu ev
    rw [hs] at g
    exact ⟨(Unbuffered.emit ev u').2, .snoc h1 (Prod.ext g.1 rfl), g.2⟩

theorem Beside8.new {b : Encoding} (cfg : List Setting) (w w' : Writer) :
    Beside8 b ⟨(EmitterObj.new .utf8 cfg w).s, []⟩ ⟨(EmitterObj.new b cfg w').s, []⟩ := by
  have f := fresh_new .utf8 cfg w
  refine ⟨?_, Or.inl ⟨rfl, rfl, f.st, by rw [f.sts]; simp, by rw [f.tags]; simp, f.enc⟩⟩
  unfold EmitterObj.new
  simp only [St.fold_set]
  have e1 : ∀ e, (Emitter.setEncoding e newState).2 = { newState with encoding := e } := by
    intro e; unfold setEncoding; rw [if_pos (show newState.encoding = .any from rfl)]
  have e2 : ∀ (w : Writer) (s : EState), (setOutput w (s, newSink)).2 = (s, ⟨some w, [], []⟩) := fun _ _ => rfl
  simp only [e1, e2]
  rfl

theorem start_state {s : EState} (h : s.events = []) (hs : s.state = .streamStart) (h8 : s.encoding = .utf8) {e : Encoding} {ev : Event}
    (he : ev.data = .streamStart e) (W : Str) : (execText (Emitter.emit ev s) W).1.2.state = .firstDocumentStart := by
  obtain ⟨d, m1, m2⟩ := ev
  dsimp only at he
  subst he
  obtain ⟨enc, ca, bi, bw, un, lb, sts, st, evs, inds, tds, ind, fl, rc, sc, mc, skc, li, co, ws, ind2, oe⟩ := s
  dsimp only at h hs h8
  subst h hs h8
  rfl

/-- Once a StreamStart was emitted the byte order mark is there. -/
theorem begun {b : Encoding} (hb : b ≠ .any) (hu : b ≠ .utf8) {cfg : List Setting} {w w' : Writer} {evs : List Event} {u : Unbuffered}
    (h : Unbuffered.Emits ⟨(EmitterObj.new .utf8 cfg w).s, []⟩ evs u) :
    ∃ u', Unbuffered.Emits ⟨(EmitterObj.new b cfg w').s, []⟩ evs u' ∧ Beside8 b u u' ∧
      ∀ ev r e, evs = ev :: r → ev.data = .streamStart e → u'.text = '\uFEFF' :: u.text ∧ Ec.J u.s := by
  induction h with
  | nil => exact ⟨_, .nil, Beside8.new cfg w w', by intro ev r e h; cases h⟩
  | @snoc evs ev o1 o2 h hs ih =>
    obtain ⟨u', h1, h2, h3⟩ := ih
    have g := h2.emit hb hu ev
    rw [hs] at g
    refine ⟨(Unbuffered.emit ev u').2, .snoc h1 (Prod.ext g.1 rfl), g.2, ?_⟩
    intro ev0 r e he hd
    obtain ⟨g1, g2⟩ := g
    cases evs with
    | nil =>
      simp only [List.nil_append, List.cons.injEq] at he
      obtain ⟨rfl, _⟩ := he
      obtain rfl := Unbuffered.Emits.det h .nil
      have f := fresh_new .utf8 cfg w
      have hst := start_state f.evs f.st f.enc hd []
      have : o2.s.state = .firstDocumentStart := by
        have : (Unbuffered.emit ev ⟨(EmitterObj.new .utf8 cfg w).s, []⟩).2 = o2 := by rw [hs]
        rw [← this]; exact hst
      rcases g2.2 with ⟨_, _, h4⟩ | h4
      · rw [h4.st] at this; cases this
      · exact h4
    | cons x xs =>
      simp only [List.cons_append, List.cons.injEq] at he
      obtain ⟨rfl, _⟩ := he
      obtain ⟨_, hJ⟩ := h3 x xs e rfl hd
      rcases g2.2 with ⟨_, _, h4⟩ | h4
      · exfalso
        obtain ⟨x, s', W', e1, _, h5, _⟩ := Ec.bf_emit (b := b) (ev := ev) hJ o1.text
        have : (Unbuffered.emit ev o1).2.s = s' := by unfold Unbuffered.emit; rw [e1]
        rw [hs] at this
        rw [← this] at h5
        exact h5.brk.1 h4.st
      · exact h4

/-- C64.  Two emitters with the same settings, one set to UTF-8 and the other to UTF-16, that were fed the
same events of a stream (which begin with StreamStart): there is a text such that the first has written it
in UTF-8, and the second a byte order mark and the same text in UTF-16. -/
theorem C64_encodings (cfg : List Setting) (w w' : Writer) (b : Encoding) (hb : b = .utf16le ∨ b = .utf16be) (evs : List Event)
    (o o' : EmitterObj) (h : Emits (new .utf8 cfg w) evs o) (h' : Emits (new b cfg w') evs o')
    (ev : Event) (e : Encoding) (r : List Event) (he : evs = ev :: r) (hd : ev.data = .streamStart e) :
    ∃ text : Str, OutText .utf8 (cfgUnicode cfg) text ∧
      o.written ++ utf8Encode o.k.buffer = w.bytes ++ utf8Encode text ∧
      o'.written ++ encodeText b o'.k.buffer = w'.bytes ++ encodeText b ('\uFEFF' :: text) := by
  have hb1 : b ≠ .any := by rcases hb with rfl | rfl <;> decide
  have hb2 : b ≠ .utf8 := by rcases hb with rfl | rfl <;> decide
  have k1 : streamEnc .utf8 evs = .utf8 := streamEnc_set _ (by decide)
  have k2 : streamEnc b evs = b := streamEnc_set _ hb1
  obtain ⟨u, h1, ht, h2⟩ := buffered_text h
  obtain ⟨u', h1', _, h2'⟩ := buffered_text h'
  rw [k1] at ht h2
  rw [k2] at h2'
  obtain ⟨v, g1, _, g2⟩ := begun (w' := w') hb1 hb2 h1
  obtain rfl := Unbuffered.Emits.det h1' g1
  rw [(g2 ev r e he hd).1] at h2'
  exact ⟨u.text, ht, h2, h2'⟩

/-- C64, when the last event was a `DocumentEnd` or `StreamEnd`: the bytes the writers received. -/
theorem C64_written (cfg : List Setting) (w w' : Writer) (b : Encoding) (hb : b = .utf16le ∨ b = .utf16be) (evs : List Event)
    (o o' : EmitterObj) (last : Event) (h : Emits (new .utf8 cfg w) (evs ++ [last]) o) (h' : Emits (new b cfg w') (evs ++ [last]) o')
    (hgram : IsStreamPrefix ((evs ++ [last]).map (·.data))) (hend : last.data = .streamEnd ∨ ∃ i, last.data = .documentEnd i) :
    ∃ text : Str, OutText .utf8 (cfgUnicode cfg) text ∧ o.written = w.bytes ++ utf8Encode text ∧
      o'.written = w'.bytes ++ encodeText b ('\uFEFF' :: text) := by
  obtain ⟨first, r, e, he, hd⟩ : ∃ ev r e, evs ++ [last] = ev :: r ∧ ev.data = .streamStart e := by
    obtain ⟨rest, hr⟩ := hgram
    cases hl : evs ++ [last] with
    | nil => exact absurd hl (by simp)
    | cons x xs =>
      rw [hl] at hr
      generalize hz : List.map (fun x : Event => x.data) (x :: xs) ++ rest = z at hr
      cases hr with
      | mk e _ =>
        simp only [List.map_cons, List.cons_append, List.cons.injEq] at hz
        exact ⟨x, xs, e, rfl, hz.1⟩
  obtain ⟨t, ht, h1, h2⟩ := C64_encodings cfg w w' b hb _ o o' h h' first e r he hd
  rw [(C28_drained .utf8 cfg w evs last o h hgram hend).1] at h1
  rw [(C28_drained b cfg w' evs last o' h' hgram hend).1, encodeText_nil, List.append_nil] at h2
  exact ⟨t, ht, by simpa [utf8Encode] using h1, h2⟩

theorem next_enc {cfg : List Setting} {w : Writer} (hg : w.Good) {b : Encoding} (hb1 : b ≠ .any) (hb2 : b ≠ .utf8)
    {evs : List Event} {o o' : EmitterObj} (h : Emits (new .utf8 cfg w) evs o) (h' : Emits (new b cfg w) evs o') (ev : Event) :
    (o'.emit ev).1 = (o.emit ev).1 := by
  obtain ⟨p1, p, p2, p3⟩ := emits_unbuffered hg h [ev]
  obtain ⟨q1, q, q2, q3⟩ := emits_unbuffered hg h' [ev]
  have r1 := (emit_unbuffered (streamEnc_ne _ _) (by have := encOf_stream .utf8 (evs ++ [ev]) []; rw [List.append_nil] at this; exact this) p2 p1).1
  have r2 := (emit_unbuffered (streamEnc_ne _ _) (by have := encOf_stream b (evs ++ [ev]) []; rw [List.append_nil] at this; exact this) q2 q1).1
  obtain ⟨v, g1, g2, _⟩ := begun (w' := w) hb1 hb2 p3
  obtain rfl := Unbuffered.Emits.det q3 g1
  rw [r1, r2]
  exact (g2.emit hb1 hb2 ev).1

/-- C64.  With a writer that does not fail every call of `emit` has the same result. -/
theorem C64_results (cfg : List Setting) (w : Writer) (hg : ∀ x ∈ w.script, x = none) (b : Encoding) (hb : b = .utf16le ∨ b = .utf16be)
    (evs : List Event) (o o' : EmitterObj) (h : Emits (new .utf8 cfg w) evs o) (h' : Emits (new b cfg w) evs o') (ev : Event) :
    (o'.emit ev).1 = (o.emit ev).1 :=
  next_enc hg (by rcases hb with rfl | rfl <;> decide) (by rcases hb with rfl | rfl <;> decide) h h' ev

/-- C64.  And the accepted sequences of events are the same. -/
theorem C64_accepted (cfg : List Setting) (w : Writer) (hg : ∀ x ∈ w.script, x = none) (b : Encoding) (hb : b = .utf16le ∨ b = .utf16be)
    (evs : List Event) : (∃ o, Emits (new .utf8 cfg w) evs o) ↔ ∃ o', Emits (new b cfg w) evs o' := by
  constructor
  · rintro ⟨o, h⟩
    induction h with
    | nil => exact ⟨_, .nil⟩
    | @snoc evs ev o1 o2 h hs ih =>
      obtain ⟨o', h'⟩ := ih
      have := C64_results cfg w hg b hb evs _ _ h h' ev
      rw [hs] at this
      exact ⟨(o'.emit ev).2, .snoc h' (Prod.ext this rfl)⟩
    | flush _ _ ih => exact ih
  · rintro ⟨o, h⟩
    induction h with
    | nil => exact ⟨_, .nil⟩
    | @snoc evs ev o1 o2 h hs ih =>
      obtain ⟨o', h'⟩ := ih
      have := C64_results cfg w hg b hb evs _ _ h' h ev
      rw [hs] at this
      exact ⟨(o'.emit ev).2, .snoc h' (Prod.ext this.symm rfl)⟩
    | flush _ _ ih => exact ih

/-- The sample stream (with non-ASCII content) in both encodings. -/
example : (emitN sampleStream (new .utf8 [.unicode true] ⟨[], []⟩)).1 = .ok () ∧ (emitN sampleStream (new .utf16be [.unicode true] ⟨[], []⟩)).1 = .ok () ∧
    (emitN sampleStream (new .utf8 [.unicode true] ⟨[], []⟩)).2.written =
      utf8Encode (cs! "%TAG !e! tag:e,\n---\nk: &a !e!x [*a, !b%20c 'v: é\n\n    ']\n") ∧
    (emitN sampleStream (new .utf16be [.unicode true] ⟨[], []⟩)).2.written =
      utf16Encode true (cs! "\ufeff%TAG !e! tag:e,\n---\nk: &a !e!x [*a, !b%20c 'v: é\n\n    ']\n") := by decide +kernel

end Yaml.Props
