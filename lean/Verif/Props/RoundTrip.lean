import Verif.Lib.Round22
import Verif.Props.Parser

/-
C44: what the emitter writes for an event stream, the parser reads back.
-/

namespace Yaml.Props
open Yaml Yaml.Spec Yaml.Emitter Yaml.EmitterObj Yaml.Rt
set_option linter.unusedSimpArgs false

/-- How the output gets to the parser: the whole of it, in pieces; UTF-8 with `set_encoding(Utf8)`; or UTF-8
without `set_encoding`, if it does not start with the byte 0xEF (see `C05_refuted`); or UTF-16 byte by byte
(see `C06_refuted`).  `e` is the encoding of the output, `enc` the one set in the parser. -/
def Delivers (e enc : Encoding) (items : List SrcItem) : Prop :=
  Quiet items ∧
    ((e = .utf8 ∧ enc = .utf8) ∨
     (e = .utf8 ∧ enc = .any ∧ Prompt items ∧ (bytesOf items).head? ≠ some 0xEF) ∨
     (e ≠ .utf8 ∧ enc = .any ∧ Prompt items ∧ OneByte items))

theorem utf8_len (T : List Char) : T.length ≤ (utf8Encode T).length := by
  induction T with
  | nil => simp
  | cons c t ih =>
    rw [utf8Encode_cons, List.length_append, List.length_cons]
    have := List.length_pos_iff.2 (utf8Bytes_ne c)
    omega

theorem utf16_len (be : Bool) (T : List Char) : T.length ≤ (utf16Encode be T).length := by
  induction T with
  | nil => simp
  | cons c t ih =>
    rw [utf16Encode_cons, List.length_append, List.length_cons]
    have := utf16Bytes_len be c
    omega

theorem utf8_lead_ef {c : Char} (h : 0xF000 ≤ c.toNat ∧ c.toNat ≤ 0xFFFF) : (utf8Bytes c).head? = some 0xEF := by
  have h1 : ¬ c.toNat ≤ 0x7F := by omega
  have h2 : ¬ c.toNat ≤ 0x7FF := by omega
  have h3 : c.toNat ≤ 0xFFFF := h.2
  unfold utf8Bytes String.utf8EncodeChar
  have e : c.val.toNat = c.toNat := rfl
  simp only [e, if_neg h1, if_neg h2, if_pos h3]
  have : c.toNat / 4096 = 15 := by omega
  simp [this]

/-- C44, for streams that satisfy `Readable` and are not `FirstLost`; missing: streams with folded scalars
whose lines do not suit the look-ahead of the folded style, with tags that are not ASCII or have one of `,[]`
behind a prefix, and with a first document of which nothing is written; for each there is a stream that is
not read back (`C34_refuted`, `C38_refuted`, `C44_refuted`).

An emitter with any configuration, over any writer, has accepted all events of a stream.  Then the parser,
over the bytes that were written, returns events that say the same one by one, without any error. -/
theorem C44_round_trip_partial {enc : Encoding} {cfg : List Setting} {w : Writer} {evs : List Event} {o : EmitterObj}
    (h : Emits (new enc cfg w) evs o) (hs : IsStream (evs.map (·.data)))
    (hr : Readable (cfgCanonical cfg) [] (evs.map (·.data))) (hl : ¬ FirstLost (cfgCanonical cfg) (evs.map (·.data)))
    {items : List SrcItem} {penc : Encoding} {F : Nat} (hout : o.written = w.bytes ++ bytesOf items) (hd : Delivers (streamEnc enc evs) penc items)
    (hsz : srcSize items < 2 ^ 31) (hF : 4 * srcSize items + 8 < F) :
    ∃ evs' o', ParserObj.Parses F (ParserObj.new items penc) evs' o' ∧ SameEvents (cfgCanonical cfg) (evs.map (·.data)) (evs'.map (·.data)) ∧
      (bytesOf items ≠ [] → (evs'.map (·.data)).head? = some (.streamStart (streamEnc enc evs))) := by
  obtain ⟨T, h1, h2, h3⟩ := stream_text h hs hr hl
  have hb : bytesOf items = encodeText (streamEnc enc evs) ((if streamEnc enc evs = .utf8 then [] else ['\uFEFF']) ++ T) := by
    rw [hout] at h1
    exact List.append_cancel_left h1
  have hal : ∀ c ∈ T, isAllowed c = true := fun c hc => (h2 c hc).1
  obtain ⟨hq, hd⟩ := hd
  have hlen := bytesOf_length items
  have hsz' : 4 * srcSize items < Reader.maxInput := by
    have : 4 * 2 ^ 31 < Reader.maxInput := by decide
    omega
  -- the text the reader delivers
  have hclean : ∃ e, Clean penc items e T ∧ (bytesOf items ≠ [] → e = streamEnc enc evs) ∧ T.length ≤ (bytesOf items).length := by
    rcases hd with ⟨he, rfl⟩ | ⟨he, rfl, hp, hh⟩ | ⟨he, rfl, hp, ho⟩
    · rw [he] at hb ⊢
      have hb : bytesOf items = utf8Encode T := hb
      exact ⟨.utf8, clean_utf8 hq hb hal, fun _ => rfl, by rw [hb]; exact utf8_len T⟩
    · rw [he] at hb ⊢
      have hb : bytesOf items = utf8Encode T := hb
      obtain ⟨e, k1, _, k3⟩ := clean_any hq hp hal (Or.inl ⟨hb, fun c hc hf => hh (by
        obtain ⟨r, rfl⟩ : ∃ r, T = c :: r := by
          cases T with
          | nil => cases hc
          | cons x r => cases hc; exact ⟨r, rfl⟩
        rw [hb, utf8Encode_cons, List.head?_append, utf8_lead_ef hf]; rfl)⟩)
      exact ⟨e, k1, k3, by rw [hb]; exact utf8_len T⟩
    · rw [if_neg he] at hb
      have hne := streamEnc_ne enc evs
      have key : ∀ be : Bool, streamEnc enc evs = (if be then .utf16be else .utf16le) →
          ∃ e, Clean .any items e T ∧ (bytesOf items ≠ [] → e = streamEnc enc evs) ∧ T.length ≤ (bytesOf items).length := by
        intro be hbe
        have hb : bytesOf items = bom16 be ++ utf16Encode be T := by
          rw [hb, hbe]
          cases be <;> rfl
        exact ⟨_, clean_bom16 hq hp ho hb hal, fun _ => hbe.symm, by rw [hb, List.length_append]; have := utf16_len be T; omega⟩
      cases hse : streamEnc enc evs with
      | any => exact absurd hse hne
      | utf8 => exact absurd hse he
      | utf16le => rw [← hse]; exact key false hse
      | utf16be => rw [← hse]; exact key true hse
  obtain ⟨e, c1, c2, c3⟩ := hclean
  obtain ⟨toks, evs', d1, d2, d3⟩ := h3 F e
  obtain ⟨evs'', o', p1, p2⟩ := Lx.parses_of_runs c1 hsz' (by show T.length ≤ 2147483647; omega) hF d1 d2
  refine ⟨evs'', o', p1, by rw [p2]; exact d3, fun hne => ?_⟩
  rw [p2, ← c2 hne]; rfl

/-- The bytes written for the sample. -/
def sampleOutput : List UInt8 := (emitN sampleStream (new .any [.unicode true] ⟨[], []⟩)).2.written

/-- The hypotheses are met by `sampleStream`, and these are the events that are read back. -/
theorem C44_sample : ∃ o, Emits (new .any [.unicode true] ⟨[], []⟩) sampleStream o ∧ IsStream (sampleStream.map (·.data)) ∧
    Readable false [] (sampleStream.map (·.data)) ∧ ¬ FirstLost false (sampleStream.map (·.data)) ∧
    o.written = [] ++ bytesOf [.data sampleOutput] ∧ Delivers (streamEnc .any sampleStream) .any [.data sampleOutput] ∧
    srcSize [.data sampleOutput] < 2 ^ 31 ∧ 4 * srcSize [.data sampleOutput] + 8 < 999 ∧
    (parseN 999 11 (ParserObj.new [.data sampleOutput])).1.map (·.data) =
      [.streamStart .utf8, .documentStart none [⟨cs! "!e!", cs! "tag:e,"⟩] false,
       .mappingStart none none true .block, .scalar none none (cs! "k") true false .plain,
       .sequenceStart (some (cs! "a")) (some (cs! "tag:e,x")) false .flow, .alias (cs! "a"),
       .scalar none (some (cs! "!b c")) (cs! "v: \u00e9\n") false false .singleQuoted, .sequenceEnd, .mappingEnd,
       .documentEnd true, .streamEnd] := by
  have hrun : emitN sampleStream (new .any [.unicode true] ⟨[], []⟩) = (.ok (), (emitN sampleStream (new .any [.unicode true] ⟨[], []⟩)).2) := by
    decide +kernel
  refine ⟨_, emitN_emits hrun .nil, sampleStream_isStream, ?_, ?_, by simp [bytesOf, sampleOutput], ⟨trivial, Or.inr (Or.inl ⟨rfl, rfl, ?_, ?_⟩)⟩, by decide +kernel, by decide +kernel,
    by decide +kernel⟩
  · simp [sampleStream, Event.new, Readable, writtenTag, TagReadable, allDirectives, defaultTagDirectives]
  · rintro ⟨_, e, t, q, s, r, _, h⟩
    simp [sampleStream, Event.new] at h
  · generalize sampleOutput = x
    cases x <;> exact trivial
  · decide +kernel

/-- A document, started implicitly, whose root is a plain empty scalar. -/
def lostStream : List Event :=
  [.streamStart .utf8, .documentStart none [] true, .scalar none none [] true false .plain, .documentEnd true, .streamEnd].map Event.new

/-- C44 is false in full: nothing is written for the document of `lostStream`, and the parser finds a stream
without documents. -/
theorem C44_refuted : ∃ (o : EmitterObj) (o' : ParserObj) (evs' : List Event),
    Emits (new .any [] ⟨[], []⟩) lostStream o ∧ IsStream (lostStream.map (·.data)) ∧ Readable false [] (lostStream.map (·.data)) ∧
    ParserObj.Parses 99 (ParserObj.new [.data o.written]) evs' o' ∧ evs'.map (·.data) = [.streamStart .utf8, .streamEnd] ∧
    ¬ SameEvents false (lostStream.map (·.data)) [.streamStart .utf8, .streamEnd] := by
  have hrun : emitN lostStream (new .any [] ⟨[], []⟩) = (.ok (), (emitN lostStream (new .any [] ⟨[], []⟩)).2) := by decide +kernel
  refine ⟨_, _, _, emitN_emits hrun .nil, IsStream.mk .utf8 (.cons none [] true true (.scalar none none [] true false .plain) .nil), ?_,
    parseN_parses 2 _ (by decide +kernel), by decide +kernel, ?_⟩
  · simp [lostStream, Event.new, Readable, writtenTag]
  · simp [lostStream, Event.new, SameEvents, SameEvent]

end Yaml.Props
