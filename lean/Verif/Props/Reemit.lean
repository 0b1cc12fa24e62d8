import Verif.Spec.TokenContent
import Verif.Props.RoundTrip
import Verif.Props.ParserGrammar

/-
C50: the contents of the tokens and events of any input are valid.
C51: what was parsed can be emitted, and parsed again.
-/

namespace Yaml.Props
open Yaml Yaml.Spec Yaml.Emitter Yaml.EmitterObj Yaml.Rt

/-! ### C50 -/

theorem handleOk_of {h : Str} (hh : handleB h = true) : HandleOk h := by
  unfold handleB at hh
  split at hh
  · rename_i r
    simp only [Bool.or_eq_true, Bool.and_eq_true, beq_iff_eq, List.isEmpty_iff] at hh
    rcases hh with rfl | ⟨h1, h2⟩
    · exact Or.inl rfl
    · right
      refine ⟨r.dropLast, ?_, (Emitter.all_isAlpha_iff _).1 h2⟩
      obtain ⟨r', rfl⟩ := List.getLast?_eq_some_iff.1 h1
      simp
  · simp at hh

theorem tokenFits_of {d : TokenData} (h : fitB d = true) : TokenFits d := by
  cases d with
  | versionDirective a b =>
    simp only [fitB, lexData, numberB, Bool.and_eq_true, decide_eq_true_eq] at h
    simp only [TokenFits]; omega
  | tagDirective a b =>
    simp only [fitB, lexData, Bool.and_eq_true] at h
    exact ⟨handleOk_of h.1, by simpa using h.2⟩
  | alias n =>
    simp only [fitB, lexData, Bool.and_eq_true] at h
    exact ⟨by simpa using h.1, (Emitter.all_isAlpha_iff _).1 h.2⟩
  | anchor n =>
    simp only [fitB, lexData, Bool.and_eq_true] at h
    exact ⟨by simpa using h.1, (Emitter.all_isAlpha_iff _).1 h.2⟩
  | tag a b =>
    simp only [fitB, lexData, Bool.and_eq_true, Bool.or_eq_true] at h
    exact ⟨h.2.imp (fun h => by simpa using h) handleOk_of, by simpa using h.1⟩
  | scalar v style =>
    simp only [fitB, lexData, Bool.and_eq_true, Bool.or_eq_true, bne_iff_ne] at h
    exact ⟨h.1, fun hs => h.2.elim (fun h => absurd hs h) (fun h => by simpa using h)⟩
  | _ => trivial

/-- C50.  Whatever the input is and however it is delivered, the contents of every token returned are
valid. -/
theorem C50_tokens_fit {items : List SrcItem} {enc : Encoding} {F : Nat} {ts : List Token} {o : ScannerObj} (hF : srcSize items + 2 < F)
    (h : ScannerObj.Reads F (ScannerObj.new items enc) ts o) : ∀ t ∈ ts, TokenFits t.data := by
  obtain ⟨T, hT⟩ := Future.exists enc items
  have hl := hT.length_le
  intro t ht
  rcases h.inv hT (by omega) with ⟨b, _, _, _, ⟨_, hf⟩, _⟩ | ⟨ts0, n, rfl, hE⟩
  · exact tokenFits_of (hf t (by simp [ht]))
  · rcases List.mem_append.1 ht with ht | ht
    · exact tokenFits_of (hE.fits t ht)
    · obtain ⟨_, rfl⟩ := List.mem_replicate.1 ht
      trivial

theorem mem_in {α : Type} {f : Token → Option α} {c : List Token} {x : α} {l : List α} (h : c.filterMap f = l) (hx : x ∈ l) :
    ∃ t ∈ c, f t = some x := by
  rw [← h, List.mem_filterMap] at hx
  exact hx

theorem anchor_fits {c : List Token} {anchor : Option Str} (hc : ∀ t ∈ c, TokenFits t.data) (h : anchorsIn c = anchor.toList) :
    ∀ a, anchor = some a → NameOk a := by
  rintro a rfl
  obtain ⟨t, ht, he⟩ := mem_in h (x := a) (by simp)
  have := hc t ht
  split at he
  · rename_i x hx; simp at he; subst he; rw [hx] at this; exact this
  · simp at he

theorem tag_fits {c : List Token} {D : List TagDirective} {tag : Option Str} (hc : ∀ t ∈ c, TokenFits t.data) (h : TagIs D (tagsIn c) tag) :
    ∀ x, tag = some x → x ≠ [] := by
  rintro x rfl
  match hl : tagsIn c, h with
  | [(handle, suffix)], h =>
    obtain ⟨t, ht, he⟩ := mem_in hl (x := (handle, suffix)) (by simp)
    have hf := hc t ht
    split at he
    · rename_i h1 s1 hx
      simp at he; obtain ⟨rfl, rfl⟩ := he
      rw [hx] at hf
      simp only [TagIs] at h
      split at h
      · simp at h; rw [h]; exact hf.2
      · obtain ⟨pre, _, h⟩ := h
        simp at h; rw [h]; simp [hf.2]
    · simp at he

/-- The event made from tokens with valid contents is valid. -/
theorem carries_ok {D : List TagDirective} {c : List Token} {e : EventData} (hc : ∀ t ∈ c, TokenFits t.data) (h : Carries D c e) (canonical : Bool) :
    EventOk canonical e ∧ Styled e := by
  cases e with
  | scalar anchor tag value pi qi style =>
    obtain ⟨h1, h2, _, _, _, h3⟩ := h
    refine ⟨⟨anchor_fits hc h1, ?_, fun t ht _ => tag_fits hc h2 t ht⟩, ?_⟩
    · rintro rfl
      rcases h3 with ⟨_, g1, g2⟩ | ⟨_, _, _, g1, _⟩
      · by_cases hs : style = .plain
        · exact Or.inl (g1.2 (Or.inl ⟨hs, rfl⟩))
        · exact Or.inr (g2.2 ⟨hs, rfl⟩)
      · exact Or.inl (g1.2 (Or.inl rfl))
    · rcases h3 with ⟨g0, _, _⟩ | ⟨_, _, g, _⟩
      · obtain ⟨t, ht, he⟩ := mem_in g0 (x := (value, style)) (by simp)
        have hf := hc t ht
        split at he
        · rename_i v s hx
          simp at he; obtain ⟨rfl, rfl⟩ := he
          rw [hx] at hf
          exact hf.1
        · simp at he
      · show style ≠ .any; rw [g]; simp
  | sequenceStart anchor tag i style => exact ⟨⟨anchor_fits hc h.1, fun t ht _ => tag_fits hc h.2.1 t ht⟩, trivial⟩
  | mappingStart anchor tag i style => exact ⟨⟨anchor_fits hc h.1, fun t ht _ => tag_fits hc h.2.1 t ht⟩, trivial⟩
  | alias n =>
    refine ⟨?_, trivial⟩
    obtain ⟨t, ht, he⟩ := mem_in h.1 (x := n) (by simp)
    have := hc t ht
    split at he
    · rename_i x hx; simp at he; subst he; rw [hx] at this; exact this
    · simp at he
  | documentStart v tags i =>
    refine ⟨⟨h.2.2.2.1, ?_, h.2.2.1⟩, trivial⟩
    intro d hd
    obtain ⟨t, ht, he⟩ := mem_in h.2.1 hd
    have := hc t ht
    split at he
    · rename_i x y hx; simp at he; subst he; rw [hx] at this; exact this
    · simp at he
  | _ => exact ⟨trivial, trivial⟩

/-- C50.  Every event of any input is valid: an emitter, with any configuration, has to accept it where the
grammar of events allows it. -/
theorem C50_events_ok {items : List SrcItem} {enc : Encoding} {F : Nat} {evs : List Event} {o : ParserObj} (hF : 4 * srcSize items + 4 < F)
    (h : ParserObj.Parses F (ParserObj.new items enc) evs o) (canonical : Bool) : ∀ e ∈ evs, EventOk canonical e.data ∧ Styled e.data := by
  obtain ⟨T, ts, fin, evs1, n, G, D, c, toks, st, pk, hT, h1, h2, h3, h4, g1, g2, g3⟩ := parses_inv hF h
  obtain ⟨so, hr⟩ := h1.reads g2.split
  have hfit := C50_tokens_fit (by omega) hr
  intro e he
  rw [g1] at he
  rcases List.mem_append.1 he with he | he
  · obtain ⟨pre, post, rfl⟩ := List.append_of_mem he
    obtain ⟨ts1, c1, ts2, rfl, _, g⟩ := made_at g2.made
    exact carries_ok (fun t ht => hfit t (by simp [ht])) g canonical
  · obtain ⟨_, rfl⟩ := List.mem_replicate.1 he
    exact ⟨trivial, trivial⟩

/-- C50.  The root of a document that starts without `---` and without directives is never empty and plain,
unless it has properties. -/
theorem C50_implicit_root {items : List SrcItem} {enc : Encoding} {F : Nat} {pre post : List Event} {d e : Event} {o : ParserObj}
    (hF : 4 * srcSize items + 4 < F) (h : ParserObj.Parses F (ParserObj.new items enc) (pre ++ d :: e :: post) o)
    (hd : ∃ v tags, d.data = .documentStart v tags true) {value : Str} {pi qi : Bool} {style : ScalarStyle}
    (he : e.data = .scalar none none value pi qi style) (hs : style = .plain) : value ≠ [] := by
  obtain ⟨T, ts, fin, evs1, n, G, D, c, toks, st, pk, hT, h1, h2, h3, h4, g1, g2, g3⟩ := parses_inv hF h
  obtain ⟨so, hr⟩ := h1.reads (c := ts) (toks := []) (by simp)
  have hfit := C50_tokens_fit (by omega) hr
  obtain ⟨v, tags, hd⟩ := hd
  have : ∃ post', evs1 = pre ++ d :: e :: post' := by
    have hne : ∀ x, x ∈ List.replicate n (⟨.streamEnd, Mark.zero, Mark.zero⟩ : Event) → x.data = .streamEnd := by
      intro x hx; obtain ⟨_, rfl⟩ := List.mem_replicate.1 hx; rfl
    have g1' : evs1 ++ List.replicate n ⟨.streamEnd, Mark.zero, Mark.zero⟩ = (pre ++ [d, e]) ++ post := by rw [← g1]; simp
    rcases List.append_eq_append_iff.1 g1' with ⟨l, h1, h2⟩ | ⟨l, h1, h2⟩
    · rcases List.eq_nil_or_concat l with rfl | ⟨l', x, rfl⟩
      · exact ⟨[], by simpa using h1.symm⟩
      · exfalso
        have : x = e := by
          have h1 : (pre ++ [d]) ++ [e] = (evs1 ++ l') ++ [x] := by simpa using h1
          obtain ⟨_, h⟩ := List.append_inj' h1 rfl
          simpa using h.symm
        subst this
        have := hne x (by rw [h2]; simp)
        rw [he] at this; simp at this
    · exact ⟨l, by rw [h1]; simp⟩
  obtain ⟨post', rfl⟩ := this
  obtain ⟨t, ht, htd⟩ := g2.root _ _ _ _ _ _ _ _ _ _ rfl hd he
  have := hfit t ht
  rw [htd] at this
  exact this.2 hs

/-! ### C51 -/

/-- Tags which the flags of a parsed event allow to leave out are `!`. -/
theorem carries_left_out {D : List TagDirective} {c : List Token} {e : EventData} (hc : ∀ t ∈ c, TokenFits t.data) (h : Carries D c e)
    {canonical : Bool} {t : Str} (ht : eventTag e = some t) : writtenTag canonical e = some t ∨ t = ['!'] := by
  cases e with
  | scalar anchor tag value pi qi style =>
    have ht : tag = some t := ht
    subst ht
    obtain ⟨h1, h2, _, _, _, h3⟩ := h
    have hne := tag_fits hc h2 t rfl
    rcases h3 with ⟨_, g1, g2⟩ | ⟨_, _, _, g1, rfl⟩
    · have hq : qi = false := by
        cases qi with
        | false => rfl
        | true => have := (g2.1 rfl).2; simp at this
      subst hq
      cases pi with
      | false => left; simp [writtenTag]
      | true =>
        right
        rcases g1.1 rfl with ⟨_, h⟩ | h
        · simp at h
        · simpa using h
    · have hp : pi = false := by
        cases pi with
        | false => rfl
        | true => rcases g1.1 rfl with h | h <;> simp at h; exact absurd h hne
      subst hp
      left; simp [writtenTag]
  | sequenceStart anchor tag i style =>
    have ht : tag = some t := ht
    subst ht
    have hne := tag_fits hc h.2.1 t rfl
    have hi : i = false := by
      cases i with
      | false => rfl
      | true => rcases h.2.2.2.2.2.2.1 rfl with h | h <;> simp at h; exact absurd h hne
    subst hi
    left; simp [writtenTag]
  | mappingStart anchor tag i style =>
    have ht : tag = some t := ht
    subst ht
    have hne := tag_fits hc h.2.1 t rfl
    have hi : i = false := by
      cases i with
      | false => rfl
      | true => rcases h.2.2.2.2.2.2.1 rfl with h | h <;> simp at h; exact absurd h hne
    subst hi
    left; simp [writtenTag]
  | _ => simp [eventTag] at ht

theorem Readable.tags {canonical : Bool} : ∀ {D : List TagDirective} {l : List EventData}, Readable canonical D l →
    ∀ e ∈ l, ∀ t, writtenTag canonical e = some t → ∀ c ∈ t, c.toNat < 128
  | _, [], _, e, he, _, _ => by simp at he
  | D, x :: l, h, e, he, t, ht => by
    rcases List.mem_cons.1 he with rfl | he
    · exact (h.2.1 t ht).1
    · exact Readable.tags h.2.2.2 e he t ht

section
variable {items : List SrcItem} {enc : Encoding} {F : Nat} {evs : List Event} {o : ParserObj}

/-- Where an event of a run comes from. -/
theorem parsed_carries (hF : 4 * srcSize items + 4 < F) (h : ParserObj.Parses F (ParserObj.new items enc) evs o) (he : EventsEndOnce evs) :
    ∀ e ∈ evs, ∃ D c, Carries D c e.data ∧ ∀ t ∈ c, TokenFits t.data := by
  obtain ⟨ts, so, h1, h2⟩ := C46_events_say_what_tokens_say hF h he
  have hfit := C50_tokens_fit (by omega) h1
  intro e hm
  obtain ⟨pre, post, rfl⟩ := List.append_of_mem hm
  obtain ⟨ts1, c1, ts2, rfl, _, g⟩ := made_at h2
  exact ⟨_, c1, g, fun t ht => hfit t (by simp [ht])⟩

/-- C51, first part.  What was parsed, as far as it was parsed, is accepted by an emitter with any
configuration over a writer that does not fail (unless a tag is cut inside a character, see `C27_refuted`). -/
theorem C51_parsed_is_emitted (hF : 4 * srcSize items + 4 < F) (h : ParserObj.Parses F (ParserObj.new items enc) evs o)
    (he : EventsEndOnce evs) (htags : TagsFit (evs.map (·.data))) (enc' : Encoding) (cfg : List Setting) (w : Writer) (hw : w.Good) :
    ∃ eo, Emits (EmitterObj.new enc' cfg w) evs eo :=
  C26_accepts enc' cfg w evs hw (C16_events_follow_grammar hF h he) (fun x hx => (C50_events_ok hF h _ x hx).1) htags

/-- The first document of a parsed stream is never lost when the stream is emitted. -/
theorem parsed_not_lost (hF : 4 * srcSize items + 4 < F) (h : ParserObj.Parses F (ParserObj.new items enc) evs o)
    (he : EventsEndOnce evs) (canonical : Bool) : ¬ FirstLost canonical (evs.map (·.data)) := by
  rintro ⟨_, e0, tag, q, style, rest, hst, heq⟩
  match evs, heq with
  | [], heq => simp at heq
  | [_], heq => simp at heq
  | [_, _], heq => simp at heq
  | a :: b :: c :: evs', heq =>
    simp only [List.map_cons, List.cons.injEq] at heq
    obtain ⟨ha, hb, hc, _⟩ := heq
    obtain ⟨D, cs, hcar, hfit⟩ := parsed_carries hF h he c (by simp)
    have hsty := (carries_ok hfit hcar true).2
    rw [hc] at hcar hsty
    have hst : style = .plain := by
      rcases hst with h | h
      · exact h
      · exact absurd h hsty
    subst hst
    cases tag with
    | none => exact C50_implicit_root (pre := [a]) (d := b) (e := c) (post := evs') hF h ⟨_, _, hb⟩ hc rfl rfl
    | some t =>
      have hne := tag_fits hfit hcar.2.1 t rfl
      rcases hcar.2.2.2.2.2 with ⟨g0, _⟩ | ⟨_, _, _, g1, _⟩
      · obtain ⟨tk, htk, hx⟩ := mem_in g0 (x := ([], .plain)) (by simp)
        have hf := hfit tk htk
        split at hx
        · rename_i v s hd
          simp at hx; obtain ⟨rfl, rfl⟩ := hx
          rw [hd] at hf
          exact hf.2 rfl rfl
        · simp at hx
      · rcases g1.1 rfl with h | h <;> simp at h
        exact hne h

/-- C51, for streams that satisfy `Readable`; missing: streams with a tag that is not ASCII or has one of
`,[]` behind a prefix, or with a folded scalar whose lines do not suit the look-ahead of the folded style, for
which the claim is false (`C51_refuted`, `C34_refuted`, `C38_refuted`).

A parser has read a stream to its end, from any input.  An emitter, whatever its configuration, accepts all
its events, and what it writes is parsed again, without an error, into events that say the same one by one. -/
theorem C51_parse_emit_parse_partial (hF : 4 * srcSize items + 4 < F) (h : ParserObj.Parses F (ParserObj.new items enc) evs o)
    (he : EventsEndOnce evs) (hend : ∃ e ∈ evs, isStreamEndEvent e = true)
    (enc' : Encoding) (cfg : List Setting) (w : Writer) (hw : w.Good) (hr : Readable (cfgCanonical cfg) [] (evs.map (·.data))) :
    ∃ eo, Emits (EmitterObj.new enc' cfg w) evs eo ∧
      ∀ (items' : List SrcItem) (penc : Encoding) (F' : Nat), eo.written = w.bytes ++ bytesOf items' →
        Delivers (streamEnc enc' evs) penc items' → srcSize items' < 2 ^ 31 → 4 * srcSize items' + 8 < F' →
        ∃ evs' o', ParserObj.Parses F' (ParserObj.new items' penc) evs' o' ∧
          SameEvents (cfgCanonical cfg) (evs.map (·.data)) (evs'.map (·.data)) := by
  have htags : TagsFit (evs.map (·.data)) := by
    refine tagsFit_ascii ?_
    intro x hx t ht
    obtain ⟨e, hm, rfl⟩ := List.mem_map.1 hx
    obtain ⟨D, c, hcar, hfit⟩ := parsed_carries hF h he e hm
    rcases carries_left_out (canonical := cfgCanonical cfg) hfit hcar ht with hw | rfl
    · exact Readable.tags hr _ hx t hw
    · simp
  obtain ⟨eo, hem⟩ := C51_parsed_is_emitted hF h he htags enc' cfg w hw
  refine ⟨eo, hem, ?_⟩
  intro items' penc F' hout hd hsz hF'
  obtain ⟨evs', o', g1, g2, _⟩ := C44_round_trip_partial hem (C16_events_complete hF h he hend) hr (parsed_not_lost hF h he _) hout hd hsz hF'
  exact ⟨evs', o', g1, g2⟩

/-- C51 without exception for streams without tags and folded scalars. -/
theorem C51_untagged (hF : 4 * srcSize items + 4 < F) (h : ParserObj.Parses F (ParserObj.new items enc) evs o)
    (he : EventsEndOnce evs) (hend : ∃ e ∈ evs, isStreamEndEvent e = true)
    (hplain : ∀ e ∈ evs, eventTag e.data = none ∧ declared e.data = [] ∧ ∀ a t v p q, e.data ≠ .scalar a t v p q .folded)
    (enc' : Encoding) (cfg : List Setting) (w : Writer) (hw : w.Good) :
    ∃ eo, Emits (EmitterObj.new enc' cfg w) evs eo ∧
      ∀ (items' : List SrcItem) (penc : Encoding) (F' : Nat), eo.written = w.bytes ++ bytesOf items' →
        Delivers (streamEnc enc' evs) penc items' → srcSize items' < 2 ^ 31 → 4 * srcSize items' + 8 < F' →
        ∃ evs' o', ParserObj.Parses F' (ParserObj.new items' penc) evs' o' ∧
          SameEvents (cfgCanonical cfg) (evs.map (·.data)) (evs'.map (·.data)) := by
  refine C51_parse_emit_parse_partial hF h he hend enc' cfg w hw ?_
  clear h he hend hF
  generalize cfgCanonical cfg = canonical
  suffices ∀ D : List TagDirective, Readable canonical D (evs.map (·.data)) from this []
  induction evs with
  | nil => intro D; trivial
  | cons e evs ih =>
    intro D
    obtain ⟨h1, h2, h3⟩ := hplain e (by simp)
    refine ⟨?_, ?_, ?_, ih (fun x hx => hplain x (by simp [hx])) _⟩
    · intro v tags i hd
      have hd : e.data = .documentStart v tags i := hd
      rw [hd] at h2
      have h2 : tags = [] := h2
      subst h2; simp
    · intro t ht
      exfalso
      have : eventTag e.data = some t := by
        have ht : writtenTag canonical e.data = some t := ht
        revert ht
        generalize e.data = d
        cases d <;> simp only [writtenTag, eventTag] <;> (try split) <;> simp
      rw [h1] at this
      simp at this
    · intro a t v p q hd
      exact absurd hd (h3 a t v p q)

end

/-- `%TAG !e! x:\n--- !e!y &k\n- ''\n- *k\n--- >\n a\n b\n` -/
def reemitInput : List SrcItem := [.data (("%TAG !e! x:\n--- !e!y &k\n- ''\n- *k\n--- >\n a\n b\n").toList.map fun c => UInt8.ofNat c.toNat)]

def reemitEvents : List Event := (parseN 999 11 (ParserObj.new reemitInput)).1

/-- A stream with a tag and a folded scalar that meets the hypotheses of C50 and C51. -/
theorem C51_sample : (∃ o, ParserObj.Parses 999 (ParserObj.new reemitInput) reemitEvents o) ∧ 4 * srcSize reemitInput + 4 < 999 ∧
    EventsEndOnce reemitEvents ∧ (∃ e ∈ reemitEvents, isStreamEndEvent e = true) ∧ Writer.Good ⟨[], []⟩ ∧
    reemitEvents.map (·.data) = [.streamStart .utf8, .documentStart none [⟨cs! "!e!", cs! "x:"⟩] false,
      .sequenceStart (some (cs! "k")) (some (cs! "x:y")) false .block, .scalar none none [] false true .singleQuoted, .alias (cs! "k"),
      .sequenceEnd, .documentEnd true, .documentStart none [] false, .scalar none none (cs! "a b\n") false true .folded, .documentEnd true,
      .streamEnd] ∧
    Readable false [] (reemitEvents.map (·.data)) := by
  have hev : reemitEvents.map (·.data) = [.streamStart .utf8, .documentStart none [⟨cs! "!e!", cs! "x:"⟩] false,
      .sequenceStart (some (cs! "k")) (some (cs! "x:y")) false .block, .scalar none none [] false true .singleQuoted, .alias (cs! "k"),
      .sequenceEnd, .documentEnd true, .documentStart none [] false, .scalar none none (cs! "a b\n") false true .folded, .documentEnd true,
      .streamEnd] := by decide +kernel
  refine ⟨⟨_, parseN_parses _ _ (by decide +kernel)⟩, by decide +kernel, by unfold EventsEndOnce; decide +kernel, by decide +kernel, ?_, hev, ?_⟩
  · exact fun _ h => by simp at h
  · rw [hev]
    simp [Readable, writtenTag, TagReadable, allDirectives, defaultTagDirectives]
    refine ⟨by simp, ?_⟩
    intro p b x r h hb hx
    exfalso
    match p, h with
    | [], h => simp at h; obtain ⟨rfl, _⟩ := h; revert hb; decide
    | [_], h => simp at h; obtain ⟨_, rfl, _⟩ := h; revert hb; decide
    | [_, _], h => simp at h; obtain ⟨_, _, rfl, _⟩ := h; revert hb; decide
    | [_, _, _], h => simp at h
    | _ :: _ :: _ :: _ :: _, h => simp at h

/-- `!<!a,b> x` -/
def commaTag : List SrcItem := [.data (("!<!a,b> x").toList.map fun c => UInt8.ofNat c.toNat)]

def commaEvents : List Event := (parseN 99 5 (ParserObj.new commaTag)).1

/-- C51 is false in full: the tag of this stream was read verbatim; it is written as `!a,b`, at which the
parser fails. -/
theorem C51_refuted : (∃ o, ParserObj.Parses 99 (ParserObj.new commaTag) commaEvents o) ∧ 4 * srcSize commaTag + 4 < 99 ∧
    (∃ eo, Emits (EmitterObj.new .any [] ⟨[], []⟩) commaEvents eo ∧
      Delivers (streamEnc .any commaEvents) .any [.data eo.written] ∧
      (match (parseN 99 5 (ParserObj.new [.data eo.written])).2.1 with | some (.err _) => True | _ => False)) := by
  have hrun : emitN commaEvents (EmitterObj.new .any [] ⟨[], []⟩) = (.ok (), (emitN commaEvents (EmitterObj.new .any [] ⟨[], []⟩)).2) := by
    decide +kernel
  refine ⟨⟨_, parseN_parses _ _ (by decide +kernel)⟩, by decide +kernel, _, emitN_emits hrun .nil, ?_, ?_⟩
  · rw [show (emitN commaEvents (EmitterObj.new .any [] ⟨[], []⟩)).2.written = [33, 97, 44, 98, 32, 120, 10] by decide +kernel]
    exact ⟨trivial, Or.inr (Or.inl ⟨by decide +kernel, rfl, trivial, by decide +kernel⟩)⟩
  · rw [show (emitN commaEvents (EmitterObj.new .any [] ⟨[], []⟩)).2.written = [33, 97, 44, 98, 32, 120, 10] by decide +kernel]
    have : (match (parseN 99 5 (ParserObj.new [.data [33, 97, 44, 98, 32, 120, 10]])).2.1 with | some (.err _) => true | _ => false) = true := by
      decide +kernel
    revert this
    split <;> simp

end Yaml.Props
