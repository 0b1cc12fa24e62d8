import Verif.Lib.Tile5
import Verif.Props.Parser

/-
C53, C54: the tokens against the text.

`Tiles T 0 [] [] ts q` (Spec/Lexemes.lean): the tokens `ts`, in order, cover the text `T` up to the place after `q`.
Between them is nothing but separating text (blanks, line breaks, comments); the text between the marks of a token
spells it, with its value; its kind is the one its place asks for.  Nothing in `Spec/Lexemes.lean` refers to the
scanner.
-/

namespace Yaml.Props
open Yaml Spec ScannerObj

variable {enc : Encoding} {items : List SrcItem} {T : List Char} {F : Nat} {ts : List Token} {o : ScannerObj}

theorem tiles_once (hT : Future enc items T) (hF : srcSize items + 2 < F) (h : Reads F (new items enc) ts o) (he : EndsOnce ts) :
    (NoEnd ts ∧ ∃ more q, Tiles T 0 [] [] (ts ++ more) q ∧ Snug (ts ++ more)) ∨ (Tiles T 0 [] [] ts T ∧ Snug ts) := by
  rcases h.tiles hT (by have := hT.length_le; omega) with ⟨b, hR, _, hI, _, hn, _⟩ | ⟨ts0, n, rfl, h', h''⟩
  · refine .inl ⟨hn.1, ?_⟩
    rcases hI with ⟨_, rfl, _⟩ | ⟨_, q, hq, hs⟩ | ⟨⟨q, _, hq, _⟩, hs, _⟩
    · exact ⟨[], [], .nil _, trivial⟩
    · exact ⟨_, q, hq, hs⟩
    · exact ⟨_, q, hq, by simpa using hs.snug (X := []) (by simp)⟩
  · right
    cases n with
    | zero => simpa using h''
    | succ n =>
      exfalso
      obtain ⟨us, t, rfl, h2, _⟩ := h'.last
      have : isStreamEnd t = false := he t (by
        rw [List.replicate_succ', ← List.append_assoc, List.dropLast_concat]
        simp)
      simp [isStreamEnd, h2] at this

/-- C53.  A token stream that was read to its end covers the whole text: separating text, a token as it is
spelled, separating text, and so on. -/
theorem C53_tokens_cover_the_text (hT : Future enc items T) (hF : srcSize items + 2 < F) (h : Reads F (new items enc) ts o) (he : EndsOnce ts)
    (hend : ∃ t ∈ ts, isStreamEnd t = true) : Tiles T 0 [] [] ts T := by
  rcases tiles_once hT hF h he with ⟨hn, _⟩ | h
  · obtain ⟨t, ht, hd⟩ := hend
    have := hn t ht
    simp [isStreamEnd] at hd
    exact absurd hd this
  · exact h.1

/-- C53.  At any time before, so do the tokens read so far together with those that the scanner has found already. -/
theorem C53_tokens_cover_the_text_so_far (hT : Future enc items T) (hF : srcSize items + 2 < F) (h : Reads F (new items enc) ts o) (he : EndsOnce ts) :
    ∃ more q, Tiles T 0 [] [] (ts ++ more) q := by
  rcases tiles_once hT hF h he with ⟨_, more, q, h, _⟩ | h
  · exact ⟨more, q, h⟩
  · exact ⟨[], T, by simpa using h.1⟩

/-- One token of a tiling. -/
theorem tiles_at {d : Nat} {st : List Nat} {p q : List Char} {A B : List Token} {t : Token} (h : Tiles T d st p (A ++ t :: B) q) :
    ∃ d' st' a w r, T = a ++ (w ++ r) ∧ MarkAt T a t.startMark ∧ MarkAt T (a ++ w) t.endMark ∧ Spells (d' != 0) (indentation st') t w r ∧
      d' = A.foldl depthAfter d ∧ st' = A.foldl blocksAfter st := by
  induction A generalizing d st p with
  | nil =>
    cases h with
    | cons hT hg hs he hw hl h => exact ⟨d, st, _, _, _, by rw [hT, List.append_assoc], hs, he, hw, rfl, rfl⟩
  | cons a A ih =>
    cases h with
    | cons hT hg hs he hw hl h => exact ih h

/-- C53, for each token.  The text between its marks spells it, in the context given by the tokens before it. -/
theorem C53_each_token_is_in_the_text {pre post : List Token} {t : Token} (hT : Future enc items T) (hF : srcSize items + 2 < F)
    (h : Reads F (new items enc) (pre ++ t :: post) o) (he : EndsOnce (pre ++ t :: post)) :
    ∃ a w r, T = a ++ (w ++ r) ∧ MarkAt T a t.startMark ∧ MarkAt T (a ++ w) t.endMark ∧
      ∃ d st, d = pre.foldl depthAfter 0 ∧ Spells (d != 0) (indentation st) t w r := by
  obtain ⟨more, q, h⟩ := C53_tokens_cover_the_text_so_far hT hF h he
  rw [List.append_assoc, List.cons_append] at h
  obtain ⟨d, st, a, w, r, h1, h2, h3, h4, h5, _⟩ := tiles_at h
  exact ⟨a, w, r, h1, h2, h3, d, st, h5, h4⟩

theorem scans_once {so : ScannerObj} {x : Out Token} (h : Scans F so ts x) : EndsOnce ts := by
  induction h with
  | stop => intro t ht; simp at ht
  | last => intro t ht; simp at ht
  | @cons o o' t ts x hs ht h0 hpk g1 g2 hsc ih =>
    intro u hu
    cases ts with
    | nil => simp at hu
    | cons a ts =>
      rw [List.dropLast_cons_cons] at hu
      rcases List.mem_cons.1 hu with rfl | hu
      · simp [isStreamEnd, ht]
      · exact ih u hu

/-- C53, for the parser.  What an event says (anchor, tag, value, style, alias, directives) is said by its share of
tokens, and these cover the text. -/
theorem C53_events_come_from_the_text {evs : List Event} {po : ParserObj} (hF : 4 * srcSize items + 4 < F)
    (h : ParserObj.Parses F (ParserObj.new items enc) evs po) (he : EventsEndOnce evs) :
    ∃ T ts, Future enc items T ∧ Made ts evs ∧ (∃ more q, Tiles T 0 [] [] (ts ++ more) q) ∧
      ((∃ e ∈ evs, isStreamEndEvent e = true) → Tiles T 0 [] [] ts T) := by
  obtain ⟨T, ts, fin, G, D, c, toks, st, pk, hT, h1, h2, h3, h4, hp⟩ := parses_once hF h he
  obtain ⟨so, hr⟩ := h1.reads hp.split
  have hF' : srcSize items + 2 < F := by omega
  have hends : EndsOnce ts := scans_once h1
  have hendc : EndsOnce c := by
    intro t ht
    refine hends t ?_
    rw [hp.split]
    rcases List.eq_nil_or_concat toks with rfl | ⟨ts', x, rfl⟩
    · simpa using ht
    · rw [List.concat_eq_append, ← List.append_assoc, List.dropLast_concat]
      exact List.mem_append_left _ (List.dropLast_subset _ ht)
  refine ⟨T, c, hT, hp.made, C53_tokens_cover_the_text_so_far hT hF' hr hendc, ?_⟩
  intro hev
  refine C53_tokens_cover_the_text hT hF' hr hendc ?_
  have hm := hp.made
  generalize hc' : c = c' at hm
  cases hm with
  | nil => simp at hev
  | @snoc ts' c0 evs' e hm hc =>
    have : isStreamEndEvent e = true := by
      obtain ⟨e', he', hd'⟩ := hev
      rcases List.mem_append.1 he' with he' | he'
      · rw [he e' (by rw [List.dropLast_concat]; exact he')] at hd'; simp at hd'
      · simp at he'; subst he'; exact hd'
    have hd : e.data = .streamEnd := by simpa [isStreamEndEvent] using this
    obtain ⟨_, c1, t, rfl, ht⟩ : Plain c0 ∧ ∃ (c1 : List Token) (t : Token), c0 = c1 ++ [t] ∧ t.data = .streamEnd := by rw [hd] at hc; exact hc
    exact ⟨t, by simp, by simp [isStreamEnd, ht]⟩

/-- C54.  The block structure of the tokens is that of the layout: collections start to the right of the one they are in,
where their first entry is; their entries are all in that column; nothing in them is to the left of it; they end at the
first token that is. -/
theorem C54_block_structure_follows_the_layout (hT : Future enc items T) (hF : srcSize items + 2 < F) (h : Reads F (new items enc) ts o) (he : EndsOnce ts)
    (hend : ∃ t ∈ ts, isStreamEnd t = true) : LaidOut 0 [] ts := by
  rcases tiles_once hT hF h he with ⟨hn, _⟩ | h
  · obtain ⟨t, ht, hd⟩ := hend
    have := hn t ht
    simp [isStreamEnd] at hd
    exact absurd hd this
  · exact LaidOut.of h.1 h.2

/-- C54.  At any time before, the tokens read so far are the beginning of such a stream. -/
theorem C54_block_structure_so_far (hT : Future enc items T) (hF : srcSize items + 2 < F) (h : Reads F (new items enc) ts o) (he : EndsOnce ts) :
    ∃ more, LaidOut 0 [] (ts ++ more) := by
  rcases tiles_once hT hF h he with ⟨_, more, q, h, h'⟩ | h
  · exact ⟨more, LaidOut.of h h'⟩
  · exact ⟨[], by simpa using LaidOut.of h.1 h.2⟩

/-! ### A concrete case -/

/-- `%TAG !e! x:`, `--- &n # c`, `k: !e!t`, `  - 'it''s'`, `  -  [p q, {r: *n}]`, `j: |1-`, `  lit`, `...`, in two parts. -/
def layoutSample : List SrcItem := [.data [0x25, 0x54, 0x41, 0x47, 0x20, 0x21, 0x65, 0x21, 0x20, 0x78, 0x3A, 0x0A, 0x2D, 0x2D, 0x2D, 0x20, 0x26, 0x6E, 0x20, 0x23, 0x20, 0x63, 0x0A, 0x6B, 0x3A, 0x20, 0x21, 0x65, 0x21, 0x74],
  .data [0x0A, 0x20, 0x20, 0x2D, 0x20, 0x27, 0x69, 0x74, 0x27, 0x27, 0x73, 0x27, 0x0A, 0x20, 0x20, 0x2D, 0x20, 0x20, 0x5B, 0x70, 0x20, 0x71, 0x2C, 0x20, 0x7B, 0x72, 0x3A, 0x20, 0x2A, 0x6E, 0x7D, 0x5D, 0x0A, 0x6A, 0x3A, 0x20, 0x7C, 0x31, 0x2D, 0x0A, 0x20, 0x20, 0x6C, 0x69, 0x74, 0x0A, 0x2E, 0x2E, 0x2E, 0x0A]]

/-- The hypotheses of the theorems above are met by its token stream. -/
theorem layoutSample_reads : Reads 200 (new layoutSample) (readN 200 31 (new layoutSample)).1 (readN 200 31 (new layoutSample)).2.2 ∧
    srcSize layoutSample + 2 < 200 ∧ EndsOnce (readN 200 31 (new layoutSample)).1 ∧ (∃ t ∈ (readN 200 31 (new layoutSample)).1, isStreamEnd t = true) ∧
    (readN 200 31 (new layoutSample)).1.map (·.data) = [.streamStart .utf8, .tagDirective (cs! "!e!") (cs! "x:"), .documentStart,
      .anchor ['n'], .blockMappingStart, .key, .scalar ['k'] .plain, .value, .tag (cs! "!e!") ['t'], .blockSequenceStart, .blockEntry,
      .scalar (cs! "it's") .singleQuoted, .blockEntry, .flowSequenceStart, .scalar (cs! "p q") .plain, .flowEntry, .flowMappingStart, .key,
      .scalar ['r'] .plain, .value, .alias ['n'], .flowMappingEnd, .flowSequenceEnd, .blockEnd, .key, .scalar ['j'] .plain, .value,
      .scalar (cs! " lit") .literal, .blockEnd, .documentEnd, .streamEnd] :=
  ⟨readN_reads _ _ (by decide +kernel), by decide +kernel, by unfold EndsOnce; decide +kernel, by decide +kernel, by decide +kernel⟩

end Yaml.Props
