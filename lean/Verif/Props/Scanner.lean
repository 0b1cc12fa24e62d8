import Verif.Lib.Run
import Verif.Spec.Source

/-
C07-C13: the token stream.

`Reads F o ts o'` (Api.lean): successive calls of `Scanner::scan` on `o` all returned `Ok`, with
the tokens `ts`, and left the scanner `o'`.  `ScannerObj.new items enc` is a new scanner over a
`BufRead` delivering `items`, with `set_encoding(enc)`; `Future enc items T` says that `T` is the
text this input delivers up to its end or the first I/O or decoding error (every input has
exactly one such text: `every_input_has_a_text`; for UTF-8 it is the text that was encoded,
see Props/Reader.lean).  `F` bounds the passes of each loop; `C08_scan_terminates` shows that it is never used up.
-/

namespace Yaml.Props
open Yaml Spec ScannerObj

/-- The hypothesis `Future enc items T` of the theorems below is met by exactly one `T`. -/
theorem every_input_has_a_text (enc : Encoding) (items : List SrcItem) :
    ∃ T, Future enc items T ∧ T.length ≤ srcSize items ∧ ∀ T', Future enc items T' → T' = T := by
  obtain ⟨T, h⟩ := Future.exists enc items
  exact ⟨T, h, h.length_le, fun T' h' => h'.unique h⟩

variable {enc : Encoding} {items : List SrcItem} {T : List Char} {F : Nat} {ts : List Token} {o : ScannerObj}

theorem reads_once (hT : Future enc items T) (hF : srcSize items + 2 < F) (h : Reads F (new items enc) ts o) (he : EndsOnce ts) :
    Run T ts o ∨ Ended T ts o.s := by
  rcases h.inv hT (by have := hT.length_le; omega) with h | ⟨ts0, n, rfl, h'⟩
  · exact Or.inl h
  · right
    cases n with
    | zero => simpa using h'
    | succ n =>
      exfalso
      obtain ⟨us, t, rfl, h2, _⟩ := h'.last
      have : isStreamEnd t = false := he t (by
        rw [List.replicate_succ', ← List.append_assoc, List.dropLast_concat]
        simp)
      simp [isStreamEnd, h2] at this

theorem reads_hist (hT : Future enc items T) (hF : srcSize items + 2 < F) (h : Reads F (new items enc) ts o) (he : EndsOnce ts) :
    ts ++ o.s.tokens = [] ∨ ∃ s, Hist T (ts ++ o.s.tokens) s := by
  rcases reads_once hT hF h he with ⟨b, _, hI, _⟩ | h
  · rcases hI with ⟨h0, rfl, _⟩ | ⟨_, _, hh, _⟩
    · left
      have : o.s.tokens = [] := congrArg SState.tokens h0
      rw [this]; rfl
    · exact Or.inr ⟨_, hh⟩
  · right
    obtain ⟨s0, h1, _⟩ := h.stream
    rw [h.done.queue]
    exact ⟨s0, by simpa using h1⟩

/-! ### Small evaluator for concrete cases -/

/-- At most `n` calls of `scan`: the tokens, and the first result that is not `Ok`. -/
def readN (F : Nat) : Nat → ScannerObj → List Token × Option (Out Token) × ScannerObj
  | 0, o => ([], none, o)
  | n + 1, o =>
    match o.scan F with
    | (.ok t, o') => let q := readN F n o'; (t :: q.1, q.2.1, q.2.2)
    | (r, o') => ([], some r, o')

theorem Reads.cons {t : Token} {o0 o1 : ScannerObj} (hs : o0.scan F = (.ok t, o1)) (h : Reads F o1 ts o) : Reads F o0 (t :: ts) o := by
  induction h with
  | nil => exact Reads.snoc (ts := []) .nil hs
  | snoc _ hs' ih => exact Reads.snoc (ts := t :: _) ih hs'

/-- `readN` that met no failure is a sequence of `Ok` calls. -/
theorem readN_reads (n : Nat) (o0 : ScannerObj) : (readN F n o0).2.1 = none → Reads F o0 (readN F n o0).1 (readN F n o0).2.2 := by
  induction n generalizing o0 with
  | zero => intro _; exact .nil
  | succ n ih =>
    unfold readN
    generalize hs : o0.scan F = q
    obtain ⟨r, o'⟩ := q
    cases r with
    | ok t => intro h; exact Reads.cons hs (ih o' h)
    | err e => intro h; simp at h
    | panic p => intro h; simp at h
    | fuel => intro h; simp at h

/-- `a: b`, split in the middle. -/
def sample : List SrcItem := [.data [0x61, 0x3A], .data [0x20, 0x62, 0x0A]]

/-- The hypotheses of the theorems below are met by the whole token stream of `a: b`. -/
theorem sample_reads : Reads 99 (new sample) (readN 99 9 (new sample)).1 (readN 99 9 (new sample)).2.2 ∧
    srcSize sample + 2 < 99 ∧ (readN 99 9 (new sample)).1.map (·.data) = [.streamStart .utf8, .blockMappingStart, .key,
      .scalar ['a'] .plain, .value, .scalar ['b'] .plain, .blockEnd, .streamEnd, .streamEnd] ∧ EndsOnce (readN 99 8 (new sample)).1 :=
  ⟨readN_reads _ _ (by decide +kernel), by decide +kernel, by decide +kernel, by unfold EndsOnce; decide +kernel⟩

/-! ### C07 -/

/-- C07 (part).  Calling `scan` repeatedly, up to the first error: a panic can only be one of four
known ones, each only for texts of a certain kind.  Missing from the full claim: exactly these,
which do happen (`C07_refuted_…`). -/
theorem C07_scan_panics_only_known_partial (hT : Future enc items T) (hF : srcSize items + 2 < F)
    (h : Reads F (new items enc) ts o) {p : PanicSite} (hp : (o.scan F).1 = .panic p) :
    (p = .escapeAtEof ∧ T.getLast? = some '\\') ∨
    (p = .readLineBreakEmpty ∧ ∃ c, T.getLast? = some c ∧ isLineBreak c = false) ∨
    (p = .tagTodo ∧ '!' ∈ T ∧ ',' ∈ T) ∨
    ((p = .rollIndentOverflow ∨ p = .flowLevelOverflow) ∧ 2147483647 < T.length) := by
  have hF' : T.length + 2 < F := by have := hT.length_le; omega
  rcases h.inv hT hF' with h | ⟨ts0, n, _, h⟩
  · have := h.scan hF'
    generalize o.scan F = q at this hp
    obtain ⟨r, o'⟩ := q
    subst hp
    have e : ∀ c, isBreak c = isLineBreak c := fun c => (isLineBreak_eq c).symm
    have this : Bad T p := this
    unfold Bad at this
    simp only [e] at this
    exact this
  · rw [(h.done.scan F).1] at hp; simp at hp

/-- C07 (part), for the texts where none of the known defects can show: `scan` does not panic. -/
theorem C07_no_panic_partial (hT : Future enc items T) (hF : srcSize items + 2 < F)
    (hlast : ∀ c, T.getLast? = some c → isLineBreak c = true) (htag : ¬ ('!' ∈ T ∧ ',' ∈ T)) (hlen : T.length ≤ 2147483647)
    (h : Reads F (new items enc) ts o) (p : PanicSite) : (o.scan F).1 ≠ .panic p := by
  intro hp
  rcases C07_scan_panics_only_known_partial hT hF h hp with ⟨_, hl⟩ | ⟨_, c, hl, hc⟩ | ⟨_, h1, h2⟩ | ⟨_, h1⟩
  · have := hlast _ hl; simp [isLineBreak] at this
  · rw [hlast c hl] at hc; simp at hc
  · exact htag ⟨h1, h2⟩
  · omega

/-- The hypotheses of `C07_no_panic_partial` hold of `a: b`. -/
example : (∀ c, ['a', ':', ' ', 'b', '\n'].getLast? = some c → isLineBreak c = true) ∧
    ¬ ('!' ∈ ['a', ':', ' ', 'b', '\n'] ∧ ',' ∈ ['a', ':', ' ', 'b', '\n']) := by
  refine ⟨?_, by decide⟩
  rintro c h; simp at h; subst h; decide

/-- C07 is false in full: `"\` at the end of the input (scanner.rs, `scan_flow_scalar`). -/
theorem C07_refuted_escape : (readN 99 9 (new [.data [0x22, 0x5C]])).2.1 = some (.panic .escapeAtEof) := by decide +kernel

/-- C07 is false in full: `[!a,b]` (scanner.rs, `scan_tag`). -/
theorem C07_refuted_tag : (readN 99 9 (new [.data [0x5B, 0x21, 0x61, 0x2C, 0x62, 0x5D]])).2.1 = some (.panic .tagTodo) := by
  decide +kernel

/-- C07 is false in full: `|` and a line without line break at the end of the input (scanner.rs,
`scan_block_scalar`). -/
theorem C07_refuted_block_scalar : (readN 99 9 (new [.data [0x7C, 0x0A, 0x20, 0x61]])).2.1 = some (.panic .readLineBreakEmpty) := by
  decide +kernel

/-! ### C08 -/

/-- C08, scanner.  Every call of `scan` returns: no loop makes more than `F` passes, for any `F`
larger than the input. -/
theorem C08_scan_terminates (hT : Future enc items T) (hF : srcSize items + 2 < F) (h : Reads F (new items enc) ts o) :
    (o.scan F).1 ≠ .fuel := by
  intro hp
  have hF' : T.length + 2 < F := by have := hT.length_le; omega
  rcases h.inv hT hF' with h | ⟨ts0, n, _, h⟩
  · have := h.scan hF'
    generalize o.scan F = q at this hp
    obtain ⟨r, o'⟩ := q
    subst hp
    exact this
  · rw [(h.done.scan F).1] at hp; simp at hp

/-- C08, scanner.  A token stream is at most linear in the text. -/
theorem C08_token_count (hT : Future enc items T) (hF : srcSize items + 2 < F) (h : Reads F (new items enc) ts o)
    (he : EndsOnce ts) : ts.length ≤ 4 * T.length + 2 := by
  rcases reads_once hT hF h he with ⟨b, _, _, hc, _⟩ | h
  · unfold Count at hc; omega
  · exact h.count

/-- C08, scanner.  A linear number of calls reaches the stream end or a call that does not return
`Ok`. -/
theorem C08_stream_ends (hT : Future enc items T) (hF : srcSize items + 2 < F) :
    ∃ ts o, Reads F (new items enc) ts o ∧ ts.length ≤ 4 * T.length + 2 ∧
      ((∃ t, ts.getLast? = some t ∧ isStreamEnd t = true) ∨ ∀ t, (o.scan F).1 ≠ .ok t) := by
  have main : ∀ (n : Nat) (ts : List Token) (o : ScannerObj), 4 * T.length + 3 - ts.length ≤ n → NoEnd ts → Reads F (new items enc) ts o →
      ∃ ts o, Reads F (new items enc) ts o ∧ ts.length ≤ 4 * T.length + 2 ∧
        ((∃ t, ts.getLast? = some t ∧ isStreamEnd t = true) ∨ ∀ t, (o.scan F).1 ≠ .ok t) := by
    intro n
    induction n with
    | zero =>
      intro ts o hn hne h
      have := C08_token_count hT hF h (fun t ht => by
        have := hne t (List.dropLast_subset _ ht); simpa [isStreamEnd] using this)
      omega
    | succ n ih =>
      intro ts o hn hne h
      have hc := C08_token_count hT hF h (fun t ht => by
        have := hne t (List.dropLast_subset _ ht); simpa [isStreamEnd] using this)
      generalize hs : o.scan F = q
      obtain ⟨r, o'⟩ := q
      cases r with
      | ok t =>
        have h' := Reads.snoc h hs
        by_cases ht : t.data = .streamEnd
        · refine ⟨_, _, h', C08_token_count hT hF h' ?_, Or.inl ⟨t, by simp, by simp [isStreamEnd, ht]⟩⟩
          intro t ht
          rw [List.dropLast_concat] at ht
          have := hne t ht; simpa [isStreamEnd] using this
        · refine ih _ _ (by simp; omega) ?_ h'
          intro t' ht'
          rcases List.mem_append.1 ht' with ht' | ht'
          · exact hne t' ht'
          · simp at ht'; subst ht'; exact ht
      | err e => exact ⟨ts, o, h, hc, Or.inr (by rw [hs]; simp)⟩
      | panic e => exact ⟨ts, o, h, hc, Or.inr (by rw [hs]; simp)⟩
      | fuel => exact ⟨ts, o, h, hc, Or.inr (by rw [hs]; simp)⟩
  exact main _ [] _ (Nat.le_refl _) (by intro t ht; simp at ht) .nil

/-! ### C09 -/

/-- C09.  The first token is `StreamStart` and no other is. -/
theorem C09_starts_once (hT : Future enc items T) (hF : srcSize items + 2 < F) (h : Reads F (new items enc) ts o) :
    StartsOnce ts := by
  have hF' : T.length + 2 < F := by have := hT.length_le; omega
  have prefixOf : ∀ {A B : List Token}, StartsOnce (A ++ B) → StartsOnce A := by
    intro A B h pre t post he
    exact h pre t (post ++ B) (by rw [he]; simp)
  rcases h.inv hT hF' with ⟨b, _, hI, _⟩ | ⟨ts0, n, rfl, h'⟩
  · rcases hI with ⟨h0, rfl, _⟩ | ⟨_, _, hh, _⟩
    · intro pre t post he; simp at he
    · exact prefixOf hh.first
  · obtain ⟨s0, h1, _⟩ := h'.stream
    obtain ⟨us, u, hus, _⟩ := h'.last
    intro pre t post he
    rcases List.append_eq_append_iff.1 he.symm with ⟨as, h2, h3⟩ | ⟨cs, h2, h3⟩
    · cases as with
      | nil =>
        simp at h3
        have : t = ⟨.streamEnd, Mark.zero, Mark.zero⟩ := by
          have : t ∈ List.replicate n (⟨.streamEnd, Mark.zero, Mark.zero⟩ : Token) := by rw [← h3]; simp
          exact (List.mem_replicate.1 this).2
        subst this
        simp at h2
        constructor
        · intro hh; simp [isStreamStart] at hh
        · intro hh; rw [hus] at h2; rw [hh] at h2; simp at h2
      | cons x xs =>
        simp at h3
        obtain ⟨rfl, h3⟩ := h3
        exact h1.first pre t xs h2
    · have : t ∈ List.replicate n (⟨.streamEnd, Mark.zero, Mark.zero⟩ : Token) := by rw [h3]; simp
      have := (List.mem_replicate.1 this).2
      subst this
      constructor
      · intro hh; simp [isStreamStart] at hh
      · intro hh; rw [h2, hus] at hh; simp at hh

/-- C09.  Once `StreamEnd` was returned, `scan` returns `StreamEnd` and the iterator `None`, and
the scanner no longer changes or reads input. -/
theorem C09_end_is_sticky (hT : Future enc items T) (hF : srcSize items + 2 < F) (h : Reads F (new items enc) ts o)
    (hend : ∃ t ∈ ts, isStreamEnd t = true) :
    (∃ t, isStreamEnd t = true ∧ o.scan F = (.ok t, o)) ∧ o.next F = (.ok none, o) := by
  have hF' : T.length + 2 < F := by have := hT.length_le; omega
  rcases h.inv hT hF' with ⟨b, _, _, _, hn, _⟩ | ⟨ts0, n, _, h⟩
  · obtain ⟨t, ht, he⟩ := hend
    simp [isStreamEnd] at he
    exact absurd he (hn.1 t ht)
  · exact ⟨⟨_, rfl, (h.done.scan F).1⟩, (h.done.scan F).2⟩

example : ∃ t ∈ (readN 99 9 (new sample)).1, isStreamEnd t = true := by decide +kernel

/-! ### C10, C11 -/

/-- C10.  All marks of tokens are positions in the text. -/
theorem C10_marks_are_positions (hT : Future enc items T) (hF : srcSize items + 2 < F) (h : Reads F (new items enc) ts o)
    (he : EndsOnce ts) : MarksIn T ts := by
  intro t ht
  rcases reads_hist hT hF h he with h0 | ⟨s, hh⟩
  · simp at h0; rw [h0.1] at ht; simp at ht
  · exact ⟨(hh.marks t (by simp [ht])).1, (hh.marks t (by simp [ht])).2.1⟩

/-- C10.  Both marks of a scanner error are positions in the text. -/
theorem C10_error_marks_are_positions (hT : Future enc items T) (hF : srcSize items + 2 < F) (h : Reads F (new items enc) ts o)
    {c p : String} {cm pm : Mark} (he : (o.scan F).1 = .err (.scanner c cm p pm)) : IsMark T cm ∧ IsMark T pm := by
  have hF' : T.length + 2 < F := by have := hT.length_le; omega
  rcases h.inv hT hF' with h | ⟨ts0, n, _, h⟩
  · have := h.scan hF'
    generalize o.scan F = q at this he
    obtain ⟨r, o'⟩ := q
    subst he
    rcases this with hr | ⟨c', cm', p', pm', he, h1, h2⟩
    · rcases hr with ⟨_, _, _, hr⟩ | ⟨_, hr⟩ <;> simp at hr
    · simp at he
      obtain ⟨_, rfl, _, rfl⟩ := he
      exact ⟨h1, h2⟩
  · rw [(h.done.scan F).1] at he; simp at he

/-- C10.  All errors of `scan` are scanner errors, or come from the reader. -/
theorem C10_error_kinds (hT : Future enc items T) (hF : srcSize items + 2 < F) (h : Reads F (new items enc) ts o)
    {e : Err} (he : (o.scan F).1 = .err e) : (∃ c cm p pm, e = .scanner c cm p pm) ∨ (∃ p off v, e = .reader p off v) ∨ ∃ k, e = .io k := by
  have hF' : T.length + 2 < F := by have := hT.length_le; omega
  rcases h.inv hT hF' with h | ⟨ts0, n, _, h⟩
  · have := h.scan hF'
    generalize o.scan F = q at this he
    obtain ⟨r, o'⟩ := q
    subst he
    rcases this with hr | ⟨c', cm', p', pm', he, h1, h2⟩
    · exact Or.inr hr
    · exact Or.inl ⟨_, _, _, _, he⟩
  · rw [(h.done.scan F).1] at he; simp at he

/-- An error with marks: the unfinished `"a`. -/
example : ∃ c cm p pm, (readN 99 9 (new [.data [0x22, 0x61]])).2.1 = some (.err (.scanner c cm p pm)) ∧
    cm = ⟨0, 0, 0⟩ ∧ pm = ⟨2, 0, 2⟩ :=
  ⟨"while scanning a quoted scalar", ⟨0, 0, 0⟩, "found unexpected end of stream", ⟨2, 0, 2⟩, by decide +kernel, rfl, rfl⟩

/-- C11.  Start marks never go backwards along the token stream, and no token ends before its
start. -/
theorem C11_marks_ordered (hT : Future enc items T) (hF : srcSize items + 2 < F) (h : Reads F (new items enc) ts o)
    (he : EndsOnce ts) : MarksOrdered ts := by
  rcases reads_hist hT hF h he with h0 | ⟨s, hh⟩
  · simp at h0; rw [h0.1]; exact ⟨.nil, by simp⟩
  · exact ⟨(List.pairwise_append.1 hh.sorted).1, fun t ht => (hh.marks t (by simp [ht])).2.2.1⟩

/-- Marks do go backwards on the `StreamEnd` tokens returned again after the first one: they carry
zero marks (scanner.rs lines 197-206). -/
theorem C11_repeated_end_has_zero_marks : ((readN 99 9 (new sample)).1.drop 7).map (·.startMark) = [⟨5, 1, 0⟩, ⟨0, 0, 0⟩] := by
  decide +kernel

/-! ### C12, C13 -/

/-- C12.  Block ends never exceed block starts. -/
theorem C12_blocks_nest (hT : Future enc items T) (hF : srcSize items + 2 < F) (h : Reads F (new items enc) ts o)
    (he : EndsOnce ts) : BlocksNest ts := by
  rcases reads_hist hT hF h he with h0 | ⟨s, hh⟩
  · simp at h0; rw [h0.1]; intro pre post hp; simp at hp; simp [hp.1]
  · intro pre post hp
    exact hh.balPre pre (post ++ o.s.tokens) (by rw [hp]; simp)

/-- C12.  A finished token stream with no flow collection left open has as many block ends as
block starts. -/
theorem C12_blocks_balanced (hT : Future enc items T) (hF : srcSize items + 2 < F) (h : Reads F (new items enc) ts o)
    (he : EndsOnce ts) (hend : ∃ t ∈ ts, isStreamEnd t = true) (hflow : flowDepth ts = 0) :
    ts.countP isBlockStart = ts.countP isBlockEnd := by
  rcases reads_once hT hF h he with ⟨b, _, _, _, hn, _⟩ | h
  · obtain ⟨t, ht, he⟩ := hend
    simp [isStreamEnd] at he
    exact absurd he (hn.1 t ht)
  · obtain ⟨s0, h1, h2⟩ := h.stream
    have := h1.bal
    rw [h2 (by rw [← h1.flow]; exact hflow)] at this
    simpa using this

example : flowDepth (readN 99 8 (new sample)).1 = 0 ∧ (readN 99 8 (new sample)).1.countP isBlockStart = 1 ∧
    ∃ t ∈ (readN 99 8 (new sample)).1, isStreamEnd t = true := by decide +kernel

/-- C13.  In a token stream together with the tokens already scanned but not yet returned
(`o.s.tokens`), every inserted `Key` has its `Value` on the same line, within 1024 bytes. -/
theorem C13_implicit_keys (hT : Future enc items T) (hF : srcSize items + 2 < F) (h : Reads F (new items enc) ts o)
    (he : EndsOnce ts) : ImplicitKeysOk (ts ++ o.s.tokens) := by
  rcases reads_hist hT hF h he with h0 | ⟨s, hh⟩
  · rw [h0]; intro pre k post hp; simp at hp
  · exact hh.impl

/-- C13.  In a finished token stream nothing is left to be returned. -/
theorem C13_implicit_keys_complete (hT : Future enc items T) (hF : srcSize items + 2 < F) (h : Reads F (new items enc) ts o)
    (he : EndsOnce ts) (hend : ∃ t ∈ ts, isStreamEnd t = true) : ImplicitKeysOk ts := by
  have := C13_implicit_keys hT hF h he
  rcases reads_once hT hF h he with ⟨b, _, _, _, hn, _⟩ | h
  · obtain ⟨t, ht, he⟩ := hend
    simp [isStreamEnd] at he
    exact absurd he (hn.1 t ht)
  · rw [h.done.queue] at this
    simpa using this

/-- The sample has such a `Key`. -/
example : ∃ k ∈ (readN 99 8 (new sample)).1, k.data = .key ∧ k.startMark = k.endMark := by decide +kernel

end Yaml.Props
