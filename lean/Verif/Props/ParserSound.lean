import Verif.Lib.Trans5
import Verif.Props.ParserGrammar

/-
C55: the parser accepts only the token streams of the YAML grammar (Spec/TokenGrammar.lean) - the
converse of C47.  False of the code, which skips a token too many after a `?` in a flow sequence; with
this one deviation written into the grammar (`lax = true`) it holds of every input.
-/

namespace Yaml.Props
open Yaml Spec ParserObj
set_option linter.unusedSimpArgs false

variable {enc : Encoding} {items : List SrcItem} {F : Nat} {evs : List Event} {o : ParserObj}

/-- The events end with the stream, and only there. -/
def Whole (evs : List Event) : Prop := ∃ es e, evs = es ++ [e] ∧ e.data = .streamEnd ∧ ∀ x ∈ es, x.data ≠ .streamEnd

/-- C55, with the deviation of the code named: `lax = true` adds to the grammar that in a flow sequence
`?` may be followed by a `:`, `,` or `]` that means nothing.  Whenever `Parser::parse` has returned
the events of a whole stream, the tokens that `Scanner::scan` returns for the same input are a stream of
this grammar, and the events are those it stands for.  Missing of C55: this deviation. -/
theorem C55_only_grammar_partial (hF : 4 * srcSize items + 4 < F) (h : Parses F (new items enc) evs o) (hw : Whole evs) :
    ∃ ts os, ScannerObj.Reads F (ScannerObj.new items enc) ts os ∧ DerivesStream true (ts.map (·.data)) (evs.map (·.data)) := by
  obtain ⟨T, hT⟩ := Future.exists enc items
  obtain ⟨ts, fin, h1, h2, h3, h4⟩ := tokens_of_input hT hF
  obtain ⟨evs1, n, G, c, toks, st, pk, g1, g2, g3, g4⟩ := h.chain h1 h3 (h4.imp (fun ⟨e, h, _⟩ => ⟨e, h⟩) (fun ⟨e, h, _⟩ => ⟨e, h⟩))
  obtain ⟨es, e, rfl, he, hes⟩ := hw
  have hn : n = 0 := by
    by_cases hn : n = 0
    · exact hn
    exfalso
    have hend := g3 hn
    obtain ⟨x, hx, hxd⟩ := (ended_state g2).1 hend
    have hxd : x.data = .streamEnd := by simpa [isStreamEndEvent] using hxd
    obtain ⟨m, rfl⟩ := Nat.exists_eq_succ_of_ne_zero hn
    rw [List.replicate_succ', ← List.append_assoc] at g1
    obtain ⟨g5, _⟩ := List.append_inj' g1 rfl
    exact hes x (by rw [g5]; simp [hx]) hxd
  subst hn
  have g1 : evs1 = es ++ [e] := by simpa using g1.symm
  subst g1
  have hend : o.p.state = .end_ := (ended_state g2).2 ⟨e, by simp, by simp [isStreamEndEvent, he]⟩
  rw [hend] at g4
  obtain ⟨us, l2, e1, hd⟩ := sound_stream (g4.acc .done)
  obtain ⟨ts1, ts2, rfl, rfl, -⟩ := List.map_eq_append_iff.1 e1
  obtain ⟨os, hr⟩ := h1.reads rfl
  exact ⟨ts1, os, hr, by simpa using hd⟩

theorem derives_events {D : List TagDirective} {ph : Phrase} {ts : List TokenData} {es : List EventData} (h : Derives lax D ph ts es) : .streamEnd ∉ es := by
  induction h <;> simp_all [scalarEvent, emptyNode]

theorem docs_events {ts : List TokenData} {es : List EventData} (h : DerivesDocs lax ts es) : .streamEnd ∉ es := by
  induction h with
  | none => simp
  | stray h ih => exact ih
  | doc hd h explicit hs hne ih => simp [ih, derives_events h]

/-- What a stream stands for. -/
theorem stream_events {ts : List TokenData} {es : List EventData} (h : DerivesStream lax ts es) : ∃ fs, es = fs ++ [.streamEnd] ∧ .streamEnd ∉ fs := by
  cases h with
  | explicit e h hne => exact ⟨.streamStart e :: _, rfl, by simp [docs_events h]⟩
  | @implicit e n ts es fs h explicit hs hne =>
    exact ⟨.streamStart e :: .documentStart none [] true :: (es ++ .documentEnd (!explicit) :: fs), by simp, by simp [derives_events h, docs_events hs]⟩

theorem whole_iff {evs : List Event} : Whole evs ↔ ∃ fs, evs.map (·.data) = fs ++ [.streamEnd] ∧ .streamEnd ∉ fs := by
  constructor
  · rintro ⟨es, e, rfl, he, h⟩
    refine ⟨es.map (·.data), by simp [he], ?_⟩
    simp only [List.mem_map]
    rintro ⟨x, hx, hd⟩
    exact h x hx hd
  · rintro ⟨fs, h, hf⟩
    obtain ⟨es, l, rfl, rfl, hl⟩ := List.map_eq_append_iff.1 h
    obtain ⟨e, rfl, he⟩ := List.map_eq_singleton_iff.1 hl
    exact ⟨es, e, rfl, he, fun x hx hd => hf (List.mem_map.2 ⟨x, hx, hd⟩)⟩

/-- C47 and C55 together: which inputs the parser reads to the end, and as what. -/
theorem C55_language_partial (hF : 4 * srcSize items + 4 < F) {es : List EventData} :
    (∃ evs o, Parses F (new items enc) evs o ∧ Whole evs ∧ evs.map (·.data) = es) ↔
    ∃ ts os, ScannerObj.Reads F (ScannerObj.new items enc) ts os ∧ DerivesStream true (ts.map (·.data)) es := by
  constructor
  · rintro ⟨evs, o, h, hw, rfl⟩
    exact C55_only_grammar_partial hF h hw
  · rintro ⟨ts, os, hr, hd⟩
    obtain ⟨evs, o, h, he⟩ := C47_grammar_accepted hF hr hd
    exact ⟨evs, o, h, whole_iff.2 (by rw [he]; exact stream_events hd), he⟩

/-- No `?` directly before a `:`, `,` or `]`. -/
def KeysGiven (ts : List TokenData) : Prop :=
  ∀ a d b, ts = a ++ .key :: d :: b → d ≠ .value ∧ d ≠ .flowEntry ∧ d ≠ .flowSequenceEnd

theorem KeysGiven.left {a b : List TokenData} (h : KeysGiven (a ++ b)) : KeysGiven a := fun x d y e => h x d (y ++ b) (by rw [e]; simp)

theorem KeysGiven.right {a b : List TokenData} (h : KeysGiven (a ++ b)) : KeysGiven b := fun x d y e => h (a ++ x) d y (by rw [e]; simp)

theorem KeysGiven.tail {a : TokenData} {b : List TokenData} (h : KeysGiven (a :: b)) : KeysGiven b := KeysGiven.right (a := [a]) h

theorem derives_strict {D : List TagDirective} {ph : Phrase} {ts : List TokenData} {es : List EventData} (h : Derives true D ph ts es) :
    KeysGiven ts → Derives false D ph ts es := by
  induction h with
  | alias name => exact fun _ => .alias name
  | scalar hp v s => exact fun _ => .scalar hp v s
  | bare hp hne => exact fun _ => .bare hp hne
  | blockSeq hp h ih => exact fun hk => .blockSeq hp (ih hk.right.tail.left)
  | indentless hp h hne ih => exact fun hk => .indentless hp (ih hk.right) hne
  | blockMap hp h ih => exact fun hk => .blockMap hp (ih hk.right.tail.left)
  | flowSeq hp h ih => exact fun hk => .flowSeq hp (ih hk.right.tail.left)
  | flowMap hp h ih => exact fun hk => .flowMap hp (ih hk.right.tail.left)
  | nothing => exact fun _ => .nothing
  | some h ih => exact fun hk => .some (ih hk)
  | noItems => exact fun _ => .noItems
  | item h hs ih ihs => exact fun hk => .item (ih hk.tail.left) (ihs hk.tail.right)
  | noEntries => exact fun _ => .noEntries
  | keyOnly h hs ih ihs => exact fun hk => .keyOnly (ih hk.tail.left) (ihs hk.tail.right)
  | keyValue h hv hs ih ihv ihs => exact fun hk => .keyValue (ih hk.tail.left) (ihv hk.tail.right.tail.left) (ihs hk.tail.right.tail.right)
  | itemNode h ih => exact fun hk => .itemNode (ih hk)
  | itemKey h ih => exact fun hk => .itemKey (ih hk.tail)
  | itemPair h hv ih ihv => exact fun hk => .itemPair (ih hk.tail.left) (ihv hk.tail.right.tail)
  | @itemLax hl d hd => exact fun hk => by have := hk [] d [] rfl; rcases hd with rfl | rfl | rfl <;> simp at this
  | @itemLaxValue hl d hd v ds hv ihv => exact fun hk => by have := hk [] d _ rfl; rcases hd with rfl | rfl | rfl <;> simp at this
  | noFlowItems => exact fun _ => .noFlowItems
  | lastItem h ih => exact fun hk => .lastItem (ih hk)
  | moreItems h hs ih ihs => exact fun hk => .moreItems (ih hk.left) (ihs hk.right.tail)
  | entryNode h ih => exact fun hk => .entryNode (ih hk)
  | entryKey h ih => exact fun hk => .entryKey (ih hk.tail)
  | entryPair h hv ih ihv => exact fun hk => .entryPair (ih hk.tail.left) (ihv hk.tail.right.tail)
  | noFlowEntries => exact fun _ => .noFlowEntries
  | lastEntry h ih => exact fun hk => .lastEntry (ih hk)
  | moreEntries h hs ih ihs => exact fun hk => .moreEntries (ih hk.left) (ihs hk.right.tail)

theorem docs_strict {ts : List TokenData} {es : List EventData} (h : DerivesDocs true ts es) : KeysGiven ts → DerivesDocs false ts es := by
  induction h with
  | none => exact fun _ => .none
  | stray h ih => exact fun hk => .stray (ih hk.tail)
  | doc hd h explicit hs hne ih => exact fun hk => .doc hd (derives_strict h hk.right.tail.left) explicit (ih hk.right.tail.right.right) hne

theorem stream_strict {ts : List TokenData} {es : List EventData} (h : DerivesStream true ts es) (hk : KeysGiven ts) : DerivesStream false ts es := by
  cases h with
  | explicit e h hne => exact .explicit e (docs_strict h hk.tail.left) hne
  | implicit e h explicit hs hne => exact .implicit e (derives_strict h hk.tail.left) explicit (docs_strict hs hk.tail.right.right.left) hne

/-- The tokens of an input up to the end of the stream are determined. -/
theorem reads_unique (hF : 4 * srcSize items + 4 < F) {ts ts' : List Token} {os os' : ScannerObj}
    (hr : ScannerObj.Reads F (ScannerObj.new items enc) ts os) (hr' : ScannerObj.Reads F (ScannerObj.new items enc) ts' os')
    (he : ∃ us, ts.map (·.data) = us ++ [TokenData.streamEnd] ∧ TokenData.streamEnd ∉ us)
    (he' : ∃ us, ts'.map (·.data) = us ++ [TokenData.streamEnd] ∧ TokenData.streamEnd ∉ us) : ts = ts' := by
  obtain ⟨T, hT⟩ := Future.exists enc items
  obtain ⟨ts0, fin, h1, h2, h3, h4⟩ := tokens_of_input hT hF
  have key : ∀ {ts : List Token} {os : ScannerObj}, ScannerObj.Reads F (ScannerObj.new items enc) ts os →
      (∃ us, ts.map (·.data) = us ++ [TokenData.streamEnd] ∧ TokenData.streamEnd ∉ us) → ts0 = ts := by
    rintro ts os hr ⟨us, he, hn⟩
    obtain ⟨l1, l2, rfl, hl1, hl2⟩ := List.map_eq_append_iff.1 he
    obtain ⟨t, rfl, ht⟩ := List.map_eq_singleton_iff.1 hl2
    exact (scans_reads h1 hr (fun u hu hd => hn (by rw [← hl1, ← hd]; exact List.mem_map.2 ⟨u, hu, rfl⟩)) ht).1
  rw [← key hr he, ← key hr' he']

/-- C55 where the deviation cannot show: if among the tokens no `?` comes directly before `:`, `,` or
`]`, and the parser reads the input to the end, then the tokens are a stream of the YAML grammar. -/
theorem C55_only_yaml_partial (hF : 4 * srcSize items + 4 < F) (h : Parses F (new items enc) evs o) (hw : Whole evs) {ts : List Token} {os : ScannerObj}
    (hr : ScannerObj.Reads F (ScannerObj.new items enc) ts os) (he : ∃ us, ts.map (·.data) = us ++ [TokenData.streamEnd] ∧ TokenData.streamEnd ∉ us)
    (hk : KeysGiven (ts.map (·.data))) : DerivesStream false (ts.map (·.data)) (evs.map (·.data)) := by
  obtain ⟨ts', os', hr', hd⟩ := C55_only_grammar_partial hF h hw
  have := reads_unique hF hr hr' he (stream_end hd)
  subst this
  exact stream_strict hd hk

/-! ### The refutation -/

/-- In YAML, `[` and `]` are balanced. -/
theorem derives_balanced {D : List TagDirective} {ph : Phrase} {ts : List TokenData} {es : List EventData} (h : Derives false D ph ts es) :
    ts.count .flowSequenceStart = ts.count .flowSequenceEnd := by
  have props : ∀ {ps : List TokenData} {a t : Option Str}, IsProps D ps a t → ps.count .flowSequenceStart = 0 ∧ ps.count .flowSequenceEnd = 0 := by
    intro ps a t hp
    cases hp <;> simp [List.count_cons]
  induction h <;> simp_all [List.count_cons, List.count_append]
  all_goals first
    | omega
    | (rename_i hp _; have := props hp; omega)
    | (rename_i hp _ _; have := props hp; omega)
    | (rename_i hp _ _ _; have := props hp; omega)

theorem directives_balanced {ts : List TokenData} {v : Option VersionDirective} {tags : List TagDirective} (h : IsDirectives ts v tags) :
    ts.count .flowSequenceStart = ts.count .flowSequenceEnd := by
  induction h <;> simp_all [List.count_cons]

theorem docEnd_balanced (b : Bool) : (docEnd b).count .flowSequenceStart = (docEnd b).count .flowSequenceEnd := by cases b <;> rfl

theorem docs_balanced {ts : List TokenData} {es : List EventData} (h : DerivesDocs false ts es) :
    ts.count .flowSequenceStart = ts.count .flowSequenceEnd := by
  induction h with
  | none => rfl
  | stray h ih => simpa [List.count_cons] using ih
  | doc hd h explicit hs hne ih =>
    have h1 := derives_balanced h
    have h2 := directives_balanced hd
    have h3 := docEnd_balanced explicit
    simp [List.count_cons, List.count_append]
    omega

theorem stream_balanced {ts : List TokenData} {es : List EventData} (h : DerivesStream false ts es) :
    ts.count .flowSequenceStart = ts.count .flowSequenceEnd := by
  cases h with
  | explicit e h hne => simpa [List.count_cons, List.count_append] using docs_balanced h
  | implicit e h explicit hs hne =>
    have h1 := derives_balanced h
    have h2 := docs_balanced hs
    have h3 := docEnd_balanced explicit
    simp [List.count_cons, List.count_append]
    omega

/-- `[?]]` -/
def laxSample : List SrcItem := [.data [0x5B, 0x3F, 0x5D, 0x5D]]

/-- The parser reads `[?]]` to the end. -/
theorem laxSample_parses : ∃ evs o, Parses 999 (new laxSample) evs o ∧ Whole evs :=
  ⟨_, _, parseN_parses 10 (new laxSample) (by decide +kernel), whole_iff.2 ⟨(parseN 999 9 (new laxSample)).1.map (·.data), by decide +kernel, by decide +kernel⟩⟩

theorem laxSample_tokens {ts : List Token} {os : ScannerObj} (hr : ScannerObj.Reads 999 (ScannerObj.new laxSample) ts os) {es : List EventData}
    (hd : DerivesStream false (ts.map (·.data)) es) : False := by
  have hs : ScannerObj.Reads 999 (ScannerObj.new laxSample) (readN 999 6 (ScannerObj.new laxSample)).1 _ := readN_reads _ _ (by decide +kernel)
  have hl : (readN 999 6 (ScannerObj.new laxSample)).1.map (·.data) = [.streamStart .utf8, .flowSequenceStart, .key, .flowSequenceEnd, .flowSequenceEnd, .streamEnd] := by
    decide +kernel
  have e := reads_unique (show 4 * srcSize laxSample + 4 < 999 by decide) hr hs (stream_end hd)
    ⟨[.streamStart .utf8, .flowSequenceStart, .key, .flowSequenceEnd, .flowSequenceEnd], hl, by simp⟩
  rw [e, hl] at hd
  have := stream_balanced hd
  simp [List.count_cons] at this

/-- C55 as stated is false: `[?]]` is read to the end without an error, but its tokens are not a stream
of the YAML grammar. -/
theorem C55_refuted : ¬ ∀ (items : List SrcItem) (enc : Encoding) (F : Nat) (evs : List Event) (o : ParserObj), 4 * srcSize items + 4 < F →
    Parses F (new items enc) evs o → Whole evs →
    ∃ ts os, ScannerObj.Reads F (ScannerObj.new items enc) ts os ∧ DerivesStream false (ts.map (·.data)) (evs.map (·.data)) := by
  intro h
  obtain ⟨evs, o, hp, hw⟩ := laxSample_parses
  obtain ⟨ts, os, hr, hd⟩ := h laxSample .any 999 evs o (by decide) hp hw
  exact laxSample_tokens hr hd

/-- The hypotheses of `C55_only_yaml_partial` and `C55_only_grammar_partial` are met by the sample of C47. -/
theorem C55_sample : ∃ evs o, Parses 999 (new grammarSample) evs o ∧ Whole evs ∧ evs.length = 22 ∧ KeysGiven grammarTokens := by
  refine ⟨_, _, parseN_parses 22 (new grammarSample) (by decide +kernel), whole_iff.2 ⟨(parseN 999 21 (new grammarSample)).1.map (·.data), by decide +kernel, by decide +kernel⟩,
    by decide +kernel, ?_⟩
  have : ∀ (l : List TokenData) (i : Nat) (a : List TokenData) (d : TokenData) (b : List TokenData), l = a ++ .key :: d :: b → l[a.length + 1]? = some d ∧ l[a.length]? = some .key := by
    rintro l i a d b rfl
    simp
  intro a d b e
  have h1 := this _ 0 a d b e
  have hl : a.length < 27 := by
    have := congrArg List.length e
    simp [grammarTokens] at this
    omega
  generalize a.length = k at h1 hl
  have : ∀ k < 27, grammarTokens[k]? = some .key → (grammarTokens[k + 1]? ≠ some .value ∧ grammarTokens[k + 1]? ≠ some .flowEntry ∧
      grammarTokens[k + 1]? ≠ some .flowSequenceEnd) := by decide +kernel
  obtain ⟨h3, h4, h5⟩ := this k hl h1.2
  rw [h1.1] at h3 h4 h5
  exact ⟨fun h => h3 (by rw [h]), fun h => h4 (by rw [h]), fun h => h5 (by rw [h])⟩

/-! ### The grammar is unambiguous -/

theorem does_once {fin : Out Token} {m : Pars Event} {r : List PSt} {D : List TagDirective} {l : List Token} {ev ev' : EventData} {x x' : PSt} {r1 r1' : List PSt}
    {D1 D1' : List TagDirective} {l1 l1' : List Token} (hfin : ∃ e, fin = .err e) (h : Does fin m r D l ev x r1 D1 l1) (h' : Does fin m r D l ev' x' r1' D1' l1') :
    ev = ev' ∧ x = x' ∧ r1 = r1' ∧ D1 = D1' ∧ l1 = l1' := by
  let p : PState := { PState.new with states := r, tagDirectives := D }
  have a := h p true true rfl rfl
  have b := h' p true true rfl rfl
  obtain ⟨e, rfl⟩ := hfin
  have c := execL_of_wp p (m p) (wp_andL _ _ _ _ a b)
  generalize execL p (m p) _ = q at c
  obtain ⟨⟨out, p'⟩, g'⟩ := q
  cases out with
  | ok v =>
    rcases c with ⟨⟨rfl, rfl, rfl, rfl, pk, rfl⟩, ⟨c1, c2, c3, c4, pk', c5⟩⟩ | ⟨_, c, _⟩ | ⟨c, _⟩
    · exact ⟨c1, c2, c3, c4, (congrArg Toks.toks c5 : _)⟩
    · simp at c
    · simp at c
  | err e' =>
    rcases c with ⟨c, _⟩ | ⟨_, c, _⟩ | ⟨c, _⟩
    · exact c.elim
    · simp at c
    · simp at c
  | panic y =>
    rcases c with ⟨c, _⟩ | ⟨_, _, c⟩ | ⟨c, _⟩
    · exact c.elim
    · simp at c
    · simp at c
  | fuel =>
    rcases c with ⟨c, _⟩ | ⟨_, c, _⟩ | ⟨_, c⟩
    · exact c.elim
    · simp at c
    · simp at c

theorem calls_once {fin : Out Token} (hfin : ∃ e, fin = .err e) {x y y' : PSt} {r ry ry' : List PSt} {D Dy Dy' : List TagDirective} {l ly ly' : List Token}
    {es es' : List EventData} (h : Calls F fin x r D l es y ry Dy ly) (hy : y = .end_) (h' : Calls F fin x r D l es' y' ry' Dy' ly') (hy' : y' = .end_) :
    es = es' := by
  induction h generalizing es' with
  | nil =>
    cases h' with
    | nil => rfl
    | cons hx => exact absurd hy hx
  | cons hx h hs ih =>
    cases h' with
    | nil => exact absurd hy' hx
    | cons hx' h2 hs2 =>
      obtain ⟨rfl, rfl, rfl, rfl, rfl⟩ := does_once hfin h h2
      rw [ih hy hs2]

/-- A token stream stands for one list of events only. -/
theorem C47_unambiguous {lax lax' : Bool} {ts : List TokenData} {es es' : List EventData} (h : DerivesStream lax ts es) (h' : DerivesStream lax' ts es') : es = es' := by
  have hl : (ts.map fun d => (⟨d, Mark.zero, Mark.zero⟩ : Token)).map (·.data) = ts := by rw [List.map_map]; exact List.map_id ts
  exact calls_once (fin := .err (.io .unexpectedEof)) ⟨_, rfl⟩ (stream_claim h hl (Nat.lt_succ_self _)) rfl (stream_claim h' hl (Nat.lt_succ_self _)) rfl

end Yaml.Props
