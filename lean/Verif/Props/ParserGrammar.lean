import Verif.Lib.ParseTree3
import Verif.Props.Parser

/-
C47: the parser accepts every token stream of the YAML grammar (Spec/TokenGrammar.lean) and returns
exactly the events it stands for.
-/

namespace Yaml.Props
open Yaml Spec ParserObj

variable {enc : Encoding} {items : List SrcItem} {F : Nat}

theorem reads_nil {o o' : ScannerObj} {us : List Token} (h : ScannerObj.Reads F o us o') (e : us = []) : o' = o := by
  cases h with
  | nil => rfl
  | snoc => simp at e

theorem reads_cons {o o' : ScannerObj} {us : List Token} (h : ScannerObj.Reads F o us o') {t : Token} {ts : List Token} (e : us = t :: ts) :
    ∃ o1, o.scan F = (.ok t, o1) ∧ ScannerObj.Reads F o1 ts o' := by
  induction h generalizing ts with
  | nil => cases e
  | @snoc us0 t0 o1 o2 h hs ih =>
    cases us0 with
    | nil =>
      simp at e
      obtain ⟨rfl, rfl⟩ := e
      exact ⟨_, by rw [← reads_nil h rfl]; exact hs, .nil⟩
    | cons t1 us0 =>
      simp at e
      obtain ⟨rfl, rfl⟩ := e
      obtain ⟨o3, h1, h2⟩ := ih rfl
      exact ⟨o3, h1, .snoc h2 hs⟩

theorem scans_reads {o : ScannerObj} {ts : List Token} {x : Out Token} (h : Scans F o ts x) : ∀ {us : List Token} {t : Token} {o' : ScannerObj},
    ScannerObj.Reads F o (us ++ [t]) o' → (∀ u ∈ us, u.data ≠ .streamEnd) → t.data = .streamEnd →
    ts = us ++ [t] ∧ x = .err (.io .unexpectedEof) := by
  induction h with
  | @stop o x hx hn hp h0 =>
    intro us t o' hr hu ht
    obtain ⟨t1, ts1, e⟩ : ∃ t1 ts1, us ++ [t] = t1 :: ts1 := by cases us <;> exact ⟨_, _, rfl⟩
    obtain ⟨o1, h1, h2⟩ := reads_cons hr e
    rw [h1] at hx
    exact absurd hx.symm (hn t1)
  | @last o o1 t1 hs ht1 h0 hpk h1 h2 =>
    intro us t o' hr hu ht
    cases us with
    | nil =>
      obtain ⟨o2, h3, _⟩ := reads_cons hr rfl
      rw [hs] at h3
      simp at h3
      exact ⟨by simp [h3.1], rfl⟩
    | cons u us =>
      obtain ⟨o2, h3, _⟩ := reads_cons hr rfl
      rw [hs] at h3
      simp at h3
      exact absurd (by rw [← h3.1]; exact ht1) (hu u (by simp))
  | @cons o o1 t1 ts x hs ht1 h0 hpk h1 h2 h ih =>
    intro us t o' hr hu ht
    cases us with
    | nil =>
      obtain ⟨o2, h3, _⟩ := reads_cons hr rfl
      rw [hs] at h3
      simp at h3
      exact absurd (by rw [h3.1]; exact ht) ht1
    | cons u us =>
      obtain ⟨o2, h3, h4⟩ := reads_cons hr rfl
      rw [hs] at h3
      simp at h3
      obtain ⟨rfl, rfl⟩ := h3
      obtain ⟨rfl, rfl⟩ := ih h4 (fun u hu' => hu u (by simp [hu'])) ht
      exact ⟨rfl, rfl⟩

theorem isProps_noEnd {D : List TagDirective} {ps : List TokenData} {a t : Option Str} (h : IsProps D ps a t) : .streamEnd ∉ ps := by
  cases h <;> simp

theorem derives_noEnd {D : List TagDirective} {ph : Phrase} {ts : List TokenData} {es : List EventData} (h : Derives lax D ph ts es) : .streamEnd ∉ ts := by
  induction h <;> simp_all
  all_goals first | exact isProps_noEnd (by assumption) | (rename_i hd; rcases hd with rfl | rfl | rfl <;> simp) | (rename_i hd _ _ _ _; rcases hd with rfl | rfl | rfl <;> simp)

theorem directives_noEnd {ts : List TokenData} {v : Option VersionDirective} {tags : List TagDirective} (h : IsDirectives ts v tags) : .streamEnd ∉ ts := by
  induction h <;> simp_all

theorem docEnd_noEnd (b : Bool) : .streamEnd ∉ docEnd b := by cases b <;> simp [docEnd]

theorem docs_noEnd {ts : List TokenData} {es : List EventData} (h : DerivesDocs lax ts es) : .streamEnd ∉ ts := by
  induction h with
  | none => simp
  | stray h ih => simp [ih]
  | doc hd h explicit hs hne ih => simp [ih, directives_noEnd hd, derives_noEnd h, docEnd_noEnd]

theorem stream_end {ts : List TokenData} {es : List EventData} (h : DerivesStream lax ts es) : ∃ us, ts = us ++ [.streamEnd] ∧ .streamEnd ∉ us := by
  cases h with
  | explicit enc h hne => exact ⟨.streamStart enc :: _, rfl, by simp [docs_noEnd h]⟩
  | @implicit enc n ts es fs h explicit hs hne =>
    exact ⟨.streamStart enc :: (n ++ (docEnd explicit ++ ts)), by simp, by simp [docs_noEnd hs, derives_noEnd h, docEnd_noEnd]⟩

/-- Through the token list. -/
theorem parses_of_scans {ts : List Token} {es : List EventData} (h : Scans F (ScannerObj.new items enc) ts (.err (.io .unexpectedEof)))
    (hF : ts.length < F) (hd : DerivesStream lax (ts.map (·.data)) es) :
    ∃ evs o', Parses F (new items enc) evs o' ∧ evs.map (·.data) = es :=
  (stream_claim hd rfl hF).parses (Or.inl ⟨_, rfl⟩) (o := new items enc) rfl rfl rfl (PInv.start h).rel (by simp)

/-- C47.  If the tokens which `Scanner::scan` returns for an input are, up to their marks, a stream
of the grammar that stands for the events `es`, then `Parser::parse` over the same input returns
just these events, without any error or panic.  (`lax = false` is the YAML grammar; the theorem also
holds of the grammar with the two rules that are not YAML.) -/
theorem C47_grammar_accepted {lax : Bool} (hF : 4 * srcSize items + 4 < F) {ts : List Token} {o : ScannerObj} {es : List EventData}
    (hr : ScannerObj.Reads F (ScannerObj.new items enc) ts o) (hd : DerivesStream lax (ts.map (·.data)) es) :
    ∃ evs o', Parses F (new items enc) evs o' ∧ evs.map (·.data) = es := by
  obtain ⟨T, hT⟩ := Future.exists enc items
  obtain ⟨ts0, fin, h1, h2, h3, h4⟩ := tokens_of_input hT hF
  obtain ⟨us, he, hn⟩ := stream_end hd
  obtain ⟨l1, l2, rfl, hl1, hl2⟩ := List.map_eq_append_iff.1 he
  obtain ⟨t, rfl, ht⟩ := List.map_eq_singleton_iff.1 hl2
  obtain ⟨rfl, rfl⟩ := scans_reads h1 hr (fun u hu hd => hn (by rw [← hl1, ← hd]; exact List.mem_map.2 ⟨u, hu, rfl⟩)) ht
  exact parses_of_scans h1 h3 hd

/-- `a: [b, {c: d}]`, `e:` with an indentless sequence of `f` and `!!str g`, and a second document
`--- x`. -/
def grammarSample : List SrcItem := [.data [0x61, 0x3A, 0x20, 0x5B, 0x62, 0x2C, 0x20, 0x7B, 0x63, 0x3A, 0x20, 0x64, 0x7D, 0x5D, 0x0A, 0x65, 0x3A, 0x0A, 0x2D, 0x20, 0x66, 0x0A, 0x2D, 0x20, 0x21, 0x21, 0x73, 0x74, 0x72, 0x20, 0x67, 0x0A, 0x2D, 0x2D, 0x2D, 0x20, 0x78, 0x0A]]

/-- The tokens of the sample. -/
def grammarTokens : List TokenData :=
  [.streamStart .utf8, .blockMappingStart, .key, .scalar ['a'] .plain, .value, .flowSequenceStart, .scalar ['b'] .plain, .flowEntry,
    .flowMappingStart, .key, .scalar ['c'] .plain, .value, .scalar ['d'] .plain, .flowMappingEnd, .flowSequenceEnd, .key, .scalar ['e'] .plain,
    .value, .blockEntry, .scalar ['f'] .plain, .blockEntry, .tag ['!', '!'] ['s', 't', 'r'], .scalar ['g'] .plain, .blockEnd, .documentStart,
    .scalar ['x'] .plain, .streamEnd]

theorem grammarSample_derives : ∃ es, DerivesStream false grammarTokens es ∧ es.length = 22 := by
  have hf : Derives false [] .flowEntries [.key, .scalar ['c'] .plain, .value, .scalar ['d'] .plain] _ :=
    .lastEntry (.entryPair (.some (.scalar .none ['c'] .plain)) (.some (.scalar .none ['d'] .plain)))
  have hs : Derives false [] (.node true true) [.flowSequenceStart, .scalar ['b'] .plain, .flowEntry, .flowMappingStart, .key, .scalar ['c'] .plain, .value,
      .scalar ['d'] .plain, .flowMappingEnd, .flowSequenceEnd] _ :=
    .flowSeq .none (.moreItems (.itemNode (.scalar .none ['b'] .plain)) (.lastItem (.itemNode (.flowMap .none hf))))
  have hi : Derives false [] (.node true true) [.blockEntry, .scalar ['f'] .plain, .blockEntry, .tag ['!', '!'] ['s', 't', 'r'], .scalar ['g'] .plain] _ :=
    .indentless .none (.item (.some (.scalar .none ['f'] .plain)) (.item (.some (.scalar (.tag (t := some (['t', 'a', 'g', ':', 'y', 'a', 'm', 'l', '.', 'o', 'r', 'g', ',', '2', '0', '0', '2', ':', 's', 't', 'r'])) (by simp [TagIs, prefixOf])) ['g'] .plain)) .noItems)) (by simp)
  have hm := Derives.blockMap (D := []) (i := false) .none (.keyValue (.some (.scalar .none ['a'] .plain)) (.some hs)
    (.keyValue (.some (.scalar .none ['e'] .plain)) (.some hi) .noEntries))
  have hd := DerivesDocs.doc (lax := false) .none (.some (.scalar .none ['x'] .plain)) false .none (by simp)
  exact ⟨_, DerivesStream.implicit .utf8 hm false hd (by simp), by simp [scalarEvent]⟩

/-- The hypotheses of `C47_grammar_accepted` are met by the sample. -/
theorem C47_sample : ∃ o es, ScannerObj.Reads 999 (ScannerObj.new grammarSample) (readN 999 27 (ScannerObj.new grammarSample)).1 o ∧
    (readN 999 27 (ScannerObj.new grammarSample)).1.map (·.data) = grammarTokens ∧
    DerivesStream false grammarTokens es ∧ es.length = 22 ∧ 4 * srcSize grammarSample + 4 < 999 := by
  obtain ⟨es, h, hl⟩ := grammarSample_derives
  exact ⟨_, es, readN_reads _ _ (by decide +kernel), by decide +kernel, h, hl, by decide +kernel⟩

end Yaml.Props
