import Verif.Lib.Ahead3
import Verif.Lib.Need
import Verif.Spec.OnTime
import Verif.Props.Behind

/-
C61: a document with an explicit end is returned as soon as one character behind its `...` was
delivered; nothing more of the source is read, whatever it holds.
-/

namespace Yaml.Nd
open Yaml Yaml.Dx Yaml.Spec Scanner ParserObj
set_option linter.unusedSimpArgs false
set_option linter.unusedVariables false

variable {F : Nat} {X : List SrcItem} {enc : Encoding}

theorem scan_plus {o o' : ScannerObj} {x : Out Token} (h : RC0 enc o.r) (hs : o.scan F = (x, o')) :
    RC0 enc o'.r ∧ (o.r.eof = true → o'.r.eof = true) ∧ (o'.r.eof = false → (o.goesOn X).scan F = (x, o'.goesOn X)) := by
  obtain ⟨h1, h2, h3⟩ := exec_plus (X := X) (Scanner.scan F o.s) h
  unfold ScannerObj.scan runA at hs ⊢
  dsimp only at hs ⊢
  simp only [Prod.mk.injEq] at hs
  obtain ⟨rfl, rfl⟩ := hs
  refine ⟨h1, h2, fun he => ?_⟩
  have : execA (Scanner.scan F (o.goesOn X).s) (o.goesOn X).r = _ := h3 he
  rw [this]
  rfl

theorem run_plus {α : Type} {m : Pars α} {o o' : ParserObj} {x : Out α} (h : RC0 enc o.r) (hs : o.run F m = (x, o')) :
    RC0 enc o'.r ∧ (o.r.eof = true → o'.r.eof = true) ∧ (o'.r.eof = false → (o.goesOn X).run F m = (x, o'.goesOn X)) := by
  obtain ⟨h1, h2, h3⟩ := exec_plus (X := X) (Parser.onScanner F m (o.p, o.s)) h
  unfold ParserObj.run runA at hs ⊢
  dsimp only at hs ⊢
  simp only [Prod.mk.injEq] at hs
  obtain ⟨rfl, rfl⟩ := hs
  refine ⟨h1, h2, fun he => ?_⟩
  have : execA (Parser.onScanner F m ((o.goesOn X).p, (o.goesOn X).s)) (o.goesOn X).r = _ := h3 he
  rw [this]
  rfl

theorem not_before {a b : Bool} (h : a = true → b = true) (hb : b = false) : a = false := by cases a <;> simp_all

theorem reads_plus {o0 o : ScannerObj} {ts : List Token} (h0 : RC0 enc o0.r) (h : ScannerObj.Reads F o0 ts o) :
    RC0 enc o.r ∧ (o.r.eof = false → ScannerObj.Reads F (o0.goesOn X) ts (o.goesOn X)) := by
  induction h with
  | nil => exact ⟨h0, fun _ => .nil⟩
  | snoc h hs ih =>
    obtain ⟨i1, i2⟩ := ih
    obtain ⟨k1, k2, k3⟩ := scan_plus (X := X) i1 hs
    exact ⟨k1, fun he => .snoc (i2 (not_before k2 he)) (k3 he)⟩

theorem parses_plus {o0 o : ParserObj} {evs : List Event} (h0 : RC0 enc o0.r) (h : Parses F o0 evs o) :
    RC0 enc o.r ∧ (o.r.eof = false → Parses F (o0.goesOn X) evs (o.goesOn X)) := by
  induction h with
  | nil => exact ⟨h0, fun _ => .nil⟩
  | snoc h hs ih =>
    obtain ⟨i1, i2⟩ := ih
    obtain ⟨k1, k2, k3⟩ := run_plus (X := X) i1 hs
    exact ⟨k1, fun he => .snoc (i2 (not_before k2 he)) (k3 he)⟩

theorem loads_plus {o0 o : ParserObj} {ds : List Document} (h0 : RC0 enc o0.r) (h : Loads F o0 ds o) :
    RC0 enc o.r ∧ (o.r.eof = false → Loads F (o0.goesOn X) ds (o.goesOn X)) := by
  induction h with
  | nil => exact ⟨h0, fun _ => .nil⟩
  | snoc h hs ih =>
    obtain ⟨i1, i2⟩ := ih
    obtain ⟨k1, k2, k3⟩ := run_plus (X := X) i1 hs
    exact ⟨k1, fun he => .snoc (i2 (not_before k2 he)) (k3 he)⟩

end Yaml.Nd

namespace Yaml.Props
open Yaml Yaml.Spec Yaml.Nd Yaml.Dx
set_option linter.unusedSimpArgs false
set_option linter.unusedVariables false

variable {F : Nat} {items : List SrcItem} {enc e : Encoding} {T : Str}

/-- C61, tokens.  A scanner over the text `T` returned tokens the last of which is a document end, and `T` has a character behind it.  Then a scanner
over a source that delivers `T` and then anything at all returns the same tokens, and has read nothing of what follows. -/
theorem C61_tokens (ha : ∀ c ∈ T, Allowed c) (hd : TextSent items T enc e) (hs : 4 * srcSize items < Reader.maxInput) (hF : srcSize items + 2 < F)
    {ts : List Token} {d : Token} {o : ScannerObj} (h : ScannerObj.Reads F (ScannerObj.new items enc) (ts ++ [d]) o) (he : d.data = .documentEnd) (hm : MoreThan T d.endMark)
    (X : List SrcItem) : ScannerObj.Reads F (ScannerObj.new (items ++ X) enc) (ts ++ [d]) (o.goesOn X) := by
  obtain ⟨hc, hlen⟩ := hd.clean ha
  have hb := bytesOf_length items
  obtain ⟨A, c, r, hT, hA⟩ := hm
  have := reads_not_ended hc hs (by omega) h he (no_end_before hc.future hF h he) hT hA
  exact (reads_plus (X := X) (RC0.of (RC.start hc hs)) h).2 this

theorem end_not_ended (ha : ∀ c ∈ T, Allowed c) (hd : TextSent items T enc e) (hs : 4 * srcSize items < Reader.maxInput) (hF : 4 * srcSize items + 4 < F)
    {evs : List Event} {ev : Event} {o : ParserObj} (h : ParserObj.Parses F (ParserObj.new items enc) (evs ++ [ev]) o) (he : ev.data = .documentEnd false) (hm : MoreThan T ev.endMark) :
    o.r.eof = false := by
  obtain ⟨hc, hlen⟩ := hd.clean ha
  have hb := bytesOf_length items
  obtain ⟨ts, fin, h1, h2, h3, h4⟩ := tokens_of_input hc.future hF
  have hfin : (∃ e, fin = .err e) ∨ ∃ x, fin = .panic x := h4.imp (fun ⟨e, h, _⟩ => ⟨e, h⟩) (fun ⟨x, h, _⟩ => ⟨x, h⟩)
  obtain ⟨c, t, g1, g2, g3⟩ := parses_reads h1 h3 hfin h he
  obtain ⟨A, c, r, hT, hA⟩ := hm
  exact reads_not_ended hc hs (by omega) g1 g2 (no_end_before hc.future (by omega) g1 g2) hT (hA.trans g3)

/-- C61, events: the same for a parser that has returned an explicit document end. -/
theorem C61_events (ha : ∀ c ∈ T, Allowed c) (hd : TextSent items T enc e) (hs : 4 * srcSize items < Reader.maxInput) (hF : 4 * srcSize items + 4 < F)
    {evs : List Event} {ev : Event} {o : ParserObj} (h : ParserObj.Parses F (ParserObj.new items enc) (evs ++ [ev]) o) (he : ev.data = .documentEnd false) (hm : MoreThan T ev.endMark)
    (X : List SrcItem) : ParserObj.Parses F (ParserObj.new (items ++ X) enc) (evs ++ [ev]) (o.goesOn X) := by
  obtain ⟨hc, hlen⟩ := hd.clean ha
  exact (parses_plus (X := X) (RC0.of (RC.start hc hs)) h).2 (end_not_ended ha hd hs hF h he hm)

/-- C61, documents: the same for calls of `load` the last of which returned a document with an explicit end. -/
theorem C61_documents (ha : ∀ c ∈ T, Allowed c) (hd : TextSent items T enc e) (hs : 4 * srcSize items < Reader.maxInput) (hF : 16 * srcSize items + 10 < F)
    {ds : List Document} {dc : Document} {o : ParserObj} (h : ParserObj.Loads F (ParserObj.new items enc) (ds ++ [dc]) o) (hn : dc.nodes ≠ []) (he : dc.endImplicit = false)
    (hm : MoreThan T dc.endMark) (X : List SrcItem) : ParserObj.Loads F (ParserObj.new (items ++ X) enc) (ds ++ [dc]) (o.goesOn X) := by
  obtain ⟨hc, hlen⟩ := hd.clean ha
  obtain ⟨evs, ev, p1, p2, p3⟩ := load_last hF h hn
  rw [he] at p2
  rw [← p3] at hm
  exact (loads_plus (X := X) (RC0.of (RC.start hc hs)) h).2 (end_not_ended ha hd hs (by omega) p1 p2 hm)

/-! ### Concrete cases -/

def onTimeText : Str := cs! "- a\n- b\n...\n"

/-- The hypotheses of C61 are met by a text that ends right behind its `...` and a line break. -/
theorem C61_sample : (∀ c ∈ onTimeText, Allowed c) ∧ 4 * srcSize (sent onTimeText) < Reader.maxInput ∧ 16 * srcSize (sent onTimeText) + 10 < 500 ∧ MoreThan onTimeText ⟨11, 2, 3⟩ ∧
    (∃ dc o, ParserObj.Loads 500 (ParserObj.new (sent onTimeText) .utf8) ([] ++ [dc]) o ∧ dc.nodes ≠ [] ∧ dc.endImplicit = false ∧ dc.endMark = ⟨11, 2, 3⟩) ∧
    (∃ evs ev o, ParserObj.Parses 500 (ParserObj.new (sent onTimeText) .utf8) (evs ++ [ev]) o ∧ ev.data = .documentEnd false ∧ ev.endMark = ⟨11, 2, 3⟩) ∧
    (∃ ts d o, ScannerObj.Reads 500 (ScannerObj.new (sent onTimeText) .utf8) (ts ++ [d]) o ∧ d.data = .documentEnd ∧ d.endMark = ⟨11, 2, 3⟩) := by
  refine ⟨by decide +kernel, by decide +kernel, by decide +kernel, ⟨cs! "- a\n- b\n...", '\n', [], by decide +kernel, by decide +kernel⟩, ?_, ?_, ?_⟩
  · have h := loadN_loads (F := 500) 1 (ParserObj.new (sent onTimeText) .utf8) (by decide +kernel)
    generalize hq : (loadN 500 1 (ParserObj.new (sent onTimeText) .utf8)).1 = q at h
    have h1 : (q.map fun d => (d.nodes.length, d.endImplicit, d.endMark)) = [(3, false, ⟨11, 2, 3⟩)] := by rw [← hq]; decide +kernel
    obtain ⟨dc, rfl, h2⟩ := List.map_eq_singleton_iff.1 h1
    have h1 := Prod.mk.inj h2
    have h1 := And.intro h1.1 (Prod.mk.inj h1.2)
    exact ⟨dc, _, h, fun hn => by rw [hn] at h1; simp at h1, h1.2.1, h1.2.2⟩
  · have h := parseN_parses (F := 500) 7 (ParserObj.new (sent onTimeText) .utf8) (by decide +kernel)
    have e : (parseN 500 7 (ParserObj.new (sent onTimeText) .utf8)).1 =
        (parseN 500 6 (ParserObj.new (sent onTimeText) .utf8)).1 ++ [⟨.documentEnd false, ⟨8, 2, 0⟩, ⟨11, 2, 3⟩⟩] := by decide +kernel
    rw [e] at h
    exact ⟨_, _, _, h, rfl, rfl⟩
  · have h := readN_reads (F := 500) 8 (ScannerObj.new (sent onTimeText) .utf8) (by decide +kernel)
    have e : (readN 500 8 (ScannerObj.new (sent onTimeText) .utf8)).1 =
        (readN 500 7 (ScannerObj.new (sent onTimeText) .utf8)).1 ++ [⟨.documentEnd, ⟨8, 2, 0⟩, ⟨11, 2, 3⟩⟩] := by decide +kernel
    rw [e] at h
    exact ⟨_, _, _, h, rfl, rfl⟩

/-- The one character is needed: of a source that fails right behind the `...`, the document is not returned; and a document that is not ended explicitly
is not returned before something else starts. -/
theorem C61_one_needed :
    (∀ k, ((ParserObj.new (sent (cs! "- a\n- b\n...") ++ [.fail k]) .utf8).load 500).1 = .err (.io k)) ∧
    (∀ k, (match ((ParserObj.new (sent (cs! "- a\n- b\n...\n") ++ [.fail k]) .utf8).load 500).1 with | .ok d => d.nodes.length | _ => 0) = 3) ∧
    (∀ k, ((ParserObj.new (sent (cs! "- a\n- b\n\n\n\n\n") ++ [.fail k]) .utf8).load 500).1 = .err (.io k)) := by
  refine ⟨?_, ?_, ?_⟩ <;> intro k <;> cases k <;> decide +kernel

end Yaml.Props
