import Verif.Lib.Half4
import Verif.Props.Loader

/-
C66: an error while reading spoils nothing that was returned before.
-/

namespace Yaml.Props
open Yaml Spec Hf
set_option linter.unusedVariables false

variable {items1 items2 : List SrcItem} {enc1 enc2 : Encoding} {X : List Char} {F : Nat}

theorem half_start {e : Encoding} (h1 : BreaksOff items1 enc1 e X) (h2 : Clean enc2 items2 e X) (hs : 4 * srcSize items2 < Reader.maxInput) :
    Half e (ScannerObj.new items1 enc1) (ScannerObj.new items2 enc2) X.length := by
  obtain ⟨D, hD, t, rfl⟩ := broken_of h1
  exact Half.start (hD.begins t) h2 hs

/-- C66, tokens.  Two sources: the first breaks off, the second delivers a text which the first may have been the
beginning of.  Any number of calls of `scan` return the same on both; or they do up to a reading error on the first. -/
theorem C66_tokens (k : Nat) (ns : List Nat) (r : Rd) (h1 : BreaksOff items1 enc1 r.encoding X)
    (h2 : pull ns { items := items2, encoding := enc2 } = (.ok X, r)) (hend : X.length < ns.sum)
    (hs : 4 * srcSize items2 < Reader.maxInput) (hF : X.length + 2 < F) :
    (ScannerObj.new items1 enc1).scans F k = (ScannerObj.new items2 enc2).scans F k ∨
    ∃ l e r1 r2, ReadingError e ∧ (ScannerObj.new items1 enc1).scans F k = l ++ .err e :: r1 ∧ (ScannerObj.new items2 enc2).scans F k = l ++ r2 :=
  Half.scans hF k (half_start h1 (clean_of_pull h2 hend) hs)

theorem same_results {e : Encoding} {α : Type} {m : Pars α} (hm : _root_.Yaml.Sync F m) (hm' : ∀ x, Hf.Sync F x m) (k : Nat)
    (h1 : BreaksOff items1 enc1 e X) (h2 : Clean enc2 items2 e X) (hs : 4 * srcSize items2 < Reader.maxInput)
    (hF1 : 4 * srcSize items1 + 4 < F) (hF2 : 4 * srcSize items2 + 4 < F) :
    ParserObj.results (fun o => o.run F m) k (ParserObj.new items1 enc1) = ParserObj.results (fun o => o.run F m) k (ParserObj.new items2 enc2) ∨
    ∃ l x rest, ReadingError x ∧ ParserObj.results (fun o => o.run F m) k (ParserObj.new items1 enc1) = l ++ [.err x] ∧
      ParserObj.results (fun o => o.run F m) k (ParserObj.new items2 enc2) = l ++ rest := by
  obtain ⟨T1, hT1⟩ := Future.exists enc1 items1
  obtain ⟨ts1, f1, g1, _, l1, k1⟩ := tokens_of_input hT1 hF1
  obtain ⟨ts2, f2, g2, _, l2, _⟩ := tokens_of_input h2.future hF2
  have hl := h2.future.length_le
  rcases Half.tokens (F := F) (by omega) g1 (half_start h1 h2 hs) g2 with ⟨rfl, rfl⟩ | ⟨x, more, hx, rfl, rfl⟩
  · exact .inl (hm.results k ⟨rfl, ts1, f1, _, _, _, _, (PInv.start g1).rel, (PInv.start g2).rel, (PInv.start g1).good, l1,
      k1.imp (fun ⟨e, h, _⟩ => ⟨e, h⟩) (fun ⟨x, h, _⟩ => ⟨x, h⟩)⟩)
  · rcases (hm' x).results k (o1 := ParserObj.new items1 enc1) (o2 := ParserObj.new items2 enc2) ⟨rfl, ts1, more, f2, _, _, _, _, _, _, (PInv.start g1).rel, (PInv.start g2).rel, (PInv.start g1).good, (PInv.start g2).good, l2⟩ with h | ⟨l, rest, e1, e2⟩
    · exact .inl h
    · exact .inr ⟨l, x, rest, hx, e1, e2⟩

/-- C66, events. -/
theorem C66_events (k : Nat) (ns : List Nat) (r : Rd) (h1 : BreaksOff items1 enc1 r.encoding X)
    (h2 : pull ns { items := items2, encoding := enc2 } = (.ok X, r)) (hend : X.length < ns.sum)
    (hs : 4 * srcSize items2 < Reader.maxInput) (hF1 : 4 * srcSize items1 + 4 < F) (hF2 : 4 * srcSize items2 + 4 < F) :
    ParserObj.results (ParserObj.parse F) k (ParserObj.new items1 enc1) = ParserObj.results (ParserObj.parse F) k (ParserObj.new items2 enc2) ∨
    ∃ l e rest, ReadingError e ∧ ParserObj.results (ParserObj.parse F) k (ParserObj.new items1 enc1) = l ++ [.err e] ∧
      ParserObj.results (ParserObj.parse F) k (ParserObj.new items2 enc2) = l ++ rest :=
  same_results _root_.Yaml.Sync.parse (fun _ => Hf.Sync.parse) k h1 (clean_of_pull h2 hend) hs hF1 hF2

/-- C66, documents. -/
theorem C66_documents (k : Nat) (ns : List Nat) (r : Rd) (h1 : BreaksOff items1 enc1 r.encoding X)
    (h2 : pull ns { items := items2, encoding := enc2 } = (.ok X, r)) (hend : X.length < ns.sum)
    (hs : 4 * srcSize items2 < Reader.maxInput) (hF1 : 4 * srcSize items1 + 4 < F) (hF2 : 4 * srcSize items2 + 4 < F) :
    ParserObj.results (ParserObj.load F) k (ParserObj.new items1 enc1) = ParserObj.results (ParserObj.load F) k (ParserObj.new items2 enc2) ∨
    ∃ l e rest, ReadingError e ∧ ParserObj.results (ParserObj.load F) k (ParserObj.new items1 enc1) = l ++ [.err e] ∧
      ParserObj.results (ParserObj.load F) k (ParserObj.new items2 enc2) = l ++ rest :=
  same_results _root_.Yaml.Sync.load (fun _ => Hf.Sync.load) k h1 (clean_of_pull h2 hend) hs hF1 hF2

/-! ### The end is not reported -/

/-- C66.  Over a source that breaks off, of the tokens returned before the first error none is the end of the stream. -/
theorem C66_no_end_token {e : Encoding} {ts : List Token} {o : ScannerObj} (h : BreaksOff items1 enc1 e X) (hs : 64 * srcSize items1 + 64 < Reader.maxInput)
    (hF : 8 * srcSize items1 + 10 < F) (hr : ScannerObj.Reads F (ScannerObj.new items1 enc1) ts o) : ∀ t ∈ ts, isStreamEnd t = false := by
  obtain ⟨D, hD, _⟩ := broken_of h
  exact end_not_reached hD hs hF hr

theorem first_end_event {o o' : ParserObj} {evs : List Event} (h : ParserObj.Parses F o evs o') (he : ∃ t ∈ evs, isStreamEndEvent t = true) :
    ∃ us t o'', ParserObj.Parses F o (us ++ [t]) o'' ∧ isStreamEndEvent t = true ∧ EventsEndOnce (us ++ [t]) := by
  induction h with
  | nil => simp at he
  | @snoc ts t p q hr hs ih =>
    by_cases hh : ∃ t ∈ ts, isStreamEndEvent t = true
    · exact ih hh
    · refine ⟨ts, t, q, .snoc hr hs, ?_, ?_⟩
      · obtain ⟨u, hu, h1⟩ := he
        rcases List.mem_append.1 hu with hu | hu
        · exact absurd ⟨u, hu, h1⟩ hh
        · simp only [List.mem_singleton] at hu
          rw [← hu]; exact h1
      · intro u hu
        rw [List.dropLast_concat] at hu
        cases h1 : isStreamEndEvent u with
        | false => rfl
        | true => exact absurd ⟨u, hu, h1⟩ hh

/-- C66.  No event is the end of the stream. -/
theorem C66_no_end_event {e : Encoding} {evs : List Event} {o : ParserObj} (h : BreaksOff items1 enc1 e X) (hs : 64 * srcSize items1 + 64 < Reader.maxInput)
    (hF : 8 * srcSize items1 + 10 < F) (hr : ParserObj.Parses F (ParserObj.new items1 enc1) evs o) : ∀ e ∈ evs, isStreamEndEvent e = false := by
  intro t ht
  cases h1 : isStreamEndEvent t with
  | false => rfl
  | true =>
    exfalso
    obtain ⟨us, u, o', g1, g2, g3⟩ := first_end_event hr ⟨t, ht, h1⟩
    obtain ⟨T, ts, fin, G, D, c, toks, st, pk, hT, k1, _, _, _, hp⟩ := parses_once (by omega) g1 g3
    obtain ⟨so, hr⟩ := k1.reads hp.split
    have hno := C66_no_end_token h hs hF hr
    have hm := hp.made
    generalize hc' : c = c' at hm
    generalize hu : us ++ [u] = us' at hm
    cases hm with
    | nil => simp at hu
    | @snoc ts' c0 evs' e hm hc =>
      obtain ⟨_, hu⟩ := List.append_inj' hu rfl
      simp only [List.cons.injEq, and_true] at hu
      subst hu
      have hd : u.data = .streamEnd := by simpa [isStreamEndEvent] using g2
      obtain ⟨_, c1, t, rfl, ht⟩ : Plain c0 ∧ ∃ (c1 : List Token) (t : Token), c0 = c1 ++ [t] ∧ t.data = .streamEnd := by rw [hd] at hc; exact hc
      have := hno t (by rw [hc']; simp)
      simp [isStreamEnd, ht] at this

/-- C66.  No document is the one without nodes that says there are no more. -/
theorem C66_no_last_document {e : Encoding} {ds : List Document} {o : ParserObj} (h : BreaksOff items1 enc1 e X) (hs : 64 * srcSize items1 + 64 < Reader.maxInput)
    (hF : 16 * srcSize items1 + 10 < F) (hr : ParserObj.Loads F (ParserObj.new items1 enc1) ds o) : ∀ d ∈ ds, d.nodes ≠ [] := by
  induction hr with
  | nil => simp
  | @snoc ds d o1 o2 hr hl ih =>
    intro x hx
    rcases List.mem_append.1 hx with hx | hx
    · exact ih x hx
    · simp only [List.mem_singleton] at hx
      subst hx
      intro hn
      obtain ⟨evs, g1, _, _, g4⟩ := C24_empty_iff_ended hF (.snoc hr hl)
      obtain ⟨v, hv, hw⟩ := g4.1 hn
      rw [C66_no_end_event h hs (by omega) g1 v hv] at hw
      simp at hw

/-! ### Concrete cases -/

/-- `- a`, `- é` and half a character; then the source fails, or what follows is no text. -/
def halfList : List SrcItem := [.data [0x2D, 0x20, 0x61, 0x0A, 0x2D], .intr, .data [0x20, 0xC3], .fail .other, .data [0xA9, 0x0A]]
def badList : List SrcItem := [.data [0x2D, 0x20, 0x61, 0x0A, 0x2D], .data [0x20, 0xC3], .data [0x0A]]
/-- How it might have gone on. -/
def fullList : List SrcItem := [.data [0x2D, 0x20, 0x61, 0x0A, 0x2D], .intr, .data [0x20, 0xC3], .data [0xA9, 0x0A]]

def fullText : List Char := cs! "- a\n- é\n"

/-- The hypotheses of C66 are met by the two, with the same text. -/
theorem C66_sample : pull [100] { items := fullList } = (.ok fullText, (pull [100] { items := fullList }).2) ∧ fullText.length < [100].sum ∧
    BreaksOff halfList .any (pull [100] { items := fullList }).2.encoding fullText ∧ BreaksOff badList .any (pull [100] { items := fullList }).2.encoding fullText ∧
    4 * srcSize fullList < Reader.maxInput ∧ 64 * srcSize halfList + 64 < Reader.maxInput ∧ 16 * srcSize fullList + 10 < 400 ∧ 16 * srcSize halfList + 10 < 400 := by
  have h : pull [100] { items := fullList } = (.ok fullText, (pull [100] { items := fullList }).2) := by decide +kernel
  have he : (pull [100] { items := fullList }).2.encoding = .utf8 := by decide +kernel
  refine ⟨h, by decide, ?_, ?_, by decide +kernel, by decide +kernel, by decide +kernel, by decide +kernel⟩
  · exact BreaksOff.failed (p := [.data [0x2D, 0x20, 0x61, 0x0A, 0x2D], .intr, .data [0x20, 0xC3]]) (rest := [.data [0xA9, 0x0A]]) h (by decide)
  · rw [he]
    refine BreaksOff.bad (T := cs! "- a\n- ") (Y := [0xC3, 0x0A]) (.inr ⟨rfl, ?_⟩) (by decide +kernel) (by decide) (by simp) ?_ (by decide)
    · rintro be ⟨x, hx⟩
      cases be <;> simp [bom16, badList, bytesOf] at hx
    · intro c R hY
      exfalso
      have h : decodeOne 0xC3 [0x0A] = .invalid := by decide +kernel
      exact Cu.invalid_prefix h [] c ⟨R, hY.symm⟩

/-- Four tokens and four events come before the error; then the error, and never the end. -/
theorem C66_sample_results : (ScannerObj.new halfList).scans 400 5 = (ScannerObj.new fullList).scans 400 4 ++ [.err (.io .other)] ∧
    (ScannerObj.new badList).scans 400 5 = (ScannerObj.new fullList).scans 400 4 ++ [.err (.reader "invalid UTF-8" 6 0xC3)] ∧
    ParserObj.results (ParserObj.parse 400) 9 (ParserObj.new halfList) = ParserObj.results (ParserObj.parse 400) 4 (ParserObj.new fullList) ++ [.err (.io .other)] ∧
    ParserObj.results (ParserObj.parse 400) 9 (ParserObj.new badList) = ParserObj.results (ParserObj.parse 400) 4 (ParserObj.new fullList) ++ [.err (.reader "invalid UTF-8" 6 0xC3)] := by
  decide +kernel

end Yaml.Props
