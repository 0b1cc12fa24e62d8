import Verif.Lib.Sync
import Verif.Props.Parser
import Verif.Props.Reader

/-
C03, C04: the results depend on the text only, not on the buffers in which it arrives.
C45: scanners after an error.

`pull ns rd = (.ok T, rd')` with `T.length < ns.sum` (Spec/Source.lean): a client that takes characters
gets `T` and then meets the end of the input, i.e. the input decodes to `T`; `rd'.encoding` is the encoding
that was detected (it is reported in the first token).
-/

namespace Yaml.Props
open Yaml Spec

variable {items1 items2 : List SrcItem} {enc1 enc2 : Encoding} {ns1 ns2 : List Nat} {T : List Char} {r1 r2 : Rd} {F : Nat}

theorem clean_of_pull {items : List SrcItem} {enc : Encoding} {ns : List Nat} {r : Rd} (h : pull ns { items := items, encoding := enc } = (.ok T, r)) (hend : T.length < ns.sum) :
    Clean enc items r.encoding T := by
  obtain ⟨t, h1, h2⟩ := pull_back ns (r := { items := items, encoding := enc }) (by simp) h hend
  have : t = T := by simpa using h2
  subst this
  exact h1

/-- C03.  Two inputs that decode to the same text in the same encoding: `k` calls of `scan` return the same
results, tokens, marks and errors (a panic ends the list). -/
theorem C03_tokens_depend_on_text (h1 : pull ns1 { items := items1, encoding := enc1 } = (.ok T, r1)) (hend1 : T.length < ns1.sum)
    (h2 : pull ns2 { items := items2, encoding := enc2 } = (.ok T, r2)) (hend2 : T.length < ns2.sum) (henc : r1.encoding = r2.encoding)
    (hs1 : 4 * srcSize items1 < Reader.maxInput) (hs2 : 4 * srcSize items2 < Reader.maxInput) (hF : T.length + 2 < F) (k : Nat) :
    (ScannerObj.new items1 enc1).scans F k = (ScannerObj.new items2 enc2).scans F k := by
  have c1 := clean_of_pull h1 hend1
  have c2 := clean_of_pull h2 hend2
  rw [← henc] at c2
  exact Twins.scans hF k (Twins.start c1 c2 hs1 hs2)

/-- C03, for UTF-8: the same bytes in any two chunkings. -/
theorem C03_chunking_is_invisible (hb : bytesOf items1 = bytesOf items2) (hq1 : Quiet items1) (hp1 : Prompt items1) (hq2 : Quiet items2) (hp2 : Prompt items2)
    (hallowed : ∀ c ∈ T, Allowed c)
    (hbytes : (bytesOf items1 = utf8Encode T ∧ ∀ c, T.head? = some c → ¬ (0xF000 ≤ c.toNat ∧ c.toNat ≤ 0xFFFF)) ∨ bytesOf items1 = bom8 ++ utf8Encode T)
    (hs1 : 4 * srcSize items1 < Reader.maxInput) (hs2 : 4 * srcSize items2 < Reader.maxInput) (hF : T.length + 2 < F) (k : Nat) :
    (ScannerObj.new items1).scans F k = (ScannerObj.new items2).scans F k := by
  obtain ⟨e1, c1, a1, b1⟩ := clean_any hq1 hp1 (fun c hc => allowed_iff.2 (hallowed c hc)) hbytes
  obtain ⟨e2, c2, a2, b2⟩ := clean_any hq2 hp2 (fun c hc => allowed_iff.2 (hallowed c hc)) (hb ▸ hbytes)
  have : e1 = e2 := by
    by_cases h : bytesOf items1 = []
    · rw [a1 h, a2 (hb ▸ h)]
    · rw [b1 h, b2 (hb ▸ h)]
  subst this
  exact Twins.scans hF k (Twins.start c1 c2 hs1 hs2)

theorem tw_start (c1 : Clean enc1 items1 r1.encoding T) (c2 : Clean enc2 items2 r1.encoding T)
    (hs1 : 4 * srcSize items1 < Reader.maxInput) (hs2 : 4 * srcSize items2 < Reader.maxInput) (hF1 : 4 * srcSize items1 + 4 < F) (hF2 : 4 * srcSize items2 + 4 < F) :
    Tw F (ParserObj.new items1 enc1) (ParserObj.new items2 enc2) := by
  obtain ⟨ts1, f1, g1, _, l1, k1⟩ := tokens_of_input c1.future hF1
  obtain ⟨ts2, f2, g2, _, _, _⟩ := tokens_of_input c2.future hF2
  have hl := c1.future.length_le
  obtain ⟨rfl, rfl⟩ := Twins.same_tokens (F := F) (by omega) g1 (Twins.start c1 c2 hs1 hs2) g2
  exact ⟨rfl, ts1, f1, _, _, _, _, (PInv.start g1).rel, (PInv.start g2).rel, (PInv.start g1).good, l1,
    k1.imp (fun ⟨e, h, _⟩ => ⟨e, h⟩) (fun ⟨x, h, _⟩ => ⟨x, h⟩)⟩

/-- C04, events.  Two inputs that decode to the same text in the same encoding: any number of calls of
`parse`, up to and including the first that is not `Ok`, return the same. -/
theorem C04_events_depend_on_text (h1 : pull ns1 { items := items1, encoding := enc1 } = (.ok T, r1)) (hend1 : T.length < ns1.sum)
    (h2 : pull ns2 { items := items2, encoding := enc2 } = (.ok T, r2)) (hend2 : T.length < ns2.sum) (henc : r1.encoding = r2.encoding)
    (hs1 : 4 * srcSize items1 < Reader.maxInput) (hs2 : 4 * srcSize items2 < Reader.maxInput) (hF1 : 4 * srcSize items1 + 4 < F) (hF2 : 4 * srcSize items2 + 4 < F) (k : Nat) :
    ParserObj.results (ParserObj.parse F) k (ParserObj.new items1 enc1) = ParserObj.results (ParserObj.parse F) k (ParserObj.new items2 enc2) := by
  have c1 := clean_of_pull h1 hend1
  have c2 := clean_of_pull h2 hend2
  rw [← henc] at c2
  exact Sync.parse.results k (tw_start c1 c2 hs1 hs2 hF1 hF2)

/-- C04, documents. -/
theorem C04_documents_depend_on_text (h1 : pull ns1 { items := items1, encoding := enc1 } = (.ok T, r1)) (hend1 : T.length < ns1.sum)
    (h2 : pull ns2 { items := items2, encoding := enc2 } = (.ok T, r2)) (hend2 : T.length < ns2.sum) (henc : r1.encoding = r2.encoding)
    (hs1 : 4 * srcSize items1 < Reader.maxInput) (hs2 : 4 * srcSize items2 < Reader.maxInput) (hF1 : 4 * srcSize items1 + 4 < F) (hF2 : 4 * srcSize items2 + 4 < F) (k : Nat) :
    ParserObj.results (ParserObj.load F) k (ParserObj.new items1 enc1) = ParserObj.results (ParserObj.load F) k (ParserObj.new items2 enc2) := by
  have c1 := clean_of_pull h1 hend1
  have c2 := clean_of_pull h2 hend2
  rw [← henc] at c2
  exact Sync.load.results k (tw_start c1 c2 hs1 hs2 hF1 hF2)

/-- `- é: "x"\n` in one buffer and in many, one of them in the middle of `é`. -/
def oneBuffer : List SrcItem := [.data [0x2D, 0x20, 0xC3, 0xA9, 0x3A, 0x20, 0x22, 0x78, 0x22, 0x0A]]
def manyBuffers : List SrcItem := [.data [0x2D], .data [0x20, 0xC3], .intr, .data [0xA9, 0x3A], .data [], .data [0x20, 0x22], .data [0x78], .data [0x22, 0x0A]]

/-- The hypotheses of C03 and C04 are met by the two. -/
example : pull [100] { items := oneBuffer } = (.ok (cs! "- é: \"x\"\n"), (pull [100] { items := oneBuffer }).2) ∧
    pull [3, 5, 50] { items := manyBuffers } = (.ok (cs! "- é: \"x\"\n"), (pull [3, 5, 50] { items := manyBuffers }).2) ∧
    (pull [100] { items := oneBuffer }).2.encoding = (pull [3, 5, 50] { items := manyBuffers }).2.encoding ∧
    4 * srcSize oneBuffer < Reader.maxInput ∧ 4 * srcSize manyBuffers < Reader.maxInput ∧ 4 * srcSize manyBuffers + 4 < 90 := by decide +kernel

/-- And the results are not trivial: eight events and a document. -/
example : (ParserObj.results (ParserObj.parse 90) 10 (ParserObj.new manyBuffers)).length = 10 ∧
    (∀ r ∈ ParserObj.results (ParserObj.parse 90) 10 (ParserObj.new manyBuffers), ∃ e, r = .ok e) ∧
    (match ParserObj.results (ParserObj.load 90) 1 (ParserObj.new manyBuffers) with | [.ok d] => d.nodes.length | _ => 0) = 4 := by
  refine ⟨by decide +kernel, ?_, by decide +kernel⟩
  have : (ParserObj.results (ParserObj.parse 90) 10 (ParserObj.new manyBuffers)).all (fun r => match r with | .ok _ => true | _ => false) = true := by decide +kernel
  intro r hr
  have := List.all_eq_true.1 this r hr
  cases r with
  | ok e => exact ⟨e, rfl⟩
  | _ => simp at this

/-! ### C45, scanner -/

/-- The panics of the scanner that are known to occur (C07). -/
def knownPanics : List PanicSite := [.escapeAtEof, .readLineBreakEmpty, .tagTodo, .rollIndentOverflow, .flowLevelOverflow]

/-- What every scanner satisfies after any calls, whatever they returned. -/
def Live (o : ScannerObj) : Prop := (∃ b, R b o.r) ∧ (Idle o.s ∨ SDone o.s)

theorem text_le {b : Inp} {r : Rd} (h : R b r) : b.text.length ≤ r.buffer.length + srcSize r.items := by
  obtain ⟨_, t, h1, h2, _⟩ := h
  have := h1.length_le
  rw [h2]; simp; omega

theorem live_scan {o : ScannerObj} (h : Live o) (hF : o.r.buffer.length + srcSize o.r.items + 2 < F) :
    match o.scan F with
    | (.ok _, o') => Live o'
    | (.err _, o') => Live o'
    | (.panic p, _) => p ∈ knownPanics
    | (.fuel, _) => False := by
  obtain ⟨⟨b, hR⟩, hi | hd⟩ := h
  · have hb := text_le hR
    have hw := wpB_scan (F := F) (s := o.s) (b := b) (P := (· ∈ knownPanics)) (E := fun _ s' _ => Idle s' ∨ SDone s') (Q := fun _ s' _ => Idle s' ∨ SDone s') (fun _ _ => True) hi trivial
      (by omega) ⟨fun _ => by simp [knownPanics], fun _ => by simp [knownPanics], fun _ _ => by simp [knownPanics]⟩
      (Or.inr ⟨by simp [knownPanics], by simp [knownPanics]⟩) (fun _ _ _ _ _ _ _ => trivial) (fun _ _ _ _ _ => trivial)
      (fun _ _ _ _ _ _ h => Or.inl h.idle)
      (fun t ts s' b' _ _ _ ha ht => by
        rcases ha.take (t := t) (ts := ts) ht with h | h
        · exact Or.inl h.2
        · exact Or.inr h.2)
    obtain ⟨b', h1, h2⟩ := runA_of_wp hw hR
    unfold ScannerObj.scan
    dsimp only
    generalize runA (Scanner.scan F) o.s o.r = q at h1 h2
    obtain ⟨⟨out, s'⟩, r'⟩ := q
    cases out with
    | ok t => exact ⟨⟨b', h1⟩, h2⟩
    | err e => exact ⟨⟨b', h1⟩, h2⟩
    | panic p => exact h2
    | fuel => exact h2
  · rw [(hd.scan F).1]
    exact ⟨⟨b, hR⟩, Or.inr hd⟩

/-- The call gets enough passes for the text that is still to come, read or unread. -/
def Ample (F : Nat) (o : ScannerObj) : Prop := o.r.buffer.length + srcSize o.r.items + 2 < F

/-- `o'` is the scanner after any number of calls of `scan`, each of which returned `Ok` or `Err`. -/
inductive AnyCalls (o : ScannerObj) : ScannerObj → Prop
  | nil : AnyCalls o o
  | ok {t : Token} {F : Nat} {o1 o2 : ScannerObj} (h : AnyCalls o o1) (hF : Ample F o1) (hs : o1.scan F = (.ok t, o2)) : AnyCalls o o2
  | err {e : Err} {F : Nat} {o1 o2 : ScannerObj} (h : AnyCalls o o1) (hF : Ample F o1) (hs : o1.scan F = (.err e, o2)) : AnyCalls o o2

/-- C45 (part), scanner.  After any calls of `scan`, whether they returned `Ok` or `Err`, the next call returns
`Ok` or `Err`, or panics at one of the five places of C07; it never runs forever and no other assertion or
index can fail.  Missing from the full claim: those five places, see `C45_refuted_scanner`. -/
theorem C45_scan_after_error_partial {items : List SrcItem} {enc : Encoding} {o : ScannerObj}
    (h : AnyCalls (ScannerObj.new items enc) o) (hF : Ample F o) :
    (∃ t, (o.scan F).1 = .ok t) ∨ (∃ e, (o.scan F).1 = .err e) ∨ ∃ p ∈ knownPanics, (o.scan F).1 = .panic p := by
  have hl : Live o := by
    clear hF
    induction h with
    | nil =>
      obtain ⟨T, hT⟩ := Future.exists enc items
      obtain ⟨b, hR, _⟩ := Run.start hT
      exact ⟨⟨b, hR⟩, Or.inl (Or.inl rfl)⟩
    | ok h hF hs ih =>
      have := live_scan ih hF
      rw [hs] at this
      exact this
    | err h hF hs ih =>
      have := live_scan ih hF
      rw [hs] at this
      exact this
  have := live_scan hl hF
  generalize o.scan F = q at this
  obtain ⟨r, o'⟩ := q
  cases r with
  | ok t => exact Or.inl ⟨t, rfl⟩
  | err e => exact Or.inr (Or.inl ⟨e, rfl⟩)
  | panic p => exact Or.inr (Or.inr ⟨p, this, rfl⟩)
  | fuel => exact this.elim

/-- Calls of `scan` whatever they return: the kinds of results. -/
def scanAll (F : Nat) : Nat → ScannerObj → List Nat
  | 0, _ => []
  | n + 1, o =>
    (match (o.scan F).1 with | .ok _ => 0 | .err _ => 1 | .panic _ => 2 | .fuel => 3) :: scanAll F n (o.scan F).2

/-- C45 is false for the scanner: on `!<a "\` (the last character is a backslash) the call after the error
panics. -/
theorem C45_refuted_scanner : scanAll 99 3 (ScannerObj.new [.data [0x21, 0x3C, 0x61, 0x20, 0x22, 0x5C]]) = [0, 1, 2] := by decide +kernel

/-- After the error in `& "a"` scanning goes on to the stream end. -/
example : scanAll 99 6 (ScannerObj.new [.data [0x26, 0x20, 0x22, 0x61, 0x22]]) = [0, 1, 0, 0, 0, 0] := by decide +kernel

end Yaml.Props
