import Verif.Lib.Twin8
import Verif.Props.Yaml
import Verif.Props.Same

/-
C59: the choice of line breaks is invisible.
-/

namespace Yaml.Tw
open Yaml Yaml.Spec

theorem placeOf_mk {m m' : Mark} (h : Mk 0 m m') : placeOf m = placeOf m' := by
  obtain ⟨i, l, c⟩ := m
  obtain ⟨i', l', c'⟩ := m'
  have h1 : l = l' := h.1
  have h2 : c = c' := h.2
  subst h1 h2
  rfl

theorem placeOf_mz {m m' : Mark} (h : Mz 0 m m') : placeOf m = placeOf m' := by
  rcases h with h | ⟨rfl, rfl⟩
  · exact placeOf_mk h
  · rfl

theorem Tk.placed {t t' : Token} (h : Tk 0 t t') : tokenPlaced t = tokenPlaced t' := by
  unfold tokenPlaced
  rw [placeOf_mk h.start, placeOf_mk h.stop, h.data]

theorem Er.placed {e e' : Err} (h : Er 0 e e') : errPlaced e = errPlaced e' := by
  cases h with
  | same => rfl
  | scanner c p h h' => simp only [errPlaced, placeOf_mz h, placeOf_mz h']
  | parser c p h h' => simp only [errPlaced, placeOf_mz h, placeOf_mz h']
  | composer c p h h' => simp only [errPlaced, placeOf_mz h, placeOf_mz h']

theorem Ev'.placed {e e' : Event} (h : Ev' 0 e e') : eventPlaced e = eventPlaced e' := by
  obtain ⟨h1, h2, h3⟩ := h.mz
  unfold eventPlaced
  rw [placeOf_mz h2, placeOf_mz h3, h1]

theorem Zip.map_eq {A B C : Type} {R : A → B → Prop} {f : A → C} {g : B → C} {l : List A} {l' : List B} (h : Zip R l l') (hf : ∀ a b, R a b → f a = g b) :
    l.map f = l'.map g := by
  induction h with
  | nil => rfl
  | cons h _ ih => rw [List.map_cons, List.map_cons, hf _ _ h, ih]

theorem Dc.placed {d d' : Document} (h : Dc 0 d d') : documentPlaced d = documentPlaced d' := by
  unfold documentPlaced
  rw [placeOf_mz h.start, placeOf_mz h.stop, h.version, h.tags, h.si, h.ei]
  rw [h.nodes.map_eq (g := fun n => { n with startMark := placeOf n.startMark, endMark := placeOf n.endMark })]
  intro n n' hn
  simp only [Node.mk.injEq]
  exact ⟨hn.data, hn.tag, placeOf_mz hn.start, placeOf_mz hn.stop⟩

theorem Rs.placed {x y : Out Token} (h : Rs 0 x y) : placed tokenPlaced x = placed tokenPlaced y := by
  cases h with
  | ok h => simp only [Spec.placed, h.placed]
  | err h => simp only [Spec.placed, h.placed]
  | _ => rfl

theorem Rt.placed {α : Type} {R : α → α → Prop} {f : α → α} (hf : ∀ a b, R a b → f a = f b) {x y : Out α} (h : Rt 0 R x y) : placed f x = placed f y := by
  cases x <;> cases y <;> first
    | exact h.elim
    | simp only [Spec.placed, hf _ _ h]
    | simp only [Spec.placed, Er.placed h]
    | (have h : _ = _ := h; subst h; rfl)
    | rfl

theorem scan_ended {F : Nat} {o : ScannerObj} (h : o.s.streamEndProduced = true) : o.scan F = (.ok ⟨.streamEnd, Mark.zero, Mark.zero⟩, o) := by
  obtain ⟨s, r⟩ := o
  have h : s.streamEndProduced = true := h
  have : Scanner.scan F s = (if s.streamEndProduced then (Pure.pure ⟨.streamEnd, Mark.zero, Mark.zero⟩ : Scan Token) else do
      M.when (!s.tokenAvailable) (Scanner.fetchMoreTokens F)
      match (← M.get).tokens with
      | [] => M.panic .scanNoToken
      | t :: ts => do
        M.modify fun s => { s with
          tokens := ts, tokenAvailable := false, tokensParsed := s.tokensParsed + 1,
          streamEndProduced := s.streamEndProduced || (t.data == .streamEnd) }
        Pure.pure t) s := rfl
  unfold ScannerObj.scan runA
  dsimp only
  rw [this, if_pos h]
  rfl

/-- Related scanners give related results, up to the first failure. -/
theorem Pair.results {enc : Encoding} {n F : Nat} (hF : n + 2 < F) : ∀ (k : Nat) {o1 o2 : ScannerObj}, Pair 0 0 enc o1 o2 n →
    (upToFailure (o1.scans F k)).map (placed tokenPlaced) = (upToFailure (o2.scans F k)).map (placed tokenPlaced) := by
  intro k
  induction k with
  | zero => intros; rfl
  | succ k ih =>
    intro o1 o2 h
    unfold ScannerObj.scans
    by_cases he : o1.s.streamEndProduced = true
    · have he2 : o2.s.streamEndProduced = true := by
        obtain ⟨⟨b1, b2, _, _, hst, _⟩, _⟩ := h
        rw [← hst.se]; exact he
      rw [scan_ended he, scan_ended he2]
      simp only [upToFailure, List.map_cons, ih h]
    · obtain ⟨g1, g2⟩ := h.scan hF (by simpa using he)
      generalize o1.scan F = q1 at g1 g2 ⊢
      generalize o2.scan F = q2 at g1 g2 ⊢
      obtain ⟨x1, o1'⟩ := q1
      obtain ⟨x2, o2'⟩ := q2
      have g1 : Rs 0 x1 x2 := g1
      have hp := g1.placed
      cases g1 with
      | ok g => simp only [upToFailure, List.map_cons, hp, ih (g2 ⟨_, rfl⟩)]
      | err g => simp only [upToFailure, List.map_cons, hp, List.map_nil]
      | panic => rfl
      | fuel => rfl

/-- Related parsers give related results, up to the first failure. -/
theorem Sy.results {F : Nat} {α : Type} {m : Pars α} {R : α → α → Prop} {f : α → α} (hm : Sy 0 F m m R) (hf : ∀ a b, R a b → f a = f b) :
    ∀ (k : Nat) {o1 o2 : ParserObj}, Bo 0 F o1 o2 →
      (ParserObj.results (fun o => o.run F m) k o1).map (placed f) = (ParserObj.results (fun o => o.run F m) k o2).map (placed f) := by
  intro k
  induction k with
  | zero => intros; rfl
  | succ k ih =>
    intro o1 o2 h
    obtain ⟨g1, g2⟩ := hm.run h
    unfold ParserObj.results
    generalize o1.run F m = q1 at g1 g2 ⊢
    generalize o2.run F m = q2 at g1 g2 ⊢
    obtain ⟨x1, o1'⟩ := q1
    obtain ⟨x2, o2'⟩ := q2
    have g1 : Rt 0 R x1 x2 := g1
    have hp := g1.placed hf
    cases x1 with
    | ok a =>
      cases x2 with
      | ok b => simp only [List.map_cons, hp, ih (g2 ⟨_, rfl⟩)]
      | _ => exact g1.elim
    | _ =>
      cases x2 with
      | ok b => exact g1.elim
      | _ => simp only [List.map_cons, hp, List.map_nil]

end Yaml.Tw

namespace Yaml.Props
open Yaml Yaml.Spec Yaml.Tw
set_option linter.unusedVariables false

variable {T1 T2 : Str} {enc1 enc2 e : Encoding} {items1 items2 : List SrcItem} {F : Nat}

/-- C59.  Two texts that differ only in their line breaks (LF, CR, CR LF or NEL at each) are scanned into the same tokens, and if an error ends the
scan, into the same error; only the index in their marks may differ. -/
theorem C59_tokens (h : unixBreaks T1 = unixBreaks T2) (ha1 : ∀ c ∈ T1, Allowed c) (ha2 : ∀ c ∈ T2, Allowed c)
    (hd1 : TextSent items1 T1 enc1 e) (hd2 : TextSent items2 T2 enc2 e) (hs1 : 4 * srcSize items1 < Reader.maxInput) (hs2 : 4 * srcSize items2 < Reader.maxInput)
    (hF1 : srcSize items1 + 2 < F) (hF2 : srcSize items2 + 2 < F) (k : Nat) :
    (upToFailure ((ScannerObj.new items1 enc1).scans F k)).map (placed tokenPlaced) =
      (upToFailure ((ScannerObj.new items2 enc2).scans F k)).map (placed tokenPlaced) := by
  obtain ⟨c1, l1⟩ := hd1.clean ha1
  obtain ⟨c2, l2⟩ := hd2.clean ha2
  have b1 := bytesOf_length items1
  have b2 := bytesOf_length items2
  exact Pair.results (n := max T1.length T2.length) (by omega) k (Pair.start c1 c2 hs1 hs2 (nm_of_unix _ (Nat.le_refl _) h) (by omega) (by omega))

theorem bo_start (h : unixBreaks T1 = unixBreaks T2) (ha1 : ∀ c ∈ T1, Allowed c) (ha2 : ∀ c ∈ T2, Allowed c)
    (hd1 : TextSent items1 T1 enc1 e) (hd2 : TextSent items2 T2 enc2 e) (hs1 : 4 * srcSize items1 < Reader.maxInput) (hs2 : 4 * srcSize items2 < Reader.maxInput)
    (hF1 : 4 * srcSize items1 + 4 < F) (hF2 : 4 * srcSize items2 + 4 < F) : Bo 0 F (ParserObj.new items1 enc1) (ParserObj.new items2 enc2) := by
  obtain ⟨c1, l1⟩ := hd1.clean ha1
  obtain ⟨c2, l2⟩ := hd2.clean ha2
  have b1 := bytesOf_length items1
  have b2 := bytesOf_length items2
  obtain ⟨ts1, f1, g1, _, k1, _⟩ := tokens_of_input c1.future hF1
  obtain ⟨ts2, f2, g2, _, k2, _⟩ := tokens_of_input c2.future hF2
  obtain ⟨z1, z2⟩ := scans_pair (F := F) (n := max T1.length T2.length) (by omega)
    (Pair.start c1 c2 hs1 hs2 (nm_of_unix _ (Nat.le_refl _) h) (by omega) (by omega)) g1 g2
  exact Bo.start g1 g2 k1 z1 z2

/-- C59, events: the results of `k` calls of `parse`, up to and including the first error. -/
theorem C59_events (h : unixBreaks T1 = unixBreaks T2) (ha1 : ∀ c ∈ T1, Allowed c) (ha2 : ∀ c ∈ T2, Allowed c)
    (hd1 : TextSent items1 T1 enc1 e) (hd2 : TextSent items2 T2 enc2 e) (hs1 : 4 * srcSize items1 < Reader.maxInput) (hs2 : 4 * srcSize items2 < Reader.maxInput)
    (hF1 : 4 * srcSize items1 + 4 < F) (hF2 : 4 * srcSize items2 + 4 < F) (k : Nat) :
    (ParserObj.results (ParserObj.parse F) k (ParserObj.new items1 enc1)).map (placed eventPlaced) =
      (ParserObj.results (ParserObj.parse F) k (ParserObj.new items2 enc2)).map (placed eventPlaced) :=
  Sy.parse.results (fun _ _ h => h.placed) k (bo_start h ha1 ha2 hd1 hd2 hs1 hs2 hF1 hF2)

/-- C59, documents: the results of `k` calls of `load`, up to and including the first error. -/
theorem C59_documents (h : unixBreaks T1 = unixBreaks T2) (ha1 : ∀ c ∈ T1, Allowed c) (ha2 : ∀ c ∈ T2, Allowed c)
    (hd1 : TextSent items1 T1 enc1 e) (hd2 : TextSent items2 T2 enc2 e) (hs1 : 4 * srcSize items1 < Reader.maxInput) (hs2 : 4 * srcSize items2 < Reader.maxInput)
    (hF1 : 4 * srcSize items1 + 4 < F) (hF2 : 4 * srcSize items2 + 4 < F) (k : Nat) :
    (ParserObj.results (ParserObj.load F) k (ParserObj.new items1 enc1)).map (placed documentPlaced) =
      (ParserObj.results (ParserObj.load F) k (ParserObj.new items2 enc2)).map (placed documentPlaced) :=
  Sy.load.results (fun _ _ h => h.placed) k (bo_start h ha1 ha2 hd1 hd2 hs1 hs2 hF1 hF2)

/-- The same two-document stream with a block scalar, a folded plain scalar and a quoted one, with LF and with all of CR, CR LF and NEL. -/
def unixText : Str := cs! "- |2+\n   a\n\n  b\n\n- x\n  y\n- 'p\n\n  q'\n...\n--- {a: b}\n"
def mixedText : Str := cs! "- |2+\r\n   a\r\n\x85  b\r\r\n- x\r  y\n- 'p\x85\r  q'\r\n...\x85--- {a: b}\r"

/-- The hypotheses of C59 are met by the two. -/
example : unixBreaks unixText = unixBreaks mixedText ∧ unixText ≠ mixedText ∧
    TextSent [.data (utf8Encode unixText)] unixText .utf8 .utf8 ∧ TextSent [.data (utf8Encode mixedText)] mixedText .utf8 .utf8 ∧
    4 * srcSize [.data (utf8Encode mixedText)] < Reader.maxInput ∧ 4 * srcSize [.data (utf8Encode mixedText)] + 4 < 400 :=
  ⟨by decide +kernel, by decide +kernel, .utf8 (by simp [Quiet]) (by simp [bytesOf]), .utf8 (by simp [Quiet]) (by simp [bytesOf]), by decide +kernel, by decide +kernel⟩

/-- They consist of allowed characters. -/
example : (∀ c ∈ unixText, isAllowed c = true) ∧ ∀ c ∈ mixedText, isAllowed c = true := by
  have h : unixText.all isAllowed = true ∧ mixedText.all isAllowed = true := by decide +kernel
  exact ⟨fun c hc => List.all_eq_true.1 h.1 c hc, fun c hc => List.all_eq_true.1 h.2 c hc⟩

/-- And the result is not trivial: two documents, the first of them with these three scalars. -/
example : (match ParserObj.results (ParserObj.load 400) 2 (ParserObj.new [.data (utf8Encode mixedText)] .utf8) with
    | [.ok d, .ok d'] => (d.nodes.filterMap fun n => match n.data with | .scalar v _ => some v | _ => none, d'.nodes.length)
    | _ => ([], 0)) = ([cs! " a\n\nb\n\n", cs! "x y", cs! "p\nq"], 3) := by decide +kernel

/-- The index does differ. -/
example : (ParserObj.results (ParserObj.parse 400) 4 (ParserObj.new [.data (utf8Encode mixedText)] .utf8)) ≠
    (ParserObj.results (ParserObj.parse 400) 4 (ParserObj.new [.data (utf8Encode unixText)] .utf8)) := by decide +kernel

/-- LS and PS (U+2028, U+2029) are not interchangeable with LF: they stay in the value. -/
theorem C59_other_breaks :
    (ParserObj.results (ParserObj.parse 90) 4 (ParserObj.new [.data (utf8Encode (cs! "|\n a\u2028 b\n"))] .utf8)).map (placed eventPlaced) ≠
    (ParserObj.results (ParserObj.parse 90) 4 (ParserObj.new [.data (utf8Encode (cs! "|\n a\n b\n"))] .utf8)).map (placed eventPlaced) := by decide +kernel

end Yaml.Props
