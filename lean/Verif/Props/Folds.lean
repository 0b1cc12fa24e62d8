import Verif.Lib.EmitFolded3
import Verif.Props.Block

/-
C34, with lines that start with spaces: exactly which strings come back.
-/

namespace Yaml.Props
open Yaml Spec

/-- What becomes of every string in folded style; missing for C34: it is not always the string itself
(`C34_refuted`, `C34_refuted_spaces`, `C34_refuted_width`).  For every string the analysis allows in block style, in every emitter
state whose indentation is one step inside the enclosing block, and wherever long lines are folded: the text
written in folded style, followed by a line break unless the value ends with one, and by anything less indented, is
scanned as one folded scalar; it is the string written if and only if at every line feed the look-ahead tells what is
needed (`foldsWell`) and no line that starts with a space is folded (`indentedKept`). -/
theorem C34_folded_iff_partial (v : Str) (s : EState) (hl : s.lineBreak ≠ .any) (hi : 1 ≤ s.indent) (hb : 1 ≤ s.bestIndent ∧ s.bestIndent ≤ 9)
    (h : (Emitter.analyzeScalar s.unicode v).blockAllowed = true) :
    ∃ w s', (∀ W, execText (Emitter.writeFolded v s) W = ((.ok (), s'), W ++ (if s.whitespace then [] else [' ']) ++ '>' :: w)) ∧
      ∀ (T rest : Str) (sc : SState) (e : Encoding) (F : Nat), BlockEnd v s.indent T rest → (s.lineBreak ≠ .cr ∨ T.head? ≠ some '\n') →
        s.indent = max sc.indent 0 + s.bestIndent → w.length + T.length + 1 < F →
        (∀ m : Mark, let t := '>' :: w ++ T; Scanner.dispatch F m 0 t[0]? t[1]? t[2]? t[3]? = Scanner.fetchBlockScalar F false) ∧
        ∃ u pre m, '>' :: w ++ T = pre ++ rest ∧ runT (Scanner.scanBlockScalar F false) sc ⟨'>' :: w ++ T, e⟩ =
          ((.ok ⟨.scalar u .folded, sc.mark, m⟩, { sc with mark := advance sc.mark pre }), ⟨rest, e⟩) ∧
          (u = v ↔ foldsWell [] v = true ∧ indentedKept (s.bestWidth - s.indent) [] v = true) := by
  have hok := Emitter.blockOk_of h
  obtain ⟨s', w, h1, h2, h3, h4, h5, h6⟩ := Emitter.writes_writeFolded3 v s hl hi hb hok
  refine ⟨w, s', fun W => ?_, fun T rest sc e F he hcr hin hF => ⟨fun m => ?_, ?_⟩⟩
  · rw [h1 W, List.append_assoc]; rfl
  · simp [Scanner.dispatch]
  · obtain ⟨fin, k, ht, hk, hso⟩ := tail_of hok.nonempty he hcr
    obtain ⟨u, hbs, hu⟩ := h6 sc.indent T fin _ k rest (by rw [hin]; split <;> omega) ht rfl hk hso
    obtain ⟨pre, m, h7, h8⟩ := C33_block_scanned false _ u rest sc e F hbs (by simp; omega)
    exact ⟨u, pre, m, h7, h8, hu⟩

/-- C34, for the strings with `foldsWell` and `indentedKept`: they come back. -/
theorem C34_folded_spaces_partial (v : Str) (s : EState) (hl : s.lineBreak ≠ .any) (hi : 1 ≤ s.indent) (hb : 1 ≤ s.bestIndent ∧ s.bestIndent ≤ 9)
    (h : (Emitter.analyzeScalar s.unicode v).blockAllowed = true) (hf : foldsWell [] v = true) (hw : indentedKept (s.bestWidth - s.indent) [] v = true) :
    ∃ w s', (∀ W, execText (Emitter.writeFolded v s) W = ((.ok (), s'), W ++ (if s.whitespace then [] else [' ']) ++ '>' :: w)) ∧
      ∀ (T rest : Str) (sc : SState) (e : Encoding) (F : Nat), BlockEnd v s.indent T rest → (s.lineBreak ≠ .cr ∨ T.head? ≠ some '\n') →
        s.indent = max sc.indent 0 + s.bestIndent → w.length + T.length + 1 < F →
        (∀ m : Mark, let t := '>' :: w ++ T; Scanner.dispatch F m 0 t[0]? t[1]? t[2]? t[3]? = Scanner.fetchBlockScalar F false) ∧
        ∃ pre m, '>' :: w ++ T = pre ++ rest ∧ runT (Scanner.scanBlockScalar F false) sc ⟨'>' :: w ++ T, e⟩ =
          ((.ok ⟨.scalar v .folded, sc.mark, m⟩, { sc with mark := advance sc.mark pre }), ⟨rest, e⟩) := by
  obtain ⟨w, s', h1, h2⟩ := C34_folded_iff_partial v s hl hi hb h
  refine ⟨w, s', h1, fun T rest sc e F he hcr hin hF => ?_⟩
  obtain ⟨h3, u, pre, m, h4, h5, h6⟩ := h2 T rest sc e F he hcr hin hF
  rw [h6.2 ⟨hf, hw⟩] at h5
  exact ⟨h3, pre, m, h4, h5⟩

/-- The strings of `C34_folded_round_trip_partial` are among them. -/
theorem foldsWell_of_foldOk : ∀ (cs l : Str), foldOkB l.isEmpty cs = true → l.head? ≠ some ' ' → (l = [] → cs.head? ≠ some ' ') → foldsWell l cs = true := by
  intro cs
  induction cs with
  | nil => intros; rfl
  | cons c cs ih =>
    intro l h hl h0
    rw [foldsWell]
    simp only [foldOkB, Bool.and_eq_true] at h
    by_cases hc : isLineBreak c = true
    · rw [if_pos hc, Bool.and_eq_true]
      rw [hc] at h
      have hcs : cs.head? ≠ some ' ' := by
        cases cs with
        | nil => simp
        | cons x cs =>
          have h2 := h.2
          simp only [foldOkB, Bool.and_eq_true, Bool.not_true, Bool.false_or] at h2
          intro e
          simp at e
          subst e
          simp [isLineBreak] at h2
      refine ⟨?_, ih [] h.2 (by simp) (fun _ => hcs)⟩
      have key : ∀ t : Str, foldOkB true t = true → foldTold l (firstLine (t.dropWhile isLineBreak)) = true := by
        intro t
        induction t with
        | nil => intro _; simp [foldTold, firstLine]
        | cons x t iht =>
          intro ht
          by_cases hx : isLineBreak x = true
          · rw [List.dropWhile_cons, if_pos hx]
            refine iht ?_
            simp only [foldOkB, hx, Bool.and_eq_true] at ht
            exact ht.2
          · have hx' : isLineBreak x = false := by simpa using hx
            rw [List.dropWhile_cons, if_neg hx]
            simp only [foldOkB, hx', Bool.and_eq_true] at ht
            have h1 := ht.1
            cases t with
            | nil => simp at h1
            | cons y t =>
              simp at h1
              have e : firstLine (x :: y :: t) = x :: y :: firstLine t := by simp [firstLine, List.takeWhile_cons, hx', h1.2.2]
              rw [e]
              simp [foldTold]
              right
              rw [Bool.eq_iff_iff]
              simp [h1.1, h1.2.1]
      rw [key cs h.2]; simp
    · have hc' : isLineBreak c = false := by simpa using hc
      rw [if_neg hc]
      rw [hc'] at h
      have he : (l ++ [c]).isEmpty = false := by cases l <;> rfl
      refine ih (l ++ [c]) (by rw [he]; exact h.2) ?_ (by simp)
      cases l with
      | nil => simpa using h0 rfl
      | cons y l => simpa using hl

/-- Lines that start with spaces, one of which is long. -/
example : foldsWell [] (cs! "  one two three\nfour\n\n  five\n six\nseven eight\n") = true ∧
    indentedKept (17 - 2) [] (cs! "  one two three\nfour\n\n  five\n six\nseven eight\n") = true ∧
    (Emitter.analyzeScalar false (cs! "  one two three\nfour\n\n  five\n six\nseven eight\n")).blockAllowed = true ∧
    (execText (Emitter.writeFolded (cs! "  one two three\nfour\n\n  five\n six\nseven eight\n") { emitter1 with bestWidth := 17 }) []).2 =
      cs! ">2\r\n    one two three\r\n  four\r\n\r\n    five\r\n   six\r\n  seven eight\r\n" ∧
    (runT (Scanner.scanBlockScalar 100 false) scanner1 ⟨cs! ">2\r\n    one two three\r\n  four\r\n\r\n    five\r\n   six\r\n  seven eight\r\nnext", .utf8⟩).1.1 =
      .ok ⟨.scalar (cs! "  one two three\nfour\n\n  five\n six\nseven eight\n") .folded, ⟨7, 1, 3⟩, ⟨73, 8, 0⟩⟩ := by
  decide +kernel

/-- A line with one space: it reads back with one more line feed before it. -/
theorem C34_refuted_spaces : (Emitter.analyzeScalar false (cs! "aa\n bb")).blockAllowed = true ∧ foldsWell [] (cs! "aa\n bb") = false ∧
    (execText (Emitter.writeFolded (cs! "aa\n bb") emitter1) []).2 = cs! ">-\r\n  aa\r\n\r\n   bb" ∧
    (runT (Scanner.scanBlockScalar 100 false) scanner1 ⟨cs! ">-\r\n  aa\r\n\r\n   bb\r\n", .utf8⟩).1.1 =
      .ok ⟨.scalar (cs! "aa\n\n bb") .folded, ⟨7, 1, 3⟩, ⟨26, 5, 0⟩⟩ := by
  decide +kernel

/-- The width matters: a line that starts with a space and is folded reads back with a line feed in it. -/
theorem C34_refuted_width : (Emitter.analyzeScalar false (cs! " aa bb cc")).blockAllowed = true ∧ foldsWell [] (cs! " aa bb cc") = true ∧
    indentedKept (5 - 2) [] (cs! " aa bb cc") = false ∧
    (execText (Emitter.writeFolded (cs! " aa bb cc") { emitter1 with bestWidth := 5 }) []).2 = cs! ">2-\r\n   aa bb\r\n  cc" ∧
    (runT (Scanner.scanBlockScalar 100 false) scanner1 ⟨cs! ">2-\r\n   aa bb\r\n  cc\r\n", .utf8⟩).1.1 =
      .ok ⟨.scalar (cs! " aa bb\ncc") .folded, ⟨7, 1, 3⟩, ⟨28, 4, 0⟩⟩ := by
  decide +kernel

end Yaml.Props
