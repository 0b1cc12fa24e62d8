import Verif.Lib.EmitFolded
import Verif.Props.Plain

/-
C33, C34: block scalars written and read back.  What the text of a block scalar denotes is specified in
Spec/Block.lean.
-/

namespace Yaml.Props
open Yaml Yaml.Spec
set_option linter.unusedSimpArgs false
set_option linter.unusedVariables false

/-- Wherever the scanner stands, a text that starts with a literal or folded scalar denoting `v` (in a block of
the scanner's current indentation) is scanned as a scalar token with the value `v`; exactly the scalar and
the indentation of the next line are consumed; nothing in the scanner but its position changes. -/
theorem C33_block_scanned (literal : Bool) (t v rest : Str) (s : SState) (e : Encoding) (F : Nat)
    (h : BlockScalar (!literal) s.indent t v rest) (hF : t.length < F) :
    ∃ pre m, t = pre ++ rest ∧ runT (Scanner.scanBlockScalar F literal) s ⟨t, e⟩ =
        ((.ok ⟨.scalar v (if literal then .literal else .folded), s.mark, m⟩, { s with mark := advance s.mark pre }), ⟨rest, e⟩) := by
  have h1 := wpT_scanBlockScalar (P := fun _ => False) (E := fun _ _ _ => False) (e := e) (s := s)
    (Q := fun tok s' b => ∃ m, tok = ⟨.scalar v (if literal then .literal else .folded), s.mark, m⟩ ∧ Mv s t s' rest ∧ b = ⟨rest, e⟩)
    h hF (fun s' m hs' => ⟨m, rfl, hs', rfl⟩)
  have h2 := (wp_stepT _ _ _).1 h1
  unfold runT
  generalize execT (Scanner.scanBlockScalar F literal s) ⟨t, e⟩ = q at h2
  obtain ⟨⟨o, s'⟩, b⟩ := q
  cases o with
  | ok tok =>
    obtain ⟨m, rfl, ⟨hs, pre, h3, h4, h5⟩, rfl⟩ := h2
    refine ⟨pre, m, h3, ?_⟩
    rw [← h4, ← hs]
  | err e => exact h2.elim
  | panic p => exact h2.elim
  | fuel => exact h2.elim

/-- What must follow a block scalar with the value `v` indented by `n`: a line break, unless the value ends
with one, and then a line indented less, or the end. -/
def BlockEnd (v : Str) (n : Int) (T rest : Str) : Prop :=
  ∃ k : Nat, (k : Int) < n ∧ Solid rest ∧
    if (∃ c, v.getLast? = some c ∧ isLineBreak c = true) then T = List.replicate k ' ' ++ rest
    else ∃ c, BreakAt T c (List.replicate k ' ' ++ rest)

theorem tail_of {v : Str} {n : Int} {T rest : Str} {lb : Break} (hv : v ≠ []) (h : BlockEnd v n T rest) (hcr : lb ≠ .cr ∨ T.head? ≠ some '\n') :
    ∃ fin k, Emitter.Tail lb (Emitter.endsBrk true v) T fin (List.replicate k ' ' ++ rest) ∧ k < n.toNat ∧ Solid rest := by
  obtain ⟨k, hk, hs, h⟩ := h
  rw [Emitter.endsBrk_last]
  cases hr : v.reverse with
  | nil => simp at hr; exact absurd hr hv
  | cons c r =>
    have hlast : v.getLast? = some c := by
      rw [← List.head?_reverse, hr]; rfl
    simp only []
    rw [hlast] at h
    by_cases hc : isBreak c = true
    · rw [if_pos ⟨c, rfl, by rw [isLineBreak_eq]; exact hc⟩] at h
      exact ⟨[], k, ⟨fun _ => ⟨rfl, h, hcr⟩, fun hc' => by rw [hc] at hc'; cases hc'⟩, by omega, hs⟩
    · rw [if_neg (by rintro ⟨d, hd, hb⟩; cases hd; rw [isLineBreak_eq] at hb; exact hc hb)] at h
      obtain ⟨x, h⟩ := h
      exact ⟨[x], k, ⟨fun hc' => absurd hc' hc, fun _ => ⟨x, rfl, h⟩⟩, by omega, hs⟩

/-- C33.  For every string the analysis allows in block style, in every emitter state whose indentation is
one step inside the enclosing block: the text written in literal style (header with indentation and
chomping indicators, and lines), followed by a line break unless the value ends with one, and by anything
less indented, is scanned back as exactly that string.  (With CR line breaks, the text after a value that
ends with a line break must not start with LF.) -/
theorem C33_literal_round_trip (v : Str) (s : EState) (hl : s.lineBreak ≠ .any) (hi : 1 ≤ s.indent) (hb : 1 ≤ s.bestIndent ∧ s.bestIndent ≤ 9)
    (h : (Emitter.analyzeScalar s.unicode v).blockAllowed = true) :
    ∃ w s', (∀ W, execText (Emitter.writeLiteral v s) W = ((.ok (), s'), W ++ (if s.whitespace then [] else [' ']) ++ '|' :: w)) ∧
      ∀ (T rest : Str) (sc : SState) (e : Encoding) (F : Nat), BlockEnd v s.indent T rest → (s.lineBreak ≠ .cr ∨ T.head? ≠ some '\n') →
        s.indent = max sc.indent 0 + s.bestIndent → w.length + T.length + 1 < F →
        (∀ m : Mark, let t := '|' :: w ++ T; Scanner.dispatch F m 0 t[0]? t[1]? t[2]? t[3]? = Scanner.fetchBlockScalar F true) ∧
        ∃ pre m, '|' :: w ++ T = pre ++ rest ∧ runT (Scanner.scanBlockScalar F true) sc ⟨'|' :: w ++ T, e⟩ =
          ((.ok ⟨.scalar v .literal, sc.mark, m⟩, { sc with mark := advance sc.mark pre }), ⟨rest, e⟩) := by
  have hok := Emitter.blockOk_of h
  obtain ⟨s', w, h1, h2, h3, h4, h5, h6⟩ := Emitter.writes_writeLiteral v s hl hi hb hok
  refine ⟨w, s', fun W => ?_, fun T rest sc e F he hcr hin hF => ⟨fun m => ?_, ?_⟩⟩
  · rw [h1 W, List.append_assoc]; rfl
  · simp [Scanner.dispatch]
  · obtain ⟨fin, k, ht, hk, hso⟩ := tail_of hok.nonempty he hcr
    have hbs := h6 sc.indent T fin _ k rest (by rw [hin]; split <;> omega) ht rfl hk hso
    exact C33_block_scanned true _ v rest sc e F hbs (by simp; omega)

/-- A block-context emitter state. -/
def emitter1 : EState := { emitter0 with whitespace := true, indent := 2, bestIndent := 2 }

example : (Emitter.analyzeScalar false (cs! "  a\n b\n\nc\n\n")).blockAllowed = true ∧
    (execText (Emitter.writeLiteral (cs! "  a\n b\n\nc\n\n") emitter1) []).2 = cs! "|2+\r\n    a\r\n   b\r\n\r\n  c\r\n\r\n" ∧
    emitter1.indent = max scanner1.indent 0 + emitter1.bestIndent ∧
    (runT (Scanner.scanBlockScalar 100 true) scanner1 ⟨cs! "|2+\r\n    a\r\n   b\r\n\r\n  c\r\n\r\nnext: x", .utf8⟩).1.1 =
      .ok ⟨.scalar (cs! "  a\n b\n\nc\n\n") .literal, ⟨7, 1, 3⟩, ⟨34, 7, 0⟩⟩ := by
  decide +kernel

/-- C34 is false of the code: for `a`, line feed, `b`, which the analysis allows in block style, the folded text
written reads back as `a b`: the look-ahead of write_folded_scalar skips one character too many. -/
theorem C34_refuted : (Emitter.analyzeScalar false (cs! "a\nb")).blockAllowed = true ∧
    (execText (Emitter.writeFolded (cs! "a\nb") emitter1) []).2 = cs! ">-\r\n  a\r\n  b" ∧
    (runT (Scanner.scanBlockScalar 100 false) scanner1 ⟨cs! ">-\r\n  a\r\n  b\r\n", .utf8⟩).1.1 =
      .ok ⟨.scalar (cs! "a b") .folded, ⟨7, 1, 3⟩, ⟨21, 4, 0⟩⟩ := by
  decide +kernel

/-- The strings whose lines suit the look-ahead: no line starts with a space, and every line after the first
that is not empty has at least two characters, the second of which is not a space. -/
def FoldOk (v : Str) : Prop :=
  v.head? ≠ some ' ' ∧ ∀ p b x r, v = p ++ b :: x :: r → isLineBreak b = true → isLineBreak x = false →
    x ≠ ' ' ∧ ∃ y r', r = y :: r' ∧ y ≠ ' ' ∧ isLineBreak y = false

/-- C34, for strings with `FoldOk`; missing: the strings without it, some of which do not round-trip
(`C34_refuted`).  For every such string the analysis allows in block style, in every emitter state whose
indentation is one step inside the enclosing block, and wherever long lines are folded: the text written in
folded style, followed by a line break unless the value ends with one, and by anything less indented, is
scanned back as exactly that string. -/
theorem C34_folded_round_trip_partial (v : Str) (s : EState) (hl : s.lineBreak ≠ .any) (hi : 1 ≤ s.indent) (hb : 1 ≤ s.bestIndent ∧ s.bestIndent ≤ 9)
    (h : (Emitter.analyzeScalar s.unicode v).blockAllowed = true) (hf : FoldOk v) :
    ∃ w s', (∀ W, execText (Emitter.writeFolded v s) W = ((.ok (), s'), W ++ (if s.whitespace then [] else [' ']) ++ '>' :: w)) ∧
      ∀ (T rest : Str) (sc : SState) (e : Encoding) (F : Nat), BlockEnd v s.indent T rest → (s.lineBreak ≠ .cr ∨ T.head? ≠ some '\n') →
        s.indent = max sc.indent 0 + s.bestIndent → w.length + T.length + 1 < F →
        (∀ m : Mark, let t := '>' :: w ++ T; Scanner.dispatch F m 0 t[0]? t[1]? t[2]? t[3]? = Scanner.fetchBlockScalar F false) ∧
        ∃ pre m, '>' :: w ++ T = pre ++ rest ∧ runT (Scanner.scanBlockScalar F false) sc ⟨'>' :: w ++ T, e⟩ =
          ((.ok ⟨.scalar v .folded, sc.mark, m⟩, { sc with mark := advance sc.mark pre }), ⟨rest, e⟩) := by
  have hok := Emitter.blockOk_of h
  have hfs : Emitter.FoldSuffix v := by
    intro p b x r e hb hx
    rw [← isLineBreak_eq] at hb hx
    obtain ⟨h1, y, r', h2, h3, h4⟩ := hf.2 p b x r e hb hx
    refine ⟨h1, ?_⟩
    rw [isLineBreak_eq] at h4
    have hy : y ≠ '\t' := fun h => Emitter.printable_noTab (hok.chars y (by rw [e, h2]; simp)) h
    rw [h2]
    simp [isBlankzO, isBlankO, isSpaceO, isTabO, isBreakzO, isBreakO, h3, h4, hy]
  obtain ⟨s', w, h1, h2, h3, h4, h5, h6⟩ := Emitter.writes_writeFolded v s hl hi hb hok hfs hf.1
  refine ⟨w, s', fun W => ?_, fun T rest sc e F he hcr hin hF => ⟨fun m => ?_, ?_⟩⟩
  · rw [h1 W, List.append_assoc]; rfl
  · simp [Scanner.dispatch]
  · obtain ⟨fin, k, ht, hk, hso⟩ := tail_of hok.nonempty he hcr
    have hbs := h6 sc.indent T fin _ k rest (by rw [hin]; split <;> omega) ht rfl hk hso
    exact C33_block_scanned false _ v rest sc e F hbs (by simp; omega)

/-- A checker for `FoldOk`. -/
def foldOkB : Bool → Str → Bool
  | _, [] => true
  | start, x :: r => (!start || isLineBreak x || (x != ' ' && match r with | [] => false | y :: _ => y != ' ' && !isLineBreak y)) && foldOkB (isLineBreak x) r

theorem foldOkB_at : ∀ (p : Str) (st : Bool) (b x : Char) (r : Str), foldOkB st (p ++ b :: x :: r) = true → isLineBreak b = true → isLineBreak x = false →
    x ≠ ' ' ∧ ∃ y r', r = y :: r' ∧ y ≠ ' ' ∧ isLineBreak y = false := by
  intro p
  induction p with
  | nil =>
    intro st b x r h hb hx
    simp only [List.nil_append, foldOkB, hb, hx, Bool.and_eq_true] at h
    have h := h.2.1
    cases r with
    | nil => simp at h
    | cons y r => simp at h; exact ⟨h.1, y, r, rfl, h.2⟩
  | cons c p ih =>
    intro st b x r h hb hx
    simp only [List.cons_append, foldOkB, Bool.and_eq_true] at h
    exact ih _ b x r h.2 hb hx

theorem foldOk_of {v : Str} (h : foldOkB false v = true ∧ v.head? ≠ some ' ') : FoldOk v :=
  ⟨h.2, fun p b x r e hb hx => foldOkB_at p false b x r (e ▸ h.1) hb hx⟩

/-- A string of several lines, one of which is folded. -/
example : FoldOk (cs! "one two three\n\nfour\n") ∧ (Emitter.analyzeScalar false (cs! "one two three\n\nfour\n")).blockAllowed = true ∧
    (execText (Emitter.writeFolded (cs! "one two three\n\nfour\n") { emitter1 with bestWidth := 8 }) []).2 = cs! ">\r\n  one two\r\n  three\r\n\r\n\r\n  four\r\n" ∧
    (runT (Scanner.scanBlockScalar 100 false) scanner1 ⟨cs! ">\r\n  one two\r\n  three\r\n\r\n\r\n  four\r\nnext", .utf8⟩).1.1 =
      .ok ⟨.scalar (cs! "one two three\n\nfour\n") .folded, ⟨7, 1, 3⟩, ⟨42, 7, 0⟩⟩ := by
  exact ⟨foldOk_of (by decide), by decide +kernel⟩

end Yaml.Props
