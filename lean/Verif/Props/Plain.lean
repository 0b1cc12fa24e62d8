import Verif.Lib.EmitPlain
import Verif.Props.Quoted

/-
C32: plain scalars written and read back.  What the text of a plain scalar denotes is specified in
Spec/Plain.lean.
-/

namespace Yaml.Props
open Yaml Yaml.Spec
set_option linter.unusedSimpArgs false
set_option linter.unusedVariables false

/-- Wherever the scanner stands (not in front of a document marker in column 0), a text that starts with a
plain scalar denoting `v` is scanned as a scalar token with the value `v`; exactly the scalar and the white
space after it are consumed; a line break in this white space allows simple keys, nothing else in the
scanner changes. -/
theorem C32_plain_scanned (t v rest : Str) (brk : Bool) (s : SState) (e : Encoding) (F : Nat)
    (h : PlainScalar (s.flowLevel != 0) (s.indent + 1) t v brk rest) (hF : t.length + 1 < F)
    (hcol : s.flowLevel = 0 → s.indent ≤ s.mark.column) (hdoc : s.mark.column ≠ 0 ∨ ¬ IsDocMarker t) :
    ∃ pre m, t = pre ++ rest ∧ runT (Scanner.scanPlainScalar F) s ⟨t, e⟩ =
        ((.ok ⟨.scalar v .plain, s.mark, m⟩,
          { s with mark := advance s.mark pre, simpleKeyAllowed := s.simpleKeyAllowed || brk }), ⟨rest, e⟩) := by
  have h1 := wpT_scanPlainScalar (P := fun _ => False) (E := fun _ _ _ => False) (e := e) (s := s)
    (Q := fun tok s' b => ∃ s1 m, tok = ⟨.scalar v .plain, s.mark, m⟩ ∧ Mv s t s1 rest ∧ s' = (if brk then { s1 with simpleKeyAllowed := true } else s1) ∧ b = ⟨rest, e⟩)
    h hF hcol hdoc (fun s' m hs' => ⟨s', m, rfl, hs', rfl, rfl⟩)
  have h2 := (wp_stepT _ _ _).1 h1
  unfold runT
  generalize execT (Scanner.scanPlainScalar F s) ⟨t, e⟩ = q at h2
  obtain ⟨⟨o, s'⟩, b⟩ := q
  cases o with
  | ok tok =>
    obtain ⟨s1, m, rfl, ⟨hs, pre, h3, h4, h5⟩, rfl, rfl⟩ := h2
    refine ⟨pre, m, h3, ?_⟩
    rw [← h4]
    cases brk
    · simp only [Bool.or_false, Bool.false_eq_true, if_false]; rw [← hs]
    · simp only [Bool.or_true, if_true]
      have : ({ s1 with simpleKeyAllowed := true } : SState) = { s with mark := s1.mark, simpleKeyAllowed := true } := by
        rw [hs]
      rw [this]
  | err e => exact h2.elim
  | panic p => exact h2.elim
  | fuel => exact h2.elim

/-- C32.  For every string the analysis allows in plain style in the given (block or flow) context, in every
emitter state, with or without line folding: the text written for it, followed by anything that ends a
plain scalar (the end, `:` before white space, a flow indicator in flow context, a comment, or a line break
before a less indented line), is taken by the scanner for a plain scalar and scanned back as exactly that
string. -/
theorem C32_plain_round_trip (v : Str) (allowBreaks : Bool) (s : EState) (hl : s.lineBreak ≠ .any) (hi : 1 ≤ s.indent) (hv : v ≠ [])
    (h : (if s.flowLevel != 0 then (Emitter.analyzeScalar s.unicode v).flowPlainAllowed
      else (Emitter.analyzeScalar s.unicode v).blockPlainAllowed) = true) :
    ∃ w s', (∀ W, execText (Emitter.writePlain v allowBreaks s) W = ((.ok (), s'), W ++ (if s.whitespace then [] else [' ']) ++ w)) ∧
      ∀ (rest rest' : Str) (brk : Bool) (sc : SState) (e : Encoding) (F : Nat), (sc.flowLevel = 0 ↔ s.flowLevel = 0) →
        (sc.flowLevel = 0 → sc.indent < s.indent ∧ sc.indent ≤ sc.mark.column) →
        PlainEnd (sc.flowLevel != 0) (sc.indent + 1) rest brk rest' → w.length + rest.length + 1 < F →
        (∀ m : Mark, let t := w ++ rest; Scanner.dispatch F m sc.flowLevel t[0]? t[1]? t[2]? t[3]? = Scanner.fetchPlainScalar F) ∧
        ∃ pre m, w ++ rest = pre ++ rest' ∧ runT (Scanner.scanPlainScalar F) sc ⟨w ++ rest, e⟩ =
          ((.ok ⟨.scalar v .plain, sc.mark, m⟩,
            { sc with mark := advance sc.mark pre, simpleKeyAllowed := sc.simpleKeyAllowed || brk }), ⟨rest', e⟩) := by
  have hok := Emitter.plainOk_of hv h
  obtain ⟨s', w, h1, h2, h3, h4, h5, h6, h7, h8⟩ := Emitter.writes_writePlain v allowBreaks s hl hi hok
  refine ⟨w, s', fun W => ?_, fun rest rest' brk sc e F hfl hin he hF => ?_⟩
  · rw [h1 W, List.append_assoc]; rfl
  · have hflb : (sc.flowLevel != 0) = (s.flowLevel != 0) := by
      by_cases h : s.flowLevel = 0
      · rw [h, hfl.2 h]; rfl
      · rw [bne_iff_ne.2 (fun h' => h (hfl.1 h')), bne_iff_ne.2 h]
    rw [hflb] at he
    obtain ⟨hp, hd⟩ := h8 (sc.indent + 1) rest brk rest' (fun h => by
      have := (hin (hfl.2 (by simpa using h))).1; omega) he
    refine ⟨fun m => ?_, ?_⟩
    · cases v with
      | nil => exact absurd rfl hv
      | cons c r =>
        cases w with
        | nil => simp at h6
        | cons x w =>
          simp only [List.head?_cons, Option.some.injEq] at h6
          subst h6
          refine Emitter.dispatch_plain F m (by rw [hflb]; exact hok) (fun hz => ?_) (Or.inr hd)
          obtain ⟨w', h9, h10⟩ := h7 x r rfl hz
          cases h9
          cases r with
          | nil => exact absurd hz (by decide)
          | cons y r =>
            cases w with
            | nil => simp at h10
            | cons z w => simpa using h10
    · exact C32_plain_scanned (w ++ rest) v rest' brk sc e F (by rw [hflb]; exact hp) (by simp; omega) (fun h => (hin h).2) (Or.inr hd)

/-- A block-context scanner state within a block mapping. -/
def scanner1 : SState := ⟨⟨7, 1, 3⟩, true, false, 0, [], 3, false, [-1], 0, false, []⟩

example : (Emitter.analyzeScalar false (cs! "it's a-#b :y  z")).blockPlainAllowed = true ∧
    (execText (Emitter.writePlain (cs! "it's a-#b :y  z") true emitter0) []).2 = cs! " it's\r\n  a-#b :y  z" ∧
    (runT (Scanner.scanPlainScalar 100) scanner1 ⟨cs! "it's\r\n  a-#b :y  z\nnext", .utf8⟩).1.1 =
      .ok ⟨.scalar (cs! "it's a-#b :y  z") .plain, ⟨7, 1, 3⟩, ⟨25, 2, 12⟩⟩ := by
  decide +kernel

/-- A line break and a less indented line end a plain scalar. -/
example : PlainEnd false 1 (cs! "\nnext: x") true (cs! "next: x") := by
  have h : Gap (cs! "\nnext: x") ['\n'] (cs! "next: x") := .brk (.one '\n' _ (by decide) (by simp)) (.stop _ (by
    intro c r h; cases h; simp [IsBlank]; decide))
  exact .gap (b := []) (by simp) h (by simp) (Or.inr (Or.inr (Or.inl ⟨by simp, rfl, [], '\n', 0, rfl, by decide, by decide⟩)))

end Yaml.Props
