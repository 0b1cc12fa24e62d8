import Verif.Lib.BadEscape
import Verif.Lib.EmitQuoted
import Verif.Props.Emitter

/-
C14, C30, C31: quoted scalars, read and written.  What the text of a quoted scalar denotes is specified in
Spec/Scalars.lean.
-/

namespace Yaml.Props
open Yaml Yaml.Spec
set_option linter.unusedSimpArgs false
set_option linter.unusedVariables false

/-! ### C14: reading double-quoted scalars -/

/-- C14.  Wherever the scanner stands, a text that starts with a quoted scalar denoting `v` (so each
`\x..`, `\u....`, `\U........` and single-character escape denotes what `Spec.Escape` says) is scanned as a
scalar token with the value `v`; exactly the scalar is consumed and nothing else in the scanner changes. -/
theorem C14_quoted_scalar (single : Bool) (t v rest : Str) (s : SState) (e : Encoding) (F : Nat)
    (h : Quoted single t v rest) (hF : t.length < F) :
    ∃ pre m, t = pre ++ rest ∧ m = advance s.mark pre ∧
      runT (Scanner.scanFlowScalar F single) s ⟨t, e⟩ =
        ((.ok ⟨.scalar v (if single then .singleQuoted else .doubleQuoted), s.mark, m⟩, { s with mark := m }), ⟨rest, e⟩) := by
  have h1 := wpT_scanFlowScalar (P := fun _ => False) (E := fun _ _ _ => False) (e := e) (s := s)
    (Q := fun tok s' b => tok = ⟨.scalar v (if single then .singleQuoted else .doubleQuoted), s.mark, s'.mark⟩ ∧ Mv s t s' rest ∧ b = ⟨rest, e⟩)
    h hF (fun s' hs' => ⟨rfl, hs', rfl⟩)
  have h2 := (wp_stepT _ _ _).1 h1
  unfold runT
  generalize execT (Scanner.scanFlowScalar F single s) ⟨t, e⟩ = q at h2
  obtain ⟨⟨o, s'⟩, b⟩ := q
  cases o with
  | ok tok =>
    obtain ⟨rfl, ⟨hs, pre, h3, h4, h5⟩, rfl⟩ := h2
    refine ⟨pre, _, h3, rfl, ?_⟩
    rw [← h4, ← hs]
  | err e => exact h2.elim
  | panic p => exact h2.elim
  | fuel => exact h2.elim

/-- C14: a single-character escape, in any context. -/
theorem C14_simple_escape (c : Char) (n : Nat) (h : (c, n) ∈ escapes) (body v rest : Str)
    (hb : Body false body v ('"' :: rest)) (s : SState) (e : Encoding) (F : Nat) (hF : body.length + 3 < F) :
    ∃ m, (runT (Scanner.scanFlowScalar F false) s ⟨'"' :: '\\' :: c :: body, e⟩).1.1 =
      .ok ⟨.scalar (Char.ofNat n :: v) .doubleQuoted, s.mark, m⟩ := by
  have hq : Quoted false ('"' :: '\\' :: c :: body) (Char.ofNat n :: v) rest :=
    ⟨_, rfl, Body.escape (x := [c]) rfl (.simple h) hb, by simp⟩
  obtain ⟨pre, m, h1, h2, h3⟩ := C14_quoted_scalar false _ _ rest s e F hq (by simp; omega)
  exact ⟨m, by rw [h3]; simp⟩

/-- C14: a numeric escape of a Unicode scalar value, in any context. -/
theorem C14_code_escape (c : Char) (k n : Nat) (h : (c, k) ∈ codes) (ds : Str) (hk : ds.length = k) (hn : HexNum ds n) (hs : IsScalar n)
    (body v rest : Str) (hb : Body false body v ('"' :: rest)) (s : SState) (e : Encoding) (F : Nat)
    (hF : ds.length + body.length + 3 < F) :
    ∃ m, (runT (Scanner.scanFlowScalar F false) s ⟨'"' :: '\\' :: c :: (ds ++ body), e⟩).1.1 =
      .ok ⟨.scalar (Char.ofNat n :: v) .doubleQuoted, s.mark, m⟩ := by
  have hq : Quoted false ('"' :: '\\' :: c :: (ds ++ body)) (Char.ofNat n :: v) rest :=
    ⟨_, rfl, Body.escape (x := c :: ds) rfl (.code h hk hn hs) hb, by simp⟩
  obtain ⟨pre, m, h1, h2, h3⟩ := C14_quoted_scalar false _ _ rest s e F hq (by simp; omega)
  exact ⟨m, by rw [h3]; simp⟩

/-- C14: after any well-formed beginning of a double-quoted scalar, a backslash followed by something that
is neither a line break nor (the beginning of) an escape is an error: an unknown escape character, a
missing hexadecimal digit, a surrogate or a value above U+10FFFF.  (A backslash at the very end of the
input is finding C07_refuted.) -/
theorem C14_bad_escape (body v x : Str) (hb : Body false body v ('\\' :: x)) (hx : x ≠ [])
    (hlb : ∀ c r, x = c :: r → isLineBreak c = false) (h : ∀ y c r, x = y ++ r → ¬ Escape y c)
    (s : SState) (e : Encoding) (F : Nat) (hF : body.length + 1 < F) :
    ∃ problem m, (runT (Scanner.scanFlowScalar F false) s ⟨'"' :: body, e⟩).1.1 =
      .err (.scanner "while parsing a quoted scalar" s.mark problem m) := by
  have h1 := wpT_scanFlowScalar_bad (P := fun _ => False) (E := fun er _ _ => ∃ problem m, er = .scanner "while parsing a quoted scalar" s.mark problem m)
    (e := e) (s := s) (Q := fun _ _ _ => False) hb hF hx hlb h (fun pr s' b => ⟨_, _, rfl⟩)
  have h2 := (wp_stepT _ _ _).1 h1
  unfold runT
  generalize execT (Scanner.scanFlowScalar F false s) ⟨'"' :: body, e⟩ = q at h2 ⊢
  obtain ⟨⟨o, s'⟩, b⟩ := q
  cases o with
  | ok tok => exact h2.elim
  | err er =>
    obtain ⟨pr, m, rfl⟩ := h2
    exact ⟨pr, m, rfl⟩
  | panic p => exact h2.elim
  | fuel => exact h2.elim

theorem hexDigit_unique {c : Char} {n k : Nat} (h : HexDigit c n) (h' : HexDigit c k) : n = k := by
  rcases h with ⟨h1, h2⟩ | ⟨h1, h2, h3 | h3⟩ <;> rcases h' with ⟨h4, h5⟩ | ⟨h4, h5, h6 | h6⟩ <;> omega

theorem hexNum_unique {ds : Str} {n k : Nat} (h : HexNum ds n) : HexNum ds k → n = k := by
  induction h generalizing k with
  | nil =>
    intro h'
    generalize hd : ([] : Str) = ds at h'
    cases h' with
    | nil => rfl
    | snoc h hc => simp at hd
  | @snoc ds a m c h hc ih =>
    intro h'
    generalize hd : ds ++ [c] = ds' at h'
    cases h' with
    | nil => simp at hd
    | @snoc ds2 a' m' c' h2 hc' =>
      obtain ⟨rfl, h3⟩ := List.append_inj' hd rfl
      simp at h3
      subst h3
      rw [ih h2, hexDigit_unique hc hc']

/-- C14: all 2^32 code values: `\U` with eight digits of a number that is not a scalar value (a surrogate
or above U+10FFFF) is an error, in any context; likewise `\u`. -/
theorem C14_bad_code (c : Char) (k n : Nat) (hc : (c, k) ∈ codes) (ds : Str) (hk : ds.length = k) (hn : HexNum ds n) (hs : ¬ IsScalar n)
    (body v r : Str) (hb : Body false body v ('\\' :: c :: (ds ++ r)))
    (s : SState) (e : Encoding) (F : Nat) (hF : body.length + 1 < F) :
    ∃ problem m, (runT (Scanner.scanFlowScalar F false) s ⟨'"' :: body, e⟩).1.1 =
      .err (.scanner "while parsing a quoted scalar" s.mark problem m) := by
  have hcc := codes_of hc
  refine C14_bad_escape body v _ hb (by simp) ?_ ?_ s e F hF
  · intro d r h; cases h; rw [isLineBreak_eq]; exact hcc.2.2
  · rintro y d r' h1 h2
    cases h2 with
    | @simple a b h =>
      simp only [List.cons_append, List.cons.injEq] at h1
      obtain ⟨rfl, _⟩ := h1
      have := (escapeChar_of h).1
      rw [hcc.1] at this; cases this
    | @code a k' n' ds' h hk' hn' hs' =>
      simp only [List.cons_append, List.cons.injEq] at h1
      obtain ⟨rfl, h1⟩ := h1
      have hkk : k = k' := by
        have h3 := (codes_of h).2.1
        rw [hcc.2.1] at h3; simpa using h3
      obtain ⟨rfl, _⟩ := List.append_inj h1 (by omega)
      rw [hexNum_unique hn hn'] at hs
      exact hs hs'

/-- C14: an unknown escape character is an error, in any context. -/
theorem C14_unknown_escape (c : Char) (h1 : ∀ n, (c, n) ∉ escapes) (h2 : ∀ k, (c, k) ∉ codes) (h3 : isLineBreak c = false)
    (body v r : Str) (hb : Body false body v ('\\' :: c :: r)) (s : SState) (e : Encoding) (F : Nat) (hF : body.length + 1 < F) :
    ∃ problem m, (runT (Scanner.scanFlowScalar F false) s ⟨'"' :: body, e⟩).1.1 =
      .err (.scanner "while parsing a quoted scalar" s.mark problem m) := by
  refine C14_bad_escape body v _ hb (by simp) (by intro d r h; cases h; exact h3) ?_ s e F hF
  rintro y d r' h4 h5
  cases h5 with
  | simple h => simp only [List.cons_append, List.cons.injEq] at h4; obtain ⟨rfl, _⟩ := h4; exact h1 _ h
  | code h => simp only [List.cons_append, List.cons.injEq] at h4; obtain ⟨rfl, _⟩ := h4; exact h2 _ h

/-- `"a\u00e9 \` newline `  b"` denotes `aé b`. -/
theorem sample_quoted : Quoted false (cs! "\"a\\u00e9 \\\n  b\", x") (cs! "aé b") (cs! ", x") := by
  refine ⟨_, rfl, ?_, by simp⟩
  refine .char 'a' (by simp [IsBlank]) (by decide) (by decide) (by simp) ?_
  refine Body.escape (x := cs! "u00e9") (c := 'é') rfl ?_ ?_
  · have hn : HexNum (cs! "00e9") 0xe9 := by
      have h0 := HexNum.snoc .nil (c := '0') (n := 0) (Or.inl (by decide))
      have h1 := h0.snoc (c := '0') (n := 0) (Or.inl (by decide))
      have h2 := h1.snoc (c := 'e') (n := 14) (Or.inr (by decide))
      exact h2.snoc (c := '9') (n := 9) (Or.inl (by decide))
    exact .code (e := 'u') (k := 4) (by simp [codes]) rfl hn (Or.inl (by decide))
  refine Body.blanks (b := [' ']) (by simp [IsBlank]) (by simp) (by intro c r h; cases h; simp [IsBlank]; decide) ?_
  refine Body.cont (bs := []) (t := cs! "b\", x") rfl (.one '\n' _ (by decide) (by simp)) ?_ ?_ ?_
  · exact .blank ' ' (Or.inl rfl) (.blank ' ' (Or.inl rfl) (.stop _ (by intro c r h; cases h; simp [IsBlank]; decide)))
  · exact Or.inl ⟨cs! "\n ", ' ', rfl, Or.inl rfl⟩
  · exact .char 'b' (by simp [IsBlank]) (by decide) (by decide) (by simp) (.done _)

/-- A scanner in the middle of a flow sequence. -/
def scanner0 : SState := ⟨⟨7, 1, 3⟩, true, false, 1, [], 3, false, [-1], 0, false, []⟩

example : (runT (Scanner.scanFlowScalar 100 false) scanner0 ⟨cs! "\"a\\u00e9 \\\n  b\", x", .utf8⟩).1.1 =
    .ok ⟨.scalar (cs! "aé b") .doubleQuoted, ⟨7, 1, 3⟩, ⟨22, 2, 4⟩⟩ ∧
    (runT (Scanner.scanFlowScalar 100 false) scanner0 ⟨cs! "\"a\\ud800\"", .utf8⟩).1.1 =
    .err (.scanner "while parsing a quoted scalar" ⟨7, 1, 3⟩ "found invalid Unicode character escape code" ⟨11, 1, 7⟩) ∧
    (runT (Scanner.scanFlowScalar 100 false) scanner0 ⟨cs! "\"a\\q\"", .utf8⟩).1.1 =
    .err (.scanner "while parsing a quoted scalar" ⟨7, 1, 3⟩ "found unknown escape character" ⟨9, 1, 5⟩) := by
  decide +kernel

/-! ### C30, C31: writing quoted scalars -/

/-- C30.  In every emitter state (any width, line break, column, whitespace and indentation of at least one)
the text written for any string as a double-quoted scalar is a quoted scalar that denotes this string, and
whatever follows it, wherever the scanner stands, it is scanned back as exactly this string. -/
theorem C30_double_quoted (v : Str) (allowBreaks : Bool) (s : EState) (hl : s.lineBreak ≠ .any) (hi : 1 ≤ s.indent) :
    ∃ w s', (∀ W, execText (Emitter.writeDoubleQuoted v allowBreaks s) W = ((.ok (), s'), W ++ (if s.whitespace then [] else [' ']) ++ w)) ∧
      (∀ rest, Quoted false (w ++ rest) v rest) ∧
      ∀ (rest : Str) (sc : SState) (e : Encoding) (F : Nat), w.length + rest.length < F →
        ∃ m, runT (Scanner.scanFlowScalar F false) sc ⟨w ++ rest, e⟩ =
          ((.ok ⟨.scalar v .doubleQuoted, sc.mark, m⟩, { sc with mark := m }), ⟨rest, e⟩) := by
  obtain ⟨s', w, h1, h2, h3, h4, h5, h6⟩ := Emitter.writes_writeDoubleQuoted v allowBreaks s hl hi
  refine ⟨w, s', fun W => ?_, h6, fun rest sc e F hF => ?_⟩
  · rw [h1 W, List.append_assoc]; rfl
  · obtain ⟨pre, m, _, _, h⟩ := C14_quoted_scalar false _ _ rest sc e F (h6 rest) (by simp; omega)
    exact ⟨m, by rw [h]; simp⟩

/-- C31.  The same for single-quoted scalars: every string the analysis allows in this style, in every
emitter state, followed by anything but another quote. -/
theorem C31_single_quoted (v : Str) (allowBreaks : Bool) (s : EState) (hl : s.lineBreak ≠ .any) (hi : 1 ≤ s.indent)
    (hv : (Emitter.analyzeScalar s.unicode v).singleQuotedAllowed = true) :
    ∃ w s', (∀ W, execText (Emitter.writeSingleQuoted v allowBreaks s) W = ((.ok (), s'), W ++ (if s.whitespace then [] else [' ']) ++ w)) ∧
      (∀ rest, rest.head? ≠ some '\'' → Quoted true (w ++ rest) v rest) ∧
      ∀ (rest : Str) (sc : SState) (e : Encoding) (F : Nat), rest.head? ≠ some '\'' → w.length + rest.length < F →
        ∃ m, runT (Scanner.scanFlowScalar F true) sc ⟨w ++ rest, e⟩ =
          ((.ok ⟨.scalar v .singleQuoted, sc.mark, m⟩, { sc with mark := m }), ⟨rest, e⟩) := by
  obtain ⟨s', w, h1, h2, h3, h4, h5, h6⟩ := Emitter.writes_writeSingleQuoted v allowBreaks s hl hi (Emitter.singleOk_of hv)
  refine ⟨w, s', fun W => ?_, h6, fun rest sc e F hr hF => ?_⟩
  · rw [h1 W, List.append_assoc]; rfl
  · obtain ⟨pre, m, _, _, h⟩ := C14_quoted_scalar true _ _ rest sc e F (h6 rest hr) (by simp; omega)
    exact ⟨m, by rw [h]; simp⟩

/-- An emitter state within a block mapping, at column 9 of a narrow line. -/
def emitter0 : EState :=
  { (EmitterObj.new .utf8 [.width 10] ⟨[], []⟩).s with lineBreak := .crln, indent := 2, column := 9, bestWidth := 10, whitespace := false }

example : (execText (Emitter.writeDoubleQuoted (cs! "it is\n  a \"b\" \u0001  c") true emitter0) []).2 = cs! " \"it\r\n  is\\n  a \\\"b\\\"\r\n  \\x01  c\"" ∧
    (execText (Emitter.writeSingleQuoted (cs! "it isn't\nso") true emitter0) []).2 = cs! " 'it\r\n  isn''t\r\n\r\n  so'" ∧
    (Emitter.analyzeScalar false (cs! "it isn't\nso")).singleQuotedAllowed = true := by
  decide +kernel

end Yaml.Props
