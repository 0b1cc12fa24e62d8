import Verif.Lib.Round3
import Verif.Spec.RoundTrip
import Verif.Spec.TokenGrammar
import Verif.Props.Names
import Verif.Props.Block

/-
Reading back, emitter side: node properties and scalars.
-/

namespace Yaml.Rt
open Yaml Emitter Lx Spec
set_option linter.unusedSimpArgs false
set_option linter.unusedVariables false

/-- The settings, the indentation and the flow level: what writing a whole node does not change. -/
def core (s : EState) : EState :=
  { s with states := [], state := .end_, events := [], rootContext := false, sequenceContext := false, mappingContext := false,
           simpleKeyContext := false, line := 0, column := 0, whitespace := false, indention := false, openEnded := 0 }

theorem core_wrote {s s' : EState} {w : Str} (h : Wrote s w s') : core s' = core s := by
  rw [h.frame]; rfl

section
variable {s s' : EState} (h : core s' = core s)
include h
theorem core_indent : s'.indent = s.indent := by have := congrArg EState.indent h; exact this
theorem core_indents : s'.indents = s.indents := by have := congrArg EState.indents h; exact this
theorem core_lineBreak : s'.lineBreak = s.lineBreak := by have := congrArg EState.lineBreak h; exact this
theorem core_bestIndent : s'.bestIndent = s.bestIndent := by have := congrArg EState.bestIndent h; exact this
theorem core_bestWidth : s'.bestWidth = s.bestWidth := by have := congrArg EState.bestWidth h; exact this
theorem core_flowLevel : s'.flowLevel = s.flowLevel := by have := congrArg EState.flowLevel h; exact this
theorem core_canonical : s'.canonical = s.canonical := by have := congrArg EState.canonical h; exact this
theorem core_unicode : s'.unicode = s.unicode := by have := congrArg EState.unicode h; exact this
theorem core_tags : s'.tagDirectives = s.tagDirectives := by have := congrArg EState.tagDirectives h; exact this
end

theorem sep_eq {s : EState} (h : s.whitespace = true) : sep s = [] := by unfold sep; rw [h]; rfl
theorem sep_spaces (s : EState) : ∀ c ∈ sep s, c = ' ' := by
  unfold sep; split <;> simp

/-! ### Properties -/

/-- A tag analysis that stands for `tag` in a document with the `%TAG` directives `D`. -/
structure TagGood (D : List TagDirective) (t : TagAnalysis) (tag : Str) : Prop where
  suffix : t.handle = [] → t.suffix ≠ []
  handle : t.handle = [] ∨ HandleOk t.handle
  text : ∃ h s, TagText (tagText t) h s ∧ TagIs D [(h, s)] (some tag)

theorem tagGood_bang (D : List TagDirective) : TagGood D ⟨['!'], []⟩ ['!'] := by
  refine ⟨by simp, Or.inr (Or.inl rfl), [], ['!'], ?_, ?_⟩
  · exact TagText.bare
  · simp [TagIs]

theorem uriEscape_len (b : UInt8) : strLen (uriEscape b) = 3 := by
  have h : ∀ n, n < 16 → lenUtf8 (hexUpper n) = 1 := by
    intro n hn
    have : ∀ k : Fin 16, lenUtf8 (hexUpper k.val) = 1 := by decide
    exact this ⟨n, hn⟩
  have hb := b.toNat_lt
  simp only [uriEscape, strLen, h _ (show b.toNat / 16 < 16 by omega), h _ (show b.toNat % 16 < 16 by omega)]
  decide

theorem flatMap_len (l : List UInt8) : strLen (l.flatMap uriEscape) = 3 * l.length := by
  induction l with
  | nil => rfl
  | cons b l ih => rw [List.flatMap_cons, strLen_append, uriEscape_len, ih, List.length_cons]; omega

theorem utf8Bytes_len (c : Char) : (utf8Bytes c).length = lenUtf8 c := by
  unfold utf8Bytes String.utf8EncodeChar lenUtf8
  have hv : c.val.toNat = c.toNat := rfl
  simp only [hv]
  by_cases h1 : c.toNat ≤ 0x7f
  · rw [if_pos h1, if_pos (show c.toNat < 0x80 by omega)]; rfl
  rw [if_neg h1, if_neg (show ¬ c.toNat < 0x80 by omega)]
  by_cases h2 : c.toNat ≤ 0x7ff
  · rw [if_pos h2, if_pos (show c.toNat < 0x800 by omega)]; rfl
  rw [if_neg h2, if_neg (show ¬ c.toNat < 0x800 by omega)]
  by_cases h3 : c.toNat ≤ 0xffff
  · rw [if_pos h3, if_pos (show c.toNat < 0x10000 by omega)]; rfl
  · rw [if_neg h3, if_neg (show ¬ c.toNat < 0x10000 by omega)]; rfl

theorem uriOf_len (v : Str) : strLen (uriOf v) ≤ 3 * strLen v := by
  induction v with
  | nil => exact Nat.le_refl _
  | cons c v ih =>
    unfold uriOf at ih ⊢
    rw [List.flatMap_cons, strLen_append]
    have : strLen (if isAlpha c || isTagPunct c then [c] else (utf8Bytes c).flatMap uriEscape) ≤ 3 * lenUtf8 c := by
      split
      · simp only [strLen]; omega
      · rw [flatMap_len, utf8Bytes_len]; exact Nat.le_refl _
    simp only [strLen]
    omega

theorem tagText_len (t : TagAnalysis) : strLen (tagText t) ≤ 3 * (strLen t.handle + strLen t.suffix) + 3 := by
  have := uriOf_len t.suffix
  unfold tagText
  split
  · rw [strLen_append, strLen_append, show strLen ['>'] = 1 from rfl, show strLen (cs! "!<") = 2 from rfl]; omega
  · rw [strLen_append]; omega

theorem tagText_ne (t : TagAnalysis) (h : t.handle = [] ∨ HandleOk t.handle) : (tagText t).head? = some '!' := by
  unfold tagText
  rcases h with h | h
  · rw [if_pos (by rw [h]; rfl)]; rfl
  · rcases h with h | ⟨n, h, _⟩ <;> rw [h] <;> rfl

/-- The length of the properties, as `check_simple_key` counts it. -/
def propsLen (anchor : Option AnchorAnalysis) (t : Option TagAnalysis) : Nat :=
  (anchor.elim 0 fun a => strLen a.anchor) + (t.elim 0 fun t => strLen t.handle + strLen t.suffix)

/-- The anchor and tag of a node. -/
theorem writes_props (D : List TagDirective) (anchor : Option Str) (t : Option TagAnalysis) (tag : Option Str) (s : EState)
    (ha : ∀ a, anchor = some a → NameOk a) (ht : t = none → tag = none) (ht' : ∀ x, t = some x → ∃ tg, tag = some tg ∧ TagGood D x tg) :
    ∃ s1 s2 w1 w2 ps, Writes (processAnchor (anchor.map fun a => ⟨a, false⟩)) s () s1 w1 ∧ Writes (processTag t) s1 () s2 w2 ∧
      Wrote s (w1 ++ w2) s2 ∧
      ((anchor = none ∧ t = none ∧ w1 ++ w2 = [] ∧ s2 = s ∧ ps = []) ∨
        (∃ w0, w1 ++ w2 = sep s ++ w0 ∧ w0 ≠ [] ∧ w0.head? ≠ some ' ' ∧ (∀ c ∈ w0, isBreak c = false) ∧ strLen w0 ≤ 3 * propsLen (anchor.map fun a => ⟨a, false⟩) t + 5 ∧
          s2.whitespace = false ∧ s2.indention = false ∧ ps ≠ [])) ∧
      IsProps D ps anchor tag ∧ ∀ F fl n rest, EndsTag rest → Atoms F fl n ps (w1 ++ w2) rest := by
  cases anchor with
  | none =>
    cases t with
    | none =>
      refine ⟨s, s, [], [], [], Writes.pure () s, Writes.pure () s, Wrote.refl s, Or.inl ⟨rfl, rfl, rfl, rfl, rfl⟩, ?_, fun F fl n rest _ => .nil rest⟩
      rw [ht rfl]; exact .none
    | some x =>
      obtain ⟨tg, rfl, hg⟩ := ht' x rfl
      obtain ⟨s2, b1, b2, b3, b4⟩ := writes_processTag x s hg.suffix hg.handle
      obtain ⟨h, sf, h1, h2⟩ := hg.text
      refine ⟨s, s2, [], _, [.tag h sf], Writes.pure () s, b1, b2, Or.inr ⟨tagText x, rfl, ?_, ?_, tagText_noBreak hg.handle, ?_, b3, b4, by simp⟩, .tag h2, ?_⟩
      · intro hc; have := tagText_ne x hg.handle; rw [hc] at this; cases this
      · rw [tagText_ne x hg.handle]; simp
      · have := tagText_len x
        simp only [propsLen, Option.map_none, Option.elim]; omega
      · intro F fl n rest hr
        exact Atoms.one (g := sep s) (w := tagText x) (sep_spaces s) (atom_tag h1 hr)
  | some a =>
    have hn := ha a rfl
    obtain ⟨s1, a1, a2, a3, a4⟩ := writes_processAnchor a false s hn
    have hflat : ∀ c ∈ '&' :: a, isBreak c = false := by
      intro c hc
      rcases List.mem_cons.1 hc with rfl | hc
      · decide
      · exact (name_facts (hn.2 c hc)).2
    have hl : strLen ('&' :: a) = 1 + strLen a := rfl
    cases t with
    | none =>
      refine ⟨s1, s1, _, [], [.anchor a], a1, Writes.pure () s1, by rw [List.append_nil]; exact a2, Or.inr ⟨'&' :: a, by rw [List.append_nil]; rfl, by simp, by simp, hflat, ?_, a3, a4, by simp⟩, ?_, ?_⟩
      · simp only [propsLen, Option.map_some, Option.elim]; omega
      · rw [ht rfl]; exact .anchor a
      · intro F fl n rest hr
        rw [List.append_nil]
        refine Atoms.one (sep_spaces s) (atom_anchor false hn ?_)
        intro c r hc
        rcases hr c r hc with h | h
        · exact Or.inl h
        · exact Or.inr (Or.inl h)
    | some x =>
      obtain ⟨tg, rfl, hg⟩ := ht' x rfl
      obtain ⟨s2, b1, b2, b3, b4⟩ := writes_processTag x s1 hg.suffix hg.handle
      obtain ⟨h, sf, h1, h2⟩ := hg.text
      have hs1 : sep s1 = [' '] := by unfold sep; rw [a3]; rfl
      refine ⟨s1, s2, _, _, [.anchor a, .tag h sf], a1, b1, a2.trans b2, Or.inr ⟨('&' :: a) ++ (' ' :: tagText x), by rw [hs1]; simp, by simp, by simp, ?_, ?_, b3, b4, by simp⟩, .anchorTag a h2, ?_⟩
      · intro c hc
        rcases List.mem_append.1 hc with hc | hc
        · exact hflat c hc
        rcases List.mem_cons.1 hc with rfl | hc
        · decide
        · exact tagText_noBreak hg.handle c hc
      · have := tagText_len x
        rw [strLen_append, hl, show strLen (' ' :: tagText x) = 1 + strLen (tagText x) from rfl]
        simp only [propsLen, Option.map_some, Option.elim]; omega
      · intro F fl n rest hr
        have e2 : Atoms F fl n [.tag h sf] (sep s1 ++ tagText x) rest := Atoms.one (sep_spaces s1) (atom_tag h1 hr)
        refine Atoms.append (ds := [.anchor a]) (es := [.tag h sf]) (Atoms.one (sep_spaces s) (atom_anchor false hn ?_)) e2
        rw [hs1]
        intro c r hc
        simp at hc
        exact Or.inl (Or.inl hc.1.symm)

end Yaml.Rt
