import Verif.Lib.Emit2

/-
What the flags of `analyze_scalar` say about a string.
-/

namespace Yaml.Emitter
open Yaml Spec
set_option linter.unusedSimpArgs false
set_option linter.unusedVariables false

/-- `R` holds between neighbours, the first of which may be `prev`. -/
def chain (R : Char → Char → Prop) : Option Char → Str → Prop
  | _, [] => True
  | none, b :: r => chain R (some b) r
  | some a, b :: r => R a b ∧ chain R (some b) r

/-- No character is an indicator in block context. -/
def blockOk : Option Char → Str → Prop
  | _, [] => True
  | none, c :: r => (cs! "#,[]{}&*!|>'\"%@`").contains c = false ∧ ((c = '?' ∨ c = ':' ∨ c = '-') → isBlankzO r.head? = false) ∧ blockOk (some c) r
  | some a, c :: r => (c = ':' → isBlankzO r.head? = false) ∧ (c = '#' → isBlankzO (some a) = false) ∧ blockOk (some c) r

/-- No character is an indicator in flow context. -/
def flowOk : Option Char → Str → Prop
  | _, [] => True
  | none, c :: r => (cs! "#,[]{}&*!|>'\"%@`").contains c = false ∧ c ≠ '?' ∧ c ≠ ':' ∧ (c = '-' → isBlankzO r.head? = false) ∧ flowOk (some c) r
  | some a, c :: r => (cs! ",?[]{}").contains c = false ∧ c ≠ ':' ∧ (c = '#' → isBlankzO (some a) = false) ∧ flowOk (some c) r

/-- One step of the analysis. -/
def anaStep (u first : Bool) (c : Char) (cs : Str) (f : Flags) : Flags :=
  spaceStep u first c cs.isEmpty (indicatorStep first c (isBlankzO cs.head?) f)

theorem analyzeLoop_cons (u first : Bool) (c : Char) (cs : Str) (f : Flags) :
    analyzeLoop u (c :: cs) first f = analyzeLoop u cs false (anaStep u first c cs f) := rfl

theorem ind_frame (first : Bool) (c : Char) (fo : Bool) (f : Flags) :
    ∃ a b, indicatorStep first c fo f = { f with flowIndicators := a, blockIndicators := b } := by
  unfold indicatorStep
  split <;> repeat' split
  all_goals exact ⟨_, _, rfl⟩

theorem step_ind (u first : Bool) (c : Char) (cs : Str) (f : Flags) :
    (anaStep u first c cs f).blockIndicators = (indicatorStep first c (isBlankzO cs.head?) f).blockIndicators ∧
    (anaStep u first c cs f).flowIndicators = (indicatorStep first c (isBlankzO cs.head?) f).flowIndicators := by
  unfold anaStep spaceStep
  generalize indicatorStep first c (isBlankzO cs.head?) f = g
  cases (!isPrintable c || (!isAscii c && !u)) <;> cases isBreak c <;> cases isSpace c <;> exact ⟨rfl, rfl⟩

theorem step_space (u first : Bool) (c : Char) (cs : Str) (f : Flags) :
    let g := anaStep u first c cs f
    g.lineBreaks = (f.lineBreaks || isBreak c) ∧
    g.leadingSpace = (f.leadingSpace || (isSpace c && first)) ∧
    g.trailingSpace = (f.trailingSpace || (isSpace c && cs.isEmpty)) ∧
    g.breakSpace = (f.breakSpace || (isSpace c && f.previousBreak)) ∧
    g.leadingBreak = (f.leadingBreak || (isBreak c && first)) ∧
    g.trailingBreak = (f.trailingBreak || (isBreak c && cs.isEmpty)) ∧
    g.spaceBreak = (f.spaceBreak || (isBreak c && f.previousSpace)) ∧
    g.previousSpace = isSpace c ∧ g.previousBreak = isBreak c ∧ g.precededByWhitespace = isBlankzO (some c) := by
  obtain ⟨a, b, h⟩ := ind_frame first c (isBlankzO cs.head?) f
  have hx : isSpace c = true → isBreak c = false := by
    intro h; rw [isSpace, beq_iff_eq] at h; subst h; decide
  simp only [anaStep, h]
  unfold spaceStep
  cases h1 : (!isPrintable c || (!isAscii c && !u)) <;> cases h3 : isSpace c <;> cases h2 : isBreak c <;>
    first
      | exact absurd (h2.symm.trans (hx h3)) (by decide)
      | (refine ⟨?_, ?_, ?_, ?_, ?_, ?_, ?_, ?_, ?_, ?_⟩ <;> simp)

/-- What the analysis found out. -/
structure Found (prev : Option Char) (cs : Str) (f g : Flags) : Prop where
  lineBreaks : g.lineBreaks = false → f.lineBreaks = false ∧ ∀ c ∈ cs, isBreak c = false
  lineBreaks' : g.lineBreaks = true → f.lineBreaks = true ∨ ∃ c ∈ cs, isBreak c = true
  leadingSpace : g.leadingSpace = false → f.leadingSpace = false ∧ (prev = none → cs.head? ≠ some ' ')
  leadingBreak : g.leadingBreak = false → f.leadingBreak = false ∧ (prev = none → isBreakO cs.head? = false)
  trailingSpace : g.trailingSpace = false → f.trailingSpace = false ∧ cs.getLast? ≠ some ' '
  trailingBreak : g.trailingBreak = false → f.trailingBreak = false ∧ isBreakO cs.getLast? = false
  breakSpace : g.breakSpace = false → f.breakSpace = false ∧ chain (fun a b => ¬ (isBreak a = true ∧ b = ' ')) prev cs
  spaceBreak : g.spaceBreak = false → f.spaceBreak = false ∧ chain (fun a b => ¬ (a = ' ' ∧ isBreak b = true)) prev cs
  block : g.blockIndicators = false → f.blockIndicators = false ∧ blockOk prev cs
  flow : g.flowIndicators = false → f.flowIndicators = false ∧ flowOk prev cs

theorem getLast_cons_space (c : Char) (cs : Str) : (c :: cs).getLast? = if cs.isEmpty then some c else cs.getLast? := by
  cases cs with
  | nil => rfl
  | cons d cs => simp [List.getLast?_cons]

theorem found (u : Bool) : ∀ (cs : Str) (prev : Option Char) (f : Flags),
    (∀ a, prev = some a → f.previousSpace = isSpace a ∧ f.previousBreak = isBreak a ∧ f.precededByWhitespace = isBlankzO (some a)) →
    Found prev cs f (analyzeLoop u cs prev.isNone f) := by
  intro cs
  induction cs with
  | nil =>
    intro prev f hp
    refine ⟨?_, ?_, ?_, ?_, ?_, ?_, ?_, ?_, ?_, ?_⟩ <;> intro h
    all_goals first
      | exact ⟨h, by simp [chain, isBreakO, blockOk, flowOk]⟩
      | exact Or.inl h
      | exact ⟨h, by cases prev <;> simp [chain, isBreakO, blockOk, flowOk]⟩
  | cons c cs ih =>
    intro prev f hp
    rw [analyzeLoop_cons]
    have hs := step_space u prev.isNone c cs f
    have hi := step_ind u prev.isNone c cs f
    simp only at hs
    generalize hg : anaStep u prev.isNone c cs f = g at hs hi ⊢
    obtain ⟨s1, s2, s3, s4, s5, s6, s7, s8, s9, s10⟩ := hs
    obtain ⟨F1, F1', F2, F3, F4, F5, F6, F7, F8, F9⟩ := ih (some c) g (by rintro a h; cases h; exact ⟨s8, s9, s10⟩)
    simp only [Option.isNone_some] at F1 F1' F2 F3 F4 F5 F6 F7 F8 F9
    generalize analyzeLoop u cs false g = k at *
    have hsp : ∀ x : Char, isSpace x = true ↔ x = ' ' := fun x => by simp [isSpace]
    refine ⟨?_, ?_, ?_, ?_, ?_, ?_, ?_, ?_, ?_, ?_⟩ <;> intro h
    · have := F1 h; rw [s1, Bool.or_eq_false_iff] at this
      exact ⟨this.1.1, by simpa using ⟨this.1.2, this.2⟩⟩
    · rcases F1' h with h | ⟨d, hd, hb⟩
      · rw [s1, Bool.or_eq_true] at h
        rcases h with h | h
        · exact Or.inl h
        · exact Or.inr ⟨c, by simp, h⟩
      · exact Or.inr ⟨d, by simp [hd], hb⟩
    · have := (F2 h).1; rw [s2, Bool.or_eq_false_iff] at this
      refine ⟨this.1, ?_⟩
      rintro rfl h2; simp at h2; subst h2; simp [isSpace] at this
    · have := (F3 h).1; rw [s5, Bool.or_eq_false_iff] at this
      refine ⟨this.1, ?_⟩
      rintro rfl; simpa [isBreakO] using this.2
    · have h2 := F4 h; rw [s3, Bool.or_eq_false_iff] at h2
      refine ⟨h2.1.1, ?_⟩
      rw [getLast_cons_space]
      cases he : cs.isEmpty with
      | true => have h3 := h2.1.2; rw [he] at h3; simpa [isSpace] using h3
      | false => exact h2.2
    · have h2 := F5 h; rw [s6, Bool.or_eq_false_iff] at h2
      refine ⟨h2.1.1, ?_⟩
      rw [getLast_cons_space]
      cases he : cs.isEmpty with
      | true => have h3 := h2.1.2; rw [he] at h3; simpa [isBreakO] using h3
      | false => exact h2.2
    · have h2 := F6 h; rw [s4, Bool.or_eq_false_iff] at h2
      refine ⟨h2.1.1, ?_⟩
      cases prev with
      | none => exact h2.2
      | some a =>
        refine ⟨?_, h2.2⟩
        rintro ⟨ha, rfl⟩
        have h3 := h2.1.2
        rw [(hp a rfl).2.1, ha] at h3; simp [isSpace] at h3
    · have h2 := F7 h; rw [s7, Bool.or_eq_false_iff] at h2
      refine ⟨h2.1.1, ?_⟩
      cases prev with
      | none => exact h2.2
      | some a =>
        refine ⟨?_, h2.2⟩
        rintro ⟨rfl, hb⟩
        have h3 := h2.1.2
        rw [(hp ' ' rfl).1, hb] at h3; simp [isSpace] at h3
    · have h2 := F8 h
      have h1 := h2.1
      rw [hi.1] at h1
      cases prev with
      | none =>
        simp only [indicatorStep, Option.isNone_none, if_true] at h1
        simp only [blockOk]
        generalize hx : (cs! "#,[]{}&*!|>'\"%@`").contains c = x at h1 ⊢
        cases x with
        | true => simp at h1
        | false =>
          simp only [Bool.false_eq_true, if_false] at h1
          by_cases hq : (c == '?' || c == ':') = true
          · rw [if_pos hq] at h1
            simp only [Bool.or_eq_false_iff] at h1
            exact ⟨h1.1, rfl, fun _ => h1.2, h2.2⟩
          · rw [if_neg hq] at h1
            by_cases hd : (c == '-' && isBlankzO cs.head?) = true
            · rw [if_pos hd] at h1; simp at h1
            · rw [if_neg hd] at h1
              refine ⟨h1, rfl, ?_, h2.2⟩
              rintro (rfl | rfl | rfl)
              · simp at hq
              · simp at hq
              · simpa using hd
      | some a =>
        simp only [indicatorStep, Option.isNone_some, Bool.false_eq_true, if_false] at h1
        simp only [blockOk]
        by_cases hq : (cs! ",?[]{}").contains c = true
        · rw [if_pos hq] at h1
          refine ⟨h1, ?_, ?_, h2.2⟩ <;> (rintro rfl; exact absurd hq (by decide))
        · rw [if_neg hq] at h1
          by_cases hd : (c == ':') = true
          · rw [if_pos hd] at h1
            simp only [Bool.or_eq_false_iff] at h1
            refine ⟨h1.1, fun _ => h1.2, ?_, h2.2⟩
            rintro rfl; simp at hd
          · rw [if_neg hd] at h1
            by_cases he : (c == '#' && f.precededByWhitespace) = true
            · rw [if_pos he] at h1; simp at h1
            · rw [if_neg he] at h1
              refine ⟨h1, ?_, ?_, h2.2⟩
              · rintro rfl; simp at hd
              · rintro rfl
                rw [(hp a rfl).2.2] at he
                simpa using he
    · have h2 := F9 h
      have h1 := h2.1
      rw [hi.2] at h1
      cases prev with
      | none =>
        simp only [indicatorStep, Option.isNone_none, if_true] at h1
        simp only [flowOk]
        generalize hx : (cs! "#,[]{}&*!|>'\"%@`").contains c = x at h1 ⊢
        cases x with
        | true => simp at h1
        | false =>
          simp only [Bool.false_eq_true, if_false] at h1
          by_cases hq : (c == '?' || c == ':') = true
          · rw [if_pos hq] at h1; simp at h1
          · rw [if_neg hq] at h1
            by_cases hd : (c == '-' && isBlankzO cs.head?) = true
            · rw [if_pos hd] at h1; simp at h1
            · rw [if_neg hd] at h1
              refine ⟨h1, rfl, ?_, ?_, ?_, h2.2⟩
              · rintro rfl; simp at hq
              · rintro rfl; simp at hq
              · rintro rfl; simpa using hd
      | some a =>
        simp only [indicatorStep, Option.isNone_some, Bool.false_eq_true, if_false] at h1
        simp only [flowOk]
        by_cases hq : (cs! ",?[]{}").contains c = true
        · rw [if_pos hq] at h1; simp at h1
        · rw [if_neg hq] at h1
          by_cases hd : (c == ':') = true
          · rw [if_pos hd] at h1; simp at h1
          · rw [if_neg hd] at h1
            by_cases he : (c == '#' && f.precededByWhitespace) = true
            · rw [if_pos he] at h1; simp at h1
            · rw [if_neg he] at h1
              refine ⟨h1, by simpa using hq, ?_, ?_, h2.2⟩
              · rintro rfl; simp at hd
              · rintro rfl
                rw [(hp a rfl).2.2] at he
                simpa using he

/-! ### The styles -/

/-- A string allowed in single-quoted style. -/
structure SingleOk (v : Str) : Prop where
  chars : ∀ c ∈ v, isPrintable c = true
  breakSpace : chain (fun a b => ¬ (isBreak a = true ∧ b = ' ')) none v
  spaceBreak : chain (fun a b => ¬ (a = ' ' ∧ isBreak b = true)) none v

/-- A non-empty string allowed in plain style. -/
structure PlainOk (flow : Bool) (v : Str) : Prop where
  chars : ∀ c ∈ v, isPrintable c = true
  nonempty : v ≠ []
  noBreak : ∀ c ∈ v, isBreak c = false
  leading : v.head? ≠ some ' '
  trailing : v.getLast? ≠ some ' '
  marker : startsWith v (cs! "---") = false ∧ startsWith v (cs! "...") = false
  block : flow = false → blockOk none v
  flow : flow = true → flowOk none v

/-- A string allowed in block styles. -/
structure BlockOk (v : Str) : Prop where
  chars : ∀ c ∈ v, isPrintable c = true
  nonempty : v ≠ []
  trailing : v.getLast? ≠ some ' '
  spaceBreak : chain (fun a b => ¬ (a = ' ' ∧ isBreak b = true)) none v

/-- The flags before the first character. -/
def initFlags (v : Str) : Flags :=
  { blockIndicators := startsWith v (cs! "---") || startsWith v (cs! "..."),
    flowIndicators := startsWith v (cs! "---") || startsWith v (cs! "..."), precededByWhitespace := true }

theorem analyze_eq {u : Bool} {v : Str} (h : v ≠ []) :
    analyzeScalar u v = decideStyles v (analyzeLoop u v true (initFlags v)) := by
  unfold analyzeScalar
  rw [if_neg (by simpa using h)]
  rfl

theorem singleOk_of {u : Bool} {v : Str} (h : (analyzeScalar u v).singleQuotedAllowed = true) : SingleOk v := by
  by_cases hv : v = []
  · subst hv; exact ⟨by simp, trivial, trivial⟩
  · rw [analyze_eq hv] at h
    generalize hf : initFlags v = f at h
    have F := found u v none f (by simp)
    simp only [decideStyles, Bool.not_eq_true', Bool.or_eq_false_iff, Option.isNone_none] at h F
    exact ⟨fun c hc => ((special_mono u v true f h.2).2 c hc).1, (F.breakSpace h.1.1).2, (F.spaceBreak h.1.2).2⟩

theorem plainOk_of {u : Bool} {v : Str} {flow : Bool} (hv : v ≠ [])
    (h : (if flow then (analyzeScalar u v).flowPlainAllowed else (analyzeScalar u v).blockPlainAllowed) = true) : PlainOk flow v := by
  rw [analyze_eq hv] at h
  generalize hf : initFlags v = f at h
  have F := found u v none f (by simp)
  simp only [decideStyles, Bool.not_eq_true', Bool.or_eq_false_iff, Option.isNone_none] at h F
  cases flow with
  | true =>
    simp only [if_true, Bool.not_eq_true', Bool.or_eq_false_iff] at h
    obtain ⟨⟨⟨⟨⟨⟨⟨⟨h1, h2⟩, h3⟩, h4⟩, h5⟩, h6⟩, h7⟩, h8⟩, h9⟩ := h
    have hm := (F.flow h9).1
    rw [← hf] at hm
    simp only [initFlags, Bool.or_eq_false_iff] at hm
    exact ⟨fun c hc => ((special_mono u v true f h7).2 c hc).1, hv, (F.lineBreaks h8).2, (F.leadingSpace h1).2 rfl, (F.trailingSpace h3).2,
      hm, by simp, fun _ => (F.flow h9).2⟩
  | false =>
    simp only [Bool.false_eq_true, if_false, Bool.not_eq_true', Bool.or_eq_false_iff] at h
    obtain ⟨⟨⟨⟨⟨⟨⟨⟨h1, h2⟩, h3⟩, h4⟩, h5⟩, h6⟩, h7⟩, h8⟩, h9⟩ := h
    have hm := (F.block h9).1
    rw [← hf] at hm
    simp only [initFlags, Bool.or_eq_false_iff] at hm
    exact ⟨fun c hc => ((special_mono u v true f h7).2 c hc).1, hv, (F.lineBreaks h8).2, (F.leadingSpace h1).2 rfl, (F.trailingSpace h3).2,
      hm, fun _ => (F.block h9).2, by simp⟩

theorem blockOk_of {u : Bool} {v : Str} (h : (analyzeScalar u v).blockAllowed = true) : BlockOk v := by
  by_cases hv : v = []
  · subst hv; simp [analyzeScalar] at h
  · rw [analyze_eq hv] at h
    generalize hf : initFlags v = f at h
    have F := found u v none f (by simp)
    simp only [decideStyles, Bool.not_eq_true', Bool.or_eq_false_iff, Option.isNone_none] at h F
    exact ⟨fun c hc => ((special_mono u v true f h.2).2 c hc).1, hv, (F.trailingSpace h.1.1).2, (F.spaceBreak h.1.2).2⟩

/-- A string that is not multi-line has no line breaks. -/
theorem multiline_of {u : Bool} {v : Str} (h : (analyzeScalar u v).multiline = false) : ∀ c ∈ v, isBreak c = false := by
  by_cases hv : v = []
  · subst hv; simp
  · rw [analyze_eq hv] at h
    have F := found u v none (initFlags v) (by simp)
    exact (F.lineBreaks h).2

/-- The line breaks among printable characters. -/
theorem printable_break {c : Char} (h : isPrintable c = true) (hb : isBreak c = true) : c = '\n' ∨ c = '\u2028' ∨ c = '\u2029' := by
  simp only [isBreak, Bool.or_eq_true, beq_iff_eq] at hb
  rcases hb with (((rfl | rfl) | rfl) | rfl) | rfl
  · revert h; decide
  · exact Or.inl rfl
  · revert h; decide
  · exact Or.inr (Or.inl rfl)
  · exact Or.inr (Or.inr rfl)

theorem printable_noTab {c : Char} (h : isPrintable c = true) : c ≠ '\t' := by rintro rfl; revert h; decide

end Yaml.Emitter
