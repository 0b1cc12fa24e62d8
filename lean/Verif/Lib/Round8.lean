import Verif.Lib.Round7

/-
Reading back, emitter side: scalar nodes as a whole.
-/

namespace Yaml.Rt
open Yaml Emitter Lx Spec
set_option linter.unusedSimpArgs false
set_option linter.unusedVariables false

/-- The text of the properties. -/
def PropText (s : EState) (ps : List TokenData) (wp : Str) (L : Nat) : Prop :=
  (ps = [] ∧ wp = []) ∨
  (∃ w0, wp = sep s ++ w0 ∧ w0 ≠ [] ∧ w0.head? ≠ some ' ' ∧ (∀ c ∈ w0, isBreak c = false) ∧ strLen w0 ≤ L ∧ ps ≠ [])

/-- The space before what follows the properties. -/
def gapAfter (s : EState) (ps : List TokenData) : Str := if ps.isEmpty then sep s else [' ']

theorem gapAfter_spaces (s : EState) (ps : List TokenData) : ∀ c ∈ gapAfter s ps, c = ' ' := by
  unfold gapAfter; split
  · exact sep_spaces s
  · simp

/-- The content of a scalar node. -/
inductive ScalarCont (F fl : Nat) (n : Int) (lb : Break) (v : Str) (key : Bool) (g : Str) (s' : EState) : Str → ScalarStyle → Prop
  | flow {w : Str} {style : ScalarStyle} (hst : style = .plain ∨ style = .singleQuoted ∨ style = .doubleQuoted) (hw : s'.whitespace = false)
      (hi : s'.indention = false) (hne : w ≠ []) (hd : w.head? ≠ some ' ')
      (hk : key = true → (∀ c ∈ v, isBreak c = false) → (∀ c ∈ w, isBreak c = false) ∧ strLen w ≤ 4 * strLen v + 2)
      (hr : ∀ rest brk rest', PlainEnd (fl != 0) (n + 1) rest brk rest' → rest.head? ≠ some '\'' →
        ∃ b, (fl = 0 ∨ brk = false → b = false) ∧ Atom F fl n w (.scalar v style) b rest) : ScalarCont F fl n lb v key g s' (g ++ w) style
  | empty (hf : fl = 0) (hk : key = false) (hv : v = []) (hw : s'.whitespace = false) (hi : s'.indention = false) : ScalarCont F fl n lb v key g s' [] .plain
  | block {w : Str} (lit : Bool) (hf : fl = 0) (hk : key = false) (hw : s'.whitespace = true) (hi : s'.indention = endsBrk true v)
      (hc : endsBrk true v = true → s'.column = 0) (hd : w.head? = some (if lit then '|' else '>'))
      (hr : ∀ T, Fol n lb (endsBrk true v) T → ∃ g' rest, T = g' ++ rest ∧ Blanks g' ∧ BlockScalar (!lit) n (w ++ (g' ++ rest)) v rest ∧ NoSplit w (g' ++ rest)) :
      ScalarCont F fl n lb v key g s' (g ++ w) (if lit then .literal else .folded)

theorem writes_popIndent {s : EState} {i : Int} {l : List Int} (h : s.indents = i :: l) : Writes popIndent s () { s with indent := i, indents := l } [] := by
  unfold popIndent
  refine Writes.bind_get ?_
  rw [h]
  exact Writes.modify _ s

theorem writes_popState {s : EState} {st : EmSt} {l : List EmSt} (h : s.states = st :: l) : Writes popState s () { s with state := st, states := l } [] := by
  unfold popState
  refine Writes.bind_get ?_
  rw [h]
  exact Writes.modify _ s

/-- The properties of a node. -/
theorem writes_propText (P : Par) (F fl : Nat) (n : Int) (anchor : Option Str) (t : Option TagAnalysis) (tag : Option Str) (s : EState)
    (ha : ∀ a, anchor = some a → NameOk a) (ht : t = none → tag = none) (ht' : ∀ x, t = some x → ∃ tg, tag = some tg ∧ TagGood P.tags x tg) :
    ∃ s1 s2 w1 w2 ps, Writes (processAnchor (anchor.map fun a => ⟨a, false⟩)) s () s1 w1 ∧ Writes (processTag t) s1 () s2 w2 ∧
      Wrote s (w1 ++ w2) s2 ∧ PropText s ps (w1 ++ w2) (3 * propsLen (anchor.map fun a => ⟨a, false⟩) t + 5) ∧ sep s2 = gapAfter s ps ∧
      (ps = [] → s2 = s ∧ w1 ++ w2 = []) ∧ (ps ≠ [] → s2.whitespace = false ∧ s2.indention = false) ∧
      IsProps P.tags ps anchor tag ∧ ∀ rest, EndsTag rest → Atoms F fl n ps (w1 ++ w2) rest := by
  obtain ⟨s1, s2, w1, w2, ps, h1, h2, h3, h4, h5, h6⟩ := writes_props P.tags anchor t tag s ha ht ht'
  refine ⟨s1, s2, w1, w2, ps, h1, h2, h3, ?_, ?_, ?_, ?_, h5, fun rest => h6 F fl n rest⟩
  · rcases h4 with ⟨_, _, h, _, h'⟩ | ⟨w0, k1, k2, k3, k4, k5, _, _, k6⟩
    · exact Or.inl ⟨h', h⟩
    · exact Or.inr ⟨w0, k1, k2, k3, k4, k5, k6⟩
  · rcases h4 with ⟨_, _, h, h', h''⟩ | ⟨w0, k1, k2, k3, k4, k5, k6, k7, k8⟩
    · subst h''; rw [h']; rfl
    · unfold gapAfter sep
      rw [k6, if_neg (by simp), if_neg (by simp [k8])]
  · rcases h4 with ⟨_, _, h, h', h''⟩ | ⟨w0, k1, k2, k3, k4, k5, k6, k7, k8⟩
    · exact fun _ => ⟨h', h⟩
    · exact fun h => absurd h k8
  · rcases h4 with ⟨_, _, h, h', h''⟩ | ⟨w0, k1, k2, k3, k4, k5, k6, k7, k8⟩
    · exact fun h => absurd h'' h
    · exact fun _ => ⟨k6, k7⟩

/-- The increased indentation of the content. -/
def upIndent (s : EState) : EState :=
  { s with indents := s.indent :: s.indents, indent := if s.indent < 0 then s.bestIndent else s.indent + s.bestIndent }

theorem writes_upIndent (s : EState) : Writes (increaseIndent true false) s () (upIndent s) [] := by
  unfold increaseIndent
  exact Writes.modify _ s

/-- The content of a scalar, between the increase of the indentation and its end. -/
theorem writes_content (F fl : Nat) (n : Int) {P : Par} {s : EState} (hE : Env P s) (hf : s.flowLevel = 0 ↔ fl = 0) (hn : fl = 0 → n ≤ s.indent) (hn' : fl = 0 → s.simpleKeyContext = false → n = s.indent)
    {v : Str} {style : ScalarStyle} (h0 : style ≠ .any)
    (hp : style = .plain → ((s.flowLevel = 0 ∧ s.simpleKeyContext = false ∧ v = []) ∨ PlainOk (s.flowLevel != 0) v))
    (hs : style = .singleQuoted → SingleOk v)
    (hb : (style = .literal ∨ style = .folded) → s.flowLevel = 0 ∧ s.simpleKeyContext = false ∧ BlockOk v)
    (hfo : style = .folded → Props.FoldOk v) :
    ∃ s' w, Writes (processScalar style v) (upIndent s) () s' w ∧ core s' = core (upIndent s) ∧ s'.states = s.states ∧ s'.column = colAfter s.column w ∧
      ScalarCont F fl n s.lineBreak v s.simpleKeyContext (sep s) s' w style := by
  have hsep : sep (upIndent s) = sep s := rfl
  have hfb : (s.flowLevel != 0) = (fl != 0) := by
    by_cases h : fl = 0
    · simp [h, hf.2 h]
    · have h2 : s.flowLevel ≠ 0 := fun h' => h (hf.1 h')
      rw [bne_iff_ne.2 h2, bne_iff_ne.2 h]
  have hi1 : 1 ≤ (upIndent s).indent := by
    have := hE.best; have := hE.indent
    show 1 ≤ if s.indent < 0 then s.bestIndent else s.indent + s.bestIndent
    split <;> omega
  have hin : fl = 0 → n + 1 ≤ (upIndent s).indent := by
    intro h
    have := hn h
    have := hE.best; have := hE.indent
    show n + 1 ≤ if s.indent < 0 then s.bestIndent else s.indent + s.bestIndent
    split <;> omega
  have flowCase : (style = .plain ∨ style = .singleQuoted ∨ style = .doubleQuoted) → (style = .plain → PlainOk (fl != 0) v) →
      ∃ s' w, Writes (processScalar style v) (upIndent s) () s' w ∧ core s' = core (upIndent s) ∧ s'.states = s.states ∧ s'.column = colAfter s.column w ∧
        ScalarCont F fl n s.lineBreak v s.simpleKeyContext (sep s) s' w style := by
    intro hst hpl
    obtain ⟨s', w, h1, h2, h3, h4, h5, h6, h7, h8⟩ := writes_flowScalar style v (upIndent s) fl n hst hE.brk hi1 (fun h => ⟨hpl h, hin⟩) hs
    rw [hsep] at h1 h2
    exact ⟨s', _, h1, core_wrote h2, by rw [h2.frame]; rfl, h2.col, .flow hst h3 h4 h5 h6 h7 (fun rest brk rest' => h8 F rest brk rest')⟩
  have blockCase : ∀ lit : Bool, style = (if lit then .literal else .folded) → ∃ s' w, Writes (processScalar style v) (upIndent s) () s' w ∧ core s' = core (upIndent s) ∧
      s'.states = s.states ∧ s'.column = colAfter s.column w ∧ ScalarCont F fl n s.lineBreak v s.simpleKeyContext (sep s) s' w style := by
    intro lit hst
    obtain ⟨b1, b2, b3⟩ := hb (by cases lit <;> simp_all)
    have hfl := hf.1 b1
    have hnn := hn' hfl b2
    have hii : (upIndent s).indent = (if n < 0 then (upIndent s).bestIndent else n + (upIndent s).bestIndent) := by rw [hnn]; rfl
    obtain ⟨s', w, h1, h2, h3, h4, h5, h6, h7⟩ := writes_blockScalar lit v (upIndent s) n hE.brk hE.best (by rw [hnn]; exact hE.indent) hii b3
      (fun h => hfo (by rw [hst, h]; rfl))
    rw [hsep] at h1 h2
    have hcore : core s' = core (upIndent s) := (core_wrote h2).trans rfl
    refine ⟨s', _, ?_, hcore, by rw [h2.frame]; rfl, h2.col, ?_⟩
    · refine Writes.bind_get ?_
      rw [hst]
      cases lit <;> exact h1
    · rw [hst]; exact .block lit hfl b2 h3 h4 h5 h6 h7
  cases style with
  | any => exact absurd rfl h0
  | plain =>
    rcases hp rfl with ⟨p1, p2, rfl⟩ | hp
    · refine ⟨_, [], writes_emptyPlain (upIndent s) p1, rfl, rfl, rfl, .empty (hf.1 p1) p2 rfl rfl rfl⟩
    · exact flowCase (Or.inl rfl) (fun _ => hfb ▸ hp)
  | singleQuoted => exact flowCase (Or.inr (Or.inl rfl)) (by simp)
  | doubleQuoted => exact flowCase (Or.inr (Or.inr rfl)) (by simp)
  | literal => exact blockCase true rfl
  | folded => exact blockCase false rfl

/-- The event read for a scalar. -/
def readScalar (an tag : Option Str) (v : Str) (style : ScalarStyle) (wc : Str) : EventData :=
  if wc.isEmpty then .scalar an tag [] (untagged tag) false .plain else scalarEvent an tag v style

theorem same_scalar {P : Par} {an tg : Option Str} {v : Str} {p q : Bool} {st : ScalarStyle} {a : Analysis} (hs : Seen P (.scalar an tg v p q st) a)
    {style : ScalarStyle} (hp : style = .plain → a.tag = none → p = true) {wc : Str} (hwc : wc = [] → style = .plain ∧ v = []) :
    SameEvent P.canon (.scalar an tg v p q st)
      (readScalar an (if (a.tag.isNone && !q && style != .plain) = true then some ['!'] else writtenTag P.canon (.scalar an tg v p q st)) v style wc) := by
  obtain ⟨h1, h2, h3, h4⟩ := hs
  generalize htg : (if (a.tag.isNone && !q && style != .plain) = true then some ['!'] else writtenTag P.canon (.scalar an tg v p q st)) = tag
  cases hx : a.tag with
  | some x =>
    obtain ⟨t, ht, _⟩ := h1.yes x hx
    have hne : t ≠ [] := by intro h; exact h1.ne (by rw [ht, h])
    rw [hx] at htg
    simp only [Option.isNone_some, Bool.false_and, Bool.false_eq_true, if_false] at htg
    rw [ht] at htg
    subst htg
    unfold readScalar
    split
    · rename_i hw
      have := hwc (by simpa using hw)
      simp only [SameEvent, ht, untagged]
      simp [this.2, hne]
    · simp only [SameEvent, ht, scalarEvent]
      simp
  | none =>
    have hno := h1.no hx
    rw [hx] at htg
    rw [hno] at htg
    unfold readScalar
    by_cases hpl : style = .plain
    · subst hpl
      simp at htg
      subst htg
      have hpp := hp rfl hx
      split
      · rename_i hw
        have := hwc (by simpa using hw)
        simp only [SameEvent, hno, untagged]
        simp [this.2, hpp]
      · simp only [SameEvent, hno, scalarEvent]
        simp [hpp]
    · have hw : ¬ (wc.isEmpty = true) := by
        intro hw; exact hpl (hwc (by simpa using hw)).1
      rw [if_neg hw]
      cases hq : q with
      | true =>
        rw [hq] at htg
        simp at htg
        subst htg
        simp only [SameEvent, scalarEvent]
        rw [hq] at hno
        rw [hno]
        simp [hpl]
      | false =>
        rw [hq] at htg
        rw [if_pos (by simp [hpl])] at htg
        subst htg
        have : p = true := by
          rcases h3 hx with h | h
          · exact h
          · rw [hq] at h; cases h
        simp only [SameEvent, scalarEvent]
        rw [hq] at hno
        rw [hno]
        simp [hpl, this]

/-- A scalar node. -/
theorem writes_emitScalar (F fl : Nat) (n : Int) {P : Par} {s : EState} (hE : Env P s) (hf : s.flowLevel = 0 ↔ fl = 0) (hn : fl = 0 → n ≤ s.indent) (hn' : fl = 0 → s.simpleKeyContext = false → n = s.indent)
    {an tg : Option Str} {v : Str} {p q : Bool} {st : ScalarStyle} {a : Analysis} (hs : Seen P (.scalar an tg v p q st) a) {st0 : EmSt} {sts : List EmSt}
    (hst : s.states = st0 :: sts) :
    ∃ s' ps wp wc tag style, Writes (emitScalar p q st a) s () s' (wp ++ wc) ∧ core s' = core s ∧ s'.state = st0 ∧ s'.states = sts ∧
      s'.column = colAfter s.column (wp ++ wc) ∧ IsProps P.tags ps an tag ∧ PropText s ps wp (3 * propsLen a.anchor a.tag + 8) ∧
      (∀ rest, EndsTag rest → Atoms F fl n ps wp rest) ∧ ScalarCont F fl n s.lineBreak v s.simpleKeyContext (gapAfter s ps) s' wc style ∧
      SameEvent P.canon (.scalar an tg v p q st) (readScalar an tag v style wc) ∧ (style = .plain → st = .plain ∨ st = .any) := by
  have hs0 := hs
  obtain ⟨h1, h2, h3, h4⟩ := hs
  obtain ⟨style, hstyle⟩ : ∃ style, chooseStyle s (analyzeScalar s.unicode v) a.tag.isNone p st = style := ⟨_, rfl⟩
  obtain ⟨c1, c2, c3, c4, c5⟩ := chooseStyle_facts hstyle
  obtain ⟨t, htt⟩ : ∃ t, t = (if a.tag.isNone && !q && style != .plain then some ⟨['!'], []⟩ else a.tag) := ⟨_, rfl⟩
  obtain ⟨tag, htag⟩ : ∃ tag, tag = (if a.tag.isNone && !q && style != .plain then some ['!'] else writtenTag P.canon (.scalar an tg v p q st)) := ⟨_, rfl⟩
  have hsel : Writes (selectScalarStyle p q st (analyzeScalar P.uni v) a.tag) s (style, t) s [] := by
    unfold selectScalarStyle
    refine Writes.bind_get ?_
    rw [if_neg (by
      intro h
      simp at h
      rcases h3 h.1.1 with h' | h'
      · rw [h.1.2] at h'; cases h'
      · rw [h.2] at h'; cases h')]
    rw [← hE.uni]
    simp only [hstyle]
    rw [htt]
    exact Writes.pure _ s
  obtain ⟨s1, s2, w1, w2, ps, d1, d2, d3, d4, d5, d6, d7, d8, d9⟩ := writes_propText P F fl n an t tag s h1.names
    (by
      intro h
      rw [htt] at h
      rw [htag]
      split at h
      · cases h
      · rename_i hc; rw [if_neg hc]; exact h1.no h)
    (by
      intro x hx
      rw [htt] at hx
      rw [htag]
      split at hx
      · rename_i hc
        rw [if_pos hc]
        cases hx
        exact ⟨_, rfl, tagGood_bang _⟩
      · rename_i hc; rw [if_neg hc]; exact h1.yes x hx)
  have e2 : Env P s2 := hE.core (core_wrote d3)
  have hfl2 : s2.flowLevel = s.flowLevel := d3.flowLevel
  have hk2 : s2.simpleKeyContext = s.simpleKeyContext := by rw [d3.frame]
  obtain ⟨s4, wc, k1, k2, k3, k4, k5⟩ := writes_content F fl n (P := P) (s := s2) (v := v) (style := style) e2 (by rw [hfl2]; exact hf) (by rw [d3.indent]; exact hn)
    (by rw [d3.indent, hk2]; exact hn') c1
    (by intro h; rw [hfl2, hk2]; exact (c2 h).2) c3 (by intro h; rw [hfl2, hk2]; exact c4 h) (fun h => h4 (c5 h))
  have hind : s4.indents = s2.indent :: s2.indents := core_indents k2
  have hst4 : s4.states = st0 :: sts := by rw [k3, d3.frame]; exact hst
  refine ⟨{ s4 with indent := s2.indent, indents := s2.indents, state := st0, states := sts }, ps, w1 ++ w2, wc, tag, style, ?_, ?_, rfl, rfl, ?_, d8, ?_, d9, ?_, ?_, fun h => chooseStyle_plain (hstyle.trans h)⟩
  · unfold emitScalar
    rw [h2]
    simp only []
    refine hsel.bind0 ?_
    have hval : (analyzeScalar P.uni v).value = v := analyzeScalar_value _ _
    simp only [hval]
    rw [h1.name]
    have := d1.bind (f := fun _ => do processTag t; increaseIndent true false; processScalar style v; popIndent; popState) (d2.bind ((writes_upIndent s2).bind0 (k1.bind
      ((writes_popIndent hind).bind0 (writes_popState (s := { s4 with indent := s2.indent, indents := s2.indents }) hst4)))))
    refine this.cast rfl (by simp)
  · have e1 : core s4 = core (upIndent s2) := k2
    have : core { s4 with indent := s2.indent, indents := s2.indents, state := st0, states := sts } = { core s4 with indent := s2.indent, indents := s2.indents } := rfl
    rw [this, e1]
    show core s2 = core s
    exact core_wrote d3
  · show s4.column = _
    rw [k4, d3.col, ← colAfter_append]
  · rcases d4 with h | ⟨w0, q1, q2, q3, q4, q5, q6⟩
    · exact Or.inl h
    · refine Or.inr ⟨w0, q1, q2, q3, q4, ?_, q6⟩
      have : propsLen (an.map fun a => ⟨a, false⟩) t ≤ propsLen a.anchor a.tag + 1 := by
        rw [h1.name]
        unfold propsLen
        rw [htt]
        split
        · show _ + (strLen ['!'] + strLen []) ≤ _
          have : strLen ['!'] + strLen [] = 1 := rfl
          omega
        · omega
      omega
  · rw [hk2, d3.lineBreak, d5] at k5
    cases k5 with
    | flow g1 g2 g3 g4 g5 g6 g7 => exact .flow g1 g2 g3 g4 g5 g6 g7
    | empty g1 g2 g3 g4 g5 => exact .empty g1 g2 g3 g4 g5
    | block g1 g2 g3 g4 g5 g6 g7 g8 => exact .block g1 g2 g3 g4 g5 g6 g7 g8
  · rw [htag]
    refine same_scalar hs0 (fun h hn => (c2 h).1 (by rw [hn]; rfl)) ?_
    intro hw
    rw [hw] at k5
    generalize hx : ([] : Str) = x at k5
    cases k5 with
    | flow g1 g2 g3 g4 => 
      exfalso
      have := congrArg List.length hx
      simp at this
      exact g4 (List.eq_nil_of_length_eq_zero (by omega))
    | empty g1 g2 g3 => exact ⟨rfl, g3⟩
    | @block w _ g2 g3 g4 g5 g6 g7 =>
      exfalso
      have := congrArg List.length hx
      cases w with
      | nil => cases g7
      | cons => simp at this

end Yaml.Rt
