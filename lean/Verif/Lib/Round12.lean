import Verif.Lib.Round11

/-
Reading back: flow collections.
-/

namespace Yaml.Rt
open Yaml Emitter Lx Spec
set_option linter.unusedSimpArgs false
set_option linter.unusedVariables false

/-- The opening of a flow collection. -/
def openFlow (c : Char) : Emit Unit := do
  writeIndicator [c] true true false
  increaseIndent true false
  addFlowLevel 1

/-- An item of a flow sequence after its separator. -/
def seqItem (event : Event) (a : Analysis) : Emit Unit := do
  pushState .flowSequenceItem
  emitNode event false true false false a

/-- A key of a flow mapping after its separator. -/
def mapItem (event : Event) (a : Analysis) : Emit Unit := do
  let s ← M.get
  let simple ← if s.canonical then pure false else simpleKeyTest event a
  if simple then do
    pushState .flowMappingSimpleValue
    emitNode event false false true true a
  else do
    writeIndicator ['?'] true false false
    pushState .flowMappingValue
    emitNode event false false true false a

/-- Flow sequences and flow mappings. -/
structure FlowKind where
  f : Event → Bool → Analysis → Emit Unit
  r : Event → Analysis → Emit Unit
  K : EmSt
  fin : EventData
  c0 : Char
  c : Char
  d0 : TokenData
  d : TokenData
  ph1 : Phrase
  ph : Phrase
  opens : (c0 = '[' ∧ d0 = .flowSequenceStart) ∨ (c0 = '{' ∧ d0 = .flowMappingStart)
  closes : (c = ']' ∧ d = .flowSequenceEnd) ∨ (c = '}' ∧ d = .flowMappingEnd)
  isFin : fin = .sequenceEnd ∨ fin = .mappingEnd
  fend : ∀ e first a, e.data = fin → f e first a = (do M.when first (openFlow c0); emitFlowEnd first c)
  fitem : ∀ e first a, e.data ≠ fin → f e first a = (do M.when first (openFlow c0); emitFlowSeparator first; r e a)
  machine : ∀ e a s, s.state = K → stateMachine e a s = f e false a s
  derNone : ∀ D, Derives false D ph [] []
  derLast : ∀ D n es, Derives false D ph1 n es → Derives false D ph n es
  derMore : ∀ D n es ts fs, Derives false D ph1 n es → Derives false D ph ts fs → Derives false D ph (n ++ .flowEntry :: ts) (es ++ fs)

def seqKind : FlowKind where
  f := emitFlowSequenceItem
  r := seqItem
  K := .flowSequenceItem
  fin := .sequenceEnd
  c0 := '['
  c := ']'
  d0 := .flowSequenceStart
  d := .flowSequenceEnd
  ph1 := .flowItem
  ph := .flowItems
  opens := Or.inl ⟨rfl, rfl⟩
  closes := Or.inl ⟨rfl, rfl⟩
  isFin := Or.inl rfl
  fend := by
    intro e first a h
    unfold emitFlowSequenceItem
    rw [h]; rfl
  fitem := by
    intro e first a h
    unfold emitFlowSequenceItem
    split
    · rename_i h'; exact absurd h' h
    · rfl
  machine := by
    intro e a s h
    cases s; cases h; rfl
  derNone := fun D => .noFlowItems
  derLast := fun D n es h => .lastItem h
  derMore := fun D n es ts fs h h' => .moreItems h h'

def mapKind : FlowKind where
  f := emitFlowMappingKey
  r := mapItem
  K := .flowMappingKey
  fin := .mappingEnd
  c0 := '{'
  c := '}'
  d0 := .flowMappingStart
  d := .flowMappingEnd
  ph1 := .flowEntry
  ph := .flowEntries
  opens := Or.inr ⟨rfl, rfl⟩
  closes := Or.inr ⟨rfl, rfl⟩
  isFin := Or.inr rfl
  fend := by
    intro e first a h
    unfold emitFlowMappingKey
    rw [h]; rfl
  fitem := by
    intro e first a h
    unfold emitFlowMappingKey
    split
    · rename_i h'; exact absurd h' h
    · rfl
  machine := by
    intro e a s h
    cases s; cases h; rfl
  derNone := fun D => .noFlowEntries
  derLast := fun D n es h => .lastEntry h
  derMore := fun D n es ts fs h h' => .moreEntries h h'

/-! ### Pieces -/

theorem ana_end {P : Par} (hD : DirsOk P.tags) {e : Event} (h : e.data = .sequenceEnd ∨ e.data = .mappingEnd) : ∃ a, Ana P e a := by
  have hg : NodeGood P e.data := by
    rcases h with h | h <;> rw [h]
    · exact ⟨trivial, (fun t ht => by cases ht), (fun _ _ _ _ _ h' => by cases h')⟩
    · exact ⟨trivial, (fun t ht => by cases ht), (fun _ _ _ _ _ h' => by cases h')⟩
  obtain ⟨a, ha, _⟩ := analysed hD (e := e) hg (by
      rcases h with h | h
      · exact Or.inr (Or.inr (Or.inr (Or.inr (Or.inl h))))
      · exact Or.inr (Or.inr (Or.inr (Or.inr (Or.inr h)))))
  exact ⟨a, ha⟩

/-- `write_indent` inside a flow collection. -/
theorem writes_flowIndent (s : EState) (hl : s.lineBreak ≠ .any) (hi : 1 ≤ s.indent) :
    ∃ s1 g, Writes writeIndent s () s1 g ∧ Wrote s g s1 ∧ s1.whitespace = true ∧ s1.indention = true ∧ Blanks g ∧ g.getLast? ≠ some '\r' ∧
      (s.indention = false → g ≠ []) := by
  obtain ⟨s1, g, h1, h2, h3, h4, h5, h6, h7, h8⟩ := writes_indent s hl
  refine ⟨s1, g, h1, h2, h3, h4, h5, ?_, ?_⟩
  · obtain ⟨j, hj⟩ : ∃ j, s.indent.toNat = j + 1 := ⟨s.indent.toNat - 1, by omega⟩
    cases hb : breaksLine s with
    | true =>
      rw [h7 hb, hj, List.replicate_succ']
      rw [← List.append_assoc, List.getLast?_append]
      simp
    | false =>
      rw [h8 hb]
      intro h
      have := List.mem_of_getLast? h
      have := List.eq_of_mem_replicate this
      revert this; decide
  · intro hin
    have hb : breaksLine s = true := by unfold breaksLine; rw [hin]; rfl
    rw [h7 hb]
    obtain ⟨c, r, h, _⟩ := breakChars_head hl
    rw [h]; simp

/-- The possible line break before an item. -/
theorem writes_flowBreak (s : EState) (hl : s.lineBreak ≠ .any) (hi : 1 ≤ s.indent) :
    ∃ s1 g, Writes (M.when (s.canonical || decide (s.column > s.bestWidth)) writeIndent) s () s1 g ∧ Wrote s g s1 ∧ Blanks g ∧ g.getLast? ≠ some '\r' ∧
      (s.whitespace = false → s.indention = false → (g = [] ∧ s1.whitespace = false) ∨ (g ≠ [] ∧ s1.whitespace = true)) := by
  cases hc : s.canonical || decide (s.column > s.bestWidth) with
  | true =>
    obtain ⟨s1, g, h1, h2, h3, h4, h5, h6, h7⟩ := writes_flowIndent s hl hi
    exact ⟨s1, g, Writes.when_true rfl h1, h2, h5, h6, fun _ h => Or.inr ⟨h7 h, h3⟩⟩
  | false => exact ⟨s, [], Writes.when_false rfl, .refl s, .nil, by simp, fun h _ => Or.inl ⟨rfl, h⟩⟩

theorem writes_flowSeparator (first : Bool) (s : EState) (hl : s.lineBreak ≠ .any) (hi : 1 ≤ s.indent) :
    ∃ s1 g, Writes (emitFlowSeparator first) s () s1 ((if first then [] else [',']) ++ g) ∧ Wrote s ((if first then [] else [',']) ++ g) s1 ∧ Blanks g ∧
      g.getLast? ≠ some '\r' := by
  unfold emitFlowSeparator
  cases first with
  | true =>
    obtain ⟨s1, g, h1, h2, h3, h4, _⟩ := writes_flowBreak s hl hi
    exact ⟨s1, g, Writes.bind0 (a := ()) (s' := s) (Writes.when_false rfl) (Writes.bind_get h1), h2, h3, h4⟩
  | false =>
    obtain ⟨s0, k1, k2, k3, k4⟩ := writes_indicator0 [','] false false s (by decide)
    obtain ⟨s1, g, h1, h2, h3, h4, _⟩ := writes_flowBreak s0 (by rw [k2.lineBreak]; exact hl) (by rw [k2.indent]; exact hi)
    exact ⟨s1, g, Writes.bind (a := ()) (s' := s0) (Writes.when_true rfl k1) (Writes.bind_get h1), k2.trans h2, h3, h4⟩

theorem writes_openFlow {c : Char} (hc : isBreak c = false) (s : EState) :
    ∃ s1, Writes (openFlow c) s () s1 (sep s ++ [c]) ∧ core s1 = core { upIndent s with flowLevel := s.flowLevel + 1 } ∧ s1.column = colAfter s.column (sep s ++ [c]) ∧
      s1.whitespace = true ∧ s1.states = s.states ∧ s1.events = s.events := by
  obtain ⟨s0, k1, k2, k3, k4⟩ := writes_indicator [c] true false s (by simp [hc])
  refine ⟨{ upIndent s0 with flowLevel := s0.flowLevel + 1 }, ?_, ?_, k2.col, k3, ?_, ?_⟩
  · unfold openFlow
    exact (k1.bind (f := fun _ => do increaseIndent true false; addFlowLevel 1) ((writes_upIndent s0).bind0 (Writes.modify _ _))).cast rfl (by simp)
  · have e : core { upIndent s0 with flowLevel := s0.flowLevel + 1 } = { upIndent (core s0) with flowLevel := (core s0).flowLevel + 1 } := rfl
    rw [e, core_wrote k2]; rfl
  · show s0.states = _; rw [k2.frame]
  · show s0.events = _; rw [k2.frame]

theorem writes_flowEnd (first : Bool) {c : Char} (hc : isBreak c = false) {s : EState} (hl : s.lineBreak ≠ .any) {i0 : Int} {l : List Int} (hi : s.indents = i0 :: l)
    {st : EmSt} {sts : List EmSt} (hst : s.states = st :: sts) :
    ∃ s' g, Writes (emitFlowEnd first c) s () s' ((if s.canonical && !first then ',' :: g else []) ++ [c]) ∧
      core s' = core { s with indent := i0, indents := l, flowLevel := s.flowLevel - 1 } ∧ s'.state = st ∧ s'.states = sts ∧
      s'.column = colAfter s.column ((if s.canonical && !first then ',' :: g else []) ++ [c]) ∧ s'.whitespace = false ∧ s'.indention = false ∧ Blanks g := by
  unfold emitFlowEnd
  obtain ⟨s0, hs0⟩ : ∃ s0, s0 = { s with flowLevel := s.flowLevel - 1, indent := i0, indents := l } := ⟨_, rfl⟩
  have hpre : ∀ {f : Unit → Emit Unit} {s' : EState} {w : Str}, Writes (f ()) s0 () s' w → Writes (do addFlowLevel (-1); popIndent; f ()) s () s' w := by
    intro f s' w h
    refine Writes.bind_modify (g := fun s => { s with flowLevel := s.flowLevel + -1 }) ?_
    refine Writes.bind0 (a := ()) (writes_popIndent (s := { s with flowLevel := s.flowLevel + -1 }) hi) ?_
    rw [hs0] at h; exact h
  have h0c : s0.canonical = s.canonical := by rw [hs0]
  have h0l : s0.lineBreak = s.lineBreak := by rw [hs0]
  have h0col : s0.column = s.column := by rw [hs0]
  have h0s : s0.states = st :: sts := by rw [hs0]; exact hst
  have h0core : core s0 = core { s with indent := i0, indents := l, flowLevel := s.flowLevel - 1 } := by rw [hs0]
  cases hcf : s.canonical && !first with
  | true =>
    obtain ⟨s1, k1, k2, k3, k4⟩ := writes_indicator0 [','] false false s0 (by decide)
    obtain ⟨s2, g, h1, h2, h3, h4, h5, _⟩ := writes_indent s1 (by rw [k2.lineBreak, h0l]; exact hl)
    obtain ⟨s3, m1, m2, m3, m4⟩ := writes_indicator0 [c] false false s2 (by simp [hc])
    have hw : Wrote s0 ([','] ++ (g ++ [c])) s3 := k2.trans (h2.trans m2)
    have hs3 : s3.states = st :: sts := by rw [hw.frame]; exact h0s
    refine ⟨{ s3 with state := st, states := sts }, g, ?_, ?_, rfl, rfl, ?_, m3, by show s3.indention = _; rw [m4]; simp, h5⟩
    · refine hpre (f := fun _ => _) (Writes.bind_get ?_)
      have hwhen : Writes (M.when (s0.canonical && !first) (do writeIndicator [','] false false false; writeIndent)) s0 () s2 ([','] ++ g) :=
        Writes.when_true (by rw [h0c]; exact hcf) (k1.bind h1)
      exact (hwhen.bind (f := fun _ => do writeIndicator [c] false false false; popState) (m1.bind (writes_popState hs3))).cast rfl (by simp)
    · show core s3 = _; rw [core_wrote hw, h0core]
    · show s3.column = _; rw [hw.col, h0col]; rfl
  | false =>
    obtain ⟨s3, m1, m2, m3, m4⟩ := writes_indicator0 [c] false false s0 (by simp [hc])
    have hs3 : s3.states = st :: sts := by rw [m2.frame]; exact h0s
    refine ⟨{ s3 with state := st, states := sts }, [], ?_, ?_, rfl, rfl, ?_, m3, by show s3.indention = _; rw [m4]; simp, .nil⟩
    · refine hpre (f := fun _ => _) (Writes.bind_get ?_)
      have hwhen : Writes (M.when (s0.canonical && !first) (do writeIndicator [','] false false false; writeIndent)) s0 () s0 [] :=
        Writes.when_false (by rw [h0c]; exact hcf)
      exact (hwhen.bind (f := fun _ => do writeIndicator [c] false false false; popState) (m1.bind (writes_popState hs3))).cast rfl (by simp)
    · show core s3 = _; rw [core_wrote m2, h0core]
    · show s3.column = _; rw [m2.col, h0col]; rfl

/-! ### Scanner side -/

theorem skip_moved {A : Cfg} (h : Cool A) (g : Str) : Moved A (A.skip g) [] :=
  ⟨rfl, rfl, rfl, by simp [Cfg.skip], h.same rfl rfl (advance_line _ _), KeySub.refl _⟩

theorem skip_allowed {A : Cfg} (h : A.allowed = true) (g : Str) : (A.skip g).allowed = true := by
  show (A.allowed || _) = true
  rw [h]; rfl

/-! ### Items -/

/-- One item of a flow collection, after its separator. -/
def ClaimOne (P : Par) (F : Nat) (k : FlowKind) (es : Evs) : Prop :=
  ∀ (s : EState) (fl : Nat) (n : Int), Env P s → s.flowLevel = fl → fl ≠ 0 → 1 ≤ s.indent →
    ∃ s' w, Run P k.r s es s' w ∧ core s' = core s ∧ s'.state = k.K ∧ s'.states = s.states ∧ s'.whitespace = false ∧ s'.indention = false ∧
      ∀ rest, FolF rest → ∀ A, Cool A → A.flow = fl → A.indent = n → Sync s A → A.allowed = true →
        ∃ A' ts evs, Reach F A (w ++ rest) A' rest ∧ Moved A A' ts ∧ Sync s' A' ∧ Derives false P.tags k.ph1 ts evs ∧ SameEvents P.canon (datas es) evs

section
variable {P : Par} {F : Nat} {k : FlowKind}

theorem FlowKind.c_flat (k : FlowKind) : isBreak k.c = false := by rcases k.closes with ⟨h, _⟩ | ⟨h, _⟩ <;> rw [h] <;> decide
theorem FlowKind.c0_lf (k : FlowKind) (x : Str) : ∃ c r, k.c0 :: x = c :: r ∧ c ≠ '\n' :=
  ⟨_, _, rfl, by rcases k.opens with ⟨h, _⟩ | ⟨h, _⟩ <;> rw [h] <;> decide⟩

theorem FlowKind.c0_flat (k : FlowKind) : isBreak k.c0 = false := by rcases k.opens with ⟨h, _⟩ | ⟨h, _⟩ <;> rw [h] <;> decide

theorem folF_close (k : FlowKind) (r : Str) : FolF (k.c :: r) := by
  refine Or.inl ⟨k.c, r, rfl, ?_⟩
  rcases k.closes with ⟨h, _⟩ | ⟨h, _⟩ <;> simp [h]

theorem folF_comma (r : Str) : FolF (',' :: r) := Or.inl ⟨',', r, rfl, Or.inl rfl⟩

/-- Without further items. -/
theorem flow_nil (hD : DirsOk P.tags) : ClaimFlow P F k.f k.fin k.d k.ph1 k.ph [] := by
  intro s fl n i0 l st sts f1 q1 hf1 hE hfl hi1 hi0 hil hst
  obtain ⟨a, ha⟩ := ana_end (P := P) hD (e := f1) (by rw [hf1]; exact k.isFin)
  obtain ⟨s', g, h1, h2, h3, h4, h5, h6, h7, h8⟩ := writes_flowEnd false k.c_flat (s := { s with events := q1 }) hE.brk hil hst
  obtain ⟨w, hw⟩ : ∃ w, w = (if s.canonical && !false then ',' :: g else []) ++ [k.c] := ⟨_, rfl⟩
  have hfw : Writes (k.f f1 false a) { s with events := q1 } () s' w := by
    rw [k.fend f1 false a hf1, hw]
    exact Writes.bind0 (a := ()) (Writes.when_false rfl) h1
  refine ⟨s', w, ⟨f1, q1, [], a, s', w, [], rfl, ha, hfw, ⟨(congrArg EState.canonical h2).trans hE.canon, (congrArg EState.unicode h2).trans hE.uni, (congrArg EState.tagDirectives h2).trans hE.tags⟩, .nil s', by simp⟩, ?_, h3, h4, h6, h7, ?_⟩
  · rw [h2]
    show core _ = core _
    have : s.flowLevel - 1 = (fl : Int) := by rw [hfl]; simp
    show core { s with events := q1, indent := i0, indents := l, flowLevel := s.flowLevel - 1 } = _
    rw [this]; rfl
  intro rest
  have hcol : s'.column = colAfter s.column w := by rw [hw]; exact h5
  cases hcan : s.canonical with
  | false =>
    rw [hcan] at hw
    simp at hw
    subst hw
    refine ⟨folF_close k rest, ?_⟩
    intro A hAf hA hAi hsy
    obtain ⟨B, b1, b2, b3, b4, b5, b6, b7, b8, b9⟩ := read_close (F := F) (g := []) (t := rest) k.closes hA (by omega) .nil
    refine ⟨B, [], [], b1, by omega, b3, b4, b5, b6, b8, b7, ?_, ?_, trivial⟩
    · exact sync_of hsy (g := []) hcol b9
    · intro n0 es0 h
      simp only [List.append_nil]
      exact k.derLast _ _ _ h
  | true =>
    rw [hcan] at hw
    simp at hw
    subst hw
    refine ⟨folF_comma _, ?_⟩
    intro A hAf hA hAi hsy
    obtain ⟨B0, a1, a2, a3, a4, a5⟩ := read_comma (F := F) (g := []) (t := g ++ (k.c :: rest)) hA (by omega) .nil
    obtain ⟨B, b1, b2, b3, b4, b5, b6, b7, b8, b9⟩ := read_close (F := F) (g := g) (t := rest) k.closes a2.cool (by rw [a2.flow]; omega) h8
    refine ⟨B, [.flowEntry], [], ?_, ?_, ?_, ?_, ?_, b6, b8.trans a2.tail, b7, ?_, ?_, trivial⟩
    · have := a1.trans b1
      simpa using this
    · have := a2.flow; omega
    · rw [b3, a2.indent]
    · rw [b4, a2.indents]
    · rw [b5, a2.toks]; simp
    · have : ((B.mark.column : Nat) : Int) = s'.column := by
        rw [b9, a5, colAfter_advance, colAfter_advance, colAfter_advance, hcol]
        show colAfter (colAfter (colAfter (A.mark.column : Int) [',']) g) [k.c] = _
        rw [hsy, ← colAfter_append, ← colAfter_append]; simp
      exact this
    · intro n0 es0 h
      simp only [List.append_nil]
      have := k.derMore _ _ _ _ _ h (k.derNone P.tags)
      simpa using this

/-- The separator and an item. -/
theorem flow_item (hone : ClaimOne P F k es1) {e0 : Event} {q0 : List Event} {es0 : Evs} (hes : es1 = (e0, q0) :: es0) (first : Bool) {s : EState} {fl : Nat} {n : Int}
    (hE : Env P s) (hfl : s.flowLevel = fl) (hf0 : fl ≠ 0) (hi : 1 ≤ s.indent) :
    ∃ s' g w, Run P (fun e a => do emitFlowSeparator first; k.r e a) s es1 s' (((if first then [] else [',']) ++ g) ++ w) ∧ core s' = core s ∧ s'.state = k.K ∧
      s'.states = s.states ∧ s'.whitespace = false ∧ s'.indention = false ∧
      ∀ rest, FolF rest → ∀ A m, Cool A → A.flow = fl → A.indent = n → A.mark = Spec.advance m (if first then [] else [',']) → (m.column : Int) = s.column → A.allowed = true →
        ∃ A' ts evs, Reach F A (g ++ (w ++ rest)) A' rest ∧ Moved A A' ts ∧ Sync s' A' ∧ Derives false P.tags k.ph1 ts evs ∧ SameEvents P.canon (datas es1) evs := by
  obtain ⟨s1, g, h1, h2, h3, h4⟩ := writes_flowSeparator first { s with events := q0 } hE.brk hi
  have hc1 : core s1 = core s := (core_wrote h2).trans rfl
  obtain ⟨s', w, r1, r2, r3, r4, r5, r6, r7⟩ := hone s1 fl n (hE.core hc1) ((core_flowLevel hc1).trans hfl) hf0 (by rw [core_indent hc1]; exact hi)
  refine ⟨s', g, w, ?_, r2.trans hc1, r3, ?_, r5, r6, ?_⟩
  · refine r1.before ?_
    intro e a q s3 w3 he hw
    rw [hes] at he
    simp at he
    obtain ⟨rfl, rfl⟩ := he
    have : { s1 with events := q0 } = s1 := by
      have : s1.events = q0 := by rw [h2.frame]
      rw [← this]
    rw [this] at hw
    exact h1.bind hw
  · rw [r4, h2.frame]
  · intro rest hrest A m hA hAf hAi hm hcol hal
    have hsk := skip_moved hA g
    obtain ⟨A', ts, evs, c1, c2, c3, c4, c5⟩ := r7 rest hrest (A.skip g) hsk.cool hAf hAi (by
      have : (((Spec.advance A.mark g).column : Nat) : Int) = s1.column := by
        rw [hm, colAfter_advance, colAfter_advance, hcol, h2.col, colAfter_append]
      exact this) (skip_allowed hal g)
    refine ⟨A', ts, evs, .skip h3.ws (fun h => h4 h.1) c1, ?_, c3, c4, c5⟩
    have := hsk.trans c2
    simpa using this

/-- One more item. -/
theorem flow_cons (hone : ClaimOne P F k es1) {e0 : Event} {q0 : List Event} {es0 : Evs} (hes : es1 = (e0, q0) :: es0) (he0 : e0.data ≠ k.fin) {ns : Evs}
    (hns : ClaimFlow P F k.f k.fin k.d k.ph1 k.ph ns) : ClaimFlow P F k.f k.fin k.d k.ph1 k.ph (es1 ++ ns) := by
  intro s fl n i0 l st sts f1 q1 hf1 hE hfl hi1 hi0 hil hst
  obtain ⟨s1, g, w, r1, r2, r3, r4, r5, r6, r7⟩ := flow_item hone hes false (n := n) hE hfl (by omega) hi1
  obtain ⟨s', w', k1, k2, k3, k4, k5, k6, k7⟩ := hns s1 fl n i0 l st sts f1 q1 hf1 (hE.core r2) ((core_flowLevel r2).trans hfl) (by rw [core_indent r2]; exact hi1) hi0
    (by rw [core_indents r2]; exact hil) (by rw [r4]; exact hst)
  refine ⟨s', (([','] ++ g) ++ w) ++ w', ?_, ?_, k3, k4, k5, k6, ?_⟩
  · rw [List.append_assoc]
    refine Run.append (s1 := s1) ?_ (k1.puts (fun e a q => k.machine e a _ r3))
    have := Run.before (f := fun e a => k.f e false a) (s := s) (w0 := []) r1 (by
      intro e a q s3 w3 he hw
      rw [hes] at he
      simp at he
      obtain ⟨rfl, rfl⟩ := he
      rw [k.fitem e0 false a he0]
      exact Writes.bind0 (a := ()) (Writes.when_false rfl) hw)
    simpa using this
  · rw [k2]
    have e : ∀ x : EState, core { x with indent := i0, indents := l, flowLevel := (fl : Int) } = { core x with indent := i0, indents := l, flowLevel := (fl : Int) } := fun _ => rfl
    rw [e, e, r2]
  intro rest
  have hf2 := (k7 rest).1
  refine ⟨by simp only [List.append_assoc]; exact folF_comma _, ?_⟩
  intro A hAf hA hAi hsy
  obtain ⟨B0, a1, a2, a3, a4, a5⟩ := read_comma (F := F) (g := []) (t := g ++ (w ++ (w' ++ rest))) hA (by omega) .nil
  obtain ⟨B, ts, evs, b1, b2, b3, b4, b5⟩ := r7 (w' ++ rest) hf2 B0 A.mark a2.cool (a2.flow.trans hAf) (a2.indent.trans hAi) a5 hsy a4
  obtain ⟨C, ts', evs', c1, c2, c3, c4, c5, c6, c7, c8, c9, c10, c11⟩ := (k7 rest).2 B (b2.flow.trans (a2.flow.trans hAf)) b2.cool (b2.indent.trans (a2.indent.trans hAi)) b3
  refine ⟨C, .flowEntry :: (ts ++ ts'), evs ++ evs', ?_, c2, ?_, ?_, ?_, c6, ?_, c8, c9, ?_, ?_⟩
  · have := a1.trans (b1.trans c1); simpa using this
  · rw [c3, b2.indent, a2.indent]
  · rw [c4, b2.indents, a2.indents]
  · rw [c5, b2.toks, a2.toks]; simp
  · exact c7.trans (b2.tail.trans a2.tail)
  · intro n0 es0' h
    have := k.derMore _ _ _ _ _ h (c10 _ _ b4)
    simpa using this
  · rw [datas_append]; exact sameEvents_append b5 c11

theorem sep_col {A : Cfg} {s : EState} (hc : A.flow = 0 → A.indent < A.mark.column) : A.flow = 0 → A.indent < (Spec.advance A.mark (sep s)).column := by
  intro h
  have := hc h
  rw [(advance_flat A.mark _ (sep_noBreak s)).2.1]
  omega

/-- The state inside. -/
theorem core_inside {s s1 : EState} {P : Par} {fl : Nat} (hE : Env P s) (hfl : s.flowLevel = fl) (h : core s1 = core { upIndent s with flowLevel := s.flowLevel + 1 }) :
    Env P s1 ∧ s1.flowLevel = (fl + 1 : Nat) ∧ 1 ≤ s1.indent ∧ s1.indents = s.indent :: s.indents := by
  have h1 : 1 ≤ (upIndent s).indent := by
    have := hE.best; have := hE.indent
    show 1 ≤ if s.indent < 0 then s.bestIndent else s.indent + s.bestIndent
    split <;> omega
  refine ⟨?_, ?_, ?_, core_indents h⟩
  · have : Env P { upIndent s with flowLevel := s.flowLevel + 1 } := ⟨hE.canon, hE.uni, hE.brk, hE.best, by
      have := h1
      show -1 ≤ (upIndent s).indent
      omega, hE.tags⟩
    exact this.core h
  · rw [core_flowLevel h]
    show s.flowLevel + 1 = _
    rw [hfl]; simp
  · rw [core_indent h]; exact h1

theorem core_outside {s s1 s' : EState} {fl : Nat} (hfl : s.flowLevel = fl) (h : core s1 = core { upIndent s with flowLevel := s.flowLevel + 1 })
    (h' : core s' = core { s1 with indent := s.indent, indents := s.indents, flowLevel := (fl : Int) }) : core s' = core s := by
  rw [h']
  have e : ∀ x : EState, core { x with indent := s.indent, indents := s.indents, flowLevel := (fl : Int) } = { core x with indent := s.indent, indents := s.indents, flowLevel := (fl : Int) } :=
    fun _ => rfl
  rw [e, h, ← hfl]
  rfl

theorem coll_nil (hD : DirsOk P.tags) : ClaimColl P F k.f k.fin k.d0 k.d k.ph [] := by
  intro s fl n st sts f1 q1 hf1 hE hfl hst
  obtain ⟨a, ha⟩ := ana_end (P := P) hD (e := f1) (by rw [hf1]; exact k.isFin)
  obtain ⟨s1, o1, o2, o3, o4, o5, o6⟩ := writes_openFlow k.c0_flat { s with events := q1 }
  obtain ⟨i1, i2, i3, i4⟩ := core_inside (s := s) (s1 := s1) hE hfl (o2.trans rfl)
  obtain ⟨s', g, h1, h2, h3, h4, h5, h6, h7, h8⟩ := writes_flowEnd true k.c_flat (s := s1) i1.brk i4 (o5.trans hst)
  have hif : (if (s1.canonical && !true) = true then ',' :: g else []) = ([] : Str) := by simp
  rw [hif, List.nil_append] at h1 h5
  have hcs : core s' = core s := by
    refine core_outside (s1 := s1) hfl (o2.trans rfl) (h2.trans ?_)
    have e : s1.flowLevel - 1 = (fl : Int) := by rw [i2]; omega
    rw [e]
  have hsep : sep { s with events := q1 } = sep s := rfl
  rw [hsep] at o1 o3
  have hfw : Writes (k.f f1 true a) { s with events := q1 } () s' ((sep s ++ [k.c0]) ++ [k.c]) := by
    rw [k.fend f1 true a hf1]
    exact Writes.bind (a := ()) (Writes.when_true rfl o1) h1
  refine ⟨s', [k.c0, k.c], ⟨f1, q1, [], a, s', _, [], rfl, ha, hfw, hE.kept hcs, .nil s', by simp⟩, hcs, h3, h4, h6, h7, k.c0_lf _, ?_⟩
  intro rest A hAf hA hAi hc hsy
  obtain ⟨B, b1, b2, b3, b4, b5, b6, b7, b8, b9, b10, b11⟩ := read_open (F := F) (t := k.c :: rest) k.opens hA (spaces_blanks (sep_spaces s)) (sep_col hc)
  obtain ⟨C, c1, c2, c3, c4, c5, c6, c7, c8, c9⟩ := read_close (F := F) (g := []) (t := rest) k.closes b6 (by omega) .nil
  refine ⟨C, [], [], ?_, ⟨by omega, by rw [c3, b3], by rw [c4, b4], by rw [c5, b5]; simp, c6, ?_⟩, ?_, c7, ?_, k.derNone _, trivial⟩
  · exact b1.trans c1
  · exact c8.tail.trans b9
  · intro hal
    exact c8.trans (b10 (Or.inr (hasBrk_false (sep_noBreak s))) hal)
  · have : ((C.mark.column : Nat) : Int) = s'.column := by
      rw [c9, b11, colAfter_advance]
      show colAfter ((Spec.advance (Spec.advance A.mark (sep s)) [k.c0]).column : Nat) [k.c] = _
      rw [colAfter_advance, colAfter_advance, hsy, h5, o3, ← colAfter_append _ (sep s) [k.c0]]
    exact this

theorem coll_cons (hone : ClaimOne P F k es1) {e0 : Event} {q0 : List Event} {es0 : Evs} (hes : es1 = (e0, q0) :: es0) (he0 : e0.data ≠ k.fin) {ns : Evs}
    (hns : ClaimFlow P F k.f k.fin k.d k.ph1 k.ph ns) : ClaimColl P F k.f k.fin k.d0 k.d k.ph (es1 ++ ns) := by
  intro s fl n st sts f1 q1 hf1 hE hfl hst
  obtain ⟨s0, o1, o2, o3, o4, o5, o6⟩ := writes_openFlow k.c0_flat { s with events := q0 }
  obtain ⟨i1, i2, i3, i4⟩ := core_inside (s := s) (s1 := s0) hE hfl (o2.trans rfl)
  have hsep : sep { s with events := q0 } = sep s := rfl
  rw [hsep] at o1 o3
  obtain ⟨s1, g, w, r1, r2, r3, r4, r5, r6, r7⟩ := flow_item hone hes true (n := n) i1 i2 (by omega) i3
  obtain ⟨s', w', k1, k2, k3, k4, k5, k6, k7⟩ := hns s1 fl n s.indent s.indents st sts f1 q1 hf1 (i1.core r2) ((core_flowLevel r2).trans i2) (by rw [core_indent r2]; exact i3)
    hE.indent (by rw [core_indents r2]; exact i4) (by rw [r4, o5]; exact hst)
  have hcs : core s' = core s := by
    refine core_outside (s1 := s0) hfl (o2.trans rfl) (k2.trans ?_)
    have e : ∀ x : EState, core { x with indent := s.indent, indents := s.indents, flowLevel := (fl : Int) } = { core x with indent := s.indent, indents := s.indents, flowLevel := (fl : Int) } :=
      fun _ => rfl
    rw [e, e, r2]
  refine ⟨s', k.c0 :: (g ++ (w ++ w')), ?_, hcs, k3, k4, k5, k6, k.c0_lf _, ?_⟩
  · have h1 : Run P (fun e a => k.f e true a) s es1 s1 ((sep s ++ [k.c0]) ++ (([] ++ g) ++ w)) := by
      refine r1.before ?_
      intro e a q s3 w3 he hw
      rw [hes] at he
      simp at he
      obtain ⟨rfl, rfl⟩ := he
      have : { s0 with events := q0 } = s0 := by
        have : s0.events = q0 := o6
        rw [← this]
      rw [this] at hw
      rw [k.fitem e0 true a he0]
      exact Writes.bind (a := ()) (Writes.when_true rfl o1) hw
    have := h1.append (k1.puts (fun e a q => k.machine e a _ r3))
    simpa using this
  intro rest A hAf hA hAi hc hsy
  obtain ⟨B0, b1, b2, b3, b4, b5, b6, b7, b8, b9, b10, b11⟩ :=
    read_open (F := F) (t := g ++ (w ++ (w' ++ rest))) k.opens hA (spaces_blanks (sep_spaces s)) (sep_col hc)
  obtain ⟨B, ts, evs, d1, d2, d3, d4, d5⟩ := r7 (w' ++ rest) (k7 rest).1 B0 B0.mark b6 (by rw [b2, hAf]) (b3.trans hAi) rfl (by
    rw [b11, colAfter_advance, colAfter_advance, hsy, o3, ← colAfter_append]) b8
  obtain ⟨C, ts', evs', c1, c2, c3, c4, c5, c6, c7, c8, c9, c10, c11⟩ := (k7 rest).2 B (by rw [d2.flow, b2, hAf]) d2.cool (d2.indent.trans (b3.trans hAi)) d3
  refine ⟨C, ts ++ ts', evs ++ evs', ?_, ⟨by rw [c2, hAf], by rw [c3, d2.indent, b3], by rw [c4, d2.indents, b4], ?_, c6, ?_⟩, ?_, c8, c9, ?_, ?_⟩
  · have := b1.trans (d1.trans c1); simpa using this
  · rw [c5, d2.toks, b5]; simp
  · exact c7.tail.trans (d2.tail.tail.trans b9)
  · intro hal
    exact c7.trans (d2.tail.trans (b10 (Or.inr (hasBrk_false (sep_noBreak s))) hal))
  · exact c10 _ _ d4
  · rw [datas_append]; exact sameEvents_append d5 c11

/-! ### Items of sequences and pairs of mappings -/

theorem writes_pushState (st : EmSt) (s : EState) : Writes (pushState st) s () { s with states := st :: s.states } [] := Writes.modify _ s

theorem one_seq {es : Evs} (h : ClaimF P F es) : ClaimOne P F seqKind es := by
  intro s fl n hE hfl hf0 hi
  obtain ⟨s', w, r1, r2, r3, r4, r5, r6, r7⟩ := h { s with states := .flowSequenceItem :: s.states } fl n true false .flowSequenceItem s.states (hE.core rfl) hfl hf0 rfl
  refine ⟨s', w, ?_, r2.trans rfl, r3, r4, r5, r6, ?_⟩
  · have := Run.before (f := seqItem) (s := s) (w0 := []) r1 (by
      intro e a q s3 w3 he hw
      exact Writes.bind0 (a := ()) (writes_pushState _ _) hw)
    rw [List.nil_append] at this; exact this
  · intro rest hrest A hA hAf hAi hsy hal
    obtain ⟨A', ts, evs, c1, c2, c3, c4, c5, c6⟩ := (r7 rest hrest).2 A hA hAf hAi hsy
    exact ⟨A', ts, evs, c1, c2, c4, .itemNode c5, c6⟩

/-- The value of a pair in a flow mapping. -/
theorem flow_value (simple : Bool) {ves : Evs} (h : ClaimF P F ves) {e1 : Event} {q1 : List Event} {ves' : Evs} (hes : ves = (e1, q1) :: ves') {s : EState} {fl : Nat} {n : Int}
    (hE : Env P s) (hfl : s.flowLevel = fl) (hf0 : fl ≠ 0) (hi : 1 ≤ s.indent) :
    ∃ s' g w, Run P (fun e a => emitFlowMappingValue e simple a) s ves s' (g ++ ':' :: w) ∧ core s' = core s ∧ s'.state = .flowMappingKey ∧ s'.states = s.states ∧
      s'.whitespace = false ∧ s'.indention = false ∧ Blanks g ∧ (simple = true → g = []) ∧ (simple = false → s.whitespace = false → s.indention = false → g ≠ []) ∧
      ∀ rest, FolF rest → EndsTag (w ++ rest) ∧ ∀ A m, Cool A → A.flow = fl → A.indent = n → A.mark = Spec.advance (Spec.advance m g) [':'] → (m.column : Int) = s.column →
        ∃ A' ts evs, Reach F A (w ++ rest) A' rest ∧ Moved A A' ts ∧ Sync s' A' ∧ Derives false P.tags (.node false false) ts evs ∧ SameEvents P.canon (datas ves) evs := by
  have pre : ∃ s1 g, (∀ (c : Emit Unit) s3 w3, Writes c s1 () s3 w3 → Writes (if simple then (do writeIndicator [':'] false false false; c) else do
        let s ← M.get
        M.when (s.canonical || decide (s.column > s.bestWidth)) writeIndent
        writeIndicator [':'] true false false
        c) { s with events := q1 } () s3 ((g ++ [':']) ++ w3)) ∧ Wrote { s with events := q1 } (g ++ [':']) s1 ∧ s1.whitespace = false ∧
      s1.indention = false ∧ Blanks g ∧ (simple = true → g = []) ∧ (simple = false → s.whitespace = false → s.indention = false → g ≠ []) := by
    cases simple with
    | true =>
      obtain ⟨s1, k1, k2, k3, k4⟩ := writes_indicator0 [':'] false false { s with events := q1 } (by decide)
      exact ⟨s1, [], fun c s3 w3 hc => k1.bind hc, k2, k3, by rw [k4]; simp, .nil, fun _ => rfl, by simp⟩
    | false =>
      obtain ⟨s0, g, h1, h2, h3, h4, h5⟩ := writes_flowBreak { s with events := q1 } hE.brk hi
      obtain ⟨s1, k1, k2, k3, k4⟩ := writes_indicator [':'] false false s0 (by decide)
      refine ⟨s1, g ++ sep s0, ?_, ?_, k3, by rw [k4]; simp, h3.append (spaces_blanks (sep_spaces s0)), by simp, ?_⟩
      · intro c s3 w3 hc
        refine Writes.cast (Writes.bind_get (h1.bind (f := fun _ => do writeIndicator [':'] true false false; c) (k1.bind hc))) rfl (by simp)
      · rw [List.append_assoc]; exact h2.trans k2
      · intro _ hw hin
        rcases h5 hw hin with ⟨rfl, h⟩ | ⟨h, _⟩
        · unfold sep; rw [h]; simp
        · simp [h]
  obtain ⟨s1, g, p1, p2, p3, p4, p5, p6, p7⟩ := pre
  have hc1 : core s1 = core s := (core_wrote p2).trans rfl
  obtain ⟨s', w, r1, r2, r3, r4, r5, r6, r7⟩ := h { s1 with states := .flowMappingKey :: s1.states } fl n false true .flowMappingKey s1.states (hE.core hc1)
    ((core_flowLevel hc1).trans hfl) hf0 rfl
  refine ⟨s', g, w, ?_, r2.trans hc1, r3, by rw [r4, p2.frame], r5, r6, p5, p6, p7, ?_⟩
  · have := Run.before (f := fun e a => emitFlowMappingValue e simple a) (s := s) (w0 := g ++ [':']) r1 (by
      intro e a q s3 w3 he hw
      rw [hes] at he
      simp at he
      obtain ⟨rfl, rfl⟩ := he
      have he : { s1 with states := .flowMappingKey :: s1.states, events := q1 } = { s1 with states := .flowMappingKey :: s1.states } := by
        have : s1.events = q1 := by rw [p2.frame]
        rw [← this]
      have hw' : Writes (emitNode e1 false false true false a) { s1 with states := .flowMappingKey :: s1.states } () s3 w3 := by
        rw [← he]; exact hw
      unfold emitFlowMappingValue
      have hk : Writes (do pushState .flowMappingKey; emitNode e1 false false true false a) s1 () s3 w3 := Writes.bind0 (a := ()) (writes_pushState _ _) hw'
      have := p1 _ _ _ hk
      cases simple with
      | true => exact this
      | false => exact this)
    simpa using this
  · intro rest hrest
    obtain ⟨z1, z2⟩ := r7 rest hrest
    refine ⟨z1 p3, ?_⟩
    intro A m hA hAf hAi hm hcol
    obtain ⟨A', ts, evs, c1, c2, c3, c4, c5, c6⟩ := z2 A hA hAf hAi (by
      have : ((A.mark.column : Nat) : Int) = s1.column := by
        rw [hm, colAfter_advance, colAfter_advance, hcol, p2.col, colAfter_append]
      exact this)
    exact ⟨A', ts, evs, c1, c2, c4, c5, c6⟩

/-- Reading a simple key and its colon. -/
theorem key_read {s : EState} {W g r : Str} {A B : Cfg} {ts : List TokenData} (hwarm : Warm A (A.to (sep s)).key B ts)
    (hm : B.mark = Spec.advance (Spec.advance A.mark (sep s)) W) (hg : ∀ c ∈ g, c = ' ') (hW : ∀ c ∈ W, isBreak c = false) (hl : strLen W + strLen g ≤ 1024)
    (hc : A.flow = 0 → A.indent ≤ (Spec.advance A.mark (sep s)).column) (hz : EndsTag r) :
    ∃ C, Reach F B (g ++ (':' :: r)) C r ∧ Moved (A.base .blockMappingStart (Spec.advance A.mark (sep s)).column) C (.key :: (ts ++ [.value])) ∧ Dead C ∧ C.allowed = false ∧
      C.mark = Spec.advance (Spec.advance B.mark g) [':'] := by
  have h1 := advance_flat (Spec.advance A.mark (sep s)) W hW
  have h2 := advance_flat B.mark g (spaces_flat hg)
  rw [← hm] at h1
  refine key_colon hwarm hg ?_ ?_ hz
  · show _ ≤ (Spec.advance A.mark (sep s)).index + 1024
    omega
  · intro hf
    have := hc hf
    rw [h2.2.1, h1.2.1]
    omega

theorem simpleKeyTest_writes {e : Event} {a : Analysis} {b : Bool} {s : EState} (h : checkSimpleKey s e a = some b) : Writes (simpleKeyTest e a) s b s [] := by
  unfold simpleKeyTest
  refine Writes.bind_get ?_
  rw [h]
  exact Writes.pure b s

theorem mapItem_writes {e : Event} {a : Analysis} {b : Bool} {s s' : EState} {w : Str} (h : checkSimpleKey s e a = some b)
    (hw : Writes (if (!s.canonical && b) then (do pushState .flowMappingSimpleValue; emitNode e false false true true a : Emit Unit)
      else (do writeIndicator ['?'] true false false; pushState .flowMappingValue; emitNode e false false true false a)) s () s' w) :
    Writes (mapItem e a) s () s' w := by
  unfold mapItem
  refine Writes.bind_get ?_
  cases hc : s.canonical with
  | true =>
    rw [hc] at hw
    exact hw
  | false =>
    rw [hc] at hw
    refine Writes.bind0 (simpleKeyTest_writes h) ?_
    cases b <;> exact hw

theorem one_map {kes ves : Evs} (hkF : ClaimF P F kes) (hkS : ClaimS P F kes) (hv : ClaimF P F ves) {e0 : Event} {q0 : List Event} {kes' : Evs} (hkes : kes = (e0, q0) :: kes')
    {a0 : Analysis} (ha0 : Ana P e0 a0) (hck : ∀ s, checkSimpleKey s e0 a0 ≠ none) {e1 : Event} {q1 : List Event} {ves' : Evs} (hves : ves = (e1, q1) :: ves') :
    ClaimOne P F mapKind (kes ++ ves) := by
  intro s fl n hE hfl hf0 hi
  obtain ⟨b, hb⟩ : ∃ b, checkSimpleKey { s with events := q0 } e0 a0 = some b := by
    cases h : checkSimpleKey { s with events := q0 } e0 a0 with
    | none => exact absurd h (hck _)
    | some b => exact ⟨b, rfl⟩
  have hana : ∀ a q, (∃ es', kes = (e0, q) :: es') → Ana P e0 a → a = a0 := fun a q _ h => ana_unique h ha0
  cases hsimple : !s.canonical && b with
  | true =>
    have hbt : b = true := by revert hsimple; cases s.canonical <;> simp
    subst hbt
    obtain ⟨s1, W, g, r1, r2, r3, r4, r5, r6, r7, r8, r9, r10, r11⟩ := hkS { s with states := .flowMappingSimpleValue :: s.states } fl n .flowMappingSimpleValue s.states
      e0 q0 kes' a0 hkes ha0 hb (hE.core rfl) hfl (fun h => absurd h hf0) rfl
    have hc1 : core s1 = core s := r2.trans rfl
    obtain ⟨s', g2, w, v1, v2, v3, v4, v5, v6, v7, v8, v9, v10⟩ := flow_value true hv hves (n := n) (hE.core hc1) ((core_flowLevel hc1).trans hfl) hf0
      (by rw [core_indent hc1]; exact hi)
    obtain rfl := v8 rfl
    have hsep : sep { s with states := .flowMappingSimpleValue :: s.states } = sep s := rfl
    rw [hsep] at r1 r5 r11
    refine ⟨s', (sep s ++ (W ++ g)) ++ (':' :: w), ?_, v2.trans hc1, v3, v4.trans r4, v5, v6, ?_⟩
    · have h1 : Run P mapItem s kes s1 ([] ++ (sep s ++ (W ++ g))) := by
        obtain ⟨e, q, es', a, s3, w1, w2, z1, z2, z3, zt, z4, z5⟩ := r1
        rw [hkes] at z1
        simp only [List.cons.injEq, Prod.mk.injEq] at z1
        obtain ⟨⟨rfl, rfl⟩, rfl⟩ := z1
        obtain rfl := ana_unique z2 ha0
        refine ⟨e0, q0, kes', a, s3, w1, w2, hkes, z2, ?_, zt, z4, z5⟩
        refine mapItem_writes hb ?_
        rw [if_pos (show (!({ s with events := q0 } : EState).canonical && true) = true from hsimple)]
        exact Writes.bind0 (a := ()) (writes_pushState _ _) z3
      refine h1.append (v1.puts ?_)
      intro e a q
      obtain ⟨⟩ := s1
      cases r3
      rfl
    intro rest hrest A hA hAf hAi hsy hal
    obtain ⟨z1, z2⟩ := v10 rest hrest
    have hc : A.flow = 0 → A.indent ≤ (Spec.advance A.mark (sep s)).column := fun h => absurd (hAf ▸ h) hf0
    obtain ⟨B, ts, evs, b1, b2, b3, b4, b5⟩ := (r11 (w ++ rest) z1).2 A hA hAf hAi hal hc
    obtain ⟨C, c1, c2, c3, c4, c5⟩ := key_read (F := F) b2 b3 r6 r9 r10 hc z1
    rw [base_of_flow _ _ (by rw [hAf]; exact hf0)] at c2
    obtain ⟨E, ts', evs', d1, d2, d3, d4, d5⟩ := z2 C (Spec.advance B.mark g) c2.cool (c2.flow.trans hAf) (c2.indent.trans hAi) c5 (by
      rw [b3, colAfter_advance, colAfter_advance, colAfter_advance, hsy, r5, colAfter_append, colAfter_append])
    refine ⟨E, .key :: (ts ++ .value :: ts'), evs ++ evs', ?_, ?_, d3, .entryPair (.some (b4 _ _)) (.some d4), ?_⟩
    · have := b1.trans (c1.trans d1); simpa using this
    · have := c2.trans d2; simpa using this
    · rw [datas_append]; exact sameEvents_append b5 d5
  | false =>
    obtain ⟨s0, k1, k2, k3, k4⟩ := writes_indicator ['?'] false false { s with events := q0 } (by decide)
    have hc0 : core s0 = core s := (core_wrote k2).trans rfl
    obtain ⟨s1, wk, r1, r2, r3, r4, r5, r6, r7⟩ := hkF { s0 with states := .flowMappingValue :: s0.states } fl n false true .flowMappingValue s0.states (hE.core hc0)
      ((core_flowLevel hc0).trans hfl) hf0 rfl
    have hc1 : core s1 = core s := r2.trans hc0
    obtain ⟨s', g, w, v1, v2, v3, v4, v5, v6, v7, v8, v9, v10⟩ := flow_value false hv hves (n := n) (hE.core hc1) ((core_flowLevel hc1).trans hfl) hf0
      (by rw [core_indent hc1]; exact hi)
    have hg : g ≠ [] := v9 rfl r5 r6
    have hsep : sep { s with events := q0 } = sep s := rfl
    rw [hsep] at k1 k2
    refine ⟨s', ((sep s ++ ['?']) ++ wk) ++ (g ++ ':' :: w), ?_, v2.trans hc1, v3, ?_, v5, v6, ?_⟩
    · have h1 : Run P mapItem s kes s1 ((sep s ++ ['?']) ++ wk) := by
        obtain ⟨e, q, es', a, s3, w1, w2, z1, z2, z3, zt, z4, z5⟩ := r1
        rw [hkes] at z1
        simp only [List.cons.injEq, Prod.mk.injEq] at z1
        obtain ⟨⟨rfl, rfl⟩, rfl⟩ := z1
        obtain rfl := ana_unique z2 ha0
        refine ⟨e0, q0, kes', a, s3, (sep s ++ ['?']) ++ w1, w2, hkes, z2, ?_, zt, z4, by rw [z5]; simp⟩
        refine mapItem_writes hb ?_
        rw [if_neg (show ¬ (!({ s with events := q0 } : EState).canonical && b) = true by
          show ¬ (!s.canonical && b) = true
          rw [hsimple]; decide)]
        refine k1.bind (f := fun _ => do pushState .flowMappingValue; emitNode e0 false false true false a) ?_
        refine Writes.bind0 (a := ()) (writes_pushState _ _) ?_
        have he : { s0 with states := .flowMappingValue :: s0.states, events := q0 } = { s0 with states := .flowMappingValue :: s0.states } := by
          have : s0.events = q0 := by rw [k2.frame]
          rw [← this]
        rw [← he]; exact z3
      refine h1.append (v1.puts ?_)
      intro e a q
      obtain ⟨⟩ := s1
      cases r3
      rfl
    · rw [v4, r4, k2.frame]
    intro rest hrest A hA hAf hAi hsy hal
    obtain ⟨z1, z2⟩ := v10 rest hrest
    obtain ⟨y1, y2⟩ := r7 (g ++ ':' :: (w ++ rest)) (Or.inr ⟨g, w ++ rest, rfl, v7, hg, z1⟩)
    obtain ⟨B0, a1, a2, a3, a4, a5⟩ := read_fkey (F := F) (g := sep s) (t := wk ++ (g ++ ':' :: (w ++ rest))) hA (by omega) (spaces_blanks (sep_spaces s))
    obtain ⟨B, ts, evs, b1, b2, b3, b4, b5, b6⟩ := y2 B0 a2.cool (a2.flow.trans hAf) (a2.indent.trans hAi) (sync_of hsy k2.col a5)
    have hdead : Dead B := a3.sub (b3 a4)
    obtain ⟨C, c1, c2, c3, c4, c5⟩ := read_fcolon (F := F) (g := g) (t := w ++ rest) b2.cool (by rw [b2.flow, a2.flow]; omega) v7 hdead
    obtain ⟨E, ts', evs', d1, d2, d3, d4, d5⟩ := z2 C B.mark c2.cool (c2.flow.trans (b2.flow.trans (a2.flow.trans hAf)))
      (c2.indent.trans (b2.indent.trans (a2.indent.trans hAi))) c5 b4
    refine ⟨E, .key :: (ts ++ .value :: ts'), evs ++ evs', ?_, ?_, d3, .entryPair (.some b5) (.some d4), ?_⟩
    · have := a1.trans (b1.trans (c1.trans d1)); simpa using this
    · have := a2.trans (b2.trans (c2.trans d2)); simpa using this
    · rw [datas_append]; exact sameEvents_append b6 d5

end

end Yaml.Rt
