import Verif.Lib.Round13

/-
Reading back: block collections.
-/

namespace Yaml.Rt
open Yaml Emitter Lx Spec
set_option linter.unusedSimpArgs false
set_option linter.unusedVariables false

/-- One entry of a block collection. -/
def ClaimEntry (P : Par) (F : Nat) (k : CollKind) (K : EmSt) (es : Evs) : Prop :=
  ∀ (s : EState) (n : Int), Env P s → s.flowLevel = 0 → 0 ≤ s.indent → n ≤ s.indent → Line s →
    ∃ s' w, Run P (fun e a => k.bf e false a) s es s' w ∧ core s' = core s ∧ s'.state = K ∧ s'.states = s.states ∧ Exit s' ∧
      ∀ rest, Fol s.indent s.lineBreak s'.indention rest → (Exit s → Fol s.indent s.lineBreak s.indention (w ++ rest)) ∧
        ((s.whitespace = false ∨ s.indention = false) → EndsTag (w ++ rest)) ∧
        ∀ A, A.flow = 0 → Cool A → A.indent = n → Sync s A → (s.indention = true → A.allowed = true) →
          ∃ A' ts evs, Reach F A (w ++ rest) A' rest ∧ Moved (A.base k.bd s.indent) A' ts ∧ After s' A' ∧
            (∀ ts' fs, Derives false P.tags k.bph ts' fs → Derives false P.tags k.bph (ts ++ ts') (evs ++ fs)) ∧ SameEvents P.canon (datas es) evs

section
variable {P : Par} {F : Nat} {k : CollKind}

/-- No further entries. -/
theorem block_nil (hD : DirsOk P.tags) (hend : ∀ e a, e.data = k.fk.fin → k.bf e false a = (do popIndent; popState))
    (hder : Derives false P.tags k.bph [] []) : ClaimBlock P F k.bf k.fk.fin k.bd k.bph [] := by
  intro s n i0 l st sts f1 q1 hf1 hE hfl hi hi0 hle hn hil hst hL
  obtain ⟨a, ha⟩ := ana_end (P := P) hD (e := f1) (by rw [hf1]; exact k.fk.isFin)
  refine ⟨{ s with events := q1, indent := i0, indents := l, state := st, states := sts }, [], ⟨f1, q1, [], a, _, [], [], rfl, ha, ?_, (show Kept P ({ s with events := q1, indent := i0, indents := l, state := st, states := sts } : EState) from ⟨hE.canon, hE.uni, hE.tags⟩), .nil _, rfl⟩, rfl, rfl, rfl, ?_, ?_⟩
  · show Writes (k.bf f1 false a) _ _ _ _
    rw [hend f1 a hf1]
    exact (writes_popIndent (s := { s with events := q1 }) hil).bind0 (writes_popState (s := { s with events := q1, indent := i0, indents := l }) hst)
  · rintro (h | h)
    · exact absurd rfl h
    · exact h
  · intro rest hrest
    refine ⟨fun _ => hrest.mono hle, fun h => absurd rfl h, fun h => absurd rfl h, ?_⟩
    intro A hf hA hAi hsy hal
    refine ⟨A, [], [], .refl _ _, ?_, ?_, hder, trivial⟩
    · rw [if_pos rfl]; exact Moved.refl hA
    · rintro (h | h)
      · exact absurd rfl h
      · exact ⟨h.sync, h.fresh⟩

/-- One more entry. -/
theorem block_cons {K : EmSt} (hK : ∀ e a s, s.state = K → stateMachine e a s = k.bf e false a s) {es : Evs} (hne : es ≠ []) (hone : ClaimEntry P F k K es) {ns : Evs}
    (hns : ClaimBlock P F k.bf k.fk.fin k.bd k.bph ns) : ClaimBlock P F k.bf k.fk.fin k.bd k.bph (es ++ ns) := by
  intro s n i0 l st sts f1 q1 hf1 hE hfl hi hi0 hle hn hil hst hL
  obtain ⟨s1, w, r1, r2, r3, r4, r5, r6⟩ := hone s n hE hfl hi hn hL
  have hi1 : s1.indent = s.indent := core_indent r2
  obtain ⟨s', w', k1, k2, k3, k4, k5, k6⟩ := hns s1 s.indent i0 l st sts f1 q1 hf1 (hE.core r2) ((core_flowLevel r2).trans hfl) (by rw [hi1]; exact hi) hi0
    (by rw [hi1]; exact hle) (by rw [hi1]; exact Int.le_refl _) (by rw [core_indents r2]; exact hil) (by rw [r4]; exact hst) (r5.line (by rw [hi1]; exact hi))
  have hnn : es ++ ns ≠ [] := by
    cases es with
    | nil => exact absurd rfl hne
    | cons => simp
  refine ⟨s', w ++ w', ?_, ?_, k3, k4, fun _ => k5 (Or.inr r5), ?_⟩
  · rw [List.append_assoc]
    exact r1.append (k1.puts (fun e a q => hK e a _ r3))
  · rw [k2]
    have e : ∀ x : EState, core { x with indent := i0, indents := l } = { core x with indent := i0, indents := l } := fun _ => rfl
    rw [e, e, r2]
  intro rest hrest
  have hlb : s1.lineBreak = s.lineBreak := core_lineBreak r2
  obtain ⟨y1, y2, y3, y4⟩ := k6 rest (by rw [hlb]; exact hrest)
  have hfol := y1 r5
  rw [hi1, hlb] at hfol
  obtain ⟨z1, z2, z3⟩ := r6 (w' ++ rest) hfol
  rw [List.append_assoc]
  refine ⟨z1, fun _ h => z2 (Or.inl h), fun _ h => z2 (Or.inr h), ?_⟩
  intro A hf hA hAi hsy hal
  obtain ⟨B, ts, evs, b1, b2, b3, b4, b5⟩ := z3 A hf hA hAi hsy hal
  have hBi : B.indent = s.indent := by rw [b2.indent]; exact base_indent _ hf (by omega)
  obtain ⟨C, ts', evs', c1, c2, c3, c4, c5⟩ := y4 B (by rw [b2.flow, base_flow]; exact hf) b2.cool hBi b3.sync (fun h => (b3.fresh h).1)
  have hb : (if ns = [] then B else B.base k.bd s1.indent) = B := by
    split
    · rfl
    · exact base_eq _ _ (by rw [hBi, hi1])
  rw [hb] at c2
  refine ⟨C, ts ++ ts', evs ++ evs', b1.trans c1, ?_, fun _ => c3 (Or.inr b3), b4 _ _ c4, ?_⟩
  · rw [if_neg hnn]; exact b2.trans c2
  · rw [datas_append]; exact sameEvents_append b5 c5

/-! ### Items -/

theorem opt_of {D : List TagDirective} {b i : Bool} {ts : List TokenData} {evs : List EventData} {p : Prop} (h : Derives false D (.node b i) ts evs ∨ (ts = [] ∧ evs = [emptyNode] ∧ p)) :
    Derives false D (.opt b i) ts evs := by
  rcases h with h | ⟨rfl, rfl, _⟩
  · exact .some h
  · exact .nothing

/-- An indicator at the start of a line: `-`, `?` or `:`. -/
theorem writes_mark {c : Char} (hc : isBreak c = false) (hc' : Starts [c]) {s : EState} (hl : s.lineBreak ≠ .any) (hi : 0 ≤ s.indent) (hL : Line s) :
    ∃ s2 g, (∃ s1, Writes writeIndent s () s1 g ∧ Writes (writeIndicator [c] true false true) s1 () s2 [c] ∧ s1.events = s.events) ∧ Wrote s (g ++ [c]) s2 ∧ s2.whitespace = false ∧ s2.indention = true ∧ Blanks g ∧
      s2.column = s.indent + 1 ∧ colAfter s.column g = s.indent ∧
      (s.indention = false → hasBrk g = true) ∧
      (∀ t, (s.whitespace = false ∨ s.indention = false) → EndsTag (g ++ t)) ∧
      (∀ t, Exit s → Fol s.indent s.lineBreak s.indention (g ++ c :: t)) ∧ Ready s2 := by
  obtain ⟨s1, g, h1, h2, h3, h4, h5, h6, h7, h8, h9, h10⟩ := writes_line hl hi hL
  obtain ⟨s2, k1, k2, k3, k4⟩ := writes_indicator [c] false true s1 (by simp [hc])
  rw [sep_eq h3, List.nil_append] at k1 k2
  have hcol : s2.column = s.indent + 1 := by
    rw [k2.col, h6, colAfter_plain _ _ (by simp [hc])]; rfl
  have hind : s2.indent = s.indent := by rw [k2.frame, h2.frame]
  refine ⟨s2, g, ⟨s1, h1, k1, by rw [h2.frame]⟩, h2.trans k2, k3, by rw [k4, h4]; rfl, h5, hcol, by rw [← h6, h2.col], h7, h8, ?_, ?_⟩
  · intro t hx
    refine h9 _ ?_ hx
    have := hc'.solid
    refine ⟨?_, ?_, ?_⟩
    · intro x r hx
      simp at hx
      obtain ⟨rfl, rfl⟩ := hx
      exact hc'.solid c [] rfl
    · exact hc'.sharp
    · exact hc'.bom
  · intro _
    right
    exact ⟨by rw [hind]; exact hi, by rw [hcol, hind], k3⟩

theorem entry_seq {es : Evs} (h : ClaimB P F es) {e0 : Event} {q0 : List Event} {es' : Evs} (hes : es = (e0, q0) :: es') (he0 : e0.data ≠ .sequenceEnd) :
    ClaimEntry P F seqColl .blockSequenceItem es := by
  intro s n hE hfl hi hn hL
  obtain ⟨s2, g, h1, h2, h3, h4, h5, h6, h7, h8, h9, h10, h11⟩ := writes_mark (c := '-') (by decide) (starts_cons (by decide) (by decide) (by decide) (by decide) (by decide))
    (s := { s with events := q0 }) hE.brk hi hL
  have hc2 : core s2 = core s := (core_wrote h2).trans rfl
  have hi2 : s2.indent = s.indent := core_indent hc2
  have hs2 : s2.states = s.states := by rw [h2.frame]
  obtain ⟨s', w, r1, r2, r3, r4, r5, _, r6⟩ := h { s2 with states := .blockSequenceItem :: s2.states } false true false .blockSequenceItem s2.states (hE.core hc2)
    ((core_flowLevel hc2).trans hfl) h11 rfl
  refine ⟨s', (g ++ ['-']) ++ w, ?_, r2.trans hc2, r3, r4.trans hs2, r5, ?_⟩
  · refine r1.before ?_
    intro e a q s3 w3 he hw
    rw [hes] at he
    simp at he
    obtain ⟨rfl, rfl⟩ := he
    have heq : { s2 with states := .blockSequenceItem :: s2.states, events := q0 } = { s2 with states := .blockSequenceItem :: s2.states } := by
      have : s2.events = q0 := by rw [h2.frame]
      rw [← this]
    have hw' : Writes (emitNode e0 false true false false a) { s2 with states := .blockSequenceItem :: s2.states } () s3 w3 := by rw [← heq]; exact hw
    have hk : Writes (do pushState .blockSequenceItem; emitNode e0 false true false false a) s2 () s3 w3 := Writes.bind0 (a := ()) (writes_pushState _ _) hw'
    have e : emitBlockSequenceItem e0 false a = (do
      let s ← M.get
      M.when false (increaseIndent false (s.mappingContext && !s.indention))
      writeIndent
      writeIndicator ['-'] true false true
      pushState .blockSequenceItem
      emitNode e0 false true false false a) := by
      unfold emitBlockSequenceItem
      split
      · rename_i h'; exact absurd h' he0
      · rfl
    show Writes (emitBlockSequenceItem e0 false a) _ _ _ _
    rw [e]
    refine Writes.bind_get ?_
    refine Writes.bind0 (a := ()) (Writes.when_false rfl) ?_
    obtain ⟨s1, x1, x2, _⟩ := h1
    exact (x1.bind (f := fun _ => do writeIndicator ['-'] true false true; pushState .blockSequenceItem; emitNode e0 false true false false a) (x2.bind hk)).cast rfl (by simp)
  intro rest hrest
  have hlb : s2.lineBreak = s.lineBreak := core_lineBreak hc2
  obtain ⟨z1, z2⟩ := r6 rest (by show Fol s2.indent s2.lineBreak _ _; rw [hi2, hlb]; exact hrest)
  have hz := z1 h3
  have htext : (g ++ ['-']) ++ w ++ rest = g ++ ('-' :: (w ++ rest)) := by simp
  rw [htext]
  refine ⟨fun hx => h10 _ hx, fun hx => h9 _ hx, ?_⟩
  intro A hf hA hAi hsy hal
  have hcol : ((Spec.advance A.mark g).column : Int) = s.indent := by rw [colAfter_advance, hsy]; exact h7
  obtain ⟨B, b1, b2, b3, b4, b5⟩ := read_dash (F := F) (g := g) (t := w ++ rest) (Or.inl ⟨rfl, rfl, rfl⟩) hA hf h5 (by
    cases hin : s.indention with
    | true => exact Or.inl (hal hin)
    | false => exact Or.inr (h8 hin)) hcol (by omega) hz
  have hBi : B.indent = s.indent := by rw [b2.indent]; exact base_indent _ hf (by omega)
  have hsy2 : Sync s2 B := sync_of hsy h2.col b5
  obtain ⟨C, ts, evs, c1, c2, c3, c4, c5⟩ := z2 B ⟨by rw [b2.flow, base_flow]; exact hf, b2.cool, by rw [hBi]; exact hi2.symm, hsy2, by
    have : ((B.mark.column : Nat) : Int) = s2.column := hsy2
    rw [hBi, this, h6]
    show s.indent < s.indent + 1
    omega, fun _ => b4⟩
  refine ⟨C, .blockEntry :: ts, evs, b1.trans c1, b2.trans c2, c3, ?_, c5⟩
  intro ts' fs hd
  exact .item (opt_of c4) hd

/-! ### Pairs -/

theorem checkSimpleKey_congr {s s' : EState} (h : s.events = s'.events) (e : Event) (a : Analysis) : checkSimpleKey s e a = checkSimpleKey s' e a := by
  unfold checkSimpleKey checkEmptySequence checkEmptyMapping
  rw [h]

/-- The value of a pair, after its colon. -/
theorem block_value {ves : Evs} (hv : ClaimB P F ves) {s : EState} (hE : Env P s) (hfl : s.flowLevel = 0) (hi : 0 ≤ s.indent) (hR : Ready s) (hw : s.whitespace = false) :
    ∃ s' w, Run P (fun e a => do pushState .blockMappingKey; emitNode e false false true false a) s ves s' w ∧ core s' = core s ∧ s'.state = .blockMappingKey ∧
      s'.states = s.states ∧ Exit s' ∧
      ∀ rest, Fol s.indent s.lineBreak s'.indention rest → EndsTag (w ++ rest) ∧
        ∀ A, Entry s A → ∃ A' ts evs, Reach F A (w ++ rest) A' rest ∧ Moved A A' ts ∧ After s' A' ∧ Derives false P.tags (.opt true true) ts evs ∧ SameEvents P.canon (datas ves) evs := by
  obtain ⟨s', w, r1, r2, r3, r4, r5, _, r6⟩ := hv { s with states := .blockMappingKey :: s.states } false false true .blockMappingKey s.states (hE.core rfl) hfl hR rfl
  refine ⟨s', w, ?_, r2, r3, r4, r5, ?_⟩
  · have := Run.before (f := fun e a => do pushState .blockMappingKey; emitNode e false false true false a) (s := s) (w0 := []) r1 (by
      intro e a q s3 w3 he hw
      exact Writes.bind0 (a := ()) (writes_pushState _ _) hw)
    rw [List.nil_append] at this; exact this
  · intro rest hrest
    obtain ⟨z1, z2⟩ := r6 rest hrest
    refine ⟨z1 hw, ?_⟩
    intro A hA
    obtain ⟨A', ts, evs, c1, c2, c3, c4, c5⟩ := z2 A ⟨hA.flow, hA.cool, hA.ind, hA.sync, hA.after, hA.fresh⟩
    exact ⟨A', ts, evs, c1, c2, c3, opt_of c4, c5⟩

theorem emitBlockMappingKey_eq {e : Event} (h : e.data ≠ .mappingEnd) (a : Analysis) : emitBlockMappingKey e false a = (do
    M.when false (increaseIndent false false)
    writeIndent
    let simple ← simpleKeyTest e a
    if simple then do
      pushState .blockMappingSimpleValue
      emitNode e false false true true a
    else do
      writeIndicator ['?'] true false true
      pushState .blockMappingValue
      emitNode e false false true false a) := by
  unfold emitBlockMappingKey
  split
  · rename_i h'; exact absurd h' h
  · rfl

theorem entry_map {kes ves : Evs} (hkB : ClaimB P F kes) (hkS : ClaimS P F kes) (hv : ClaimB P F ves) {e0 : Event} {q0 : List Event} {kes' : Evs} (hkes : kes = (e0, q0) :: kes')
    (he0 : e0.data ≠ .mappingEnd) {a0 : Analysis} (ha0 : Ana P e0 a0) (hck : ∀ s, checkSimpleKey s e0 a0 ≠ none) {e1 : Event} {q1 : List Event} {ves' : Evs} (hves : ves = (e1, q1) :: ves') :
    ClaimEntry P F mapColl .blockMappingKey (kes ++ ves) := by
  intro s n hE hfl hi hn hL
  obtain ⟨b, hb⟩ : ∃ b, checkSimpleKey { s with events := q0 } e0 a0 = some b := by
    cases h : checkSimpleKey { s with events := q0 } e0 a0 with
    | none => exact absurd h (hck _)
    | some b => exact ⟨b, rfl⟩
  cases b with
  | true =>
    obtain ⟨s1, g, h1, h2, h3, h4, h5, h6, h7, h8, h9, h10⟩ := writes_line (s := { s with events := q0 }) hE.brk hi hL
    have hc1 : core s1 = core s := (core_wrote h2).trans rfl
    have hi1 : s1.indent = s.indent := core_indent hc1
    have hs1 : s1.states = s.states := by rw [h2.frame]
    have hev1 : s1.events = q0 := by rw [h2.frame]
    obtain ⟨s3, W, g2, r1, r2, r3, r4, r5, r6, r7, r8, r9, r10, r11⟩ := hkS { s1 with states := .blockMappingSimpleValue :: s1.states } 0 n .blockMappingSimpleValue s1.states
      e0 q0 kes' a0 hkes ha0 ((checkSimpleKey_congr rfl _ _).trans hb) (hE.core hc1) ((core_flowLevel hc1).trans hfl) (fun _ => by show n ≤ s1.indent; omega) rfl
    have hsep : sep { s1 with states := .blockMappingSimpleValue :: s1.states } = [] := sep_eq h3
    rw [hsep, List.nil_append] at r1 r5
    rw [hsep] at r11
    have hc3 : core s3 = core s := r2.trans hc1
    obtain ⟨s4, k1, k2, k3, k4⟩ := writes_indicator0 [':'] false false { s3 with events := q1 } (by decide)
    have hc4 : core s4 = core s := ((core_wrote k2).trans rfl).trans hc3
    have hi4 : s4.indent = s.indent := core_indent hc4
    have hin4 : s4.indention = false := by rw [k4]; simp
    obtain ⟨s', w, v1, v2, v3, v4, v5, v6⟩ := block_value hv (hE.core hc4) ((core_flowLevel hc4).trans hfl) (by rw [hi4]; exact hi) (fun h => by rw [hin4] at h; cases h) k3
    have hs4 : s4.states = s.states := by rw [k2.frame]; exact r4.trans hs1
    refine ⟨s', (g ++ (W ++ g2)) ++ ([':'] ++ w), ?_, v2.trans hc4, v3, v4.trans hs4, v5, ?_⟩
    · have hr1 : Run P (fun e a => emitBlockMappingKey e false a) s kes s3 (g ++ (W ++ g2)) := by
        have hana : ∃ s5 w1 w2, Writes (emitNode e0 false false true true a0) { s1 with states := .blockMappingSimpleValue :: s1.states, events := q0 } () s5 w1 ∧
            Kept P s5 ∧ Puts P s5 kes' s3 w2 ∧ W ++ g2 = w1 ++ w2 := by
          obtain ⟨e, q, es', a, s5, w1, w2, z1, z2, z3, zt, z4, z5⟩ := r1
          rw [hkes] at z1
          simp only [List.cons.injEq, Prod.mk.injEq] at z1
          obtain ⟨⟨rfl, rfl⟩, rfl⟩ := z1
          obtain rfl := ana_unique z2 ha0
          exact ⟨s5, w1, w2, z3, zt, z4, z5⟩
        obtain ⟨s5, w1, w2, z3, zt, z4, z5⟩ := hana
        refine ⟨e0, q0, kes', a0, s5, g ++ w1, w2, hkes, ha0, ?_, zt, z4, by rw [z5]; simp⟩
        show Writes (emitBlockMappingKey e0 false a0) _ _ _ _
        rw [emitBlockMappingKey_eq he0]
        refine Writes.bind0 (a := ()) (Writes.when_false rfl) ?_
        refine h1.bind (f := fun _ => _) ?_
        refine Writes.bind0 (simpleKeyTest_writes (s := s1) (b := true) ((checkSimpleKey_congr hev1 _ _).trans hb)) ?_
        rw [if_pos rfl]
        refine Writes.bind0 (a := ()) (writes_pushState _ _) ?_
        have heq : { s1 with states := .blockMappingSimpleValue :: s1.states, events := q0 } = { s1 with states := .blockMappingSimpleValue :: s1.states } := by rw [← hev1]
        rw [← heq]; exact z3
      have hr2 : Run P (fun e a => emitBlockMappingValue e true a) s3 ves s' ([':'] ++ w) := by
        refine v1.before ?_
        intro e a q s5 w5 he hw
        rw [hves] at he
        simp at he
        obtain ⟨rfl, rfl⟩ := he
        have heq : { s4 with events := q1 } = s4 := by
          have : s4.events = q1 := by rw [k2.frame]
          rw [← this]
        rw [heq] at hw
        exact k1.bind hw
      refine hr1.append (hr2.puts ?_)
      intro e a q
      obtain ⟨⟩ := s3
      cases r3
      rfl
    intro rest hrest
    have hlb : s4.lineBreak = s.lineBreak := core_lineBreak hc4
    obtain ⟨z1, z2⟩ := v6 rest (by rw [hi4, hlb]; exact hrest)
    obtain ⟨y1, y2⟩ := r11 (w ++ rest) z1
    have htext : (g ++ (W ++ g2)) ++ ([':'] ++ w) ++ rest = g ++ (W ++ (g2 ++ ':' :: (w ++ rest))) := by simp
    rw [htext]
    refine ⟨fun hx => h9 _ y1 hx, fun hx => h8 _ hx, ?_⟩
    intro A hf hA hAi hsy hal
    have hcol : ((Spec.advance A.mark g).column : Int) = s.indent := by
      rw [colAfter_advance, hsy]
      have := h2.col
      rw [h6] at this
      exact this.symm
    have hsk := skip_moved hA g
    have hska : (A.skip g).allowed = true := by
      show (A.allowed || (A.flow == 0 && hasBrk g)) = true
      cases hin : s.indention with
      | true => rw [hal hin]; rfl
      | false => rw [h7 hin, hf]; simp
    have hcc : (A.skip g).flow = 0 → (A.skip g).indent ≤ (Spec.advance (A.skip g).mark []).column := by
      intro _
      show A.indent ≤ ((Spec.advance A.mark g).column : Int)
      omega
    obtain ⟨B, ts, evs, b1, b2, b3, b4, b5⟩ := y2 (A.skip g) hsk.cool hf hAi hska hcc
    obtain ⟨C, c1, c2, c3, c4, c5⟩ := key_read (F := F) (s := { s1 with states := .blockMappingSimpleValue :: s1.states }) (by rw [hsep]; exact b2) (by rw [hsep]; exact b3) r6 r9 r10
      (by rw [hsep]; exact hcc) z1
    rw [hsep] at c2
    have hcm : ((Spec.advance (A.skip g).mark []).column : Int) = s.indent := hcol
    rw [hcm] at c2
    have c2' : Moved (A.base .blockMappingStart s.indent) C (.key :: (ts ++ [.value])) := by
      refine Moved.of_same c2 ?_ ?_ ?_ ?_ ?_ <;>
      · unfold Cfg.base
        by_cases hh : A.flow = 0 ∧ A.indent < s.indent
        · rw [if_pos hh, if_pos (show (A.skip g).flow = 0 ∧ (A.skip g).indent < s.indent from hh)] <;> rfl
        · rw [if_neg hh, if_neg (show ¬ ((A.skip g).flow = 0 ∧ (A.skip g).indent < s.indent) from hh)] <;> rfl
    have hCi : C.indent = s.indent := by rw [c2'.indent]; exact base_indent _ hf (by omega)
    have hsyC : Sync s4 C := by
      have : ((C.mark.column : Nat) : Int) = s4.column := by
        rw [c5, b3, colAfter_advance, colAfter_advance, colAfter_advance, hcm, k2.col]
        show _ = colAfter s3.column _
        rw [r5]
        show _ = colAfter (colAfter s1.column _) _
        rw [h6, colAfter_append _ W g2]
      exact this
    have hWl : 1 ≤ W.length := by cases W with
      | nil => exact absurd rfl r7
      | cons => simp
    obtain ⟨E, ts', evs', d1, d2, d3, d4, d5⟩ := z2 C ⟨by rw [c2'.flow, base_flow]; exact hf, c2'.cool, by rw [hCi, hi4], hsyC, by
      rw [hCi, c5, (advance_flat _ [':'] (by decide)).2.1, (advance_flat _ g2 (spaces_flat r6)).2.1, b3, (advance_flat _ W r9).2.1]
      omega, fun h => by rw [hin4] at h; cases h⟩
    refine ⟨E, .key :: (ts ++ .value :: ts'), evs ++ evs', ?_, ?_, d3, ?_, ?_⟩
    · refine .skip h5.ws (h10 _ y1) ?_
      have := b1.trans (c1.trans d1)
      simpa using this
    · have := c2'.trans d2
      show Moved (A.base .blockMappingStart s.indent) _ _
      simpa using this
    · intro ts'' fs hd
      have := Derives.keyValue (.some (b4 true true)) d4 hd
      show Derives false _ .entries _ _
      simpa using this
    · rw [datas_append]; exact sameEvents_append b5 d5
  | false =>
    obtain ⟨s2, g, h1, h2, h3, h4, h5, h6, h7, h8, h9, h10, h11⟩ := writes_mark (c := '?') (by decide) (starts_cons (by decide) (by decide) (by decide) (by decide) (by decide))
      (s := { s with events := q0 }) hE.brk hi hL
    have hc2 : core s2 = core s := (core_wrote h2).trans rfl
    have hi2 : s2.indent = s.indent := core_indent hc2
    have hs2 : s2.states = s.states := by rw [h2.frame]
    obtain ⟨s3, w, r1, r2, r3, r4, r5, _, r6⟩ := hkB { s2 with states := .blockMappingValue :: s2.states } false false true .blockMappingValue s2.states (hE.core hc2)
      ((core_flowLevel hc2).trans hfl) h11 rfl
    have hc3 : core s3 = core s := r2.trans hc2
    have hi3 : s3.indent = s.indent := core_indent hc3
    have hl3 : s3.lineBreak = s.lineBreak := core_lineBreak hc3
    obtain ⟨s4, g4, m1, m2, m3, m4, m5, m6, m7, m8, m9, m10, m11⟩ := writes_mark (c := ':') (by decide) (starts_cons (by decide) (by decide) (by decide) (by decide) (by decide))
      (s := { s3 with events := q1 }) (by show s3.lineBreak ≠ _; rw [hl3]; exact hE.brk) (by show 0 ≤ s3.indent; rw [hi3]; exact hi) (r5.line (by rw [hi3]; exact hi))
    have hc4 : core s4 = core s := ((core_wrote m2).trans rfl).trans hc3
    have hi4 : s4.indent = s.indent := core_indent hc4
    have hs4 : s4.states = s.states := by rw [m2.frame]; exact r4.trans hs2
    obtain ⟨s', wv, v1, v2, v3, v4, v5, v6⟩ := block_value hv (hE.core hc4) ((core_flowLevel hc4).trans hfl) (by rw [hi4]; exact hi) m11 m3
    refine ⟨s', ((g ++ ['?']) ++ w) ++ ((g4 ++ [':']) ++ wv), ?_, v2.trans hc4, v3, v4.trans hs4, v5, ?_⟩
    · have hr1 : Run P (fun e a => emitBlockMappingKey e false a) s kes s3 ((g ++ ['?']) ++ w) := by
        obtain ⟨e, q, es', a, s5, w1, w2, z1, z2, z3, zt, z4, z5⟩ := r1
        rw [hkes] at z1
        simp only [List.cons.injEq, Prod.mk.injEq] at z1
        obtain ⟨⟨rfl, rfl⟩, rfl⟩ := z1
        obtain rfl := ana_unique z2 ha0
        refine ⟨e0, q0, kes', a, s5, (g ++ ['?']) ++ w1, w2, hkes, z2, ?_, zt, z4, by rw [z5]; simp⟩
        show Writes (emitBlockMappingKey e0 false a) _ _ _ _
        rw [emitBlockMappingKey_eq he0]
        refine Writes.bind0 (a := ()) (Writes.when_false rfl) ?_
        have hk : Writes (do pushState .blockMappingValue; emitNode e0 false false true false a) s2 () s5 w1 := by
          refine Writes.bind0 (a := ()) (writes_pushState _ _) ?_
          have heq : { s2 with states := .blockMappingValue :: s2.states, events := q0 } = { s2 with states := .blockMappingValue :: s2.states } := by
            have : s2.events = q0 := by rw [h2.frame]
            rw [← this]
          rw [← heq]; exact z3
        obtain ⟨s1, x1, x2, x3⟩ := h1
        refine (x1.bind (w' := ['?'] ++ w1) (f := fun _ => _) ?_).cast rfl (by simp)
        refine Writes.bind0 (simpleKeyTest_writes (s := s1) (b := false) ((checkSimpleKey_congr x3 _ _).trans hb)) ?_
        rw [if_neg (by decide)]
        exact x2.bind hk
      have hr2 : Run P (fun e a => emitBlockMappingValue e false a) s3 ves s' ((g4 ++ [':']) ++ wv) := by
        refine v1.before ?_
        intro e a q s5 w5 he hw
        rw [hves] at he
        simp at he
        obtain ⟨rfl, rfl⟩ := he
        have heq : { s4 with events := q1 } = s4 := by
          have : s4.events = q1 := by rw [m2.frame]
          rw [← this]
        rw [heq] at hw
        obtain ⟨s1, x1, x2, _⟩ := m1
        exact (x1.bind (f := fun _ => do writeIndicator [':'] true false true; pushState .blockMappingKey; emitNode e1 false false true false a) (x2.bind hw)).cast rfl (by simp)
      refine hr1.append (hr2.puts ?_)
      intro e a q
      obtain ⟨⟩ := s3
      cases r3
      rfl
    intro rest hrest
    have hl4 : s4.lineBreak = s.lineBreak := core_lineBreak hc4
    obtain ⟨z1, z2⟩ := v6 rest (by rw [hi4, hl4]; exact hrest)
    have hl2 : s2.lineBreak = s.lineBreak := core_lineBreak hc2
    have hfol := m10 (wv ++ rest) r5
    obtain ⟨y1, y2⟩ := r6 (g4 ++ ':' :: (wv ++ rest)) (by
      show Fol s2.indent s2.lineBreak _ _
      rw [hi2, hl2, ← hi3, ← hl3]; exact hfol)
    have hz := y1 h3
    have htext : ((g ++ ['?']) ++ w) ++ ((g4 ++ [':']) ++ wv) ++ rest = g ++ ('?' :: (w ++ (g4 ++ ':' :: (wv ++ rest)))) := by simp
    rw [htext]
    refine ⟨fun hx => h10 _ hx, fun hx => h9 _ hx, ?_⟩
    intro A hf hA hAi hsy hal
    have hcol : ((Spec.advance A.mark g).column : Int) = s.indent := by rw [colAfter_advance, hsy]; exact h7
    obtain ⟨B, b1, b2, b3, b4, b5⟩ := read_dash (F := F) (g := g) (t := w ++ (g4 ++ ':' :: (wv ++ rest))) (Or.inr ⟨rfl, rfl, rfl⟩) hA hf h5 (by
      cases hin : s.indention with
      | true => exact Or.inl (hal hin)
      | false => exact Or.inr (h8 hin)) hcol (by omega) hz
    have hBi : B.indent = s.indent := by rw [b2.indent]; exact base_indent _ hf (by omega)
    have hsy2 : Sync s2 B := sync_of hsy h2.col b5
    obtain ⟨C, ts, evs, c1, c2, c3, c4, c5⟩ := y2 B ⟨by rw [b2.flow, base_flow]; exact hf, b2.cool, by rw [hBi]; exact hi2.symm, hsy2, by
      have : ((B.mark.column : Nat) : Int) = s2.column := hsy2
      rw [hBi, this, h6]
      show s.indent < s.indent + 1
      omega, fun _ => b4⟩
    have hCi : C.indent = s.indent := c2.indent.trans hBi
    have hCf : C.flow = 0 := by rw [c2.flow, b2.flow, base_flow]; exact hf
    obtain ⟨D, d1, d2, d3, d4, d5⟩ := read_colon (F := F) (g := g4) (t := wv ++ rest) c2.cool hCf m5 (by
        cases hin : s3.indention with
        | true => exact Or.inl (c3.fresh hin).1
        | false => exact Or.inr (m8 hin)) (by
        cases hin : s3.indention with
        | true => exact Or.inl (c3.fresh hin).2
        | false => exact Or.inr (m8 hin)) (by
        have : ((C.mark.column : Nat) : Int) = s3.column := c3.sync
        rw [colAfter_advance, this, hCi]
        exact m7.trans hi3) z1
    have hsy4 : Sync s4 D := sync_of c3.sync m2.col d5
    obtain ⟨E, ts', evs', f1, f2, f3, f4, f5⟩ := z2 D ⟨d2.flow.trans hCf, d2.cool, by rw [d2.indent, hCi, hi4], hsy4, by
      have : ((D.mark.column : Nat) : Int) = s4.column := hsy4
      rw [d2.indent, hCi, this, m6]
      show s.indent < s3.indent + 1
      omega, fun _ => d4⟩
    refine ⟨E, .key :: (ts ++ .value :: ts'), evs ++ evs', ?_, ?_, f3, ?_, ?_⟩
    · have := b1.trans (c1.trans (d1.trans f1))
      simpa using this
    · have := b2.trans (c2.trans (d2.trans f2))
      show Moved (A.base .blockMappingStart s.indent) _ _
      simpa using this
    · intro ts'' fs hd
      have := Derives.keyValue (opt_of c4) f4 hd
      show Derives false _ .entries _ _
      simpa using this
    · rw [datas_append]; exact sameEvents_append c5 f5
end

end Yaml.Rt
