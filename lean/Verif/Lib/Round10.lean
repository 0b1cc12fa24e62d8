import Verif.Lib.Round8
import Verif.Lib.Round9

/-
Reading back: what is claimed of each part of a document.
-/

namespace Yaml.Rt
open Yaml Emitter Lx Spec
set_option linter.unusedSimpArgs false
set_option linter.unusedVariables false

/-- Events, each with the queue behind it. -/
abbrev Evs := List (Event × List Event)

/-- Their data. -/
def datas (es : Evs) : List EventData := es.map (·.1.data)

/-- The emitter and the scanner are in the same column. -/
def Sync (s : EState) (A : Cfg) : Prop := (A.mark.column : Int) = s.column

theorem Sync.advance {s s' : EState} {A : Cfg} {w : Str} (h : Sync s A) (hw : Wrote s w s') : ((Spec.advance A.mark w).column : Int) = s'.column := by
  rw [colAfter_advance, h, hw.col]

theorem sync_of {s s' : EState} {A B : Cfg} {g w : Str} (h : Sync s A) (hc : s'.column = colAfter s.column (g ++ w))
    (hm : B.mark = Spec.advance (Spec.advance A.mark g) w) : Sync s' B := by
  unfold Sync
  rw [hm, colAfter_advance, colAfter_advance, h, hc, colAfter_append]

/-- Where a node may be written in block context: if nothing has been written on the line apart from indicators, the column is the expected one. -/
def Ready (s : EState) : Prop :=
  s.indention = true → (s.indent = -1 ∧ s.column = 0 ∧ s.whitespace = true) ∨ (0 ≤ s.indent ∧ s.column = s.indent + 1 ∧ s.whitespace = false)

/-- Where an item or key of a block collection may be written. -/
def Line (s : EState) : Prop :=
  s.indention = true → s.column < s.indent ∨ (s.column = s.indent ∧ s.whitespace = true)

/-- After a node in block context. -/
def Exit (s : EState) : Prop := s.indention = true → s.column = 0 ∧ s.whitespace = true

theorem Exit.line {s : EState} (h : Exit s) (hi : 0 ≤ s.indent) : Line s := by
  intro h'
  obtain ⟨h1, h2⟩ := h h'
  by_cases h3 : s.indent = 0
  · exact Or.inr ⟨by omega, h2⟩
  · exact Or.inl (by omega)

/-- The configuration before a node in block context. -/
structure Entry (s : EState) (A : Cfg) : Prop where
  flow : A.flow = 0
  cool : Cool A
  ind : A.indent = s.indent
  sync : Sync s A
  after : A.indent < A.mark.column
  fresh : s.indention = true → A.allowed = true

/-- The configuration after a node in block context. -/
structure After (s : EState) (A : Cfg) : Prop where
  sync : Sync s A
  fresh : s.indention = true → A.allowed = true ∧ Dead A

/-- What may follow a node in flow context. -/
def FolF (rest : Str) : Prop :=
  (∃ c r, rest = c :: r ∧ (c = ',' ∨ c = ']' ∨ c = '}')) ∨ (∃ g r, rest = g ++ ':' :: r ∧ Blanks g ∧ g ≠ [] ∧ EndsTag r)

/-- An empty scalar for which nothing is written. -/
def Bare (es : Evs) : Prop := ∃ e q tg qi sty, es = [(e, q)] ∧ e.data = .scalar none tg [] true qi sty ∧ (sty = .plain ∨ sty = .any)

section
variable (P : Par) (F : Nat)

/-- A node in block context. -/
def ClaimB (es : Evs) : Prop :=
  ∀ (s : EState) (root sq mp : Bool) (st : EmSt) (sts : List EmSt), Env P s → s.flowLevel = 0 → Ready s → s.states = st :: sts →
    ∃ s' w, Run P (fun e a => emitNode e root sq mp false a) s es s' w ∧ core s' = core s ∧ s'.state = st ∧ s'.states = sts ∧ Exit s' ∧
      (∀ rest, Fol s.indent s.lineBreak s'.indention rest → P.canon = true → s.whitespace = true → NoSplit (breakChars s.lineBreak) (w ++ rest)) ∧
      ∀ rest, Fol s.indent s.lineBreak s'.indention rest → (s.whitespace = false → EndsTag (w ++ rest)) ∧
        ∀ A, Entry s A → ∃ A' ts evs, Reach F A (w ++ rest) A' rest ∧ Moved A A' ts ∧ After s' A' ∧
          (Derives false P.tags (.node true mp) ts evs ∨ (ts = [] ∧ evs = [emptyNode] ∧ Bare es)) ∧ SameEvents P.canon (datas es) evs

/-- A node in flow context. -/
def ClaimF (es : Evs) : Prop :=
  ∀ (s : EState) (fl : Nat) (n : Int) (sq mp : Bool) (st : EmSt) (sts : List EmSt), Env P s → s.flowLevel = fl → fl ≠ 0 → s.states = st :: sts →
    ∃ s' w, Run P (fun e a => emitNode e false sq mp false a) s es s' w ∧ core s' = core s ∧ s'.state = st ∧ s'.states = sts ∧
      s'.whitespace = false ∧ s'.indention = false ∧
      ∀ rest, FolF rest → (s.whitespace = false → EndsTag (w ++ rest)) ∧
        ∀ A, Cool A → A.flow = fl → A.indent = n → Sync s A → ∃ A' ts evs, Reach F A (w ++ rest) A' rest ∧ Moved A A' ts ∧ Keep A A' ∧ Sync s' A' ∧
          Derives false P.tags (.node false false) ts evs ∧ SameEvents P.canon (datas es) evs

/-- A simple key. -/
def ClaimS (es : Evs) : Prop :=
  ∀ (s : EState) (fl : Nat) (n : Int) (st : EmSt) (sts : List EmSt) (e : Event) (q : List Event) (es' : Evs) (a : Analysis), es = (e, q) :: es' → Ana P e a →
    checkSimpleKey { s with events := q } e a = some true → Env P s → s.flowLevel = fl → (fl = 0 → n ≤ s.indent) → s.states = st :: sts →
    ∃ s' W g, Run P (fun e a => emitNode e false false true true a) s es s' (sep s ++ (W ++ g)) ∧ core s' = core s ∧ s'.state = st ∧ s'.states = sts ∧
      s'.column = colAfter s.column (sep s ++ (W ++ g)) ∧ (∀ c ∈ g, c = ' ') ∧ W ≠ [] ∧ W.head? ≠ some ' ' ∧ (∀ c ∈ W, isBreak c = false) ∧ strLen W + strLen g ≤ 1024 ∧
      ∀ r, EndsTag r → Starts (W ++ (g ++ ':' :: r)) ∧ ∀ A, Cool A → A.flow = fl → A.indent = n → A.allowed = true → (A.flow = 0 → A.indent ≤ (Spec.advance A.mark (sep s)).column) →
        ∃ B ts evs, Reach F A (sep s ++ (W ++ (g ++ ':' :: r))) B (g ++ ':' :: r) ∧ Warm A (A.to (sep s)).key B ts ∧
          B.mark = Spec.advance (Spec.advance A.mark (sep s)) W ∧ (∀ b i, Derives false P.tags (.node b i) ts evs) ∧ SameEvents P.canon (datas es) evs

/-- The rest of a block collection: items by `f`, ended by `f1`. -/
def ClaimBlock (f : Event → Bool → Analysis → Emit Unit) (fin : EventData) (d : TokenData) (ph : Phrase) (ns : Evs) : Prop :=
  ∀ (s : EState) (n i0 : Int) (l : List Int) (st : EmSt) (sts : List EmSt) (f1 : Event) (q1 : List Event), f1.data = fin → Env P s → s.flowLevel = 0 → 0 ≤ s.indent →
    -1 ≤ i0 → i0 ≤ s.indent → n ≤ s.indent → s.indents = i0 :: l → s.states = st :: sts → Line s →
    ∃ s' w, Run P (fun e a => f e false a) s (ns ++ [(f1, q1)]) s' w ∧ core s' = core { s with indent := i0, indents := l } ∧ s'.state = st ∧ s'.states = sts ∧
      ((ns ≠ [] ∨ Exit s) → Exit s') ∧
      ∀ rest, Fol i0 s.lineBreak s'.indention rest → (Exit s → Fol s.indent s.lineBreak s.indention (w ++ rest)) ∧
        (ns ≠ [] → s.whitespace = false → EndsTag (w ++ rest)) ∧ (ns ≠ [] → s.indention = false → EndsTag (w ++ rest)) ∧
        ∀ A, A.flow = 0 → Cool A → A.indent = n → Sync s A → (s.indention = true → A.allowed = true) →
          ∃ A' ts evs, Reach F A (w ++ rest) A' rest ∧ Moved (if ns = [] then A else A.base d s.indent) A' ts ∧ ((ns ≠ [] ∨ After s A) → After s' A') ∧
            Derives false P.tags ph ts evs ∧ SameEvents P.canon (datas ns) evs

/-- The rest of a flow collection after an item. -/
def ClaimFlow (f : Event → Bool → Analysis → Emit Unit) (fin : EventData) (d : TokenData) (ph1 ph : Phrase) (ns : Evs) : Prop :=
  ∀ (s : EState) (fl : Nat) (n i0 : Int) (l : List Int) (st : EmSt) (sts : List EmSt) (f1 : Event) (q1 : List Event), f1.data = fin → Env P s → s.flowLevel = (fl + 1 : Nat) →
    1 ≤ s.indent → -1 ≤ i0 → s.indents = i0 :: l → s.states = st :: sts →
    ∃ s' w, Run P (fun e a => f e false a) s (ns ++ [(f1, q1)]) s' w ∧ core s' = core { s with indent := i0, indents := l, flowLevel := fl } ∧ s'.state = st ∧ s'.states = sts ∧
      s'.whitespace = false ∧ s'.indention = false ∧
      ∀ rest, FolF (w ++ rest) ∧
        ∀ A, A.flow = fl + 1 → Cool A → A.indent = n → Sync s A →
          ∃ A' ts evs, Reach F A (w ++ rest) A' rest ∧ A'.flow = fl ∧ A'.indent = A.indent ∧ A'.indents = A.indents ∧ A'.toks = A.toks ++ (ts ++ [d]) ∧ Cool A' ∧
            KeySub A'.keys A.keys.tail ∧ A'.allowed = false ∧ Sync s' A' ∧
            (∀ n0 es0, Derives false P.tags ph1 n0 es0 → Derives false P.tags ph (n0 ++ ts) (es0 ++ evs)) ∧ SameEvents P.canon (datas ns) evs

/-- A whole flow collection, from its bracket. -/
def ClaimColl (f : Event → Bool → Analysis → Emit Unit) (fin : EventData) (d1 d : TokenData) (ph : Phrase) (ns : Evs) : Prop :=
  ∀ (s : EState) (fl : Nat) (n : Int) (st : EmSt) (sts : List EmSt) (f1 : Event) (q1 : List Event), f1.data = fin → Env P s → s.flowLevel = fl → s.states = st :: sts →
    ∃ s' w, Run P (fun e a => f e true a) s (ns ++ [(f1, q1)]) s' (sep s ++ w) ∧ core s' = core s ∧ s'.state = st ∧ s'.states = sts ∧
      s'.whitespace = false ∧ s'.indention = false ∧ (∃ c r, w = c :: r ∧ c ≠ '\n') ∧
      ∀ rest A, A.flow = fl → Cool A → A.indent = n → (A.flow = 0 → A.indent < A.mark.column) → Sync s A →
          ∃ A' ts evs, Reach F A (sep s ++ (w ++ rest)) A' rest ∧ Moved A A' (d1 :: (ts ++ [d])) ∧ Keep A A' ∧ A'.allowed = false ∧ Sync s' A' ∧
            Derives false P.tags ph ts evs ∧ SameEvents P.canon (datas ns) evs

/-- All that is claimed of a node. -/
def ClaimNode (es : Evs) : Prop := ClaimB P F es ∧ ClaimF P F es ∧ ClaimS P F es

/-- All that is claimed of the items of a sequence. -/
def ClaimItems (ns : Evs) : Prop :=
  ClaimBlock P F emitBlockSequenceItem .sequenceEnd .blockSequenceStart .items ns ∧
  ClaimFlow P F emitFlowSequenceItem .sequenceEnd .flowSequenceEnd .flowItem .flowItems ns ∧
  ClaimColl P F emitFlowSequenceItem .sequenceEnd .flowSequenceStart .flowSequenceEnd .flowItems ns

/-- All that is claimed of the pairs of a mapping. -/
def ClaimPairs (ps : Evs) : Prop :=
  ClaimBlock P F emitBlockMappingKey .mappingEnd .blockMappingStart .entries ps ∧
  ClaimFlow P F emitFlowMappingKey .mappingEnd .flowMappingEnd .flowEntry .flowEntries ps ∧
  ClaimColl P F emitFlowMappingKey .mappingEnd .flowMappingStart .flowMappingEnd .flowEntries ps
end

/-! ### Small facts -/

theorem sameEvents_append {c : Bool} {es fs es' fs' : List EventData} (h : SameEvents c es es') (h' : SameEvents c fs fs') : SameEvents c (es ++ fs) (es' ++ fs') := by
  induction es generalizing es' with
  | nil => cases es' with
    | nil => exact h'
    | cons => exact h.elim
  | cons e es ih => cases es' with
    | nil => exact h.elim
    | cons e' es' => exact ⟨h.1, ih h.2⟩

theorem sameEvents_one {c : Bool} {e e' : EventData} (h : SameEvent c e e') : SameEvents c [e] [e'] := ⟨h, trivial⟩

theorem datas_append (a b : Evs) : datas (a ++ b) = datas a ++ datas b := by simp [datas]

/-- Only these parts of a configuration matter. -/
theorem Moved.of_same {A A1 B : Cfg} {ts : List TokenData} (h : Moved A1 B ts) (h1 : A1.flow = A.flow) (h2 : A1.indent = A.indent) (h3 : A1.indents = A.indents)
    (h4 : A1.toks = A.toks) (h5 : A1.keys = A.keys) : Moved A B ts :=
  ⟨by rw [h.flow, h1], by rw [h.indent, h2], by rw [h.indents, h3], by rw [h.toks, h4], h.cool, by rw [← h5]; exact h.tail⟩

theorem endsTag_space (r : Str) : EndsTag (' ' :: r) := by
  intro c r' h
  simp at h
  exact Or.inl (Or.inl h.1.symm)

theorem endsTag_break {c : Char} (hc : isBreak c = true) (r : Str) : EndsTag (c :: r) := by
  intro c' r' h
  simp at h
  right; rw [isLineBreak_eq, ← h.1]; exact hc

theorem endsTag_sep {s : EState} (h : s.whitespace = false) (r : Str) : EndsTag (sep s ++ r) := by
  unfold sep; rw [h]; exact endsTag_space r

theorem breakChars_blanks {lb : Break} : Blanks (breakChars lb) := by
  intro c hc
  right
  revert hc
  cases lb <;> simp [breakChars]
  · rintro rfl; decide
  · rintro rfl; decide
  · rintro (rfl | rfl) <;> decide

theorem replicate_blanks (j : Nat) : Blanks (List.replicate j ' ') := fun c hc => Or.inl (List.eq_of_mem_replicate hc)

theorem wrote_indent_stay {s : EState} (hc : s.column ≤ (if s.indent ≥ 0 then s.indent else 0)) :
    Wrote s (List.replicate ((if s.indent ≥ 0 then s.indent else 0) - s.column).toNat ' ')
      { s with column := (if s.indent ≥ 0 then s.indent else 0), whitespace := true, indention := true } := by
  refine ⟨rfl, ?_⟩
  rw [colAfter_spaces]
  simp only []
  omega

/-- `write_indent` in general. -/
theorem writes_indent (s : EState) (hl : s.lineBreak ≠ .any) :
    ∃ s1 g, Writes writeIndent s () s1 g ∧ Wrote s g s1 ∧ s1.whitespace = true ∧ s1.indention = true ∧ Blanks g ∧ s1.column = (if s.indent ≥ 0 then s.indent else 0) ∧
      (breaksLine s = true → g = breakChars s.lineBreak ++ List.replicate s.indent.toNat ' ') ∧
      (breaksLine s = false → g = List.replicate ((if s.indent ≥ 0 then s.indent else 0) - s.column).toNat ' ') := by
  cases hb : breaksLine s with
  | true =>
    refine ⟨_, _, writes_writeIndent_break hb, wrote_indent_break hl, rfl, rfl, ?_, rfl, fun _ => rfl, by simp⟩
    exact breakChars_blanks.append (replicate_blanks _)
  | false =>
    have hc : s.column ≤ (if s.indent ≥ 0 then s.indent else 0) := by
      unfold breaksLine at hb
      simp only [Bool.or_eq_false_iff, decide_eq_false_iff_not] at hb
      have := hb.1.2
      omega
    exact ⟨_, _, writes_writeIndent_stay hb, wrote_indent_stay hc, rfl, rfl, replicate_blanks _, rfl, by simp, fun _ => rfl⟩

theorem hasBrk_breakChars {lb : Break} (h : lb ≠ .any) (r : Str) : hasBrk (breakChars lb ++ r) = true := by
  obtain ⟨c, r', h1, h2, _⟩ := breakChars_head h
  rw [h1, List.cons_append, hasBrk_cons, h2]; rfl

/-- `write_indent` before an item or a key of a block collection. -/
theorem writes_line {s : EState} (hl : s.lineBreak ≠ .any) (hi : 0 ≤ s.indent) (h : Line s) :
    ∃ s1 g, Writes writeIndent s () s1 g ∧ Wrote s g s1 ∧ s1.whitespace = true ∧ s1.indention = true ∧ Blanks g ∧ s1.column = s.indent ∧
      (s.indention = false → hasBrk g = true) ∧
      (∀ t, (s.whitespace = false ∨ s.indention = false) → EndsTag (g ++ t)) ∧
      (∀ t, Starts t → Exit s → Fol s.indent s.lineBreak s.indention (g ++ t)) ∧
      (∀ t, Starts t → NoSplit g t) := by
  obtain ⟨s1, g, h1, h2, h3, h4, h5, h6, h7, h8⟩ := writes_indent s hl
  rw [if_pos hi] at h6 h8
  have hbl : breaksLine s = !s.indention := by
    unfold breaksLine
    rw [if_pos hi]
    cases hin : s.indention with
    | false => rfl
    | true =>
      have := h hin
      have e1 : ¬ (s.column > s.indent) := by rcases this with h | h <;> omega
      rw [decide_eq_false e1]
      rcases this with h | ⟨h, h'⟩
      · rw [decide_eq_false (show ¬ s.column = s.indent by omega)]; rfl
      · rw [h']; simp
  have hns : ∀ t, Starts t → NoSplit g t := by
    rintro t ht ⟨_, h⟩
    cases t with
    | nil => cases h
    | cons c r => simp at h; exact ht.head h
  refine ⟨s1, g, h1, h2, h3, h4, h5, h6, ?_, ?_, ?_, hns⟩
  · intro hin
    rw [h7 (by rw [hbl, hin]; rfl)]
    exact hasBrk_breakChars hl _
  · intro t ht
    cases hin : s.indention with
    | false =>
      rw [h7 (by rw [hbl, hin]; rfl)]
      obtain ⟨c, r', k1, k2, _⟩ := breakChars_head hl
      rw [k1]
      exact endsTag_break k2 _
    | true =>
      rcases ht with ht | ht
      · rw [h8 (by rw [hbl, hin]; rfl)]
        rcases h hin with h | ⟨_, h⟩
        · obtain ⟨j, hj⟩ : ∃ j, (s.indent - s.column).toNat = j + 1 := ⟨(s.indent - s.column).toNat - 1, by omega⟩
          rw [hj, List.replicate_succ]; exact endsTag_space _
        · rw [ht] at h; cases h
      · rw [hin] at ht; cases ht
  · intro t ht hx
    refine ⟨s.indent.toNat, t, ?_, ht, Or.inl (by omega)⟩
    cases hin : s.indention with
    | false =>
      rw [h7 (by rw [hbl, hin]; rfl)]
      simp
    | true =>
      rw [h8 (by rw [hbl, hin]; rfl), (hx hin).1]
      simp

end Yaml.Rt
