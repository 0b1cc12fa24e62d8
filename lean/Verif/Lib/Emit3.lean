import Verif.Lib.Emit2

/-
The state machine of the emitter follows the event grammar.
-/

namespace Yaml.Emitter
open Yaml Spec

set_option linter.unusedSimpArgs false

variable {e : Encoding} {u : Bool} {fails : Prop} {α β : Type}

/-- The return states on the stack while a node is written inside the collections `stk`; the number
counts the saved indents. -/
inductive Ret : List Coll → List EmSt → Nat → Prop
  | doc : Ret [] [.documentEnd] 0
  | seq {x : EmSt} {stk : List Coll} {st : List EmSt} {n : Nat} (hx : x = .flowSequenceItem ∨ x = .blockSequenceItem)
      (h : Ret stk st n) : Ret (.seq :: stk) (x :: st) (n + 1)
  | mapK {x : EmSt} {stk : List Coll} {st : List EmSt} {n : Nat}
      (hx : x = .flowMappingSimpleValue ∨ x = .flowMappingValue ∨ x = .blockMappingSimpleValue ∨ x = .blockMappingValue)
      (h : Ret stk st n) : Ret (.mapK :: stk) (x :: st) (n + 1)
  | mapV {x : EmSt} {stk : List Coll} {st : List EmSt} {n : Nat} (hx : x = .flowMappingKey ∨ x = .blockMappingKey)
      (h : Ret stk st n) : Ret (.mapV :: stk) (x :: st) (n + 1)

/-- The state, the stack of states and the number of saved indents in each state of the grammar. -/
inductive EAt : EmSt → List EmSt → Nat → GSt → Prop
  | start : EAt .streamStart [] 0 .start
  | firstDoc : EAt .firstDocumentStart [] 0 .docs
  | nextDoc : EAt .documentStart [] 0 .docs
  | content : EAt .documentContent [] 0 (.inDoc [])
  | docEnd : EAt .documentEnd [] 0 .docEnd
  | done : EAt .end_ [] 0 .done
  | seqFirst {x : EmSt} {stk : List Coll} {st : List EmSt} {n : Nat} (hx : x = .flowSequenceFirstItem ∨ x = .blockSequenceFirstItem)
      (h : Ret stk st n) : EAt x st n (.inDoc (.seq :: stk))
  | mapFirst {x : EmSt} {stk : List Coll} {st : List EmSt} {n : Nat} (hx : x = .flowMappingFirstKey ∨ x = .blockMappingFirstKey)
      (h : Ret stk st n) : EAt x st n (.inDoc (.mapK :: stk))
  | seq {x : EmSt} {stk : List Coll} {st : List EmSt} {n : Nat} (hx : x = .flowSequenceItem ∨ x = .blockSequenceItem)
      (h : Ret stk st n) : EAt x st (n + 1) (.inDoc (.seq :: stk))
  | key {x : EmSt} {stk : List Coll} {st : List EmSt} {n : Nat} (hx : x = .flowMappingKey ∨ x = .blockMappingKey)
      (h : Ret stk st n) : EAt x st (n + 1) (.inDoc (.mapK :: stk))
  | value {x : EmSt} {stk : List Coll} {st : List EmSt} {n : Nat}
      (hx : x = .flowMappingSimpleValue ∨ x = .flowMappingValue ∨ x = .blockMappingSimpleValue ∨ x = .blockMappingValue)
      (h : Ret stk st n) : EAt x st (n + 1) (.inDoc (.mapV :: stk))

theorem Ret.pop {stk : List Coll} {st : List EmSt} {n : Nat} (h : Ret stk st n) :
    ∃ y st', st = y :: st' ∧ EAt y st' n (.after stk) := by
  cases h with
  | doc => exact ⟨_, _, rfl, .docEnd⟩
  | seq hx h => exact ⟨_, _, rfl, .seq hx h⟩
  | mapK hx h => exact ⟨_, _, rfl, .value hx h⟩
  | mapV hx h => exact ⟨_, _, rfl, .key hx h⟩

/-- What no function of the state machine changes once the stream has started. -/
def fixed (s : EState) : EState :=
  { core s with states := [], state := .streamStart, indents := [], indent := 0, flowLevel := 0, rootContext := false,
                sequenceContext := false, mappingContext := false, simpleKeyContext := false, tagDirectives := [] }

theorem fixed_of_core {s s' : EState} (h : core s' = core s) : fixed s' = fixed s := by
  unfold fixed; rw [h]

/-- Where the state machine is. -/
structure At (e : Encoding) (u : Bool) (st : List EmSt) (n : Nat) (td : List TagDirective) (B : EState) (s : EState) (b : Ob) : Prop where
  wr : Wr e u s b
  states : s.states = st
  indents : s.indents.length = n
  tags : s.tagDirectives = td
  base : fixed s = B

variable {st : List EmSt} {n : Nat} {td : List TagDirective} {B : EState} {s : EState} {b : Ob}
  {P : PanicSite → Prop} {E : Err → EState → Ob → Prop}

theorem At.of_core {s' : EState} {b' : Ob} (h : At e u st n td B s b) (hc : core s' = core s) (hw : Wr e u s' b') :
    At e u st n td B s' b' := by
  have h1 := congrArg EState.states hc
  have h2 := congrArg EState.indents hc
  have h3 := congrArg EState.tagDirectives hc
  simp only [core] at h1 h2 h3
  exact ⟨hw, h1.trans h.2, by rw [h2]; exact h.3, h3.trans h.4, (fixed_of_core hc).trans h.5⟩

theorem Wrt.at {m : Emit α} (h : Wrt e u fails m) {Q : α → EState → Ob → Prop} (ha : At e u st n td B s b)
    (hE : ∀ k s b, b.broken = true → E (.io k) s b) (hQ : ∀ a s' b', core s' = core s → At e u st n td B s' b' → Q a s' b') :
    M.wp (stepE e u fails) P E m Q s b :=
  h.cut ha.wr hE fun a s' b' hc hw => hQ a s' b' hc (ha.of_core hc hw)

theorem At.canonical (h : At e u st n td B s b) : s.canonical = B.canonical := by rw [← h.base]; rfl

section rules
variable {step : Step EmitOp EmitAns Ob}

theorem wp_popIndent {Q : Unit → EState → Ob → Prop} (ha : At e u st (n + 1) td B s b)
    (hQ : ∀ s', At e u st n td B s' b → s'.state = s.state → Q () s' b) : M.wp step P E popIndent Q s b := by
  unfold popIndent
  simp only [M.wp_bind, M.wp_get]
  have := ha.indents
  cases hi : s.indents with
  | nil => rw [hi] at this; simp at this
  | cons i r =>
    rw [hi] at this
    simp only [M.wp_modify]
    exact hQ _ ⟨⟨ha.1.1, ha.1.2, ha.1.3, ha.1.4, ha.1.5⟩, ha.states, by simpa using this, ha.tags, ha.base⟩ rfl

theorem wp_popState {Q : Unit → EState → Ob → Prop} {y : EmSt} (ha : At e u (y :: st) n td B s b)
    (hQ : ∀ s', At e u st n td B s' b → s'.state = y → Q () s' b) : M.wp step P E popState Q s b := by
  unfold popState
  simp only [M.wp_bind, M.wp_get]
  rw [ha.states]
  exact hQ _ ⟨⟨ha.1.1, ha.1.2, ha.1.3, ha.1.4, ha.1.5⟩, rfl, ha.indents, ha.tags, ha.base⟩ rfl

theorem wp_pushState {Q : Unit → EState → Ob → Prop} {y : EmSt} (ha : At e u st n td B s b)
    (hQ : ∀ s', At e u (y :: st) n td B s' b → Q () s' b) : M.wp step P E (pushState y) Q s b := by
  unfold pushState
  rw [M.wp_modify]
  refine hQ _ ⟨⟨ha.1.1, ha.1.2, ha.1.3, ha.1.4, ha.1.5⟩, ?_, ha.indents, ha.tags, ha.base⟩
  simp only [ha.states]

theorem wp_setState {Q : Unit → EState → Ob → Prop} {y : EmSt} (ha : At e u st n td B s b)
    (hQ : ∀ s', At e u st n td B s' b → s'.state = y → Q () s' b) : M.wp step P E (setState y) Q s b := by
  unfold setState
  rw [M.wp_modify]
  exact hQ _ ⟨⟨ha.1.1, ha.1.2, ha.1.3, ha.1.4, ha.1.5⟩, ha.states, ha.indents, ha.tags, ha.base⟩ rfl

theorem wp_increaseIndent {Q : Unit → EState → Ob → Prop} {x y : Bool} (ha : At e u st n td B s b)
    (hQ : ∀ s', At e u st (n + 1) td B s' b → s'.canonical = s.canonical → Q () s' b) : M.wp step P E (increaseIndent x y) Q s b := by
  unfold increaseIndent
  rw [M.wp_modify]
  exact hQ _ ⟨⟨ha.1.1, ha.1.2, ha.1.3, ha.1.4, ha.1.5⟩, ha.states, by simp [ha.indents], ha.tags, ha.base⟩ rfl

theorem wp_addFlowLevel {Q : Unit → EState → Ob → Prop} {i : Int} (ha : At e u st n td B s b)
    (hQ : ∀ s', At e u st n td B s' b → Q () s' b) : M.wp step P E (addFlowLevel i) Q s b := by
  unfold addFlowLevel
  rw [M.wp_modify]
  exact hQ _ ⟨⟨ha.1.1, ha.1.2, ha.1.3, ha.1.4, ha.1.5⟩, ha.states, ha.indents, ha.tags, ha.base⟩

end rules

theorem wrt_processAnchor {a : Option AnchorAnalysis} (h : ∀ x, a = some x → NameOk x.anchor) : Wrt e u fails (processAnchor a) := by
  cases a with
  | none => exact Wrt.pure ()
  | some a =>
    have h1 : OutStr u (if a.alias_ then ['*'] else ['&']) := by
      split <;> exact outStr_one (by decide) (by decide)
    exact (wrt_writeIndicator h1 _ _ _).bind fun _ =>
      wrt_writeAnchor fun c hc => outChar_alpha ((isAlpha_iff c).2 ((h a rfl).2 c hc))

theorem wrt_processTag {t : Option TagAnalysis} (h : ∀ x, t = some x → OutStr u x.handle) : Wrt e u fails (processTag t) := by
  cases t with
  | none => exact Wrt.pure ()
  | some t =>
    unfold processTag
    simp only
    refine Wrt.ite (fun _ => Wrt.pure ()) fun _ => Wrt.ite (fun _ => ?_) fun _ => ?_
    · exact (wrt_writeIndicator (outStr_ascii (by decide)) _ _ _).bind fun _ => (wrt_writeTagContent _ _).bind fun _ =>
        wrt_writeIndicator (outStr_ascii (by decide)) _ _ _
    · exact (wrt_writeTagHandle (h t rfl)).bind fun _ => Wrt.when fun _ => wrt_writeTagContent _ _

theorem wrt_processScalar {style : ScalarStyle} {value : Str} (h1 : style ≠ .any) (h2 : style ≠ .doubleQuoted → OutStr u value) :
    Wrt e u fails (processScalar style value) := by
  unfold processScalar
  refine Wrt.get fun s _ _ => ?_
  cases style with
  | any => exact absurd rfl h1
  | plain => exact wrt_writePlain (h2 (by simp)) _
  | singleQuoted => exact wrt_writeSingleQuoted (h2 (by simp)) _
  | doubleQuoted => exact wrt_writeDoubleQuoted _ _
  | literal => exact wrt_writeLiteral (h2 (by simp))
  | folded => exact wrt_writeFolded (h2 (by simp))

/-- The outcome of a step of the state machine that writes (part of) a node. -/
def Moved (e : Encoding) (u : Bool) (G : GSt) (td : List TagDirective) (B : EState) (s : EState) (b : Ob) : Prop :=
  ∃ st n, At e u st n td B s b ∧ EAt s.state st n G

theorem handles_out {tags : List TagDirective} (ht : ∀ d ∈ tags, HandleOk d.handle) {t : Option TagAnalysis}
    (h : ∀ x, t = some x → x.handle = [] ∨ ∃ d ∈ tags, x.handle = d.handle) : ∀ x, t = some x → OutStr u x.handle := by
  intro x hx
  rcases h x hx with h | ⟨d, hd, h⟩
  · rw [h]; exact OutStr.nil
  · rw [h]; exact handle_out (ht d hd)

/-- `emit_node`. -/
theorem wp_emitNode {ev : Event} {a : Analysis} {tags : List TagDirective} {stk : List Coll} {r q m k : Bool}
    {s0 : EState} {Q : Unit → EState → Ob → Prop}
    (ht : ∀ d ∈ tags, HandleOk d.handle) (hA : AnaOk s0 tags ev.data a) (hs0 : s0.unicode = u)
    (hAE : AnaEvent B.canonical ev.data)
    (ha : At e u st n td B s b) (hR : Ret stk st n)
    (hE : ∀ k s b, b.broken = true → E (.io k) s b)
    (hE2 : ¬ ((gstep (.inDoc stk) ev.data).isSome ∧ EventOk B.canonical ev.data) → ∀ m s b, b.broken = false → E (.emitter m) s b)
    (hnS : ev.data ≠ .sequenceEnd ∨ ∀ r, stk ≠ .seq :: r) (hnM : ev.data ≠ .mappingEnd ∨ ∀ r, stk ≠ .mapK :: r)
    (hQ : ∀ s' b' G', gstep (.inDoc stk) ev.data = some G' → EventOk B.canonical ev.data → Moved e u G' td B s' b' → Q () s' b') :
    M.wp (stepE e u fails) P E (emitNode ev r q m k a) Q s b := by
  obtain ⟨d, m1, m2⟩ := ev
  unfold emitNode
  rw [M.wp_bind, M.wp_modify]
  have ha1 : At e u st n td B { s with rootContext := r, sequenceContext := q, mappingContext := m, simpleKeyContext := k } b :=
    ⟨⟨ha.1.1, ha.1.2, ha.1.3, ha.1.4, ha.1.5⟩, ha.states, ha.indents, ha.tags, ha.base⟩
  generalize { s with rootContext := r, sequenceContext := q, mappingContext := m, simpleKeyContext := k } = s1 at ha1
  clear ha
  obtain ⟨y, st', rfl, hpop⟩ := hR.pop
  simp only at hA hAE hE2 hnS hnM hQ
  cases d with
  | alias name =>
    simp only
    unfold emitAlias
    rw [M.wp_bind]
    refine (wrt_processAnchor hA.anchor).at ha1 hE (fun _ s2 b2 hc2 ha2 => ?_)
    rw [M.wp_bind, M.wp_get, M.wp_bind]
    refine (Wrt.when fun _ => wrt_put outChar_space).at ha2 hE (fun _ s3 b3 hc3 ha3 => ?_)
    refine wp_popState ha3 (fun s4 ha4 hs4 => hQ s4 b3 _ rfl hAE ⟨_, _, ha4, ?_⟩)
    rw [hs4]; exact hpop
  | scalar anchor tag value p qi style =>
    simp only
    unfold emitScalar
    obtain ⟨hsc, htag, htag'⟩ := hA.scalar _ _ _ _ _ _ rfl
    rw [hsc]
    simp only
    rw [M.wp_bind]
    unfold selectScalarStyle
    rw [M.wp_bind, M.wp_get]
    by_cases hbad : (a.tag.isNone && !p && !qi) = true
    · rw [if_pos hbad]
      refine hE2 (fun h => ?_) _ _ _ ha1.wr.broken
      simp only [Bool.and_eq_true, Bool.not_eq_true', Option.isNone_iff_eq_none] at hbad
      have hn : tag = none := by
        rcases htag hbad.1.1 with h | h | h
        · exact h
        · rw [hbad.1.2] at h; cases h
        · rw [hbad.2] at h; cases h
      rcases h.2.2.1 hn with h | h
      · rw [hbad.1.2] at h; cases h
      · rw [hbad.2] at h; cases h
    · rw [if_neg hbad]
      rw [M.wp_pure]
      simp only
      have hok : EventOk B.canonical (.scalar anchor tag value p qi style) := by
        refine ⟨hAE.1, fun hn => ?_, hAE.2⟩
        have := htag' hn
        rw [this] at hbad
        cases p
        · cases qi
          · simp at hbad
          · exact Or.inr rfl
        · exact Or.inl rfl
      rw [M.wp_bind]
      refine (wrt_processAnchor hA.anchor).at ha1 hE (fun _ s2 b2 hc2 ha2 => ?_)
      rw [M.wp_bind]
      have hho : ∀ x, (if (a.tag.isNone && !qi && chooseStyle s1 (analyzeScalar s0.unicode value) a.tag.isNone p style != ScalarStyle.plain) = true
          then some (⟨['!'], []⟩ : TagAnalysis) else a.tag) = some x → OutStr u x.handle := by
        intro x hx
        split at hx
        · cases hx; exact outStr_one (by decide) (by decide)
        · exact handles_out ht hA.tag x hx
      refine (wrt_processTag hho).at ha2 hE (fun _ s3 b3 hc3 ha3 => ?_)
      rw [M.wp_bind]
      refine wp_increaseIndent ha3 (fun s4 ha4 _ => ?_)
      rw [M.wp_bind]
      rw [hs0, analyze_value]
      have hst := chooseStyle_out (u := u) (s := s1) (value := value) (noTag := a.tag.isNone) (p := p) (style := style)
      refine (wrt_processScalar hst.1 hst.2).at ha4 hE (fun _ s5 b5 hc5 ha5 => ?_)
      rw [M.wp_bind]
      refine wp_popIndent ha5 (fun s6 ha6 _ => ?_)
      refine wp_popState ha6 (fun s7 ha7 hs7 => hQ s7 b5 _ rfl hok ⟨_, _, ha7, ?_⟩)
      rw [hs7]; exact hpop
  | sequenceStart anchor tag implicit style =>
    simp only
    unfold emitSequenceStart
    rw [M.wp_bind]
    refine (wrt_processAnchor hA.anchor).at ha1 hE (fun _ s2 b2 hc2 ha2 => ?_)
    rw [M.wp_bind]
    refine (wrt_processTag (handles_out ht hA.tag)).at ha2 hE (fun _ s3 b3 hc3 ha3 => ?_)
    rw [M.wp_bind, M.wp_get]
    split
    · refine wp_setState ha3 (fun s4 ha4 hs4 => hQ s4 b3 _ rfl hAE ⟨_, _, ha4, ?_⟩)
      rw [hs4]; exact .seqFirst (Or.inl rfl) hR
    · refine wp_setState ha3 (fun s4 ha4 hs4 => hQ s4 b3 _ rfl hAE ⟨_, _, ha4, ?_⟩)
      rw [hs4]; exact .seqFirst (Or.inr rfl) hR
  | mappingStart anchor tag implicit style =>
    simp only
    unfold emitMappingStart
    rw [M.wp_bind]
    refine (wrt_processAnchor hA.anchor).at ha1 hE (fun _ s2 b2 hc2 ha2 => ?_)
    rw [M.wp_bind]
    refine (wrt_processTag (handles_out ht hA.tag)).at ha2 hE (fun _ s3 b3 hc3 ha3 => ?_)
    rw [M.wp_bind, M.wp_get]
    split
    · refine wp_setState ha3 (fun s4 ha4 hs4 => hQ s4 b3 _ rfl hAE ⟨_, _, ha4, ?_⟩)
      rw [hs4]; exact .mapFirst (Or.inl rfl) hR
    · refine wp_setState ha3 (fun s4 ha4 hs4 => hQ s4 b3 _ rfl hAE ⟨_, _, ha4, ?_⟩)
      rw [hs4]; exact .mapFirst (Or.inr rfl) hR
  | sequenceEnd =>
    refine hE2 (fun h => ?_) _ _ _ ha1.wr.broken
    rcases hnS with h' | h'
    · exact h' rfl
    · cases stk with
      | nil => simp [gstep] at h
      | cons c r => cases c <;> first | exact h' _ rfl | simp [gstep] at h
  | mappingEnd =>
    refine hE2 (fun h => ?_) _ _ _ ha1.wr.broken
    rcases hnM with h' | h'
    · exact h' rfl
    · cases stk with
      | nil => simp [gstep] at h
      | cons c r => cases c <;> first | exact h' _ rfl | simp [gstep] at h
  | streamStart _ => exact hE2 (fun h => by simp [gstep] at h) _ _ _ ha1.wr.broken
  | streamEnd => exact hE2 (fun h => by simp [gstep] at h) _ _ _ ha1.wr.broken
  | documentStart _ _ _ => exact hE2 (fun h => by simp [gstep] at h) _ _ _ ha1.wr.broken
  | documentEnd _ => exact hE2 (fun h => by simp [gstep] at h) _ _ _ ha1.wr.broken

theorem wrt_emitFlowSeparator (first : Bool) : Wrt e u fails (emitFlowSeparator first) :=
  (Wrt.when fun _ => wrt_writeIndicator (outStr_one (by decide) (by decide)) _ _ _).bind fun _ =>
    Wrt.get fun _ _ _ => Wrt.when fun _ => wrt_writeIndent

theorem wp_emitFlowEnd {first : Bool} {c : Char} {y : EmSt} {Q : Unit → EState → Ob → Prop} (h1 : 0x20 ≤ c.toNat) (h2 : c.toNat ≤ 0x7E)
    (ha : At e u (y :: st) (n + 1) td B s b) (hE : ∀ k s b, b.broken = true → E (.io k) s b)
    (hQ : ∀ s' b', At e u st n td B s' b' → s'.state = y → Q () s' b') :
    M.wp (stepE e u fails) P E (emitFlowEnd first c) Q s b := by
  unfold emitFlowEnd
  rw [M.wp_bind]
  refine wp_addFlowLevel ha (fun s1 ha1 => ?_)
  rw [M.wp_bind]
  refine wp_popIndent ha1 (fun s2 ha2 _ => ?_)
  rw [M.wp_bind, M.wp_get, M.wp_bind]
  refine (Wrt.when fun _ => (wrt_writeIndicator (outStr_one (by decide) (by decide)) _ _ _).bind fun _ =>
    wrt_writeIndent).at ha2 hE (fun _ s3 b3 _ ha3 => ?_)
  rw [M.wp_bind]
  refine (wrt_writeIndicator (outStr_one h1 h2) _ _ _).at ha3 hE (fun _ s4 b4 _ ha4 => ?_)
  exact wp_popState ha4 (fun s5 ha5 hs5 => hQ s5 b4 ha5 hs5)

/-- The opening of a flow collection. -/
theorem wp_flowOpen {first : Bool} {c : Char} {Q : Unit → EState → Ob → Prop} (h1 : 0x20 ≤ c.toNat) (h2 : c.toNat ≤ 0x7E)
    (ha : At e u st (if first then n else n + 1) td B s b) (hE : ∀ k s b, b.broken = true → E (.io k) s b)
    (hQ : ∀ s' b', At e u st (n + 1) td B s' b' → Q () s' b') :
    M.wp (stepE e u fails) P E (M.when first (do
      writeIndicator [c] true true false
      increaseIndent true false
      addFlowLevel 1)) Q s b := by
  cases first with
  | false =>
    rw [M.wp_when, if_neg (by simp)]
    exact hQ s b ha
  | true =>
    rw [M.wp_when, if_pos rfl, M.wp_bind]
    refine (wrt_writeIndicator (outStr_one h1 h2) _ _ _).at ha hE (fun _ s1 b1 _ ha1 => ?_)
    rw [M.wp_bind]
    exact wp_increaseIndent ha1 (fun s2 ha2 _ => wp_addFlowLevel ha2 (fun s3 ha3 => hQ s3 b1 ha3))

/-- What is known about the event being processed. -/
structure Ev (u : Bool) (B : EState) (tags : List TagDirective) (ev : Event) (a : Analysis) : Prop where
  handles : ∀ d ∈ tags, HandleOk d.handle
  ana : ∃ s0 : EState, s0.unicode = u ∧ AnaOk s0 tags ev.data a
  ok : AnaEvent B.canonical ev.data

/-- Failures are failures of the writer or of the event. -/
structure Fails (G : GSt) (B : EState) (ev : Event) (E : Err → EState → Ob → Prop) : Prop where
  io : ∀ k s b, b.broken = true → E (.io k) s b
  emitter : ¬ ((gstep G ev.data).isSome ∧ EventOk B.canonical ev.data) → ∀ m s b, b.broken = false → E (.emitter m) s b

/-- The event was accepted. -/
def Moves (e : Encoding) (u : Bool) (G : GSt) (td : List TagDirective) (B : EState) (ev : Event) (Q : Unit → EState → Ob → Prop) : Prop :=
  ∀ s' b' G', gstep G ev.data = some G' → EventOk B.canonical ev.data → Moved e u G' td B s' b' → Q () s' b'

variable {ev : Event} {a : Analysis} {tags : List TagDirective} {stk : List Coll} {Q : Unit → EState → Ob → Prop}

theorem wp_node {r q m k : Bool} (hev : Ev u B tags ev a) (ha : At e u st n td B s b) (hR : Ret stk st n)
    (hF : Fails (.inDoc stk) B ev E)
    (hnS : ev.data ≠ .sequenceEnd ∨ ∀ r, stk ≠ .seq :: r) (hnM : ev.data ≠ .mappingEnd ∨ ∀ r, stk ≠ .mapK :: r)
    (hQ : Moves e u (.inDoc stk) td B ev Q) : M.wp (stepE e u fails) P E (emitNode ev r q m k a) Q s b := by
  obtain ⟨s0, hs0, hA⟩ := hev.ana
  exact wp_emitNode hev.handles hA hs0 hev.ok ha hR hF.io hF.emitter hnS hnM hQ

theorem wp_emitFlowSequenceItem {first : Bool} (hev : Ev u B tags ev a)
    (ha : At e u st (if first then n else n + 1) td B s b) (hR : Ret stk st n)
    (hF : Fails (.inDoc (.seq :: stk)) B ev E) (hQ : Moves e u (.inDoc (.seq :: stk)) td B ev Q) :
    M.wp (stepE e u fails) P E (emitFlowSequenceItem ev first a) Q s b := by
  unfold emitFlowSequenceItem
  rw [M.wp_bind]
  refine wp_flowOpen (by decide) (by decide) ha hF.io (fun s1 b1 ha1 => ?_)
  by_cases hd : ev.data = .sequenceEnd
  · rw [hd]
    obtain ⟨y, st', rfl, hpop⟩ := hR.pop
    refine wp_emitFlowEnd (by decide) (by decide) ha1 hF.io (fun s2 b2 ha2 hs2 => ?_)
    refine hQ s2 b2 _ (by rw [hd]; rfl) (by rw [hd]; trivial) ⟨_, _, ha2, ?_⟩
    rw [hs2]; exact hpop
  · have : M.wp (stepE e u fails) P E (do emitFlowSeparator first; pushState .flowSequenceItem; emitNode ev false true false false a) Q s1 b1 := by
      rw [M.wp_bind]
      refine (wrt_emitFlowSeparator _).at ha1 hF.io (fun _ s2 b2 _ ha2 => ?_)
      rw [M.wp_bind]
      refine wp_pushState ha2 (fun s3 ha3 => ?_)
      exact wp_node hev ha3 (.seq (Or.inl rfl) hR) hF (Or.inl hd) (Or.inr (by simp)) hQ
    generalize hx : ev.data = d at hd
    cases d <;> first | exact absurd rfl hd | exact this

theorem wp_simpleKeyTest {step : Step EmitOp EmitAns Ob} {Q : Bool → EState → Ob → Prop} (hev : Ev u B tags ev a) (hQ : ∀ x, Q x s b) :
    M.wp step P E (simpleKeyTest ev a) Q s b := by
  unfold simpleKeyTest
  rw [M.wp_bind, M.wp_get]
  have : ∃ x, checkSimpleKey s ev a = some x := by
    obtain ⟨s0, hs0, hA⟩ := hev.ana
    obtain ⟨d, m1, m2⟩ := ev
    unfold checkSimpleKey
    simp only at *
    cases d with
    | scalar anchor tag value p q style =>
      rw [(hA.scalar _ _ _ _ _ _ rfl).1]
      exact ⟨_, rfl⟩
    | _ => exact ⟨_, rfl⟩
  obtain ⟨x, hx⟩ := this
  rw [hx]
  exact hQ x

theorem wp_emitFlowMappingKey {first : Bool} (hev : Ev u B tags ev a)
    (ha : At e u st (if first then n else n + 1) td B s b) (hR : Ret stk st n)
    (hF : Fails (.inDoc (.mapK :: stk)) B ev E) (hQ : Moves e u (.inDoc (.mapK :: stk)) td B ev Q) :
    M.wp (stepE e u fails) P E (emitFlowMappingKey ev first a) Q s b := by
  unfold emitFlowMappingKey
  rw [M.wp_bind]
  refine wp_flowOpen (by decide) (by decide) ha hF.io (fun s1 b1 ha1 => ?_)
  by_cases hd : ev.data = .mappingEnd
  · rw [hd]
    obtain ⟨y, st', rfl, hpop⟩ := hR.pop
    refine wp_emitFlowEnd (by decide) (by decide) ha1 hF.io (fun s2 b2 ha2 hs2 => ?_)
    refine hQ s2 b2 _ (by rw [hd]; rfl) (by rw [hd]; trivial) ⟨_, _, ha2, ?_⟩
    rw [hs2]; exact hpop
  · have : M.wp (stepE e u fails) P E (do
        emitFlowSeparator first
        let s ← M.get
        let simple ← if s.canonical then pure false else simpleKeyTest ev a
        if simple then do
          pushState .flowMappingSimpleValue
          emitNode ev false false true true a
        else do
          writeIndicator ['?'] true false false
          pushState .flowMappingValue
          emitNode ev false false true false a) Q s1 b1 := by
      rw [M.wp_bind]
      refine (wrt_emitFlowSeparator _).at ha1 hF.io (fun _ s2 b2 _ ha2 => ?_)
      rw [M.wp_bind, M.wp_get]
      have rest : ∀ simple : Bool, M.wp (stepE e u fails) P E (if simple then do
          pushState .flowMappingSimpleValue
          emitNode ev false false true true a
        else do
          writeIndicator ['?'] true false false
          pushState .flowMappingValue
          emitNode ev false false true false a) Q s2 b2 := by
        intro simple
        cases simple with
        | true =>
          rw [if_pos rfl, M.wp_bind]
          refine wp_pushState ha2 (fun s3 ha3 => ?_)
          exact wp_node hev ha3 (.mapK (Or.inl rfl) hR) hF (Or.inr (by simp)) (Or.inl hd) hQ
        | false =>
          rw [if_neg (by simp), M.wp_bind]
          refine (wrt_writeIndicator (outStr_one (by decide) (by decide)) _ _ _).at ha2 hF.io (fun _ s3 b3 _ ha3 => ?_)
          rw [M.wp_bind]
          refine wp_pushState ha3 (fun s4 ha4 => ?_)
          exact wp_node hev ha4 (.mapK (Or.inr (Or.inl rfl)) hR) hF (Or.inr (by simp)) (Or.inl hd) hQ
      simp only
      split
      · rw [M.wp_bind, M.wp_pure]; exact rest false
      · rw [M.wp_bind]; exact wp_simpleKeyTest hev rest
    generalize hx : ev.data = d at hd
    cases d <;> first | exact absurd rfl hd | exact this

theorem wp_emitFlowMappingValue {simple : Bool} (hev : Ev u B tags ev a)
    (ha : At e u st (n + 1) td B s b) (hR : Ret stk st n)
    (hF : Fails (.inDoc (.mapV :: stk)) B ev E) (hQ : Moves e u (.inDoc (.mapV :: stk)) td B ev Q) :
    M.wp (stepE e u fails) P E (emitFlowMappingValue ev simple a) Q s b := by
  unfold emitFlowMappingValue
  have rest : ∀ s1 b1, At e u st (n + 1) td B s1 b1 → M.wp (stepE e u fails) P E (do
      pushState .flowMappingKey
      emitNode ev false false true false a) Q s1 b1 := by
    intro s1 b1 ha1
    rw [M.wp_bind]
    refine wp_pushState ha1 (fun s2 ha2 => ?_)
    exact wp_node hev ha2 (.mapV (Or.inl rfl) hR) hF (Or.inr (by simp)) (Or.inr (by simp)) hQ
  simp only
  split
  · rw [M.wp_bind]
    exact (wrt_writeIndicator (outStr_one (by decide) (by decide)) _ _ _).at ha hF.io (fun _ s3 b3 _ ha3 => rest _ _ ha3)
  · rw [M.wp_bind, M.wp_get, M.wp_bind]
    refine (Wrt.when fun _ => wrt_writeIndent).at ha hF.io (fun _ s3 b3 _ ha3 => ?_)
    rw [M.wp_bind]
    exact (wrt_writeIndicator (outStr_one (by decide) (by decide)) _ _ _).at ha3 hF.io (fun _ s3 b3 _ ha3 => rest _ _ ha3)

/-- The opening of a block collection. -/
theorem wp_blockOpen {first x : Bool} {Q : Unit → EState → Ob → Prop} {step : Step EmitOp EmitAns Ob}
    (ha : At e u st (if first then n else n + 1) td B s b)
    (hQ : ∀ s', At e u st (n + 1) td B s' b → Q () s' b) :
    M.wp step P E (M.when first (increaseIndent false x)) Q s b := by
  cases first with
  | false =>
    rw [M.wp_when, if_neg (by simp)]
    exact hQ s ha
  | true =>
    rw [M.wp_when, if_pos rfl]
    exact wp_increaseIndent ha (fun s2 ha2 _ => hQ s2 ha2)

theorem wp_emitBlockSequenceItem {first : Bool} (hev : Ev u B tags ev a)
    (ha : At e u st (if first then n else n + 1) td B s b) (hR : Ret stk st n)
    (hF : Fails (.inDoc (.seq :: stk)) B ev E) (hQ : Moves e u (.inDoc (.seq :: stk)) td B ev Q) :
    M.wp (stepE e u fails) P E (emitBlockSequenceItem ev first a) Q s b := by
  unfold emitBlockSequenceItem
  rw [M.wp_bind, M.wp_get, M.wp_bind]
  refine wp_blockOpen ha (fun s1 ha1 => ?_)
  by_cases hd : ev.data = .sequenceEnd
  · rw [hd]
    obtain ⟨y, st', rfl, hpop⟩ := hR.pop
    simp only
    rw [M.wp_bind]
    refine wp_popIndent ha1 (fun s2 ha2 _ => wp_popState ha2 (fun s3 ha3 hs3 => ?_))
    refine hQ s3 b _ (by rw [hd]; rfl) (by rw [hd]; trivial) ⟨_, _, ha3, ?_⟩
    rw [hs3]; exact hpop
  · have : M.wp (stepE e u fails) P E (do
        writeIndent
        writeIndicator ['-'] true false true
        pushState .blockSequenceItem
        emitNode ev false true false false a) Q s1 b := by
      rw [M.wp_bind]
      refine wrt_writeIndent.at ha1 hF.io (fun _ s2 b2 _ ha2 => ?_)
      rw [M.wp_bind]
      refine (wrt_writeIndicator (outStr_one (by decide) (by decide)) _ _ _).at ha2 hF.io (fun _ s3 b3 _ ha3 => ?_)
      rw [M.wp_bind]
      refine wp_pushState ha3 (fun s4 ha4 => ?_)
      exact wp_node hev ha4 (.seq (Or.inr rfl) hR) hF (Or.inl hd) (Or.inr (by simp)) hQ
    generalize hx : ev.data = d at hd
    cases d <;> first | exact absurd rfl hd | exact this

theorem wp_emitBlockMappingKey {first : Bool} (hev : Ev u B tags ev a)
    (ha : At e u st (if first then n else n + 1) td B s b) (hR : Ret stk st n)
    (hF : Fails (.inDoc (.mapK :: stk)) B ev E) (hQ : Moves e u (.inDoc (.mapK :: stk)) td B ev Q) :
    M.wp (stepE e u fails) P E (emitBlockMappingKey ev first a) Q s b := by
  unfold emitBlockMappingKey
  rw [M.wp_bind]
  refine wp_blockOpen ha (fun s1 ha1 => ?_)
  by_cases hd : ev.data = .mappingEnd
  · rw [hd]
    obtain ⟨y, st', rfl, hpop⟩ := hR.pop
    simp only
    rw [M.wp_bind]
    refine wp_popIndent ha1 (fun s2 ha2 _ => wp_popState ha2 (fun s3 ha3 hs3 => ?_))
    refine hQ s3 b _ (by rw [hd]; rfl) (by rw [hd]; trivial) ⟨_, _, ha3, ?_⟩
    rw [hs3]; exact hpop
  · have : M.wp (stepE e u fails) P E (do
        writeIndent
        let simple ← simpleKeyTest ev a
        if simple then do
          pushState .blockMappingSimpleValue
          emitNode ev false false true true a
        else do
          writeIndicator ['?'] true false true
          pushState .blockMappingValue
          emitNode ev false false true false a) Q s1 b := by
      rw [M.wp_bind]
      refine wrt_writeIndent.at ha1 hF.io (fun _ s2 b2 _ ha2 => ?_)
      rw [M.wp_bind]
      refine wp_simpleKeyTest hev (fun simple => ?_)
      cases simple with
      | true =>
        rw [if_pos rfl, M.wp_bind]
        refine wp_pushState ha2 (fun s3 ha3 => ?_)
        exact wp_node hev ha3 (.mapK (Or.inr (Or.inr (Or.inl rfl))) hR) hF (Or.inr (by simp)) (Or.inl hd) hQ
      | false =>
        rw [if_neg (by simp), M.wp_bind]
        refine (wrt_writeIndicator (outStr_one (by decide) (by decide)) _ _ _).at ha2 hF.io (fun _ s3 b3 _ ha3 => ?_)
        rw [M.wp_bind]
        refine wp_pushState ha3 (fun s4 ha4 => ?_)
        exact wp_node hev ha4 (.mapK (Or.inr (Or.inr (Or.inr rfl))) hR) hF (Or.inr (by simp)) (Or.inl hd) hQ
    generalize hx : ev.data = d at hd
    cases d <;> first | exact absurd rfl hd | exact this

theorem wp_emitBlockMappingValue {simple : Bool} (hev : Ev u B tags ev a)
    (ha : At e u st (n + 1) td B s b) (hR : Ret stk st n)
    (hF : Fails (.inDoc (.mapV :: stk)) B ev E) (hQ : Moves e u (.inDoc (.mapV :: stk)) td B ev Q) :
    M.wp (stepE e u fails) P E (emitBlockMappingValue ev simple a) Q s b := by
  unfold emitBlockMappingValue
  have rest : ∀ s1 b1, At e u st (n + 1) td B s1 b1 → M.wp (stepE e u fails) P E (do
      pushState .blockMappingKey
      emitNode ev false false true false a) Q s1 b1 := by
    intro s1 b1 ha1
    rw [M.wp_bind]
    refine wp_pushState ha1 (fun s2 ha2 => ?_)
    exact wp_node hev ha2 (.mapV (Or.inr rfl) hR) hF (Or.inr (by simp)) (Or.inr (by simp)) hQ
  simp only
  split
  · rw [M.wp_bind]
    exact (wrt_writeIndicator (outStr_one (by decide) (by decide)) _ _ _).at ha hF.io (fun _ s3 b3 _ ha3 => rest _ _ ha3)
  · rw [M.wp_bind]
    refine wrt_writeIndent.at ha hF.io (fun _ s3 b3 _ ha3 => ?_)
    rw [M.wp_bind]
    exact (wrt_writeIndicator (outStr_one (by decide) (by decide)) _ _ _).at ha3 hF.io (fun _ s3 b3 _ ha3 => rest _ _ ha3)

theorem wp_emitDocumentContent (hev : Ev u B tags ev a) (ha : At e u [] 0 td B s b)
    (hF : Fails (.inDoc []) B ev E) (hQ : Moves e u (.inDoc []) td B ev Q) :
    M.wp (stepE e u fails) P E (emitDocumentContent ev a) Q s b := by
  unfold emitDocumentContent
  rw [M.wp_bind]
  refine wp_pushState ha (fun s1 ha1 => ?_)
  exact wp_node hev ha1 .doc hF (Or.inr (by simp)) (Or.inr (by simp)) hQ

end Yaml.Emitter
