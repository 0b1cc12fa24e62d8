import Verif.Lib.Round12

/-
Reading back: sequences and mappings in flow style.
-/

namespace Yaml.Rt
open Yaml Emitter Lx Spec
set_option linter.unusedSimpArgs false
set_option linter.unusedVariables false

/-- `emit_sequence_start` and `emit_mapping_start`. -/
def startNode (K1 K2 : EmSt) (style : CollStyle) (empty : EState → Bool) (a : Analysis) : Emit Unit := do
  processAnchor a.anchor
  processTag a.tag
  let s ← M.get
  if s.flowLevel != 0 || s.canonical || style == .flow || empty s then setState K1 else setState K2

/-- What `emit_node` does after noting the context. -/
def nodeBody (e : Event) (a : Analysis) : Emit Unit :=
  match e.data with
  | .alias _ => emitAlias a
  | .scalar _ _ _ p q style => emitScalar p q style a
  | .sequenceStart _ _ _ style => emitSequenceStart e style a
  | .mappingStart _ _ _ style => emitMappingStart e style a
  | _ => emitterError "expected SCALAR, SEQUENCE-START, MAPPING-START, or ALIAS"

/-- Sequences and mappings. -/
structure CollKind where
  fk : FlowKind
  bf : Event → Bool → Analysis → Emit Unit
  bd : TokenData
  bph : Phrase
  K1 : EmSt
  K2 : EmSt
  start : Option Str → Option Str → Bool → CollStyle → EventData
  empty : EState → Event → Bool
  isStart : ∀ an tg im sty, (∃ a b c d, start an tg im sty = .sequenceStart a b c d) ∨ (∃ a b c d, start an tg im sty = .mappingStart a b c d)
  body : ∀ e a an tg im sty, e.data = start an tg im sty → nodeBody e a = startNode K1 K2 sty (fun s => empty s e) a
  isEmpty : ∀ s e an tg im sty, e.data = start an tg im sty → (empty s e = true ↔ s.events.head?.map (·.data) = some fk.fin)
  simple : ∀ s e a an tg im sty, e.data = start an tg im sty → checkSimpleKey s e a = some (empty s e && decide (propsLen a.anchor a.tag ≤ 128))
  machine1 : ∀ e a s, s.state = K1 → stateMachine e a s = fk.f e true a s
  machine2 : ∀ e a s, s.state = K2 → stateMachine e a s = bf e true a s
  seen : ∀ P an tg im sty a, Seen P (start an tg im sty) a → PropsSeen P a an (writtenTag P.canon (start an tg im sty))
  same : ∀ c an tg im sty tag sty', tag = writtenTag c (start an tg im sty) → tag ≠ some [] → SameEvent c (start an tg im sty) (start an tag (untagged tag) sty')
  sameFin : ∀ c, SameEvent c fk.fin fk.fin
  derFlow : ∀ D b i ps ts an tag es, IsProps D ps an tag → Derives false D fk.ph ts es →
    Derives false D (.node b i) (ps ++ fk.d0 :: (ts ++ [fk.d])) (start an tag (untagged tag) .flow :: (es ++ [fk.fin]))
  derBlock : ∀ D i ps ts an tag es, IsProps D ps an tag → Derives false D bph ts es →
    Derives false D (.node true i) (ps ++ bd :: (ts ++ [.blockEnd])) (start an tag (untagged tag) .block :: (es ++ [fk.fin]))

theorem untagged_isNone {tag : Option Str} (h : tag ≠ some []) : untagged tag = tag.isNone := by
  unfold untagged
  cases tag with
  | none => rfl
  | some t =>
    have : t ≠ [] := fun h' => h (by rw [h'])
    simp [this]

def seqColl : CollKind where
  fk := seqKind
  bf := emitBlockSequenceItem
  bd := .blockSequenceStart
  bph := .items
  K1 := .flowSequenceFirstItem
  K2 := .blockSequenceFirstItem
  start := .sequenceStart
  empty := checkEmptySequence
  isStart := fun an tg im sty => Or.inl ⟨_, _, _, _, rfl⟩
  body := by
    intro e a an tg im sty h
    unfold nodeBody; rw [h]; rfl
  isEmpty := by
    intro s e an tg im sty h
    unfold checkEmptySequence
    rw [h]
    cases s.events with
    | nil => simp
    | cons x xs => simp [seqKind]
  simple := by
    intro s e a an tg im sty h
    unfold checkSimpleKey
    rw [h]; rfl
  machine1 := by intro e a s h; cases s; cases h; rfl
  machine2 := by intro e a s h; cases s; cases h; rfl
  seen := fun P an tg im sty a h => h
  same := by
    intro c an tg im sty tag sty' h hne
    exact ⟨rfl, h, untagged_isNone hne⟩
  sameFin := fun c => trivial
  derFlow := fun D b i ps ts an tag es h h' => .flowSeq h h'
  derBlock := fun D i ps ts an tag es h h' => .blockSeq h h'

def mapColl : CollKind where
  fk := mapKind
  bf := emitBlockMappingKey
  bd := .blockMappingStart
  bph := .entries
  K1 := .flowMappingFirstKey
  K2 := .blockMappingFirstKey
  start := .mappingStart
  empty := checkEmptyMapping
  isStart := fun an tg im sty => Or.inr ⟨_, _, _, _, rfl⟩
  body := by
    intro e a an tg im sty h
    unfold nodeBody; rw [h]; rfl
  isEmpty := by
    intro s e an tg im sty h
    unfold checkEmptyMapping
    rw [h]
    cases s.events with
    | nil => simp
    | cons x xs => simp [mapKind]
  simple := by
    intro s e a an tg im sty h
    unfold checkSimpleKey
    rw [h]; rfl
  machine1 := by intro e a s h; cases s; cases h; rfl
  machine2 := by intro e a s h; cases s; cases h; rfl
  seen := fun P an tg im sty a h => h
  same := by
    intro c an tg im sty tag sty' h hne
    exact ⟨rfl, h, untagged_isNone hne⟩
  sameFin := fun c => trivial
  derFlow := fun D b i ps ts an tag es h h' => .flowMap h h'
  derBlock := fun D i ps ts an tag es h h' => .blockMap h h'

/-- The properties, and the choice of style. -/
theorem writes_startNode (P : Par) (F fl : Nat) (n : Int) (K1 K2 : EmSt) (sty : CollStyle) (empty : EState → Bool) {an tag : Option Str} {a : Analysis} (hs : PropsSeen P a an tag) (s : EState)
    (hemp : ∀ s', s'.events = s.events → empty s' = empty s) :
    ∃ s2 wp ps, Writes (startNode K1 K2 sty empty a) s () { s2 with state := if s.flowLevel != 0 || s.canonical || sty == .flow || empty s then K1 else K2 } wp ∧
      Wrote s wp s2 ∧ PropText s ps wp (3 * propsLen a.anchor a.tag + 5) ∧ sep s2 = gapAfter s ps ∧ (ps = [] → s2 = s ∧ wp = []) ∧
      (ps ≠ [] → s2.whitespace = false ∧ s2.indention = false) ∧ IsProps P.tags ps an tag ∧ ∀ rest, EndsTag rest → Atoms F fl n ps wp rest := by
  obtain ⟨s1, s2, w1, w2, ps, h1, h2, h3, h4, h5, h6, h7, h8, h9⟩ := writes_propText P F fl n an a.tag tag s hs.names hs.no hs.yes
  rw [← hs.name] at h1 h4
  refine ⟨s2, w1 ++ w2, ps, ?_, h3, h4, h5, h6, h7, h8, h9⟩
  unfold startNode
  refine h1.bind (f := fun _ => do
    processTag a.tag
    let s ← M.get
    if s.flowLevel != 0 || s.canonical || sty == .flow || empty s then setState K1 else setState K2) ?_
  refine (h2.bind (w' := []) (f := fun _ => do
    let s ← M.get
    if s.flowLevel != 0 || s.canonical || sty == .flow || empty s then setState K1 else setState K2) ?_).cast rfl (by simp)
  refine Writes.bind_get ?_
  have e1 : s2.flowLevel = s.flowLevel := by rw [h3.frame]
  have e2 : s2.canonical = s.canonical := by rw [h3.frame]
  have e3 : empty s2 = empty s := hemp s2 (by rw [h3.frame])
  rw [show (s2.flowLevel != 0 || s2.canonical || sty == .flow || empty s2) = (s.flowLevel != 0 || s.canonical || sty == .flow || empty s) by rw [e1, e2, e3]]
  generalize (s.flowLevel != 0 || s.canonical || sty == .flow || empty s) = b
  cases b
  · exact Writes.modify _ _
  · exact Writes.modify _ _

theorem run_node {P : Par} {s s' : EState} {e : Event} {q : List Event} {a : Analysis} {w : Str} {root sq mp key : Bool} (ha : Ana P e a)
    (h : Writes (nodeBody e a) (ctx s q root sq mp key) () s' w) {es : Evs} {s2 : EState} {w2 : Str}
    (ht : Kept P s') (hp : Puts P s' es s2 w2) : Run P (fun e a => emitNode e root sq mp key a) s ((e, q) :: es) s2 (w ++ w2) := run_one ha h ht hp

/-- The hypotheses on a collection: its start, what lies between, its end. -/
structure IsColl (P : Par) (k : CollKind) (e : Event) (q : List Event) (ns : Evs) (f1 : Event) (an tg : Option Str) (im : Bool) (sty : CollStyle) : Prop where
  start : e.data = k.start an tg im sty
  good : NodeGood P e.data
  fin : f1.data = k.fk.fin
  peek : q.head?.map (·.data) = some k.fk.fin ↔ ns = []

section
variable {P : Par} {F : Nat} {k : CollKind} {e f1 : Event} {q q1 : List Event} {ns : Evs} {an tg : Option Str} {im : Bool} {sty : CollStyle}

theorem IsColl.seen (hD : DirsOk P.tags) (h : IsColl P k e q ns f1 an tg im sty) : ∃ a, Ana P e a ∧ PropsSeen P a an (writtenTag P.canon (k.start an tg im sty)) := by
  obtain ⟨a, ha, hs⟩ := analysed hD h.good (by
    rcases k.isStart an tg im sty with h' | h'
    · rw [h.start]; exact Or.inr (Or.inr (Or.inl h'))
    · rw [h.start]; exact Or.inr (Or.inr (Or.inr (Or.inl h'))))
  rw [h.start] at hs
  exact ⟨a, ha, k.seen _ _ _ _ _ _ hs⟩

theorem IsColl.empty (h : IsColl P k e q ns f1 an tg im sty) {s : EState} (hs : s.events = q) : k.empty s e = true ↔ ns = [] := by
  rw [k.isEmpty s e an tg im sty h.start, hs]; exact h.peek

theorem IsColl.empty_congr (h : IsColl P k e q ns f1 an tg im sty) {s s' : EState} (hs : s'.events = s.events) : k.empty s' e = k.empty s e := by
  have h1 := k.isEmpty s e an tg im sty h.start
  have h2 := k.isEmpty s' e an tg im sty h.start
  rw [hs, ← h1] at h2
  cases h3 : k.empty s e <;> cases h4 : k.empty s' e <;> simp_all

/-- Whether a collection in block context is written in flow style. -/
def inFlow (P : Par) (sty : CollStyle) (ns : Evs) : Bool := P.canon || sty == .flow || ns.isEmpty

theorem IsColl.inFlow (h : IsColl P k e q ns f1 an tg im sty) {s : EState} (hs : s.events = q) (hc : s.canonical = P.canon) (hf : s.flowLevel = 0) :
    (s.flowLevel != 0 || s.canonical || sty == .flow || k.empty s e) = Rt.inFlow P sty ns := by
  have := h.empty hs
  unfold Rt.inFlow
  rw [hc, hf]
  have e : k.empty s e = ns.isEmpty := by
    cases hk : k.empty s e with
    | true => rw [this.1 hk]; rfl
    | false =>
      cases hn : ns with
      | nil => rw [this.2 hn] at hk; cases hk
      | cons => rfl
  rw [e]; rfl

/-- The start of a collection. -/
theorem IsColl.begins (hD : DirsOk P.tags) (h : IsColl P k e q ns f1 an tg im sty) (F fl : Nat) (n : Int) (s : EState) (root sq mp key : Bool) :
    ∃ a s2 wp ps, Ana P e a ∧
      Writes (nodeBody e a) (ctx s q root sq mp key) () { s2 with state := if s.flowLevel != 0 || s.canonical || sty == .flow || k.empty (ctx s q root sq mp key) e then k.K1 else k.K2 } wp ∧
      Wrote (ctx s q root sq mp key) wp s2 ∧ PropText s ps wp (3 * propsLen a.anchor a.tag + 5) ∧ sep s2 = gapAfter s ps ∧ (ps = [] → s2 = ctx s q root sq mp key ∧ wp = []) ∧
      (ps ≠ [] → s2.whitespace = false ∧ s2.indention = false) ∧ IsProps P.tags ps an (writtenTag P.canon (k.start an tg im sty)) ∧
      (∀ rest, EndsTag rest → Atoms F fl n ps wp rest) ∧ writtenTag P.canon (k.start an tg im sty) ≠ some [] := by
  obtain ⟨a, ha, hs⟩ := h.seen hD
  obtain ⟨s2, wp, ps, h1, h2, h3, h4, h5, h6, h7, h8⟩ := writes_startNode P F fl n k.K1 k.K2 sty (fun s => k.empty s e) hs (ctx s q root sq mp key) (fun s' hs' => h.empty_congr hs')
  rw [← k.body e a an tg im sty h.start] at h1
  exact ⟨a, s2, wp, ps, ha, h1, h2, h3, h4, h5, h6, h7, h8, hs.ne⟩

theorem IsColl.same (h : IsColl P k e q ns f1 an tg im sty) (hne : writtenTag P.canon (k.start an tg im sty) ≠ some []) {evs : List EventData}
    (hev : SameEvents P.canon (datas ns) evs) (sty' : CollStyle) :
    SameEvents P.canon (datas ((e, q) :: (ns ++ [(f1, q1)])))
      (k.start an (writtenTag P.canon (k.start an tg im sty)) (untagged (writtenTag P.canon (k.start an tg im sty))) sty' :: (evs ++ [k.fk.fin])) := by
  have e1 : datas ((e, q) :: (ns ++ [(f1, q1)])) = e.data :: (datas ns ++ [f1.data]) := by simp [datas]
  rw [e1, h.start, h.fin]
  exact ⟨k.same _ _ _ _ _ _ _ rfl hne, sameEvents_append hev (sameEvents_one (k.sameFin _))⟩

/-- In flow context. -/
theorem coll_F (hD : DirsOk P.tags) (h : IsColl P k e q ns f1 an tg im sty) (hc : ClaimColl P F k.fk.f k.fk.fin k.fk.d0 k.fk.d k.fk.ph ns) :
    ClaimF P F ((e, q) :: (ns ++ [(f1, q1)])) := by
  intro s fl n sq mp st sts hE hfl hf0 hst
  obtain ⟨a, s2, wp, ps, ha, h1, h2, h3, h4, h5, h6, h7, h8, hne⟩ := h.begins hD F fl n s false sq mp false
  rw [if_pos (by rw [hfl]; simp; left; left; left; omega)] at h1
  have hc2 : core { s2 with state := k.K1 } = core s := (core_wrote h2).trans rfl
  obtain ⟨s', w, c1, c2, c3, c4, c5, c6, _, c7⟩ := hc { s2 with state := k.K1 } fl n st sts f1 q1 h.fin (hE.core hc2) ((core_flowLevel hc2).trans hfl)
    (by show s2.states = _; rw [h2.frame]; exact hst)
  have hsep : sep { s2 with state := k.K1 } = gapAfter s ps := h4
  rw [hsep] at c1 c7
  refine ⟨s', wp ++ (gapAfter s ps ++ w), run_node ha h1 (hE.kept hc2) (c1.puts (fun e a q => k.machine1 e a _ rfl)), c2.trans hc2, c3, c4, c5, c6, ?_⟩
  intro rest hrest
  refine ⟨?_, ?_⟩
  · intro hw
    by_cases hps : ps = []
    · rw [(h5 hps).2, List.nil_append, List.append_assoc]; exact gap_endsTag (Or.inr hw) _
    · rw [List.append_assoc]; exact prop_endsTag h3 hps hw _
  · intro A hA hAf hAi hsy
    rw [List.append_assoc, List.append_assoc]
    obtain ⟨B, b1, b2, b3, b4, b5, b6, b7⟩ := props_read h3 h8 (T := gapAfter s ps ++ (w ++ rest)) (fun hps => gap_endsTag (Or.inl hps) _) hA hAf hAi (fun h => by omega)
    obtain ⟨C, ts, evs, d1, d2, d3, d4, d5, d6, d7⟩ := c7 rest B (b2.flow.trans hAf) b2.cool (b2.indent.trans hAi) b7 (by
      have : ((B.mark.column : Nat) : Int) = s2.column := by rw [b5, colAfter_advance, hsy, h2.col]; rfl
      exact this)
    refine ⟨C, ps ++ k.fk.d0 :: (ts ++ [k.fk.d]), _, b1.trans d1, b2.trans d2, ?_, d5, k.derFlow _ _ _ _ _ _ _ _ h7 d6, h.same hne d7 .flow⟩
    intro hal
    have hB : B.allowed = false := by
      by_cases hps : ps = []
      · rw [b4 hps]; exact hal
      · exact b3 hps
    exact (d3 hB).trans (b6 hal)

/-- In block context, written in flow style. -/
theorem coll_B_flow (hD : DirsOk P.tags) (h : IsColl P k e q ns f1 an tg im sty) (hc : ClaimColl P F k.fk.f k.fk.fin k.fk.d0 k.fk.d k.fk.ph ns)
    (hin : inFlow P sty ns = true) : ClaimB P F ((e, q) :: (ns ++ [(f1, q1)])) := by
  intro s root sq mp st sts hE hfl hR hst
  obtain ⟨a, s2, wp, ps, ha, h1, h2, h3, h4, h5, h6, h7, h8, hne⟩ := h.begins hD F 0 s.indent s root sq mp false
  have hif : (s.flowLevel != 0 || s.canonical || sty == .flow || k.empty (ctx s q root sq mp false) e) = true :=
    (h.inFlow (s := ctx s q root sq mp false) rfl hE.canon hfl).trans hin
  rw [hif, if_pos rfl] at h1
  have hc2 : core { s2 with state := k.K1 } = core s := (core_wrote h2).trans rfl
  obtain ⟨s', w, c1, c2, c3, c4, c5, c6, c0, c7⟩ := hc { s2 with state := k.K1 } 0 s.indent st sts f1 q1 h.fin (hE.core hc2) ((core_flowLevel hc2).trans hfl)
    (by show s2.states = _; rw [h2.frame]; exact hst)
  have hsep : sep { s2 with state := k.K1 } = gapAfter s ps := h4
  rw [hsep] at c1 c7
  refine ⟨s', wp ++ (gapAfter s ps ++ w), run_node ha h1 (hE.kept hc2) (c1.puts (fun e a q => k.machine1 e a _ rfl)), c2.trans hc2, c3, c4,
    (show Exit s' from fun h => by rw [c6] at h; cases h), ?_, ?_⟩
  · intro rest _ _ hws
    rw [List.append_assoc, List.append_assoc]
    refine prop_noSplit h3 hws _ _ fun hps => ?_
    rw [gap_nil hws hps, List.nil_append]
    refine noSplit_of ?_
    obtain ⟨c, r, rfl, hc⟩ := c0
    simpa using hc
  intro rest hrest
  refine ⟨?_, ?_⟩
  · intro hw
    by_cases hps : ps = []
    · rw [(h5 hps).2, List.nil_append, List.append_assoc]; exact gap_endsTag (Or.inr hw) _
    · rw [List.append_assoc]; exact prop_endsTag h3 hps hw _
  · intro A hA
    rw [List.append_assoc, List.append_assoc]
    obtain ⟨B, b1, b2, b3, b4, b5, b6, b7⟩ := props_read h3 h8 (T := gapAfter s ps ++ (w ++ rest)) (fun hps => gap_endsTag (Or.inl hps) _) hA.cool hA.flow hA.ind (fun _ => hA.after)
    obtain ⟨C, ts, evs, d1, d2, d3, d4, d5, d6, d7⟩ := c7 rest B (b2.flow.trans hA.flow) b2.cool (b2.indent.trans hA.ind) b7 (by
      have : ((B.mark.column : Nat) : Int) = s2.column := by rw [b5, colAfter_advance, hA.sync, h2.col]; rfl
      exact this)
    exact ⟨C, ps ++ k.fk.d0 :: (ts ++ [k.fk.d]), _, b1.trans d1, b2.trans d2, ⟨d5, fun h => by rw [c6] at h; cases h⟩, Or.inl (k.derFlow _ _ _ _ _ _ _ _ h7 d6), h.same hne d7 .flow⟩

/-- Writing an empty collection. -/
theorem writes_emptyColl (hD : DirsOk P.tags) {k : FlowKind} (hf1 : f1.data = k.fin) {s : EState} {fl : Nat} {st : EmSt} {sts : List EmSt} (hE : Env P s)
    (hfl : s.flowLevel = fl) (hst : s.states = st :: sts) :
    ∃ s', Run P (fun e a => k.f e true a) s [(f1, q1)] s' (sep s ++ [k.c0, k.c]) ∧ core s' = core s ∧ s'.state = st ∧ s'.states = sts ∧
      s'.column = colAfter s.column (sep s ++ [k.c0, k.c]) := by
  obtain ⟨a, ha⟩ := ana_end (P := P) hD (e := f1) (by rw [hf1]; exact k.isFin)
  obtain ⟨s1, o1, o2, o3, o4, o5, o6⟩ := writes_openFlow k.c0_flat { s with events := q1 }
  obtain ⟨i1, i2, i3, i4⟩ := core_inside (s := s) (s1 := s1) hE hfl (o2.trans rfl)
  obtain ⟨s', g, h1, h2, h3, h4, h5, h6, h7, h8⟩ := writes_flowEnd true k.c_flat (s := s1) i1.brk i4 (o5.trans hst)
  have hif : (if (s1.canonical && !true) = true then ',' :: g else []) = ([] : Str) := by simp
  rw [hif, List.nil_append] at h1 h5
  have hcs : core s' = core s := by
    refine core_outside (s1 := s1) hfl (o2.trans rfl) (h2.trans ?_)
    have e : s1.flowLevel - 1 = (fl : Int) := by rw [i2]; omega
    rw [e]
  have hsep : sep { s with events := q1 } = sep s := rfl
  rw [hsep] at o1 o3
  have hfw : Writes (k.f f1 true a) { s with events := q1 } () s' ((sep s ++ [k.c0]) ++ [k.c]) := by
    rw [k.fend f1 true a hf1]
    exact Writes.bind (a := ()) (Writes.when_true rfl o1) h1
  refine ⟨s', ⟨f1, q1, [], a, s', _, [], rfl, ha, hfw, hE.kept hcs, .nil s', by simp⟩, hcs, h3, h4, ?_⟩
  rw [h5, o3, ← colAfter_append]; simp

theorem FlowKind.pair (k : CollKind) (hk : k = seqColl ∨ k = mapColl) :
    (k.fk.c0 = '[' ∧ k.fk.d0 = .flowSequenceStart ∧ k.fk.c = ']' ∧ k.fk.d = .flowSequenceEnd) ∨
    (k.fk.c0 = '{' ∧ k.fk.d0 = .flowMappingStart ∧ k.fk.c = '}' ∧ k.fk.d = .flowMappingEnd) := by
  rcases hk with rfl | rfl
  · exact Or.inl ⟨rfl, rfl, rfl, rfl⟩
  · exact Or.inr ⟨rfl, rfl, rfl, rfl⟩

/-- As a simple key. -/
theorem coll_S (hD : DirsOk P.tags) (hk : k = seqColl ∨ k = mapColl) (h : IsColl P k e q ns f1 an tg im sty) : ClaimS P F ((e, q) :: (ns ++ [(f1, q1)])) := by
  intro s fl n st sts e0 q0 es0 a heq ha hchk hE hfl hn hst
  simp only [List.cons.injEq, Prod.mk.injEq] at heq
  obtain ⟨⟨rfl, rfl⟩, rfl⟩ := heq
  rw [k.simple _ _ _ an tg im sty h.start] at hchk
  simp only [Option.some.injEq, Bool.and_eq_true, decide_eq_true_eq] at hchk
  have hns : ns = [] := (h.empty rfl).1 hchk.1
  subst hns
  obtain ⟨a', s2, wp, ps, ha', h1, h2, h3, h4, h5, h6, h7, h8, hne⟩ := h.begins hD F fl n s false false true true
  obtain rfl := ana_unique ha ha'
  rw [if_pos (by rw [(h.empty (s := ctx s q false false true true) rfl).2 rfl]; simp)] at h1
  have hc2 : core { s2 with state := k.K1 } = core s := (core_wrote h2).trans rfl
  obtain ⟨s', c1, c2, c3, c4, c5⟩ := writes_emptyColl (q1 := q1) hD h.fin (hE.core hc2) ((core_flowLevel hc2).trans hfl)
    (show ({ s2 with state := k.K1 } : EState).states = st :: sts by show s2.states = _; rw [h2.frame]; exact hst)
  have hsep : sep { s2 with state := k.K1 } = gapAfter s ps := h4
  rw [hsep] at c1 c5
  have hrun := run_node (s := s) (root := false) (sq := false) (mp := true) (key := true) ha h1 (hE.kept hc2) (c1.puts (fun e a q => k.machine1 e a _ rfl))
  have hcol : s'.column = colAfter s.column (wp ++ (gapAfter s ps ++ [k.fk.c0, k.fk.c])) := by
    rw [c5]
    show colAfter s2.column _ = _
    rw [h2.col, ← colAfter_append]; rfl
  have hsame := h.same (q1 := q1) hne (evs := []) trivial .flow
  have hcf : ∀ c ∈ [k.fk.c0, k.fk.c], isBreak c = false := by
    intro c hc; simp at hc
    rcases hc with rfl | rfl
    · exact k.fk.c0_flat
    · exact k.fk.c_flat
  have hlen2 : strLen [k.fk.c0, k.fk.c] = 2 := by
    rcases FlowKind.pair k hk with ⟨x, _, y, _⟩ | ⟨x, _, y, _⟩ <;> rw [x, y] <;> decide
  have hc0 : k.fk.c0 ≠ ' ' := by rcases FlowKind.pair k hk with ⟨x, _, y, _⟩ | ⟨x, _, y, _⟩ <;> rw [x] <;> decide
  rcases h3 with ⟨k1, k2⟩ | ⟨w0, k1, k2, k3, k4, k5, k6⟩
  · subst k1 k2
    have hg : gapAfter s [] = sep s := rfl
    rw [hg, List.nil_append] at hrun hcol
    refine ⟨s', [k.fk.c0, k.fk.c], [], by simpa using hrun, c2.trans hc2, c3, c4, by simpa using hcol, by simp, by simp, by simpa using hc0, hcf,
      by rw [hlen2]; simp [strLen], ?_⟩
    intro r hz
    refine ⟨by rcases FlowKind.pair k hk with ⟨x, _, y, _⟩ | ⟨x, _, y, _⟩ <;> rw [x] <;> exact starts_cons (by decide) (by decide) (by decide) (by decide) (by decide), ?_⟩
    intro A hA hAf hAi hal hc
    obtain ⟨B, b1, b2, b3, b4⟩ := pair_first (F := F) (t := ':' :: r) (FlowKind.pair k hk) hA hal (sep_spaces s) hc
    exact ⟨B, [k.fk.d0, k.fk.d], _, by simpa using b1, b2, b4, fun b i => k.derFlow _ b i [] [] _ _ _ h7 (k.fk.derNone _), hsame⟩
  · have hg : gapAfter s ps = [' '] := by unfold gapAfter; rw [if_neg (by simpa using k6)]
    rw [hg] at hrun hcol
    have htext : wp ++ ([' '] ++ [k.fk.c0, k.fk.c]) = sep s ++ ((w0 ++ ' ' :: [k.fk.c0, k.fk.c]) ++ []) := by rw [k1]; simp
    rw [htext] at hrun hcol
    refine ⟨s', w0 ++ ' ' :: [k.fk.c0, k.fk.c], [], hrun, c2.trans hc2, c3, c4, hcol, by simp, by simp, ?_, ?_, ?_, ?_⟩
    · cases w0 with
      | nil => exact absurd rfl k2
      | cons => simpa using k3
    · intro c hc
      rcases List.mem_append.1 hc with hc | hc
      · exact k4 c hc
      · rcases List.mem_cons.1 hc with rfl | hc
        · decide
        · exact hcf c hc
    · rw [strLen_append, strLen_cons, hlen2]
      have : lenUtf8 ' ' = 1 := by decide
      have : strLen ([] : Str) = 0 := rfl
      omega
    · intro r hz
      have hat : Atoms F fl n ps (sep s ++ w0) (' ' :: k.fk.c0 :: k.fk.c :: ':' :: r) := by rw [← k1]; exact h8 _ (endsTag_space _)
      obtain ⟨d, ds, rfl⟩ : ∃ d ds, ps = d :: ds := by
        cases ps with
        | nil => exact absurd rfl k6
        | cons d ds => exact ⟨d, ds, rfl⟩
      refine ⟨by have := hat.head k4 (sep_spaces s) k3; simpa using this, ?_⟩
      intro A hA hAf hAi hal hc
      obtain ⟨B, b1, b2, b3, b4⟩ := hat.warm k4 (sep_spaces s) k3 hA hAf hAi hal (by omega) hc
      have f1 := advance_flat (Spec.advance A.mark (sep s)) w0 k4
      have f2 := advance_flat B.mark [' '] (by simp; decide)
      rw [← b4] at f1
      obtain ⟨C, e1, e2, e3, e4⟩ := pair_next (F := F) (g := [' ']) (t := ':' :: r) (FlowKind.pair k hk) b2 b3 (by simp)
        (by show _ ≤ (Spec.advance A.mark (sep s)).index + 1024
            have h3 := f1.2.2
            have h4 := f2.2.2
            have : strLen [' '] = 1 := by decide
            omega) (by
          intro hf
          have := hc hf
          rw [f2.2.1, f1.2.1]; omega)
      refine ⟨C, (d :: ds) ++ [k.fk.d0, k.fk.d], _, ?_, e2, ?_, fun b i => k.derFlow _ b i _ [] _ _ _ h7 (k.fk.derNone _), hsame⟩
      · have := b1.trans e1; simpa using this
      · rw [e4, b4, ← advance_append _ [' '] _ (by simp), ← advance_append _ w0 _ (by simp)]; rfl
end

end Yaml.Rt
