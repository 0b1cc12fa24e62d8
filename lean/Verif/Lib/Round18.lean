import Verif.Lib.Round17

/-
Reading back, emitter side: the beginnings and ends of documents and of the stream.
-/

namespace Yaml.Rt
open Yaml Emitter Lx Spec
set_option linter.unusedSimpArgs false
set_option linter.unusedVariables false

theorem Bol.wrote {s s' : EState} (h : Bol s) (h' : core s' = core s) (hp : s'.column = 0 ∧ s'.whitespace = true ∧ s'.indention = true) : Bol s' :=
  ⟨by rw [core_lineBreak h']; exact h.brk, by rw [core_indent h']; exact h.indent, hp.1, hp.2.1, hp.2.2⟩

/-- The line `...`. -/
theorem writes_dots {s : EState} (h : Bol s) : ∃ s', Writes (do writeIndicator (cs! "...") true false false; writeIndent) s () s' (cs! "..." ++ breakChars s.lineBreak) ∧
    Wrote s (cs! "..." ++ breakChars s.lineBreak) s' ∧ Bol s' := by
  obtain ⟨s1, a1, a2, a3, a4⟩ := writes_indicator (cs! "...") false false s (by decide)
  rw [sep_eq h.ws, List.nil_append] at a1 a2
  exact writes_lineOf h a1 a2 (by rw [a4]; simp)

/-- The text before the root node: `---`, in canonical mode on a line of its own, or nothing. -/
def openText (canon imp : Bool) (lb : Break) : Str := if imp then [] else cs! "---" ++ if canon then breakChars lb else []

/-- `---`. -/
theorem writes_dashes (imp : Bool) {s : EState} (h : Bol s) : ∃ s', Writes (M.when (!imp) (do
      writeIndent
      writeIndicator (cs! "---") true false false
      M.when s.canonical writeIndent)) s () s' (openText s.canonical imp s.lineBreak) ∧ Wrote s (openText s.canonical imp s.lineBreak) s' ∧
      ((imp = true ∨ s.canonical = true) → Bol s') ∧ (imp = false → s.canonical = false → s'.whitespace = false ∧ s'.indention = false) := by
  cases imp with
  | true => exact ⟨s, Writes.when_false rfl, Wrote.refl s, fun _ => h, fun h => by cases h⟩
  | false =>
    obtain ⟨s1, a1, a2, a3, a4⟩ := writes_indicator (cs! "---") false false s (by decide)
    rw [sep_eq h.ws, List.nil_append] at a1 a2
    cases hc : s.canonical with
    | false =>
      refine ⟨s1, ?_, by simpa [openText] using a2, fun h => by simp at h, fun _ _ => ⟨a3, by rw [a4]; simp⟩⟩
      refine Writes.when_true rfl ((h.stay).bind0 ((a1.bind (Writes.when_false rfl)).cast rfl (by simp [openText])))
    | true =>
      obtain ⟨s2, k1, k2, k3⟩ := writes_lineOf h a1 a2 (by rw [a4]; simp)
      refine ⟨s2, ?_, by simpa [openText] using k2, fun _ => k3, fun _ h => by cases h⟩
      refine Writes.when_true rfl ((h.stay).bind0 ?_)
      have : (M.when true writeIndent : Emit Unit) = writeIndent := rfl
      rw [this]
      exact k1.cast rfl (by simp [openText])

/-- The text of the beginning of a document. -/
def startText (canon imp : Bool) (lb : Break) (dots : Bool) (v : Option VersionDirective) (tags : List TagDirective) : Str :=
  (if dots then cs! "..." ++ breakChars lb else []) ++ (dirText lb v tags ++ openText canon imp lb)

/-- May the document begin without `---`? -/
def impStart (canon first im : Bool) (v : Option VersionDirective) (tags : List TagDirective) : Bool := im && first && !canon && v.isNone && tags.isEmpty

/-- Does `...` come before the directives? -/
def dotsFirst (oe : Int) (v : Option VersionDirective) (tags : List TagDirective) : Bool := (v.isSome || !tags.isEmpty) && oe != 0

theorem writes_emitDocumentStart (first : Bool) {s : EState} (h : Bol s) (ht : s.tagDirectives = []) {e : Event} {v : Option VersionDirective} {tags : List TagDirective} {im : Bool}
    {c : Bool} (he : e.data = .documentStart v tags im) (hok : EventOk c e.data) :
    ∃ s' w, Writes (emitDocumentStart e first) s () s' w ∧ core s' = core { s with tagDirectives := Props.emitterDirectives tags } ∧ s'.state = .documentContent ∧
      s'.states = s.states ∧ s'.openEnded = 0 ∧ w = startText s.canonical (impStart s.canonical first im v tags) s.lineBreak (dotsFirst s.openEnded v tags) v tags ∧
      s'.column = colAfter s.column w ∧
      ((impStart s.canonical first im v tags = true ∨ s.canonical = true) → Bol s') ∧
      (impStart s.canonical first im v tags = false → s.canonical = false → s'.whitespace = false ∧ s'.indention = false) := by
  rw [he] at hok
  obtain ⟨hv, hd, hn⟩ := hok
  -- the directives are declared
  obtain ⟨sa, hsa⟩ : ∃ sa, sa = { s with tagDirectives := Props.emitterDirectives tags } := ⟨_, rfl⟩
  have hba : Bol sa := by rw [hsa]; exact ⟨h.brk, h.indent, h.col, h.ws, h.ind⟩
  have d1 : Writes (declareTags tags) s () { s with tagDirectives := tags } [] :=
    (writes_declareTags tags s hd (by rw [ht]; exact hn)).cast (by rw [ht]; rfl) rfl
  have d2 : Writes (declareDefaults defaultTagDirectives) { s with tagDirectives := tags } () sa [] := by
    rw [hsa]; exact writes_declareDefaults tags { s with tagDirectives := tags } rfl
  -- `...`
  obtain ⟨sb, b1, b2, b3⟩ : ∃ sb, Writes (M.when ((v.isSome || !tags.isEmpty) && sa.openEnded != 0) (do
      writeIndicator (cs! "...") true false false
      writeIndent)) sa () sb (if dotsFirst s.openEnded v tags then cs! "..." ++ breakChars s.lineBreak else []) ∧
      Wrote sa (if dotsFirst s.openEnded v tags then cs! "..." ++ breakChars s.lineBreak else []) sb ∧ Bol sb := by
    have eo : ((v.isSome || !tags.isEmpty) && sa.openEnded != 0) = dotsFirst s.openEnded v tags := by rw [hsa]; rfl
    rw [eo]
    have el : sa.lineBreak = s.lineBreak := by rw [hsa]
    cases hx : dotsFirst s.openEnded v tags with
    | false => exact ⟨sa, Writes.when_false rfl, Wrote.refl _, hba⟩
    | true =>
      obtain ⟨sb, k1, k2, k3⟩ := writes_dots hba
      rw [el] at k1 k2
      exact ⟨sb, Writes.when_true rfl k1, k2, k3⟩
  obtain ⟨sc, hsc⟩ : ∃ sc, sc = { sb with openEnded := 0 } := ⟨_, rfl⟩
  have hbc : Bol sc := by rw [hsc]; exact ⟨b3.brk, b3.indent, b3.col, b3.ws, b3.ind⟩
  have elc : sc.lineBreak = s.lineBreak := by rw [hsc]; show sb.lineBreak = _; rw [b2.lineBreak, hsa]
  have ecc : sc.canonical = s.canonical := by rw [hsc]; show sb.canonical = _; rw [b2.frame, hsa]
  -- the rest, from any version line on
  have tail : ∀ sd wv, Wrote sc wv sd → Bol sd → ∃ se, Writes (do
      writeTagLines tags
      M.when (!(im && first && !sa.canonical && v.isNone && tags.isEmpty)) (do
        writeIndent
        writeIndicator (cs! "---") true false false
        M.when sa.canonical writeIndent)
      setState .documentContent
      setOpenEnded 0) sd () { se with state := .documentContent, openEnded := 0 }
        ((tags.flatMap fun t => tagLine t ++ breakChars s.lineBreak) ++ openText s.canonical (impStart s.canonical first im v tags) s.lineBreak) ∧
      Wrote sc (wv ++ ((tags.flatMap fun t => tagLine t ++ breakChars s.lineBreak) ++ openText s.canonical (impStart s.canonical first im v tags) s.lineBreak)) se ∧
      ((impStart s.canonical first im v tags = true ∨ s.canonical = true) → Bol se) ∧
      (impStart s.canonical first im v tags = false → s.canonical = false → se.whitespace = false ∧ se.indention = false) := by
    intro sd wv w1 hbd
    have eld : sd.lineBreak = s.lineBreak := by rw [w1.lineBreak, elc]
    obtain ⟨s3, k1, k2, k3⟩ := writes_tagLines tags sd hbd hd
    rw [eld] at k1 k2
    have el3 : s3.lineBreak = s.lineBreak := by rw [k2.lineBreak, eld]
    have ec3 : s3.canonical = s.canonical := by rw [k2.frame]; show sd.canonical = _; rw [w1.frame]; exact ecc
    obtain ⟨s4, m1, m2, m3, m4⟩ := writes_dashes (impStart s.canonical first im v tags) k3
    rw [el3, ec3] at m1 m2
    rw [ec3] at m3 m4
    refine ⟨s4, ?_, w1.trans (k2.trans m2), m3, m4⟩
    have ea : sa.canonical = s.canonical := by rw [hsa]
    rw [ea]
    refine (k1.bind (f := fun _ => do
      M.when (!(im && first && !s.canonical && v.isNone && tags.isEmpty)) (do
        writeIndent
        writeIndicator (cs! "---") true false false
        M.when s.canonical writeIndent)
      setState .documentContent
      setOpenEnded 0) (m1.bind (f := fun _ => do setState .documentContent; setOpenEnded 0) ((Writes.modify _ _).bind0 (Writes.modify _ _)))).cast rfl (by simp)
  -- together
  have core_of : ∀ {wv se}, Wrote sc wv se → core { se with state := EmSt.documentContent, openEnded := 0 } = core sa := by
    intro wv se hw
    have e1 : core se = core sc := core_wrote hw
    have e2 : core sb = core sa := core_wrote b2
    have e3 : core sc = core sb := by rw [hsc]; rfl
    exact e1.trans (e3.trans e2)
  have states_of : ∀ {wv se}, Wrote sc wv se → se.states = s.states := by
    intro wv se hw
    rw [hw.frame]
    show sc.states = _
    rw [hsc]
    show sb.states = _
    rw [b2.frame, hsa]
  have col_of : ∀ {wv se}, Wrote sc wv se → se.column = colAfter s.column ((if dotsFirst s.openEnded v tags then cs! "..." ++ breakChars s.lineBreak else []) ++ wv) := by
    intro wv se hw
    rw [hw.col, hsc]
    show colAfter sb.column wv = _
    rw [b2.col, ← colAfter_append, hsa]
  have goal : ∀ (vm : Emit Unit) (wv : Str) sd, Writes vm sc () sd wv → Wrote sc wv sd → Bol sd → wv = (v.elim [] fun v => versionText v ++ breakChars s.lineBreak) →
      ∃ s' w, Writes (do
        declareTags tags
        declareDefaults defaultTagDirectives
        let s ← M.get
        M.when ((v.isSome || !tags.isEmpty) && s.openEnded != 0) (do
          writeIndicator (cs! "...") true false false
          writeIndent)
        setOpenEnded 0
        vm
        writeTagLines tags
        M.when (!(im && first && !s.canonical && v.isNone && tags.isEmpty)) (do
          writeIndent
          writeIndicator (cs! "---") true false false
          M.when s.canonical writeIndent)
        setState .documentContent
        setOpenEnded 0) s () s' w ∧ core s' = core { s with tagDirectives := Props.emitterDirectives tags } ∧ s'.state = .documentContent ∧
      s'.states = s.states ∧ s'.openEnded = 0 ∧ w = startText s.canonical (impStart s.canonical first im v tags) s.lineBreak (dotsFirst s.openEnded v tags) v tags ∧
      s'.column = colAfter s.column w ∧
      ((impStart s.canonical first im v tags = true ∨ s.canonical = true) → Bol s') ∧
      (impStart s.canonical first im v tags = false → s.canonical = false → s'.whitespace = false ∧ s'.indention = false) := by
    intro vm wv sd hvm hw hbd hwv
    obtain ⟨se, t1, t2, t3, t4⟩ := tail sd wv hw hbd
    refine ⟨{ se with state := .documentContent, openEnded := 0 }, _, ?_, by rw [core_of t2, hsa], rfl, (show se.states = s.states from states_of t2), rfl, rfl, ?_, fun hx => ?_, t4⟩
    · refine d1.bind0 (d2.bind0 (Writes.bind_get ?_))
      have hso : Writes (setOpenEnded 0) sb () sc [] := by rw [hsc]; exact Writes.modify _ _
      refine (b1.bind (f := fun _ => do
        setOpenEnded 0
        vm
        writeTagLines tags
        M.when (!(im && first && !sa.canonical && v.isNone && tags.isEmpty)) (do
          writeIndent
          writeIndicator (cs! "---") true false false
          M.when sa.canonical writeIndent)
        setState .documentContent
        setOpenEnded 0) (hso.bind0 (hvm.bind t1))).cast rfl ?_
      rw [hwv]
      unfold startText dirText
      simp
    · show se.column = _
      rw [col_of t2, hwv]
      congr 1
      unfold startText dirText
      simp
    · have := t3 hx
      exact ⟨this.brk, this.indent, this.col, this.ws, this.ind⟩
  unfold emitDocumentStart
  rw [he]
  cases v with
  | none =>
    obtain ⟨s', w, g1, g⟩ := goal (pure ()) [] sc (Writes.pure () sc) (Wrote.refl sc) hbc rfl
    refine ⟨s', w, ?_, g⟩
    exact (Writes.pure () s).bind0 g1
  | some v =>
    obtain ⟨sd, v1, v2, v3⟩ := writes_version v hbc
    rw [elc] at v1 v2
    obtain ⟨s', w, g1, g⟩ := goal _ _ sd v1 v2 v3 rfl
    refine ⟨s', w, ?_, g⟩
    have hav : Writes (analyzeVersionDirective v) s () s [] := by
      unfold analyzeVersionDirective
      obtain ⟨x1, x2⟩ := hv v rfl
      rw [if_neg (by
        rintro (x | ⟨x, y⟩)
        · exact x x1
        · rcases x2 with x2 | x2
          · exact x x2
          · exact y x2)]
      exact Writes.pure () s
    exact hav.bind0 g1

/-! ### Processing -/

theorem writes_analyzeOther {e : Event} (h : (∃ v t i, e.data = .documentStart v t i) ∨ (∃ i, e.data = .documentEnd i) ∨ e.data = .streamEnd ∨ ∃ c, e.data = .streamStart c)
    (D : List TagDirective) (s : EState) : ∃ a, Writes (analyzeEvent e D) s a s [] := by
  unfold analyzeEvent
  rcases h with ⟨_, _, _, h⟩ | ⟨_, h⟩ | h | ⟨_, h⟩ <;> rw [h] <;> exact ⟨_, Writes.bind_get (Writes.pure _ _)⟩

theorem emitterDirectives_ne (tags : List TagDirective) : (Props.emitterDirectives tags).isEmpty = false := by
  unfold Props.emitterDirectives
  cases tags with
  | nil => rfl
  | cons => rfl

/-- The beginning of a document. -/
theorem process_docStart (first : Bool) {s : EState} (h : Bol s) (hst : s.state = if first then .firstDocumentStart else .documentStart) {e : Event} {v : Option VersionDirective}
    {tags : List TagDirective} {im : Bool} {c : Bool} (he : e.data = .documentStart v tags im) (hok : EventOk c e.data) :
    ∃ s' w, Writes (process e) s () s' w ∧ core s' = core { s with tagDirectives := Props.emitterDirectives tags } ∧ s'.state = .documentContent ∧
      s'.states = s.states ∧ s'.openEnded = 0 ∧ w = startText s.canonical (impStart s.canonical first im v tags) s.lineBreak (dotsFirst s.openEnded v tags) v tags ∧
      s'.column = colAfter s.column w ∧
      ((impStart s.canonical first im v tags = true ∨ s.canonical = true) → Bol s') ∧
      (impStart s.canonical first im v tags = false → s.canonical = false → s'.whitespace = false ∧ s'.indention = false) := by
  obtain ⟨a, ha⟩ := writes_analyzeOther (e := e) (Or.inl ⟨_, _, _, he⟩) s.tagDirectives { s with tagDirectives := [] }
  obtain ⟨s', w, g1, g2, g3, g4, g5, g6, g7, g8, g9⟩ := writes_emitDocumentStart first (s := { s with tagDirectives := [] }) ⟨h.brk, h.indent, h.col, h.ws, h.ind⟩ rfl he hok
  have htd : s'.tagDirectives = Props.emitterDirectives tags := core_tags g2
  have hm : Writes (stateMachine e a) { s with tagDirectives := [] } () s' w := by
    generalize hs0 : ({ s with tagDirectives := [] } : EState) = s0 at g1
    have h0 : s0.state = if first then .firstDocumentStart else .documentStart := by rw [← hs0]; exact hst
    unfold stateMachine
    refine Writes.bind_get ?_
    rw [h0]
    cases first <;> exact g1
  refine ⟨s', w, (writes_process ha hm).cast ?_ rfl, g2, g3, g4, g5, g6, g7, g8, g9⟩
  rw [htd, emitterDirectives_ne, if_neg (by simp)]
  cases s'; cases htd; rfl

/-- The end of a document. -/
theorem process_docEnd {s : EState} (hl : s.lineBreak ≠ .any) (hi : s.indent = -1) (hx : Exit s) (hst : s.state = .documentEnd) {e : Event} {im : Bool}
    (he : e.data = .documentEnd im) :
    ∃ s', Writes (process e) s () s' ((if s.indention then [] else breakChars s.lineBreak) ++ if im then [] else cs! "..." ++ breakChars s.lineBreak) ∧ core s' = core s ∧
      s'.state = .documentStart ∧ s'.states = s.states ∧ Bol s' ∧ (im = false → s'.openEnded = 0) ∧ (im = true → s'.openEnded ≠ 0) := by
  obtain ⟨a, ha⟩ := writes_analyzeOther (e := e) (Or.inr (Or.inl ⟨_, he⟩)) s.tagDirectives { s with tagDirectives := [] }
  obtain ⟨s0, hs0⟩ : ∃ s0 : EState, s0 = { s with tagDirectives := [] } := ⟨_, rfl⟩
  rw [← hs0] at ha
  obtain ⟨s1, k1, k2, k3⟩ : ∃ s1, Writes writeIndent s0 () s1 (if s.indention then [] else breakChars s.lineBreak) ∧
      Wrote s0 (if s.indention then [] else breakChars s.lineBreak) s1 ∧ Bol s1 := by
    cases hn : s.indention with
    | true =>
      obtain ⟨x1, x2⟩ := hx hn
      have hb : Bol s0 := by rw [hs0]; exact ⟨hl, hi, x1, x2, hn⟩
      exact ⟨s0, hb.stay, Wrote.refl _, hb⟩
    | false =>
      have e0 : s0.lineBreak = s.lineBreak := by rw [hs0]
      obtain ⟨s1, k1, k2, k3⟩ := writes_eol (s := s0) (by rw [e0]; exact hl) (by rw [hs0]; exact hi) (by rw [hs0]; exact hn)
      rw [e0] at k1 k2
      exact ⟨s1, k1, k2, k3⟩
  have el1 : s1.lineBreak = s.lineBreak := by rw [k2.lineBreak, hs0]
  have fin : ∀ s2 s3 w, core s2 = core s1 → s2.states = s1.states → Bol s2 → s3 = ({ s2 with state := .documentStart, tagDirectives := [] } : EState) →
      Writes (stateMachine e a) s0 () s3 w →
      (im = false → s2.openEnded = 0) → (im = true → s2.openEnded ≠ 0) →
      ∃ s', Writes (process e) s () s' w ∧ core s' = core s ∧ s'.state = .documentStart ∧ s'.states = s.states ∧ Bol s' ∧ (im = false → s'.openEnded = 0) ∧
        (im = true → s'.openEnded ≠ 0) := by
    intro s2 s3 w hc hss hb2 h3 hm ho1 ho2
    subst h3
    rw [hs0] at ha hm
    refine ⟨_, writes_process ha hm, ?_, rfl, ?_, ⟨hb2.brk, hb2.indent, hb2.col, hb2.ws, hb2.ind⟩, ho1, ho2⟩
    · have e1 : core s1 = core s0 := core_wrote k2
      have e2 : core { s2 with tagDirectives := s.tagDirectives } = { core s2 with tagDirectives := s.tagDirectives } := rfl
      have e3 : core { s0 with tagDirectives := s.tagDirectives } = core s := by rw [hs0]
      show core { s2 with tagDirectives := s.tagDirectives } = _
      rw [e2, hc, e1, ← e3]; rfl
    · show s2.states = _
      rw [hss, k2.frame, hs0]
  cases im with
  | true =>
    have hm : Writes (stateMachine e a) s0 ()
        { ({ s1 with openEnded := if s1.openEnded = 0 then 1 else s1.openEnded } : EState) with state := .documentStart, tagDirectives := [] }
        ((if s.indention then [] else breakChars s.lineBreak) ++ []) := by
      unfold stateMachine
      refine Writes.bind_get ?_
      rw [show s0.state = .documentEnd by rw [hs0]; exact hst]
      show Writes (emitDocumentEnd e) _ _ _ _
      unfold emitDocumentEnd
      rw [he]
      refine k1.bind ?_
      exact (Writes.modify _ _).bind0 ((writes_flush _).bind0 (Writes.modify _ _))
    refine fin _ _ _ ?_ ?_ ?_ rfl hm (by simp) ?_
    · rfl
    · rfl
    · exact ⟨k3.brk, k3.indent, k3.col, k3.ws, k3.ind⟩
    · intro _
      show (if s1.openEnded = 0 then (1 : Int) else s1.openEnded) ≠ 0
      split
      · decide
      · assumption
  | false =>
    obtain ⟨s2, a1, a2, a3, a4⟩ := writes_indicator (cs! "...") false false s1 (by decide)
    rw [sep_eq k3.ws, List.nil_append] at a1 a2
    obtain ⟨s2', hs2⟩ : ∃ s2' : EState, s2' = { s2 with openEnded := 0 } := ⟨_, rfl⟩
    have hso : Writes (setOpenEnded 0) s2 () s2' [] := by rw [hs2]; exact Writes.modify _ _
    have el2 : s2'.lineBreak = s.lineBreak := by rw [hs2]; show s2.lineBreak = _; rw [a2.lineBreak, el1]
    obtain ⟨s3, b1, b2, b3⟩ := writes_eol (s := s2') (by rw [el2]; exact hl) (by rw [hs2]; show s2.indent = _; rw [a2.indent]; exact k3.indent)
      (by rw [hs2]; show s2.indention = _; rw [a4]; simp)
    rw [el2] at b1 b2
    have hm : Writes (stateMachine e a) s0 () { s3 with state := .documentStart, tagDirectives := [] }
        ((if s.indention then [] else breakChars s.lineBreak) ++ (cs! "..." ++ breakChars s.lineBreak)) := by
      unfold stateMachine
      refine Writes.bind_get ?_
      rw [show s0.state = .documentEnd by rw [hs0]; exact hst]
      show Writes (emitDocumentEnd e) _ _ _ _
      unfold emitDocumentEnd
      rw [he]
      refine k1.bind ?_
      have hr : Writes (do writeIndent; flush; M.modify fun s => { s with state := .documentStart, tagDirectives := [] }) s2' ()
          { s3 with state := .documentStart, tagDirectives := [] } (breakChars s.lineBreak) :=
        (b1.bind (w' := []) ((writes_flush s3).bind0 (Writes.modify (fun s => { s with state := .documentStart, tagDirectives := [] }) s3))).cast rfl (List.append_nil _)
      exact a1.bind (f := fun _ => do setOpenEnded 0; writeIndent; flush; M.modify fun s => { s with state := .documentStart, tagDirectives := [] })
        (hso.bind0 hr)
    refine fin s3 _ _ ?_ ?_ b3 rfl hm ?_ (by simp)
    · have e1 : core s3 = core s2' := core_wrote b2
      have e2 : core s2' = core s2 := by rw [hs2]; rfl
      rw [e1, e2]
      exact core_wrote a2
    · rw [b2.frame]; show s2'.states = _; rw [hs2]; show s2.states = _; rw [a2.frame]
    · intro _; rw [b2.frame]; show s2'.openEnded = _; rw [hs2]

/-- The end of the stream. -/
theorem process_streamEnd {s : EState} (h : Bol s) (hst : s.state = .firstDocumentStart ∨ s.state = .documentStart) {e : Event} (he : e.data = .streamEnd) :
    ∃ s', Writes (process e) s () s' (if s.openEnded = 2 then cs! "..." ++ breakChars s.lineBreak else []) ∧ s'.state = .end_ := by
  obtain ⟨a, ha⟩ := writes_analyzeOther (e := e) (Or.inr (Or.inr (Or.inl he))) s.tagDirectives { s with tagDirectives := [] }
  obtain ⟨s0, hs0⟩ : ∃ s0 : EState, s0 = { s with tagDirectives := [] } := ⟨_, rfl⟩
  have hb0 : Bol s0 := by rw [hs0]; exact ⟨h.brk, h.indent, h.col, h.ws, h.ind⟩
  have key : ∃ s3, Writes (emitDocumentStart e true) s0 () s3 (if s.openEnded = 2 then cs! "..." ++ breakChars s.lineBreak else []) ∧
      Writes (emitDocumentStart e false) s0 () s3 (if s.openEnded = 2 then cs! "..." ++ breakChars s.lineBreak else []) ∧ s3.state = .end_ := by
    unfold emitDocumentStart
    rw [he]
    by_cases ho : s.openEnded = 2
    · obtain ⟨s1, a1, a2, a3, a4⟩ := writes_indicator (cs! "...") false false s0 (by decide)
      rw [sep_eq hb0.ws, List.nil_append] at a1 a2
      obtain ⟨s2', hs2⟩ : ∃ s2' : EState, s2' = { s1 with openEnded := 0 } := ⟨_, rfl⟩
      have hso : Writes (setOpenEnded 0) s1 () s2' [] := by rw [hs2]; exact Writes.modify _ _
      have el2 : s2'.lineBreak = s.lineBreak := by rw [hs2]; show s1.lineBreak = _; rw [a2.lineBreak, hs0]
      obtain ⟨s3, b1, b2, b3⟩ := writes_eol (s := s2') (by rw [el2]; exact h.brk) (by rw [hs2]; show s1.indent = _; rw [a2.indent]; exact hb0.indent)
        (by rw [hs2]; show s1.indention = _; rw [a4]; simp)
      rw [el2] at b1 b2
      have : Writes (do
          let s ← M.get
          M.when (decide (s.openEnded = 2)) (do
            writeIndicator (cs! "...") true false false
            setOpenEnded 0
            writeIndent)
          flush
          setState .end_) s0 () { s3 with state := .end_ } (if s.openEnded = 2 then cs! "..." ++ breakChars s.lineBreak else []) := by
        refine Writes.bind_get ?_
        have hw : Writes (do
            writeIndicator (cs! "...") true false false
            setOpenEnded 0
            writeIndent) s0 () s3 (cs! "..." ++ breakChars s.lineBreak) :=
          a1.bind (f := fun _ => do setOpenEnded 0; writeIndent) (hso.bind0 b1)
        refine ((Writes.when_true (by rw [hs0]; exact decide_eq_true ho) hw).bind (w' := []) ((writes_flush s3).bind0 (f := fun _ => setState .end_) (Writes.modify (fun s => { s with state := .end_ }) s3))).cast rfl (by rw [if_pos ho]; simp)
      exact ⟨_, this, this, rfl⟩
    · have : Writes (do
          let s ← M.get
          M.when (decide (s.openEnded = 2)) (do
            writeIndicator (cs! "...") true false false
            setOpenEnded 0
            writeIndent)
          flush
          setState .end_) s0 () { s0 with state := .end_ } (if s.openEnded = 2 then cs! "..." ++ breakChars s.lineBreak else []) := by
        refine Writes.bind_get ?_
        refine ((Writes.when_false (by rw [hs0]; exact decide_eq_false ho)).bind0 ((writes_flush s0).bind0 (f := fun _ => setState .end_) (Writes.modify (fun s => { s with state := .end_ }) s0))).cast rfl (by rw [if_neg ho])
      exact ⟨_, this, this, rfl⟩
  obtain ⟨s3, k1, k2, k3⟩ := key
  have hm : Writes (stateMachine e a) s0 () s3 (if s.openEnded = 2 then cs! "..." ++ breakChars s.lineBreak else []) := by
    unfold stateMachine
    refine Writes.bind_get ?_
    have : s0.state = s.state := by rw [hs0]
    rw [this]
    rcases hst with h | h <;> rw [h]
    · exact k1
    · exact k2
  rw [hs0] at hm
  exact ⟨_, writes_process ha hm, k3⟩

end Yaml.Rt
