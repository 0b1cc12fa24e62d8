import Verif.Lib.Round19

/-
Reading back: documents and streams.
-/

namespace Yaml.Rt
open Yaml Emitter Lx Spec
set_option linter.unusedSimpArgs false
set_option linter.unusedVariables false

/-- The settings, outside all collections. -/
structure Sett (canon uni : Bool) (s : EState) : Prop where
  canon : s.canonical = canon
  uni : s.unicode = uni
  brk : s.lineBreak ≠ .any
  best : 2 ≤ s.bestIndent ∧ s.bestIndent ≤ 9
  indent : s.indent = -1
  flow : s.flowLevel = 0

theorem Sett.core {canon uni : Bool} {s s' : EState} {D : List TagDirective} (h : Sett canon uni s) (hc : Rt.core s' = Rt.core { s with tagDirectives := D }) : Sett canon uni s' :=
  ⟨(core_canonical hc).trans h.canon, (core_unicode hc).trans h.uni, by rw [core_lineBreak hc]; exact h.brk, by rw [core_bestIndent hc]; exact h.best,
   (core_indent hc).trans h.indent, (core_flowLevel hc).trans h.flow⟩

theorem docContent_machine {s : EState} (h : s.state = .documentContent) (e : Event) (a : Analysis) (q : List Event) :
    stateMachine e a { s with events := q } = emitDocumentContent e a { s with events := q } := by
  obtain ⟨⟩ := s
  cases h; rfl

section
variable {P : Par} {F : Nat}

/-- The root node and the end of the document. -/
theorem doc_body {ns : Evs} (hB : ClaimB P F ns) {s : EState} (hs : Sett P.canon P.uni s) (hst : s.state = .documentContent) (hsts : s.states = [])
    (htd : s.tagDirectives = Props.emitterDirectives P.tags) (hb : s.indention = true → s.column = 0 ∧ s.whitespace = true) {e : Event} {q : List Event} {im : Bool}
    (he : e.data = .documentEnd im) :
    ∃ s' w, Feed s (ns ++ [(e, q)]) s' w ∧ Sett P.canon P.uni s' ∧ Bol s' ∧ s'.state = .documentStart ∧ s'.states = [] ∧ s'.lineBreak = s.lineBreak ∧
      (im = false → s'.openEnded = 0) ∧ (im = true → s'.openEnded ≠ 0) ∧
      ∀ rest, Starts rest → (im = true → rest = [] ∨ IsDocMarker rest) →
        (s.whitespace = false → EndsTag (w ++ rest)) ∧ (P.canon = true → s.whitespace = true → NoSplit (breakChars s.lineBreak) (w ++ rest)) ∧
        ∀ A, Top A → Sync s A → (s.indention = true → A.allowed = true) →
          ∃ B ts evs, Reach F A (w ++ rest) B rest ∧ Top B ∧ B.mark.column = 0 ∧ B.toks = A.toks ++ (ts ++ docEnd (!im)) ∧
            (Derives false P.tags (.node true false) ts evs ∨ (ts = [] ∧ evs = [emptyNode] ∧ Bare ns)) ∧ SameEvents P.canon (datas ns) evs := by
  obtain ⟨s2, hs2⟩ : ∃ s2 : EState, s2 = { s with tagDirectives := [] } := ⟨_, rfl⟩
  have hc2 : core s2 = core { s with tagDirectives := [] } := by rw [hs2]
  have hE2 : Env P s2 := by
    have h2 := hs.core hc2
    exact ⟨h2.canon, h2.uni, h2.brk, h2.best, by rw [h2.indent]; decide, by rw [hs2]⟩
  have hcol : s2.column = s.column := by rw [hs2]
  have hws : s2.whitespace = s.whitespace := by rw [hs2]
  have hin : s2.indention = s.indention := by rw [hs2]
  have hlb : s2.lineBreak = s.lineBreak := by rw [hs2]
  have hi2 : s2.indent = -1 := by rw [hs2]; exact hs.indent
  obtain ⟨s', w, r1, r2, r3, r4, r5, r6, r7⟩ := hB { s2 with states := .documentEnd :: s2.states } true false false .documentEnd s2.states (hE2.core rfl)
    (by show s2.flowLevel = 0; rw [hs2]; exact hs.flow)
    (by
      intro h
      have h' : s.indention = true := hin ▸ h
      obtain ⟨h1, h2⟩ := hb h'
      exact Or.inl ⟨hi2, hcol.trans h1, hws.trans h2⟩) rfl
  have hputs : Puts P s2 ns s' w := by
    have := Run.before (f := fun e a => emitDocumentContent e a) (s := s2) (w0 := []) r1 (by
      intro e a q s3 w3 _ hw
      exact (Writes.modify _ _).bind0 hw)
    rw [List.nil_append] at this
    refine this.puts ?_
    intro e a q
    exact docContent_machine (by rw [hs2]; exact hst) e a q
  have hfeed := hputs.feed (hE2.kept rfl)
  have hs1 : ({ s2 with tagDirectives := Props.emitterDirectives P.tags } : EState) = s := by
    rw [hs2, ← htd]
  rw [hs1] at hfeed
  have rc : core s' = core s2 := r2
  have hlb' : s'.lineBreak = s.lineBreak := (core_lineBreak rc).trans hlb
  obtain ⟨s'', f1, f2, f3, f4, f5, f6, f7⟩ := process_docEnd (s := { s' with tagDirectives := Props.emitterDirectives P.tags, events := q }) (e := e) (im := im)
    (by show s'.lineBreak ≠ _; rw [hlb']; exact hs.brk) (by show s'.indent = _; rw [core_indent rc]; exact hi2) r5 r3 he
  obtain ⟨tl, htl⟩ : ∃ tl : Str, tl = if im then [] else cs! "..." ++ breakChars s.lineBreak := ⟨_, rfl⟩
  have f1' : Writes (process e) { s' with tagDirectives := Props.emitterDirectives P.tags, events := q } () s'' ((if s'.indention then [] else breakChars s.lineBreak) ++ tl) := by
    rw [htl, ← hlb']; exact f1
  have hcE : core s'' = core { s with tagDirectives := Props.emitterDirectives P.tags } := by
    rw [f2]
    have e1 : core { s' with tagDirectives := Props.emitterDirectives P.tags, events := q } = { core s' with tagDirectives := Props.emitterDirectives P.tags } := rfl
    rw [e1, rc, hs2]; rfl
  refine ⟨s'', w ++ (((if s'.indention then [] else breakChars s.lineBreak) ++ tl) ++ []), hfeed.append (.cons f1' (.nil _)), hs.core hcE, f5, f3, ?_, (by have := core_lineBreak hcE; exact this), f6, f7, ?_⟩
  · rw [f4]; show s'.states = []; rw [r4, hs2]; exact hsts
  intro rest hrest hdoc
  -- what follows the node
  have htlr : tl ++ rest = [] ∨ IsDocMarker (tl ++ rest) := by
    cases im with
    | true => rw [htl]; exact hdoc rfl
    | false =>
      right
      rw [htl]
      refine ⟨breakChars s.lineBreak ++ rest, Or.inr rfl, ?_⟩
      intro c r hc
      obtain ⟨c', r', k1, k2, _⟩ := breakChars_head hs.brk
      rw [k1] at hc
      simp at hc
      right; rw [isLineBreak_eq, ← hc.1]; exact k2
  have hst2 : Starts (tl ++ rest) := by
    cases im with
    | true => rw [htl]; exact hrest
    | false => rw [htl]; exact starts_cons (by decide) (by decide) (by decide) (by decide) (by decide)
  have hfol : Fol (-1) s.lineBreak s'.indention ((if s'.indention then [] else breakChars s.lineBreak) ++ (tl ++ rest)) := ⟨0, tl ++ rest, rfl, hst2, Or.inr ⟨rfl, htlr⟩⟩
  have etxt : (w ++ (((if s'.indention then [] else breakChars s.lineBreak) ++ tl) ++ [])) ++ rest = w ++ ((if s'.indention then [] else breakChars s.lineBreak) ++ (tl ++ rest)) := by simp
  rw [etxt]
  have hfol' : Fol ({ s2 with states := .documentEnd :: s2.states } : EState).indent ({ s2 with states := .documentEnd :: s2.states } : EState).lineBreak s'.indention
      ((if s'.indention then [] else breakChars s.lineBreak) ++ (tl ++ rest)) := by
    show Fol s2.indent s2.lineBreak _ _
    rw [hi2, hlb]; exact hfol
  obtain ⟨y1, y2⟩ := r7 _ hfol'
  refine ⟨fun h => y1 (hws.trans h), fun h1 h2 => ?_, ?_⟩
  · have := r6 _ hfol' h1 (hws.trans h2)
    exact hlb ▸ this
  intro A hA hsy hal
  obtain ⟨B, ts, evs, d1, d2, d3, d4, d5⟩ := y2 A ⟨hA.flow, hA.cool, hA.indent.trans hi2.symm, by
    show (A.mark.column : Int) = s2.column; rw [hcol]; exact hsy, by rw [hA.indent]; omega, fun h => hal (hin ▸ h)⟩
  have hBt : Top B := hA.moved d2
  -- the line break
  obtain ⟨C, c1, c2, c3, c4⟩ : ∃ C, Reach F B ((if s'.indention then [] else breakChars s.lineBreak) ++ (tl ++ rest)) C (tl ++ rest) ∧ Top C ∧ C.mark.column = 0 ∧ C.toks = B.toks := by
    cases hi : s'.indention with
    | true =>
      refine ⟨B, .refl _ _, hBt, ?_, rfl⟩
      have h1 := d3.sync
      have h2 := (r5 hi).1
      have : (B.mark.column : Int) = s'.column := h1
      omega
    | false =>
      exact ⟨B.skip (breakChars s.lineBreak), .skip breakChars_blanks.ws (noSplit_starts hst2) (.refl _ _), hBt.skip _, advance_eol (w := []) hs.brk _, rfl⟩
  cases im with
  | true =>
    have : tl = [] := htl
    subst this
    exact ⟨C, ts, evs, d1.trans c1, c2, c3, by rw [c4, d2.toks]; simp [docEnd], d4, d5⟩
  | false =>
    have htl : tl = cs! "..." ++ breakChars s.lineBreak := htl
    subst htl
    obtain ⟨D, g1, g2, g3, g4, g5, g6⟩ := read_doc (A := C) F (c := '.') (d := .documentEnd) (g := []) (t := breakChars s.lineBreak ++ rest) (Or.inr ⟨rfl, rfl⟩) c2 Blanks.nil c3 (by
      obtain ⟨c', r', k1, k2, _⟩ := breakChars_head hs.brk
      rw [k1]; exact endsTag_break k2 _)
    refine ⟨D.skip (breakChars s.lineBreak), ts, evs, d1.trans (c1.trans (g1.trans (.skip breakChars_blanks.ws (noSplit_starts hrest) (.refl _ _)))), g2.skip _, advance_eol (w := []) hs.brk _, ?_, d4, d5⟩
    show D.toks = _
    rw [g4, c4, d2.toks]; simp [docEnd]

end

/-! ### The beginning of a document -/

theorem colAfter_dirText {lb : Break} (hl : lb ≠ .any) (v : Option VersionDirective) (tags : List TagDirective) : colAfter 0 (dirText lb v tags) = 0 := by
  have ht : ∀ tags : List TagDirective, colAfter 0 (tags.flatMap fun t => tagLine t ++ breakChars lb) = 0 := by
    intro tags
    induction tags with
    | nil => rfl
    | cons d tags ih => rw [List.flatMap_cons, colAfter_append, colAfter_append 0 (tagLine d), colAfter_break hl, ih]
  unfold dirText
  rw [colAfter_append]
  cases v with
  | none => exact ht tags
  | some v =>
    show colAfter (colAfter 0 (versionText v ++ breakChars lb)) _ = 0
    rw [colAfter_append 0 (versionText v), colAfter_break hl]; exact ht tags

theorem read_start (F : Nat) {canon dots : Bool} {lb : Break} (hl : lb ≠ .any) (v : Option VersionDirective) (tags : List TagDirective) {A : Cfg} {T : Str} (hA : Top A)
    (h0 : A.mark.column = 0)
    (hv : ∀ x, v = some x → x.major = 1 ∧ (x.minor = 1 ∨ x.minor = 2)) (hd : ∀ d ∈ tags, DirectiveOk d ∧ ∀ c ∈ d.prefix_, c.toNat < 128) (hn : (tags.map (·.handle)).Nodup)
    (hT : canon = true → NoSplit (breakChars lb) T) (hT' : canon = false → EndsTag T) :
    ∃ B ds, Reach F A (startText canon false lb dots v tags ++ T) B T ∧ Top B ∧ (B.mark.column : Int) = colAfter 0 (startText canon false lb dots v tags) ∧
      B.toks = A.toks ++ (docEnd dots ++ (ds ++ [.documentStart])) ∧ IsDirectives ds v tags ∧ (canon = true → B.allowed = true) := by
  -- `...`
  have hdirs : ∀ U, Starts (dirText lb v tags ++ ('-' :: U)) := by
    intro U
    unfold dirText
    cases v with
    | some v => exact starts_cons (by decide) (by decide) (by decide) (by decide) (by decide)
    | none =>
      cases tags with
      | nil => exact starts_cons (by decide) (by decide) (by decide) (by decide) (by decide)
      | cons d tags => exact starts_cons (by decide) (by decide) (by decide) (by decide) (by decide)
  obtain ⟨o, ho⟩ : ∃ o, o = (if canon then breakChars lb else []) ++ T := ⟨_, rfl⟩
  have hoz : EndsTag o := by
    rw [ho]
    cases canon with
    | true =>
      obtain ⟨c', r', k1, k2, _⟩ := breakChars_head hl
      rw [if_pos rfl, k1]; exact endsTag_break k2 _
    | false => exact hT' rfl
  have etxt : startText canon false lb dots v tags ++ T = (if dots then cs! "..." ++ breakChars lb else []) ++ (dirText lb v tags ++ ('-' :: '-' :: '-' :: o)) := by
    rw [ho]
    unfold startText openText
    cases canon <;> simp
  obtain ⟨B, b1, b2, b3, b4⟩ : ∃ B, Reach F A ((if dots then cs! "..." ++ breakChars lb else []) ++ (dirText lb v tags ++ ('-' :: '-' :: '-' :: o))) B (dirText lb v tags ++ ('-' :: '-' :: '-' :: o)) ∧
      Top B ∧ B.mark.column = 0 ∧ B.toks = A.toks ++ docEnd dots := by
    cases dots with
    | false => exact ⟨A, .refl _ _, hA, h0, by simp [docEnd]⟩
    | true =>
      obtain ⟨D, g1, g2, g3, g4, g5, g6⟩ := read_doc (A := A) F (c := '.') (d := .documentEnd) (g := []) (t := breakChars lb ++ (dirText lb v tags ++ ('-' :: '-' :: '-' :: o)))
        (Or.inr ⟨rfl, rfl⟩) hA Blanks.nil h0 (by
          obtain ⟨c', r', k1, k2, _⟩ := breakChars_head hl
          rw [k1]; exact endsTag_break k2 _)
      refine ⟨D.skip (breakChars lb), g1.trans (.skip breakChars_blanks.ws (noSplit_starts (hdirs _)) (.refl _ _)), g2.skip _, advance_eol (w := []) hl _, g4⟩
  obtain ⟨C, ds, c1, c2, c3, c4, c5, _⟩ := read_dirs F hl v tags (t := '-' :: '-' :: '-' :: o) b2 b3 hv hd hn (by simp)
  obtain ⟨D, g1, g2, g3, g4, g5, g6⟩ := read_doc (A := C) F (c := '-') (d := .documentStart) (g := []) (t := o) (Or.inl ⟨rfl, rfl⟩) c2 Blanks.nil c3 hoz
  have hcol : colAfter 0 (startText canon false lb dots v tags) = if canon then 0 else 3 := by
    unfold startText openText
    rw [colAfter_append, colAfter_append]
    have : colAfter 0 (if dots then cs! "..." ++ breakChars lb else []) = 0 := by
      cases dots with
      | false => rfl
      | true => rw [if_pos rfl, colAfter_append, colAfter_break hl]
    rw [this, colAfter_dirText hl]
    cases canon with
    | true => rw [if_neg (by decide), if_pos rfl, colAfter_append, colAfter_break hl]; rfl
    | false => rfl
  have hD3 : D.mark.column = 3 := by
    rw [g5]
    have := colAfter_advance C.mark ['-', '-', '-']
    have e3 : colAfter ((0 : Nat) : Int) ['-', '-', '-'] = 3 := rfl
    rw [c3, e3] at this
    show (advance C.mark ['-', '-', '-']).column = 3
    omega
  rw [etxt, hcol]
  have toks : D.toks = A.toks ++ (docEnd dots ++ (ds ++ [.documentStart])) := by rw [g4, c4, b4]; simp
  cases hc : canon with
  | false =>
    subst hc
    have : o = T := ho
    subst this
    exact ⟨D, ds, b1.trans (c1.trans g1), g2, by rw [hD3]; rfl, toks, c5, by simp⟩
  | true =>
    subst hc
    have : o = breakChars lb ++ T := ho
    subst this
    refine ⟨D.skip (breakChars lb), ds, b1.trans (c1.trans (g1.trans (.skip breakChars_blanks.ws (hT rfl) (.refl _ _)))), g2.skip _, ?_, toks, c5, fun _ => ?_⟩
    · rw [show (D.skip (breakChars lb)).mark.column = 0 from advance_eol (w := []) hl _]; rfl
    · show (D.allowed || (D.flow == 0 && hasBrk (breakChars lb))) = true
      have := hasBrk_breakChars hl []
      rw [List.append_nil] at this
      rw [g2.flow, this]; simp

/-! ### The documents of a stream -/

/-- The rest of a stream is written and read back. -/
def Rest (canon : Bool) (F : Nat) (es : Evs) (s : EState) : Prop :=
  ∃ s' w, Feed s es s' w ∧ s'.state = .end_ ∧ (s.openEnded ≠ 0 → w = [] ∨ IsDocMarker w) ∧ Starts w ∧
    ∀ A, Top A → A.mark.column = 0 → ∃ x ts evs, Runs F A w (A.toks ++ (docEnd x ++ (ts ++ [.streamEnd]))) ∧ DerivesDocs false ts evs ∧
      (x = false → ts.head? ≠ some .documentEnd) ∧ (s.openEnded = 0 → x = false) ∧ SameEvents canon (datas es) (evs ++ [.streamEnd])

/-- The start of a document is in order. -/
structure DocGood (canon : Bool) (v : Option VersionDirective) (tags : List TagDirective) (im : Bool) : Prop where
  ok : EventOk canon (.documentStart v tags im)
  ascii : ∀ d ∈ tags, ∀ c ∈ d.prefix_, c.toNat < 128

theorem final_toks {A : Cfg} {t : Str} {ts ts' : List TokenData} (h : Final A t ts) (he : ts = ts') : Final A t ts' := he ▸ h

theorem starts_nil : Starts [] := ⟨(fun c r h => by cases h), by simp, by simp⟩

/-- The end of the stream. -/
theorem rest_end (canon : Bool) (F : Nat) {e : Event} {q : List Event} (he : e.data = .streamEnd) {s : EState} (h : Bol s) (hst : s.state = .firstDocumentStart ∨ s.state = .documentStart) :
    Rest canon F [(e, q)] s := by
  obtain ⟨s', k1, k2⟩ := process_streamEnd (s := { s with events := q }) ⟨h.brk, h.indent, h.col, h.ws, h.ind⟩ hst he
  have hfeed : Feed s [(e, q)] s' ((if s.openEnded = 2 then cs! "..." ++ breakChars s.lineBreak else []) ++ []) := .cons k1 (.nil _)
  rw [List.append_nil] at hfeed
  have hsame : SameEvents canon (datas [(e, q)]) ([] ++ [.streamEnd]) := by
    show SameEvents canon [e.data] _
    rw [he]; exact ⟨trivial, trivial⟩
  refine ⟨s', _, hfeed, k2, ?_, ?_, ?_⟩
  · intro _
    split
    · right
      refine ⟨breakChars s.lineBreak, Or.inr rfl, ?_⟩
      obtain ⟨c', r', k1, k2, _⟩ := breakChars_head h.brk
      intro c r hc
      rw [k1] at hc; simp at hc
      right; rw [isLineBreak_eq, ← hc.1]; exact k2
    · exact Or.inl rfl
  · split
    · exact starts_cons (by decide) (by decide) (by decide) (by decide) (by decide)
    · exact starts_nil
  intro A hA h0
  by_cases ho : s.openEnded = 2
  · rw [if_pos ho]
    obtain ⟨D, g1, g2, g3, g4, g5, g6⟩ := read_doc (A := A) F (c := '.') (d := .documentEnd) (g := []) (t := breakChars s.lineBreak) (Or.inr ⟨rfl, rfl⟩) hA Blanks.nil h0 (by
      obtain ⟨c', r', k1, k2, _⟩ := breakChars_head h.brk
      rw [k1]; exact endsTag_break k2 _)
    refine ⟨true, [], [], ⟨D, _, g1, ?_⟩, .none, by simp, (fun h => by rw [ho] at h; cases h), hsame⟩
    have := g2.final (t := breakChars s.lineBreak) (breakChars_blanks.wsT _)
    rw [g4] at this
    simpa [docEnd] using this
  · rw [if_neg ho]
    refine ⟨false, [], [], ⟨A, _, .refl _ _, ?_⟩, .none, by simp, fun _ => rfl, hsame⟩
    exact hA.final (Blanks.nil.wsT _)

/-- A document that begins with `---`. -/
theorem rest_doc {canon uni : Bool} {F : Nat} (first : Bool) {v : Option VersionDirective} {tags : List TagDirective} {im : Bool} {ns es : Evs} {e e' : Event} {q q' : List Event} {im' : Bool}
    (he : e.data = .documentStart v tags im) (hg : DocGood canon v tags im) (hB : ClaimB ⟨canon, uni, tags⟩ F ns) (he' : e'.data = .documentEnd im')
    (ih : ∀ s, Sett canon uni s → Bol s → s.state = .documentStart → s.states = [] → Rest canon F es s)
    {s : EState} (hs : Sett canon uni s) (hb : Bol s) (hst : s.state = if first then .firstDocumentStart else .documentStart) (hsts : s.states = [])
    (himp : impStart canon first im v tags = false) : Rest canon F ((e, q) :: (ns ++ (e', q') :: es)) s := by
  have hok : EventOk canon e.data := by rw [he]; exact hg.ok
  obtain ⟨s1, w1, a1, a2, a3, a4, a5, a6, a7, a8, a9⟩ := process_docStart first (s := { s with events := q }) ⟨hb.brk, hb.indent, hb.col, hb.ws, hb.ind⟩ hst he hok
  have hcn : ({ s with events := q } : EState).canonical = canon := hs.canon
  rw [hcn, himp] at a6 a8 a9
  have hs1 : Sett canon uni s1 := hs.core (s' := s1) (D := Props.emitterDirectives tags) a2
  have hlb1 : s1.lineBreak = s.lineBreak := by have := core_lineBreak a2; exact this
  obtain ⟨s2, w2, b1, b2, b3, b4, b5, b6, b7, b8, b9⟩ := doc_body (P := ⟨canon, uni, tags⟩) (F := F) hB (s := s1) hs1 a3 (a4.trans hsts) (core_tags a2) (by
    intro hi
    cases hc : canon with
    | true => have := a8 (Or.inr hc); exact ⟨this.col, this.ws⟩
    | false => rw [(a9 rfl hc).2] at hi; cases hi) (e := e') (q := q') he'
  obtain ⟨s3, w3, c1, c2, c3, c4, c5⟩ := ih s2 b2 b3 b4 b5
  have hrest : im' = true → w3 = [] ∨ IsDocMarker w3 := fun h => c3 (b8 h)
  obtain ⟨d1, d2, d3⟩ := b9 w3 c4 hrest
  have hfeed : Feed s ((e, q) :: (ns ++ (e', q') :: es)) s3 (w1 ++ (w2 ++ w3)) := by
    have := b1.append c1
    rw [List.append_assoc] at this
    exact .cons a1 this
  have hw1 : w1 = startText canon false s.lineBreak (dotsFirst s.openEnded v tags) v tags := a6
  have hT : canon = true → NoSplit (breakChars s.lineBreak) (w2 ++ w3) := by
    intro hc
    have := d2 hc (a8 (Or.inr hc)).ws
    rw [hlb1] at this; exact this
  have hT' : canon = false → EndsTag (w2 ++ w3) := fun hc => d1 (a9 rfl hc).1
  have hz : EndsTag ((if canon then breakChars s.lineBreak else []) ++ (w2 ++ w3)) := by
    cases hc : canon with
    | true =>
      obtain ⟨c', r', k1, k2, _⟩ := breakChars_head hs.brk
      rw [if_pos rfl, k1]; exact endsTag_break k2 _
    | false => exact hT' hc
  refine ⟨s3, _, hfeed, c2, ?_, ?_, ?_⟩
  · intro ho
    right
    rw [hw1]
    unfold startText
    cases hx : dotsFirst s.openEnded v tags with
    | true =>
      rw [if_pos rfl]
      refine ⟨breakChars s.lineBreak ++ ((dirText s.lineBreak v tags ++ openText canon false s.lineBreak) ++ (w2 ++ w3)), Or.inr (by simp), ?_⟩
      obtain ⟨c', r', k1, k2, _⟩ := breakChars_head hs.brk
      rw [k1]; exact endsTag_break k2 _
    | false =>
      have hv0 : v = none ∧ tags = [] := by
        unfold dotsFirst at hx
        have : (s.openEnded != 0) = true := by simpa using ho
        rw [this, Bool.and_true, Bool.or_eq_false_iff] at hx
        cases v <;> cases tags <;> simp at hx ⊢
      obtain ⟨rfl, rfl⟩ := hv0
      refine ⟨(if canon then breakChars s.lineBreak else []) ++ (w2 ++ w3), Or.inl ?_, hz⟩
      simp [dirText, openText]
  · rw [hw1]
    unfold startText dirText openText
    cases dotsFirst s.openEnded v tags with
    | true => exact starts_cons (by decide) (by decide) (by decide) (by decide) (by decide)
    | false =>
      cases v with
      | some v => exact starts_cons (by decide) (by decide) (by decide) (by decide) (by decide)
      | none =>
        cases tags with
        | nil => exact starts_cons (by decide) (by decide) (by decide) (by decide) (by decide)
        | cons d tags => exact starts_cons (by decide) (by decide) (by decide) (by decide) (by decide)
  intro A hA h0
  obtain ⟨hv, hd, hn⟩ := hg.ok
  obtain ⟨B, ds, r1, r2, r3, r4, r5, r6⟩ := read_start F (canon := canon) (dots := dotsFirst s.openEnded v tags) hs.brk v tags (T := w2 ++ w3) hA h0 hv
    (fun d hd' => ⟨hd d hd', hg.ascii d hd'⟩) hn hT hT'
  obtain ⟨C, ts, evs, m1, m2, m3, m4, m5, m6⟩ := d3 B r2 (by
    show (B.mark.column : Int) = s1.column
    rw [r3, a7, ← hw1]
    show _ = colAfter s.column w1
    rw [hb.col]) (fun hi => by
      cases hc : canon with
      | true => exact r6 hc
      | false => rw [(a9 rfl hc).2] at hi; cases hi)
  obtain ⟨x, ts', evs', n1, n2, n3, n4, n5⟩ := c5 C m2 m3
  obtain ⟨Z, tz, z1, z2⟩ := n1
  refine ⟨dotsFirst s.openEnded v tags, ds ++ .documentStart :: (ts ++ (docEnd (x || !im') ++ ts')), .documentStart v tags false :: (evs ++ .documentEnd (!(x || !im')) :: evs'), ⟨Z, tz, ?_, ?_⟩,
    .doc r5 ?_ (x || !im') n2 ?_, ?_, ?_, ?_⟩
  · rw [hw1]
    exact r1.trans (m1.trans z1)
  · rw [m4, r4] at z2
    refine final_toks z2 ?_
    cases im' with
    | true => simp [docEnd]
    | false =>
      have : x = false := n4 (b7 rfl)
      subst this
      simp [docEnd]
  · rcases m5 with h | ⟨h1, h2, _⟩
    · exact .some h
    · rw [h1, h2]; exact .nothing
  · intro h
    rw [Bool.or_eq_false_iff] at h
    exact n3 h.1
  · intro h
    cases ds with
    | nil => simp
    | cons d ds =>
      cases r5 <;> simp
  · intro h
    unfold dotsFirst
    rw [h]; simp
  · show SameEvents canon (e.data :: datas (ns ++ (e', q') :: es)) _
    have : datas (ns ++ (e', q') :: es) = datas ns ++ (e'.data :: datas es) := by simp [datas]
    rw [this, he, he']
    have h1 : SameEvents canon (.documentEnd im' :: datas es) (.documentEnd (!(x || !im')) :: (evs' ++ [.streamEnd])) := by
      refine ⟨?_, n5⟩
      show (!(x || !im')) = true → im' = true
      cases im' <;> simp
    have h2 := sameEvents_append m6 h1
    refine ⟨⟨rfl, rfl, by simp⟩, ?_⟩
    simpa using h2

/-- Documents with the queues behind their events. -/
inductive Docs (canon uni : Bool) : Evs → Prop
  | fin {e : Event} {q : List Event} (he : e.data = .streamEnd) : Docs canon uni [(e, q)]
  | doc {e e' : Event} {q q' : List Event} {v : Option VersionDirective} {tags : List TagDirective} {im im' : Bool} {ns es : Evs} (he : e.data = .documentStart v tags im)
      (hg : DocGood canon v tags im) (hn : Tr ⟨canon, uni, tags⟩ .node ns) (he' : e'.data = .documentEnd im') (h : Docs canon uni es) :
      Docs canon uni ((e, q) :: (ns ++ (e', q') :: es))

theorem DocGood.dirs {canon : Bool} {v : Option VersionDirective} {tags : List TagDirective} {im : Bool} (h : DocGood canon v tags im) : DirsOk tags :=
  ⟨h.ok.2.2, h.ok.2.1⟩

theorem docs_rest {canon uni : Bool} (F : Nat) {es : Evs} (h : Docs canon uni es) : ∀ s, Sett canon uni s → Bol s → s.state = .documentStart → s.states = [] → Rest canon F es s := by
  induction h with
  | fin he => intro s _ hb hst _; exact rest_end canon F he hb (Or.inr hst)
  | doc he hg hn he' _ ih =>
    intro s hs hb hst hsts
    exact rest_doc false he hg (claims F hg.dirs hn).1 he' ih hs hb hst hsts (by simp [impStart])

/-! ### The whole stream after its start -/

/-- The first document would be lost: it begins without `---` and nothing is written for its root. -/
def Lost (canon : Bool) : Evs → Prop
  | (e, _) :: es => e.data = .documentStart none [] true ∧ canon = false ∧ ∃ ns e' q' es', es = ns ++ (e', q') :: es' ∧ Bare ns
  | [] => False

theorem docs_stream {canon uni : Bool} (F : Nat) {es : Evs} (h : Docs canon uni es) (hl : ¬ Lost canon es) {s : EState} (hs : Sett canon uni s) (hb : Bol s)
    (hst : s.state = .firstDocumentStart) (hsts : s.states = []) (ho : s.openEnded = 0) :
    ∃ s' w, Feed s es s' w ∧ s'.state = .end_ ∧ ∀ enc, ∃ toks evs, Runs F (start enc) w toks ∧ DerivesStream false toks (.streamStart enc :: evs) ∧ SameEvents canon (datas es) evs := by
  have fin : Rest canon F es s → ∃ s' w, Feed s es s' w ∧ s'.state = .end_ ∧
      ∀ enc, ∃ toks evs, Runs F (start enc) w toks ∧ DerivesStream false toks (.streamStart enc :: evs) ∧ SameEvents canon (datas es) evs := by
    rintro ⟨s', w, h1, h2, h3, h4, h5⟩
    refine ⟨s', w, h1, h2, fun enc => ?_⟩
    obtain ⟨x, ts, evs, k1, k2, k3, k4, k5⟩ := h5 (start enc) (top_start enc) rfl
    have hx := k4 ho
    subst hx
    exact ⟨_, _, k1, .explicit enc k2 (k3 rfl), k5⟩
  cases h with
  | fin he => exact fin (rest_end canon F he hb (Or.inl hst))
  | @doc e e' q q' v tags im im' ns es he hg hn he' h =>
    cases himp : impStart canon true im v tags with
    | false => exact fin (rest_doc true he hg (claims F hg.dirs hn).1 he' (docs_rest F h) hs hb hst hsts himp)
    | true =>
      obtain ⟨hc, rfl, rfl, rfl⟩ : canon = false ∧ im = true ∧ v = none ∧ tags = [] := by
        unfold impStart at himp
        cases canon <;> cases im <;> cases v <;> cases tags <;> simp at himp ⊢
      have hok : EventOk canon e.data := by rw [he]; exact hg.ok
      obtain ⟨s1, w1, a1, a2, a3, a4, a5, a6, a7, a8, a9⟩ := process_docStart true (s := { s with events := q }) ⟨hb.brk, hb.indent, hb.col, hb.ws, hb.ind⟩ hst he hok
      have hcn : ({ s with events := q } : EState).canonical = canon := hs.canon
      rw [hcn, himp] at a6 a8
      have hw1 : w1 = [] := a6
      subst hw1
      have hb1 := a8 (Or.inl rfl)
      have hs1 : Sett canon uni s1 := hs.core (s' := s1) (D := Props.emitterDirectives []) a2
      obtain ⟨s2, w2, b1, b2, b3, b4, b5, b6, b7, b8, b9⟩ := doc_body (P := ⟨canon, uni, []⟩) (F := F) (claims F hg.dirs hn).1 (s := s1) hs1 a3 (a4.trans hsts) (core_tags a2)
        (fun _ => ⟨hb1.col, hb1.ws⟩) (e := e') (q := q') he'
      obtain ⟨s3, w3, c1, c2, c3, c4, c5⟩ := docs_rest F h s2 b2 b3 b4 b5
      obtain ⟨d1, d2, d3⟩ := b9 w3 c4 (fun h => c3 (b8 h))
      have hfeed : Feed s ((e, q) :: (ns ++ (e', q') :: es)) s3 ([] ++ (w2 ++ w3)) := by
        have := b1.append c1
        rw [List.append_assoc] at this
        exact .cons a1 this
      refine ⟨s3, _, hfeed, c2, fun enc => ?_⟩
      obtain ⟨C, ts, evs, m1, m2, m3, m4, m5, m6⟩ := d3 (start enc) (top_start enc) (by
        show ((0 : Nat) : Int) = s1.column; rw [hb1.col]; rfl) (fun _ => rfl)
      obtain ⟨x, ts', evs', n1, n2, n3, n4, n5⟩ := c5 C m2 m3
      obtain ⟨Z, tz, z1, z2⟩ := n1
      have hder : Derives false [] (.node true false) ts evs := by
        rcases m5 with h | ⟨_, _, h⟩
        · exact h
        · exact absurd ⟨he, hc, ns, e', q', es, rfl, h⟩ hl
      refine ⟨_, _, ⟨Z, tz, m1.trans z1, final_toks z2 ?_⟩, .implicit enc hder (x || !im') n2 ?_, ?_⟩
      · rw [m4]
        cases im' with
        | true => simp [docEnd, start]
        | false =>
          have : x = false := n4 (b7 rfl)
          subst this
          simp [docEnd, start]
      · intro h
        rw [Bool.or_eq_false_iff] at h
        exact n3 h.1
      · show SameEvents canon (e.data :: datas (ns ++ (e', q') :: es)) _
        have : datas (ns ++ (e', q') :: es) = datas ns ++ (e'.data :: datas es) := by simp [datas]
        rw [this, he, he']
        have h1 : SameEvents canon (.documentEnd im' :: datas es) (.documentEnd (!(x || !im')) :: (evs' ++ [.streamEnd])) := by
          refine ⟨?_, n5⟩
          show (!(x || !im')) = true → im' = true
          cases im' <;> simp
        exact ⟨⟨rfl, rfl, fun _ => rfl⟩, sameEvents_append m6 h1⟩

end Yaml.Rt
