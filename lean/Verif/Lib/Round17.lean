import Verif.Lib.Round16

/-
Reading back, emitter side: directives and the beginnings and ends of documents.
-/

namespace Yaml.Rt
open Yaml Emitter Lx Spec
set_option linter.unusedSimpArgs false
set_option linter.unusedVariables false

/-! ### Processing events -/

/-- Events are processed one after the other, each with the queue behind it. -/
inductive Feed : EState → Evs → EState → Str → Prop
  | nil (s : EState) : Feed s [] s []
  | cons {s s1 s2 : EState} {e : Event} {q : List Event} {es : Evs} {w1 w2 : Str} (hw : Writes (process e) { s with events := q } () s1 w1) (h : Feed s1 es s2 w2) :
      Feed s ((e, q) :: es) s2 (w1 ++ w2)

theorem Feed.append {s1 s2 s3 : EState} {es fs : Evs} {w1 w2 : Str} (h : Feed s1 es s2 w1) (h' : Feed s2 fs s3 w2) : Feed s1 (es ++ fs) s3 (w1 ++ w2) := by
  induction h with
  | nil => exact h'
  | cons hw _ ih => rw [List.append_assoc]; exact .cons hw (ih h')

theorem writes_process {e : Event} {s s1 : EState} {a : Analysis} {w : Str} (ha : Writes (analyzeEvent e s.tagDirectives) { s with tagDirectives := [] } a { s with tagDirectives := [] } [])
    (hs : Writes (stateMachine e a) { s with tagDirectives := [] } () s1 w) :
    Writes (process e) s () { s1 with tagDirectives := if s1.tagDirectives.isEmpty then s.tagDirectives else s1.tagDirectives } w := by
  unfold process
  refine Writes.bind_get (Writes.bind_modify (ha.bind0 ?_))
  exact (hs.bind (Writes.modify _ _)).cast rfl (by simp)

/-- The state machine over events, with the directives put back each time. -/
theorem Puts.feed {P : Par} {s s' : EState} {es : Evs} {w : Str} (h : Puts P s es s' w) (hk : Kept P s) :
    Feed { s with tagDirectives := Props.emitterDirectives P.tags } es { s' with tagDirectives := Props.emitterDirectives P.tags } w := by
  induction h with
  | nil => exact .nil _
  | @cons s s1 s2 e q es a w1 w2 ha hw ht _ ih =>
    refine .cons (s1 := { s1 with tagDirectives := Props.emitterDirectives P.tags }) ?_ (ih ht)
    have hs0 : ({ s with tagDirectives := [], events := q } : EState) = { s with events := q } := by
      have := hk.tags
      cases s; cases this; rfl
    have := writes_process (e := e) (s := { s with tagDirectives := Props.emitterDirectives P.tags, events := q }) (s1 := s1) (a := a) (w := w1)
      (ha _ hk.canon hk.uni) (by
        show Writes (stateMachine e a) { s with tagDirectives := [], events := q } () s1 w1
        rw [hs0]; exact hw)
    refine this.cast ?_ rfl
    rw [if_pos (by rw [ht.tags]; rfl)]

/-! ### At the beginning of a line -/

/-- Between documents. -/
structure Bol (s : EState) : Prop where
  brk : s.lineBreak ≠ .any
  indent : s.indent = -1
  col : s.column = 0
  ws : s.whitespace = true
  ind : s.indention = true

theorem Bol.stay {s : EState} (h : Bol s) : Writes writeIndent s () s [] := by
  have hb : breaksLine s = false := by
    unfold breaksLine
    rw [h.indent, h.col, h.ws, h.ind]; rfl
  refine (writes_writeIndent_stay hb).cast ?_ ?_
  · obtain ⟨h1, h2, h3, h4, h5⟩ := h
    cases s; cases h2; cases h3; cases h4; cases h5; rfl
  · rw [h.indent, h.col]; rfl

/-- The end of a line. -/
theorem writes_eol {s : EState} (hl : s.lineBreak ≠ .any) (hi : s.indent = -1) (hn : s.indention = false) :
    ∃ s', Writes writeIndent s () s' (breakChars s.lineBreak) ∧ Wrote s (breakChars s.lineBreak) s' ∧ Bol s' := by
  have hb : breaksLine s = true := by unfold breaksLine; rw [hn]; rfl
  have e : breakChars s.lineBreak ++ List.replicate s.indent.toNat ' ' = breakChars s.lineBreak := by rw [hi]; simp
  have h1 := writes_writeIndent_break hb
  have h2 := wrote_indent_break (s := s) hl
  rw [e] at h1 h2
  exact ⟨_, h1, h2, hl, hi, by show (if s.indent ≥ 0 then s.indent else 0) = 0; rw [hi]; rfl, rfl, rfl⟩

/-- A line. -/
theorem writes_lineOf {m : Emit Unit} {s s1 : EState} {w : Str} (h : Bol s) (h1 : Writes m s () s1 w) (h2 : Wrote s w s1) (h3 : s1.indention = false) :
    ∃ s', Writes (m >>= fun _ => writeIndent) s () s' (w ++ breakChars s.lineBreak) ∧ Wrote s (w ++ breakChars s.lineBreak) s' ∧ Bol s' := by
  obtain ⟨s', k1, k2, k3⟩ := writes_eol (s := s1) (by rw [h2.lineBreak]; exact h.brk) (by rw [h2.indent]; exact h.indent) h3
  rw [h2.lineBreak] at k1 k2
  exact ⟨s', h1.bind k1, h2.trans k2, k3⟩

/-! ### Directives -/

/-- The `%YAML` line. -/
def versionText (v : VersionDirective) : Str := cs! "%YAML" ++ ' ' :: (if v.minor = 1 then cs! "1.1" else cs! "1.2")

/-- A `%TAG` line. -/
def tagLine (t : TagDirective) : Str := cs! "%TAG" ++ ' ' :: (t.handle ++ ' ' :: uriOf t.prefix_)

/-- The lines of the directives. -/
def dirText (lb : Break) (v : Option VersionDirective) (tags : List TagDirective) : Str :=
  (v.elim [] fun v => versionText v ++ breakChars lb) ++ tags.flatMap fun t => tagLine t ++ breakChars lb

theorem sep_space {s : EState} (h : s.whitespace = false) : sep s = [' '] := by unfold sep; rw [h]; rfl

theorem writes_version (v : VersionDirective) {s : EState} (h : Bol s) :
    ∃ s', Writes (do
        writeIndicator (cs! "%YAML") true false false
        if v.minor = 1 then writeIndicator (cs! "1.1") true false false
        else writeIndicator (cs! "1.2") true false false
        writeIndent) s () s' (versionText v ++ breakChars s.lineBreak) ∧ Wrote s (versionText v ++ breakChars s.lineBreak) s' ∧ Bol s' := by
  obtain ⟨s1, a1, a2, a3, a4⟩ := writes_indicator (cs! "%YAML") false false s (by decide)
  rw [sep_eq h.ws, List.nil_append] at a1 a2
  have key : ∀ x : Str, (∀ c ∈ x, isBreak c = false) → ∃ s', Writes (writeIndicator x true false false >>= fun _ => writeIndent) s1 () s' ((' ' :: x) ++ breakChars s.lineBreak) ∧
      Wrote s1 ((' ' :: x) ++ breakChars s.lineBreak) s' ∧ Bol s' := by
    intro x hx
    obtain ⟨s2, b1, b2, b3, b4⟩ := writes_indicator x false false s1 hx
    rw [sep_space a3] at b1 b2
    obtain ⟨s', k1, k2, k3⟩ := writes_eol (s := s2) (by rw [b2.lineBreak, a2.lineBreak]; exact h.brk) (by rw [b2.indent, a2.indent]; exact h.indent) (by rw [b4]; simp)
    rw [b2.lineBreak, a2.lineBreak] at k1 k2
    exact ⟨s', b1.bind k1, b2.trans k2, k3⟩
  unfold versionText
  by_cases hm : v.minor = 1
  · obtain ⟨s', k1, k2, k3⟩ := key (cs! "1.1") (by decide)
    refine ⟨s', ?_, ?_, k3⟩
    · rw [if_pos hm, if_pos hm]
      exact (a1.bind k1).cast rfl (by simp)
    · rw [if_pos hm]; simpa using a2.trans k2
  · obtain ⟨s', k1, k2, k3⟩ := key (cs! "1.2") (by decide)
    refine ⟨s', ?_, ?_, k3⟩
    · rw [if_neg hm, if_neg hm]
      exact (a1.bind k1).cast rfl (by simp)
    · rw [if_neg hm]; simpa using a2.trans k2

theorem writes_tagHandle {n : Str} (hh : HandleOk n) (s : EState) (hw : s.whitespace = false) :
    ∃ s1, Writes (writeTagHandle n) s () s1 (' ' :: n) ∧ Wrote s (' ' :: n) s1 ∧ s1.whitespace = false ∧ s1.indention = false := by
  refine ⟨{ s with column := s.column + 1 + n.length, whitespace := false, indention := false }, ?_, ?_, rfl, rfl⟩
  · unfold writeTagHandle
    refine Writes.bind_get (((Writes.when_true (by simp [hw]) (writes_put ' ' s)).bind ?_).cast (w := [' '] ++ n) rfl rfl)
    exact ((writes_writeStr n _).bind (Writes.modify (fun s => { s with whitespace := false, indention := false }) _)).cast rfl (by simp)
  · exact (((wrote_char (c := ' ') (by decide) s).trans (wrote_str (handle_noBreak hh) _))).setWI _ _

theorem writes_tagPrefix (u : Str) (s : EState) (hw : s.whitespace = false) :
    ∃ s1, Writes (writeTagContent u true) s () s1 (' ' :: uriOf u) ∧ Wrote s (' ' :: uriOf u) s1 ∧ s1.whitespace = false ∧ s1.indention = false := by
  refine ⟨{ s with column := s.column + 1 + (uriOf u).length, whitespace := false, indention := false }, ?_, ?_, rfl, rfl⟩
  · unfold writeTagContent
    refine Writes.bind_get (((Writes.when_true (by simp [hw]) (writes_put ' ' s)).bind ?_).cast (w := [' '] ++ uriOf u) rfl rfl)
    exact ((writes_tagContentLoop u _).bind (Writes.modify (fun s => { s with whitespace := false, indention := false }) _)).cast rfl (by simp)
  · exact (((wrote_char (c := ' ') (by decide) s).trans (wrote_str (uriOf_noBreak u) _))).setWI _ _

theorem writes_tagLines : ∀ (tags : List TagDirective) (s : EState), Bol s → (∀ t ∈ tags, DirectiveOk t) →
    ∃ s', Writes (writeTagLines tags) s () s' (tags.flatMap fun t => tagLine t ++ breakChars s.lineBreak) ∧ Wrote s (tags.flatMap fun t => tagLine t ++ breakChars s.lineBreak) s' ∧ Bol s'
  | [], s, h, _ => ⟨s, Writes.pure () s, Wrote.refl s, h⟩
  | t :: tags, s, h, hd => by
    have hh := (hd t (by simp)).1
    obtain ⟨s1, a1, a2, a3, a4⟩ := writes_indicator (cs! "%TAG") false false s (by decide)
    rw [sep_eq h.ws, List.nil_append] at a1 a2
    obtain ⟨s2, b1, b2, b3, b4⟩ := writes_tagHandle hh s1 a3
    obtain ⟨s3, c1, c2, c3, c4⟩ := writes_tagPrefix t.prefix_ s2 b3
    have hb : s3.lineBreak = s.lineBreak := by rw [c2.lineBreak, b2.lineBreak, a2.lineBreak]
    obtain ⟨s4, d1, d2, d3⟩ := writes_eol (s := s3) (by rw [hb]; exact h.brk) (by rw [c2.indent, b2.indent, a2.indent]; exact h.indent) c4
    rw [hb] at d1 d2
    have hb4 : s4.lineBreak = s.lineBreak := by rw [d2.lineBreak, hb]
    obtain ⟨s5, e1, e2, e3⟩ := writes_tagLines tags s4 d3 (fun x hx => hd x (by simp [hx]))
    rw [hb4] at e1 e2
    refine ⟨s5, ?_, ?_, e3⟩
    · refine (a1.bind (f := fun _ => do writeTagHandle t.handle; writeTagContent t.prefix_ true; writeIndent; writeTagLines tags)
        (b1.bind (c1.bind (d1.bind e1)))).cast rfl ?_
      simp [tagLine]
    · have := a2.trans (b2.trans (c2.trans (d2.trans e2)))
      simpa [tagLine] using this

theorem writes_analyzeTagDirective {t : TagDirective} (h : DirectiveOk t) (s : EState) : Writes (analyzeTagDirective t) s () s [] := by
  obtain ⟨h1, h2, h3, h4⟩ := HandleOk.checks h.1
  unfold analyzeTagDirective
  rw [if_neg (by simpa using h1), if_neg (by simpa using h2), if_neg (by simpa using h3), if_neg (by rw [h4]; simp), if_neg (by simpa using h.2)]
  exact Writes.pure () s

theorem writes_declareTags : ∀ (tags : List TagDirective) (s : EState), (∀ t ∈ tags, DirectiveOk t) → ((s.tagDirectives ++ tags).map (·.handle)).Nodup →
    Writes (declareTags tags) s () { s with tagDirectives := s.tagDirectives ++ tags } []
  | [], s, _, _ => (Writes.pure () s).cast (by simp) rfl
  | t :: tags, s, hd, hn => by
    unfold declareTags
    refine (writes_analyzeTagDirective (hd t (by simp)) s).bind0 ?_
    have hany : s.tagDirectives.any (fun t' => t.handle == t'.handle) = false := by
      rw [Bool.eq_false_iff]
      intro h
      rw [List.any_eq_true] at h
      obtain ⟨t', ht', heq⟩ := h
      rw [List.map_append, List.nodup_append] at hn
      exact hn.2.2 t'.handle (List.mem_map.2 ⟨t', ht', rfl⟩) t.handle (by simp) (by simpa using (beq_iff_eq.1 heq).symm)
    have h1 : Writes (appendTagDirective t false) s () { s with tagDirectives := s.tagDirectives ++ [t] } [] := by
      unfold appendTagDirective
      refine Writes.bind_get ?_
      rw [hany, if_neg (by simp)]
      exact Writes.modify _ _
    refine h1.bind0 ?_
    have := writes_declareTags tags { s with tagDirectives := s.tagDirectives ++ [t] } (fun x hx => hd x (by simp [hx])) (by simpa using hn)
    refine this.cast ?_ rfl
    simp

theorem writes_declareDefaults (tags : List TagDirective) (s : EState) (h : s.tagDirectives = tags) :
    Writes (declareDefaults defaultTagDirectives) s () { s with tagDirectives := Props.emitterDirectives tags } [] := by
  have step : ∀ (t : TagDirective) (s : EState), Writes (appendTagDirective t true) s ()
      { s with tagDirectives := s.tagDirectives ++ if s.tagDirectives.any (fun x => t.handle == x.handle) then [] else [t] } [] := by
    intro t s
    unfold appendTagDirective
    refine Writes.bind_get ?_
    split
    · rw [if_pos rfl]; exact (Writes.pure () s).cast (by simp) rfl
    · exact Writes.modify _ _
  refine ((step ⟨cs! "!", cs! "!"⟩ s).bind0 (f := fun _ => declareDefaults [⟨cs! "!!", cs! "tag:yaml.org,2002:"⟩])
    ((step ⟨cs! "!!", cs! "tag:yaml.org,2002:"⟩ _).bind0 (f := fun _ => declareDefaults []) (Writes.pure () _))).cast ?_ rfl
  rw [h]
  unfold Props.emitterDirectives defaultTagDirectives
  congr 1
  generalize (cs! "tag:yaml.org,2002:") = pfx
  have hc : ∀ (x : Str) (y : TagDirective), (x == y.handle) = (y.handle == x) := fun x y => by rw [Bool.eq_iff_iff, beq_iff_eq, beq_iff_eq]; exact eq_comm
  simp only [hc, List.any_append, List.filter]
  cases h1 : tags.any (fun x => x.handle == cs! "!") <;> cases h2 : tags.any (fun x => x.handle == cs! "!!") <;> exact List.append_assoc tags _ _

end Yaml.Rt
