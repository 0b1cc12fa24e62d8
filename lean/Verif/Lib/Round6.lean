import Verif.Lib.Round5

/-
Reading back, emitter side: runs of the state machine over events, and what the analysis says.
-/

namespace Yaml.Rt
open Yaml Emitter Lx Spec
set_option linter.unusedSimpArgs false
set_option linter.unusedVariables false

/-- Canonical mode, Unicode, and the `%TAG` directives of the document. -/
structure Par where
  canon : Bool
  uni : Bool
  tags : List TagDirective

/-- The analysis of the event. -/
def Ana (P : Par) (e : Event) (a : Analysis) : Prop :=
  ∀ s : EState, s.canonical = P.canon → s.unicode = P.uni → Writes (analyzeEvent e (Props.emitterDirectives P.tags)) s a s []

/-- The settings the analysis looks at; the directives are kept aside while the state machine runs. -/
structure Kept (P : Par) (s : EState) : Prop where
  canon : s.canonical = P.canon
  uni : s.unicode = P.uni
  tags : s.tagDirectives = []

/-- The state machine goes over events, each with the queue behind it. -/
inductive Puts (P : Par) : EState → List (Event × List Event) → EState → Str → Prop
  | nil (s : EState) : Puts P s [] s []
  | cons {s s1 s2 : EState} {e : Event} {q : List Event} {es : List (Event × List Event)} {a : Analysis} {w1 w2 : Str} (ha : Ana P e a)
      (hw : Writes (stateMachine e a) { s with events := q } () s1 w1) (ht : Kept P s1) (h : Puts P s1 es s2 w2) : Puts P s ((e, q) :: es) s2 (w1 ++ w2)

theorem Puts.append {P : Par} {s1 s2 s3 : EState} {es fs : List (Event × List Event)} {w1 w2 : Str} (h : Puts P s1 es s2 w1) (h' : Puts P s2 fs s3 w2) :
    Puts P s1 (es ++ fs) s3 (w1 ++ w2) := by
  induction h with
  | nil => exact h'
  | cons ha hw ht _ ih => rw [List.append_assoc]; exact .cons ha hw ht (ih h')

/-- The first event is handled by `f`, the others by the state machine. -/
def Run (P : Par) (f : Event → Analysis → Emit Unit) (s : EState) (es : List (Event × List Event)) (s' : EState) (w : Str) : Prop :=
  ∃ e q es' a s1 w1 w2, es = (e, q) :: es' ∧ Ana P e a ∧ Writes (f e a) { s with events := q } () s1 w1 ∧ Kept P s1 ∧
    Puts P s1 es' s' w2 ∧ w = w1 ++ w2

theorem Run.puts {P : Par} {f : Event → Analysis → Emit Unit} {s s' : EState} {es : List (Event × List Event)} {w : Str} (h : Run P f s es s' w)
    (hf : ∀ e a q, stateMachine e a { s with events := q } = f e a { s with events := q }) : Puts P s es s' w := by
  obtain ⟨e, q, es', a, s1, w1, w2, rfl, h2, h3, ht, h4, rfl⟩ := h
  refine .cons h2 ?_ ht h4
  intro W
  rw [hf]; exact h3 W

theorem Run.append {P : Par} {f : Event → Analysis → Emit Unit} {s s1 s2 : EState} {es fs : List (Event × List Event)} {w w' : Str} (h : Run P f s es s1 w)
    (h' : Puts P s1 fs s2 w') : Run P f s (es ++ fs) s2 (w ++ w') := by
  obtain ⟨e, q, es', a, s1, w1, w2, rfl, h2, h3, ht, h4, rfl⟩ := h
  exact ⟨e, q, es' ++ fs, a, _, w1, w2 ++ w', rfl, h2, h3, ht, h4.append h', by simp⟩

/-- Something is written before the first event is handled. -/
theorem Run.before {P : Par} {f g : Event → Analysis → Emit Unit} {s s1 s2 : EState} {es : List (Event × List Event)} {w0 w : Str} (h : Run P g s1 es s2 w)
    (hf : ∀ e a q s3 w3, es.head? = some (e, q) → Writes (g e a) { s1 with events := q } () s3 w3 → Writes (f e a) { s with events := q } () s3 (w0 ++ w3)) :
    Run P f s es s2 (w0 ++ w) := by
  obtain ⟨e, q, es', a, s3, w1, w2, rfl, h2, h3, ht, h4, rfl⟩ := h
  exact ⟨e, q, es', a, s3, w0 ++ w1, w2, rfl, h2, hf e a q s3 w1 rfl h3, ht, h4, by simp⟩

/-- The settings are in order. -/
structure Env (P : Par) (s : EState) : Prop where
  canon : s.canonical = P.canon
  uni : s.unicode = P.uni
  brk : s.lineBreak ≠ .any
  best : 2 ≤ s.bestIndent ∧ s.bestIndent ≤ 9
  indent : -1 ≤ s.indent
  tags : s.tagDirectives = []

theorem Env.core {P : Par} {s s' : EState} (h : Env P s) (hc : core s' = core s) : Env P s' :=
  ⟨by rw [core_canonical hc]; exact h.canon, by rw [core_unicode hc]; exact h.uni, by rw [core_lineBreak hc]; exact h.brk,
   by rw [core_bestIndent hc]; exact h.best, by rw [core_indent hc]; exact h.indent, by rw [core_tags hc]; exact h.tags⟩

theorem Env.kept {P : Par} {s s' : EState} (h : Env P s) (hc : Rt.core s' = Rt.core s) : Kept P s' :=
  ⟨(h.core hc).canon, (h.core hc).uni, (h.core hc).tags⟩

/-! ### What the analysis says -/

/-- The analysis of the properties of a node. -/
structure PropsSeen (P : Par) (a : Analysis) (anchor tag : Option Str) : Prop where
  name : a.anchor = anchor.map fun n => ⟨n, false⟩
  names : ∀ n, anchor = some n → NameOk n
  no : a.tag = none → tag = none
  yes : ∀ x, a.tag = some x → ∃ t, tag = some t ∧ TagGood P.tags x t
  ne : tag ≠ some []

/-- What is known about the analysis of a node event. -/
def Seen (P : Par) (d : EventData) (a : Analysis) : Prop :=
  match d with
  | .alias n => NameOk n ∧ a.anchor = some ⟨n, true⟩
  | .scalar anchor _ v p q st => PropsSeen P a anchor (writtenTag P.canon d) ∧ a.scalar = some (analyzeScalar P.uni v) ∧
      (a.tag = none → p = true ∨ q = true) ∧ (st = .folded → Props.FoldOk v)
  | .sequenceStart anchor _ _ _ => PropsSeen P a anchor (writtenTag P.canon d)
  | .mappingStart anchor _ _ _ => PropsSeen P a anchor (writtenTag P.canon d)
  | _ => True

/-- A tag that can be written and read back in a document with the `%TAG` directives `D`: ASCII, and without `,`, `[` and `]` behind a
declared prefix. -/
def TagPlain (D : List TagDirective) (t : Str) : Prop :=
  (∀ c ∈ t, c.toNat < 128) ∧ ∀ d ∈ Props.emitterDirectives D, ∀ sfx, t = d.prefix_ ++ sfx → ∀ c ∈ sfx, c ∉ (cs! ",[]")

/-- The condition on node events. -/
structure NodeGood (P : Par) (d : EventData) : Prop where
  ok : EventOk P.canon d
  tag : ∀ t, writtenTag P.canon d = some t → TagPlain P.tags t
  folded : ∀ an tg v p q, d = .scalar an tg v p q .folded → Props.FoldOk v

/-- The directives of the document are in order. -/
structure DirsOk (D : List TagDirective) : Prop where
  nodup : (D.map (·.handle)).Nodup
  ok : ∀ d ∈ D, DirectiveOk d

theorem analyzeTag_indep {tag : Str} {D : List TagDirective} {s s' : EState} {t : TagAnalysis} (h : Writes (analyzeTag tag D) s t s []) :
    Writes (analyzeTag tag D) s' t s' [] := by
  have key : ∀ L, Writes (analyzeTagLoop tag L) s t s [] → Writes (analyzeTagLoop tag L) s' t s' [] := by
    intro L
    induction L with
    | nil =>
      intro h
      have := h []
      have e : t = ⟨[], tag⟩ := by
        have := h.det (Writes.pure (⟨[], tag⟩ : TagAnalysis) s)
        exact this.1
      rw [e]; exact Writes.pure _ s'
    | cons d L ih =>
      intro h
      rw [analyzeTagLoop] at h ⊢
      split
      · rename_i h1
        rw [if_pos h1] at h
        split
        · rename_i h2
          rw [h2] at h
          have := h []
          cases this
        · rename_i pre suffix h2
          rw [h2] at h
          simp only at h
          split
          · rename_i h3
            rw [if_pos h3] at h
            have := h.det (Writes.pure (⟨d.handle, suffix⟩ : TagAnalysis) s)
            rw [this.1]; exact Writes.pure _ s'
          · rename_i h3
            rw [if_neg h3] at h
            exact ih h
      · rename_i h1
        rw [if_neg h1] at h
        exact ih h
  unfold analyzeTag at h ⊢
  split
  · rename_i h1
    rw [if_pos h1] at h
    have := h []
    cases this
  · rename_i h1
    rw [if_neg h1] at h
    exact key D h

theorem tagGood_of {D : List TagDirective} (hD : DirsOk D) {tag : Str} (hne : tag ≠ []) (ht : TagPlain D tag) :
    ∃ t, (∀ s, Writes (analyzeTag tag (Props.emitterDirectives D)) s t s []) ∧ TagGood D t tag := by
  obtain ⟨ha, hf⟩ := ht
  obtain ⟨t, h1, h2, h3⟩ := Emitter.writes_analyzeTag tag (Props.emitterDirectives D) Props.emitter0 hne ha
  have hh : t.handle = [] ∨ HandleOk t.handle := by
    rcases h3 with ⟨h, _⟩ | ⟨d, hd, h, _⟩
    · exact Or.inl h
    · right
      rw [h]
      unfold Props.emitterDirectives at hd
      rcases List.mem_append.1 hd with hd | hd
      · exact (hD.ok d hd).1
      · rw [List.mem_filter] at hd
        have := hd.1
        simp [defaultTagDirectives] at this
        rcases this with rfl | rfl
        · exact Or.inl rfl
        · exact Or.inr ⟨[], rfl, by simp⟩
  have hok : Emitter.TagOk t := by
    refine ⟨h2, ?_, ?_⟩
    · rcases h3 with ⟨_, h⟩ | ⟨d, hd, _, h⟩
      · rw [h]; exact ha
      · exact fun c hc => ha c (by rw [h]; exact List.mem_append_right _ hc)
    · rcases h3 with ⟨h, _⟩ | ⟨d, hd, h, h'⟩
      · exact Or.inl h
      · rcases hh with hh | hh
        · exact Or.inl hh
        · exact Or.inr ⟨hh, hf d hd _ h'⟩
  refine ⟨t, fun s => analyzeTag_indep h1, fun _ => h2, hh, t.handle, t.suffix, Emitter.tagText_denotes hok, ?_⟩
  show if t.handle = [] then some tag = some t.suffix else ∃ pre, prefixOf D t.handle = some pre ∧ some tag = some (pre ++ t.suffix)
  rcases h3 with ⟨h, h'⟩ | ⟨d, hd, h, h'⟩
  · rw [if_pos h, h']
  · have h0 : t.handle ≠ [] := by
      intro h0
      rw [h] at h0
      unfold Props.emitterDirectives at hd
      rcases List.mem_append.1 hd with hd | hd
      · rcases (hD.ok d hd).1 with h | ⟨n, h, _⟩ <;> rw [h0] at h <;> cases h
      · rw [List.mem_filter] at hd
        have := hd.1
        simp [defaultTagDirectives] at this
        rcases this with rfl | rfl <;> cases h0
    rw [if_neg h0]
    exact ⟨d.prefix_, h ▸ Props.emitterDirectives_resolve D hD.nodup d hd, by rw [← h']⟩

theorem writes_analyzeAnchor {n : Str} (al : Bool) (hn : NameOk n) (s : EState) : Writes (analyzeAnchor n al) s ⟨n, al⟩ s [] := by
  unfold analyzeAnchor
  have h1 : n.isEmpty = false := by simpa using hn.1
  have h2 : n.all isAlpha = true := by
    rw [List.all_eq_true]
    intro c hc
    exact (name_facts (hn.2 c hc)).1
  rw [h1, h2]
  exact Writes.pure _ s

theorem writes_optAnchor {an : Option Str} (hn : ∀ n, an = some n → NameOk n) (s : EState) :
    Writes (analyzeOptAnchor an) s (an.map fun n => ⟨n, false⟩) s [] := by
  cases an with
  | none => exact Writes.pure _ s
  | some n => exact (writes_analyzeAnchor false (hn n rfl) s).bind0 (Writes.pure _ s)

theorem writes_optTag {D : List TagDirective} (hD : DirsOk D) {tag : Option Str} {b : Bool} (hne : ∀ t, tag = some t → b = true → t ≠ [] ∧ TagPlain D t) :
    ∃ x, (∀ s, Writes (analyzeOptTag b (Props.emitterDirectives D) tag) s x s []) ∧ (x = none → (if b = true then tag else none) = none) ∧
      (∀ y, x = some y → ∃ t, (if b = true then tag else none) = some t ∧ TagGood D y t) ∧ (if b = true then tag else none) ≠ some [] := by
  cases tag with
  | none => exact ⟨none, Writes.pure _, by simp, by simp, by simp⟩
  | some t =>
    cases b with
    | false => exact ⟨none, Writes.pure _, by simp, by simp, by simp⟩
    | true =>
      obtain ⟨h1, h2⟩ := hne t rfl rfl
      obtain ⟨x, h3, h4⟩ := tagGood_of hD h1 h2
      exact ⟨some x, fun s => (h3 s).bind0 (Writes.pure _ s), by simp, fun y hy => ⟨t, rfl, by cases hy; exact h4⟩, by simpa using h1⟩

/-- Node events are analysed. -/
theorem analysed {P : Par} (hD : DirsOk P.tags) {e : Event} (h : NodeGood P e.data)
    (hn : (∃ n, e.data = .alias n) ∨ (∃ a b c d f g, e.data = .scalar a b c d f g) ∨ (∃ a b c d, e.data = .sequenceStart a b c d) ∨
      (∃ a b c d, e.data = .mappingStart a b c d) ∨ e.data = .sequenceEnd ∨ e.data = .mappingEnd) : ∃ a, Ana P e a ∧ Seen P e.data a := by
  obtain ⟨hok, htag, hfold⟩ := h
  rcases hn with ⟨n, hn⟩ | ⟨an, tg, v, p, q, st, hn⟩ | ⟨an, tg, im, st, hn⟩ | ⟨an, tg, im, st, hn⟩ | hn | hn
  · rw [hn] at hok
    refine ⟨{ anchor := some ⟨n, true⟩ }, fun s _ _ => ?_, by rw [hn]; exact ⟨hok, rfl⟩⟩
    refine Writes.bind_get ?_
    rw [hn]
    exact (writes_analyzeAnchor true hok s).bind0 (Writes.pure _ s)
  · rw [hn] at hok htag
    have hb : ∀ t, tg = some t → (P.canon || (!p && !q)) = true → t ≠ [] ∧ TagPlain P.tags t := by
      intro t ht hb
      refine ⟨hok.2.2 t ht ?_, htag t ?_⟩
      · simpa using hb
      · simp only [writtenTag]; rw [if_pos hb]; exact ht
    obtain ⟨x, h1, h2, h3, h4⟩ := writes_optTag hD hb
    refine ⟨{ anchor := an.map fun n => ⟨n, false⟩, tag := x, scalar := some (analyzeScalar P.uni v) }, fun s hc hu => ?_, ?_⟩
    · refine Writes.bind_get ?_
      rw [hn, hc, hu]
      exact (writes_optAnchor hok.1 s).bind0 ((h1 s).bind0 (Writes.pure _ s))
    · rw [hn]
      refine ⟨⟨rfl, hok.1, h2, h3, h4⟩, rfl, ?_, fun hst => hfold an tg v p q (by rw [hn, hst])⟩
      intro hx
      have := h2 hx
      cases tg with
      | none => exact hok.2.1 rfl
      | some t =>
        split at this
        · cases this
        · rename_i hb; simp at hb
          cases p with
          | true => exact Or.inl rfl
          | false => exact Or.inr (hb.2 rfl)
  · rw [hn] at hok htag
    have hb : ∀ t, tg = some t → (P.canon || !im) = true → t ≠ [] ∧ TagPlain P.tags t := by
      intro t ht hb
      refine ⟨hok.2 t ht ?_, htag t ?_⟩
      · simpa using hb
      · simp only [writtenTag]; rw [if_pos hb]; exact ht
    obtain ⟨x, h1, h2, h3, h4⟩ := writes_optTag hD hb
    refine ⟨{ anchor := an.map fun n => ⟨n, false⟩, tag := x }, fun s hc hu => ?_, ?_⟩
    · refine Writes.bind_get ?_
      rw [hn, hc]
      exact (writes_optAnchor hok.1 s).bind0 ((h1 s).bind0 (Writes.pure _ s))
    · rw [hn]
      exact ⟨rfl, hok.1, h2, h3, h4⟩
  · rw [hn] at hok htag
    have hb : ∀ t, tg = some t → (P.canon || !im) = true → t ≠ [] ∧ TagPlain P.tags t := by
      intro t ht hb
      refine ⟨hok.2 t ht ?_, htag t ?_⟩
      · simpa using hb
      · simp only [writtenTag]; rw [if_pos hb]; exact ht
    obtain ⟨x, h1, h2, h3, h4⟩ := writes_optTag hD hb
    refine ⟨{ anchor := an.map fun n => ⟨n, false⟩, tag := x }, fun s hc hu => ?_, ?_⟩
    · refine Writes.bind_get ?_
      rw [hn, hc]
      exact (writes_optAnchor hok.1 s).bind0 ((h1 s).bind0 (Writes.pure _ s))
    · rw [hn]
      exact ⟨rfl, hok.1, h2, h3, h4⟩
  · refine ⟨{}, fun s _ _ => ?_, by rw [hn]; trivial⟩
    refine Writes.bind_get ?_
    rw [hn]; exact Writes.pure _ s
  · refine ⟨{}, fun s _ _ => ?_, by rw [hn]; trivial⟩
    refine Writes.bind_get ?_
    rw [hn]; exact Writes.pure _ s

end Yaml.Rt
