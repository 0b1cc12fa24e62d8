import Verif.Lib.Trans3
import Verif.Spec.EventMarks

/-
The marks of the events and errors of one call of `parse`.
-/

namespace Yaml
open Spec Parser
set_option linter.unusedSimpArgs false
set_option linter.unusedVariables false

/-- A parser error raised over the tokens `ts0`, with the marks `M0` on the stack. -/
def SpanErr (ts0 : List Token) (M0 : List Mark) (e : Err) : Prop :=
  ∃ c cm pr pm A t B, e = .parser c cm pr pm ∧ ts0 = A ++ t :: B ∧ pm = t.startMark ∧
    (c = "" ∧ cm = Mark.zero ∨ cm ∈ M0 ∨ ∃ u ∈ A ++ [t], cm = u.startMark)

/-- Partial correctness, with what is known of errors. -/
abbrev wpM (ts0 : List Token) (M0 : List Mark) (fin : Out Token) {α : Type} (m : Pars α) (Q : α → PState → Toks → Prop) (p : PState) (g : Toks) : Prop :=
  M.wp stepL (fun _ => True) (fun e _ _ => fin = .err e ∨ SpanErr ts0 M0 e) m Q p g

/-- The result of a call. -/
abbrev SpanRes (ts0 : List Token) (M0 : List Mark) : Event → PState → Toks → Prop :=
  fun ev p' g' => ∃ c, ts0 = c ++ g'.toks ∧ Placed c g'.toks ev ∧ ∀ m ∈ p'.marks, m ∈ M0 ∨ ∃ u ∈ c, m = u.startMark

/-- The marks on the stack. -/
abbrev MarksFrom (M0 : List Mark) (c0 : List Token) (l : List Mark) : Prop := ∀ m ∈ l, m ∈ M0 ∨ ∃ u ∈ c0, m = u.startMark

section
variable {p : PState} {fin : Out Token} {st pk : Bool} {toks ts0 c0 : List Token} {M0 : List Mark} {b i : Bool}

theorem MarksFrom.mono {l : List Mark} {c : List Token} (h : MarksFrom M0 c0 l) : MarksFrom M0 (c0 ++ c) l := fun m hm =>
  (h m hm).imp id fun ⟨u, hu, e⟩ => ⟨u, by simp [hu], e⟩

theorem wpM_peek {Q : Token → PState → Toks → Prop} (h1 : ∀ t ts, toks = t :: ts → Q t p (lv (t :: ts) fin true true)) :
    wpM ts0 M0 fin Parser.peek Q p (lv toks fin st pk) := by
  unfold wpM
  rw [wpL_peek]
  refine ⟨rfl, rfl, ?_⟩
  cases toks with
  | nil => exact fun e he => Or.inl he
  | cons t ts => exact h1 t ts rfl

theorem wpM_popState {Q : Unit → PState → Toks → Prop} {g : Toks} (h : ∀ x r, p.states = x :: r → Q () { p with state := x, states := r } g) :
    wpM ts0 M0 fin popState Q p g := by
  cases hs : p.states with
  | nil =>
    unfold wpM popState
    rw [M.wp_bind, M.wp_get]
    simp only [hs]
    exact trivial
  | cons x r => exact (wp_popState hs).2 (h x r hs)

theorem spanErr_at {c pr : String} {cm : Mark} {t : Token} {ts : List Token} (h0 : ts0 = c0 ++ t :: ts)
    (h : c = "" ∧ cm = Mark.zero ∨ cm ∈ M0 ∨ ∃ u ∈ c0 ++ [t], cm = u.startMark) : SpanErr ts0 M0 (.parser c cm pr t.startMark) :=
  ⟨c, cm, pr, t.startMark, c0, t, ts, rfl, h0, rfl, h⟩

theorem wpM_complain {α : Type} {x y : String} {t : Token} {ts : List Token} {Q : α → PState → Toks → Prop} {g : Toks} (h0 : ts0 = c0 ++ t :: ts)
    (hM : MarksFrom M0 c0 p.marks) : wpM ts0 M0 fin (do let mark ← popMark; parserError x mark y t.startMark : Pars α) Q p g := by
  unfold wpM
  rw [M.wp_bind]
  cases hs : p.marks with
  | nil =>
    unfold popMark
    rw [M.wp_bind, M.wp_get]
    simp only [hs]
    exact trivial
  | cons m r =>
    refine (wp_popMark hs).2 ?_
    refine Or.inr (spanErr_at h0 ?_)
    refine Or.inr ((hM m (by rw [hs]; simp)).imp id ?_)
    rintro ⟨u, hu, e⟩
    exact ⟨u, by simp [hu], e⟩

/-- Where a node starts. -/
def firstMark (first : Mark) : List Token → Mark
  | [] => first
  | t :: _ => t.startMark

/-- What the properties say about places. -/
structure PropsAt (props : Props) (first : Mark) (ps : List Token) : Prop where
  prop : ∀ u ∈ ps, IsProperty u
  start : props.startMark = firstMark first ps
  stop : ∀ t, ps.getLast? = some t → props.endMark = t.endMark
  tag : ∀ h s m, props.tag = some (h, s, m) → ∃ t ∈ ps, m = t.startMark
  none : ps = [] → props.anchor = Option.none ∧ props.tag = Option.none
  some : props.anchor = Option.none → props.tag = Option.none → ps = []

theorem wpM_nodeProperties {token : Token} {ts : List Token} {Q : Props → PState → Toks → Prop}
    (hQ : ∀ props ps toks' pk', token :: ts = ps ++ toks' → PropsAt props token.startMark ps → Q props p (lv toks' fin true pk')) :
    wpM ts0 M0 fin (nodeProperties token) Q p (lv (token :: ts) fin true true) := by
  unfold nodeProperties
  obtain ⟨d, m1, m2⟩ := token
  cases d with
  | anchor a =>
    dsimp only
    pws
    rw [wp_skip_lv (by simp)]
    refine wpM_peek ?_
    rintro ⟨d2, n1, n2⟩ ts2 rfl
    cases d2 with
    | tag handle suffix =>
      dsimp only
      pws
      rw [wp_skip_lv (by simp)]
      refine hQ _ [⟨.anchor a, m1, m2⟩, ⟨.tag handle suffix, n1, n2⟩] ts2 _ rfl ⟨?_, rfl, ?_, ?_, by simp, by simp⟩
      · intro u hu; simp at hu; rcases hu with rfl | rfl
        · exact Or.inl ⟨a, rfl⟩
        · exact Or.inr ⟨_, _, rfl⟩
      · intro t ht; simp at ht; subst ht; rfl
      · intro h s m hm; simp at hm; exact ⟨⟨.tag handle suffix, n1, n2⟩, by simp, hm.2.2.symm⟩
    | _ =>
      refine hQ _ [⟨.anchor a, m1, m2⟩] _ _ rfl ⟨?_, rfl, ?_, by simp, by simp, by simp⟩
      · intro u hu; simp at hu; subst hu; exact Or.inl ⟨a, rfl⟩
      · intro t ht; simp at ht; subst ht; rfl
  | tag handle suffix =>
    dsimp only
    pws
    rw [wp_skip_lv (by simp)]
    refine wpM_peek ?_
    rintro ⟨d2, n1, n2⟩ ts2 rfl
    cases d2 with
    | anchor a =>
      dsimp only
      pws
      rw [wp_skip_lv (by simp)]
      refine hQ _ [⟨.tag handle suffix, m1, m2⟩, ⟨.anchor a, n1, n2⟩] ts2 _ rfl ⟨?_, rfl, ?_, ?_, by simp, by simp⟩
      · intro u hu; simp at hu; rcases hu with rfl | rfl
        · exact Or.inr ⟨_, _, rfl⟩
        · exact Or.inl ⟨a, rfl⟩
      · intro t ht; simp at ht; subst ht; rfl
      · intro h s m hm; simp at hm; exact ⟨⟨.tag handle suffix, m1, m2⟩, by simp, hm.2.2.symm⟩
    | _ =>
      refine hQ _ [⟨.tag handle suffix, m1, m2⟩] _ _ rfl ⟨?_, rfl, ?_, ?_, by simp, by simp⟩
      · intro u hu; simp at hu; subst hu; exact Or.inr ⟨_, _, rfl⟩
      · intro t ht; simp at ht; subst ht; rfl
      · intro h s m hm; simp at hm; exact ⟨⟨.tag handle suffix, m1, m2⟩, by simp, hm.2.2.symm⟩
  | _ => exact hQ _ [] _ _ rfl ⟨by simp, rfl, by simp, by simp, fun _ => ⟨rfl, rfl⟩, by simp⟩

theorem wpM_resolveTag {props : Props} {first : Token} {ps toks' : List Token} {Q : Option Str → PState → Toks → Prop} {g : Toks}
    (h0 : ts0 = c0 ++ (ps ++ toks')) (hp : PropsAt props first.startMark ps) (hQ : ∀ tag, (tag ≠ none → ps ≠ []) → (props.anchor = none → tag = none → ps = []) → Q tag p g) :
    wpM ts0 M0 fin (resolveTag props) Q p g := by
  unfold resolveTag
  cases ht : props.tag with
  | none => exact hQ none (by simp) fun h _ => hp.some h ht
  | some x =>
    obtain ⟨handle, suffix, m⟩ := x
    have hne : ps ≠ [] := by intro h; have := (hp.none h).2; rw [ht] at this; cases this
    dsimp only
    unfold wpM
    split
    · exact hQ _ (fun _ => hne) (by simp)
    · pws
      split
      · exact hQ _ (fun _ => hne) (by simp)
      · obtain ⟨t, hm, rfl⟩ := hp.tag _ _ _ ht
        obtain ⟨A, B, rfl⟩ := List.append_of_mem hm
        refine Or.inr ⟨_, _, _, _, c0 ++ A, t, B ++ toks', rfl, by rw [h0]; simp, rfl, Or.inr (Or.inr ?_)⟩
        rw [hp.start]
        cases A with
        | nil => exact ⟨t, by simp, rfl⟩
        | cons a A => exact ⟨a, by simp, rfl⟩

theorem spans_of {e : Event} {props : Props} {ps : List Token} {t : Token} (hp : PropsAt props t.startMark ps) (h1 : e.startMark = props.startMark)
    (h2 : e.endMark = t.endMark) : Spans e (ps ++ [t]) := by
  refine ⟨?_, t, by simp, h2⟩
  rw [h1, hp.start]
  cases ps with
  | nil => exact ⟨t, rfl, rfl⟩
  | cons a ps => exact ⟨a, rfl, rfl⟩

theorem wpM_nodeContent {props : Props} {first : Token} {ps : List Token} {tag : Option Str} (h0 : ts0 = c0 ++ (ps ++ toks))
    (hi0 : ∀ u ∈ c0, IsIndicator u) (hM : MarksFrom M0 c0 p.marks) (hp : PropsAt props first.startMark ps)
    (hf : ∀ t ts, ps ++ toks = t :: ts → t = first) (htag : tag ≠ none → ps ≠ [])
    (hnone : props.anchor = none → tag = none → ps = []) :
    wpM ts0 M0 fin (nodeContent b i props tag) (SpanRes ts0 M0) p (lv toks fin st pk) := by
  unfold nodeContent
  pws
  refine wpM_peek ?_
  rintro token ts rfl
  have hp' : PropsAt props token.startMark ps := by
    refine ⟨hp.prop, ?_, hp.stop, hp.tag, hp.none, hp.some⟩
    cases hps : ps with
    | nil => rw [hps] at hf; rw [hf token ts rfl]; have := hp.start; rw [hps] at this; exact this
    | cons a ps' => have := hp.start; rw [hps] at this; exact this
  have h0' : ts0 = (c0 ++ ps) ++ token :: ts := by rw [h0]; simp
  have hM' : MarksFrom M0 (c0 ++ ps) p.marks := hM.mono
  have opens : ∀ (ev : Event), Opens token.data ev.data → ev.startMark = props.startMark → ev.endMark = token.endMark →
      ∀ p' : PState, p'.marks = p.marks → SpanRes ts0 M0 ev p' (lv (token :: ts) fin true true) := by
    intro ev ho h1 h2 p' hm
    exact ⟨c0 ++ ps, h0', .opens hi0 hp.prop ho (spans_of hp' h1 h2), by rw [hm]; exact hM'⟩
  obtain ⟨d, m1, m2⟩ := token
  by_cases hi : (i && (d == .blockEntry)) = true
  · rw [if_pos hi]
    pws
    simp only [Bool.and_eq_true, beq_iff_eq] at hi
    obtain ⟨rfl, rfl⟩ := hi
    refine opens _ ?_ rfl rfl _ rfl
    exact Or.inr rfl
  rw [if_neg hi]
  have rest : wpM ts0 M0 fin
      (if (b && (d == .blockSequenceStart)) = true then do
        setState .blockSequenceFirstEntry
        pure ⟨.sequenceStart props.anchor tag (tag.isNone || tag == some []) .block, props.startMark, m2⟩
      else if (b && (d == .blockMappingStart)) = true then do
        setState .blockMappingFirstKey
        pure ⟨.mappingStart props.anchor tag (tag.isNone || tag == some []) .block, props.startMark, m2⟩
      else if (props.anchor.isSome || tag.isSome) = true then do
        popState
        pure ⟨.scalar props.anchor tag [] (tag.isNone || tag == some []) false .plain, props.startMark, props.endMark⟩
      else
        parserError (if b then "while parsing a block node" else "while parsing a flow node")
          props.startMark "did not find expected node content" m1 : Pars Event)
      (SpanRes ts0 M0) p (lv (⟨d, m1, m2⟩ :: ts) fin true true) := by
    by_cases h1 : (b && (d == .blockSequenceStart)) = true
    · rw [if_pos h1]
      simp only [Bool.and_eq_true, beq_iff_eq] at h1
      obtain ⟨rfl, rfl⟩ := h1
      unfold wpM
      pws
      refine opens _ ?_ rfl rfl _ rfl
      exact Or.inl rfl
    rw [if_neg h1]
    by_cases h2 : (b && (d == .blockMappingStart)) = true
    · rw [if_pos h2]
      simp only [Bool.and_eq_true, beq_iff_eq] at h2
      obtain ⟨rfl, rfl⟩ := h2
      unfold wpM
      pws
      refine opens _ ?_ rfl rfl _ rfl
      exact rfl
    rw [if_neg h2]
    by_cases h3 : (props.anchor.isSome || tag.isSome) = true
    · rw [if_pos h3]
      unfold wpM
      pws
      refine wpM_popState fun x r hr => ?_
      have hne : ps ≠ [] := by
        intro h
        have ha := (hp.none h).1
        rw [ha] at h3
        simp at h3
        exact htag (by intro h'; rw [h'] at h3; cases h3) h
      refine ⟨c0 ++ ps, h0', .bare rfl hi0 hp.prop ⟨?_, ?_⟩, hM'⟩
      · cases hps : ps with
        | nil => exact absurd hps hne
        | cons a ps' => exact ⟨a, rfl, by have := hp.start; rw [hps] at this; exact this⟩
      · obtain ⟨t, ht⟩ : ∃ t, ps.getLast? = some t := ⟨_, List.getLast?_eq_some_getLast hne⟩
        exact ⟨t, ht, hp.stop t ht⟩
    · rw [if_neg h3]
      refine Or.inr ⟨_, _, _, _, c0 ++ ps, ⟨d, m1, m2⟩, ts, rfl, h0', rfl, Or.inr (Or.inr ?_)⟩
      rw [hp'.start]
      cases ps with
      | nil => exact ⟨⟨d, m1, m2⟩, by simp, rfl⟩
      | cons a ps' => exact ⟨a, by simp, rfl⟩
  cases d with
  | scalar value style =>
    dsimp only
    pws
    refine wpM_popState fun x r hr => ?_
    rw [wp_skip_lv (by simp)]
    refine ⟨c0 ++ (ps ++ [⟨.scalar value style, m1, m2⟩]), by rw [h0]; simp, .scalar rfl hi0 hp.prop hnone rfl (spans_of hp' rfl rfl), ?_⟩
    exact hM.mono
  | flowSequenceStart =>
    dsimp only
    pws
    refine opens _ ?_ rfl rfl _ rfl
    exact rfl
  | flowMappingStart =>
    dsimp only
    pws
    refine opens _ ?_ rfl rfl _ rfl
    exact rfl
  | _ => exact rest

theorem wpM_parseNode (h0 : ts0 = c0 ++ toks) (hi0 : ∀ u ∈ c0, IsIndicator u) (hM : MarksFrom M0 c0 p.marks) :
    wpM ts0 M0 fin (parseNode b i) (SpanRes ts0 M0) p (lv toks fin st pk) := by
  unfold parseNode
  pws
  refine wpM_peek ?_
  rintro ⟨d, m1, m2⟩ ts rfl
  have other : wpM ts0 M0 fin (do
      let props ← nodeProperties ⟨d, m1, m2⟩
      let tag ← resolveTag props
      nodeContent b i props tag : Pars Event)
      (SpanRes ts0 M0) p (lv (⟨d, m1, m2⟩ :: ts) fin true true) := by
    unfold wpM
    pws
    refine wpM_nodeProperties ?_
    intro props ps toks' pk' hps hp
    refine wpM_resolveTag (c0 := c0) (first := ⟨d, m1, m2⟩) (toks' := toks') (by rw [h0, hps]) hp ?_
    intro tag ht hnn
    exact wpM_nodeContent (first := ⟨d, m1, m2⟩) (by rw [h0, hps]) hi0 hM hp (by intro t ts h; rw [← hps] at h; cases h; rfl) ht hnn
  cases d with
  | alias value =>
    dsimp only
    pws
    refine wpM_popState fun x r hr => ?_
    rw [wp_skip_lv (by simp)]
    exact ⟨c0 ++ [⟨.alias value, m1, m2⟩], by rw [h0]; simp, .alias rfl hi0 rfl ⟨⟨_, rfl, rfl⟩, _, rfl, rfl⟩, hM.mono⟩
  | _ => exact other

end

end Yaml
