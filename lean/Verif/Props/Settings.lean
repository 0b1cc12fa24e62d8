import Verif.Lib.Settings
import Verif.Props.SetBreak

/-
C63: what the setters do.  Only the settings in force (Spec/Settings.lean) matter: the last call of each
setter, with unusable values replaced by the defaults.
-/

namespace Yaml.Props
open Yaml Yaml.Spec Yaml.EmitterObj Yaml.St

theorem feed_like {evs : List Event} {o o' : EmitterObj} (h : Like o o') :
    (feed evs o').1 = (feed evs o).1 ∧ Like (feed evs o).2 (feed evs o').2 := by
  induction evs generalizing o o' with
  | nil => exact ⟨rfl, h⟩
  | cons e es ih =>
    obtain ⟨h1, h2⟩ := h.emit e
    unfold feed
    generalize o.emit e = q at h1 h2
    generalize o'.emit e = q' at h1 h2
    obtain ⟨r, o1⟩ := q
    obtain ⟨r', o1'⟩ := q'
    dsimp only at h1 h2
    subst h1
    cases r' with
    | ok a => exact ih h2
    | err x => exact ⟨rfl, h2⟩
    | panic x => exact ⟨rfl, h2⟩
    | fuel => exact ⟨rfl, h2⟩

theorem _root_.Yaml.St.Like.written {o o' : EmitterObj} (h : Like o o') : o'.written = o.written := by
  unfold EmitterObj.written
  rw [h.k]

/-- C63.  Two emitters with the same settings in force give the same result for the same events (also
ungrammatical ones) and the same writer (also one that fails), and the writer gets the same bytes. -/
theorem C63_settings (enc : Encoding) (cfg cfg' : List Setting) (w : Writer) (h : settings cfg = settings cfg') (evs : List Event) :
    (feed evs (new enc cfg' w)).1 = (feed evs (new enc cfg w)).1 ∧
    (feed evs (new enc cfg' w)).2.written = (feed evs (new enc cfg w)).2.written :=
  have g := feed_like (evs := evs) (Like.new h)
  ⟨g.1, g.2.written⟩

/-- C63, with calls of `flush` between the events. -/
theorem C63_histories (enc : Encoding) (cfg cfg' : List Setting) (w : Writer) (h : settings cfg = settings cfg') (evs : List Event)
    (o : EmitterObj) (ho : Emits (new enc cfg w) evs o) :
    ∃ o', Emits (new enc cfg' w) evs o' ∧ o'.written = o.written ∧
      (∀ ev, (o'.emit ev).1 = (o.emit ev).1 ∧ (o'.emit ev).2.written = (o.emit ev).2.written) ∧
      o'.flush.1 = o.flush.1 ∧ o'.flush.2.written = o.flush.2.written := by
  suffices hs : ∃ o', Emits (new enc cfg' w) evs o' ∧ Like o o' by
    obtain ⟨o', h1, h2⟩ := hs
    exact ⟨o', h1, h2.written, fun ev => ⟨(h2.emit ev).1, (h2.emit ev).2.written⟩, h2.flush.1, h2.flush.2.written⟩
  induction ho with
  | nil => exact ⟨_, .nil, Like.new h⟩
  | @snoc evs ev o1 o2 _ hs ih =>
    obtain ⟨o', h1, h2⟩ := ih
    have g := h2.emit ev
    rw [hs] at g
    exact ⟨(o'.emit ev).2, .snoc h1 (Prod.ext g.1 rfl), g.2⟩
  | @flush evs o1 o2 _ hs ih =>
    obtain ⟨o', h1, h2⟩ := ih
    have g := h2.flush
    rw [hs] at g
    exact ⟨o'.flush.2, .flush h1 (Prod.ext g.1 rfl), g.2⟩

/-- C62 for the default break. -/
theorem C62_default (enc : Encoding) (cfg : List Setting) (w : Writer) (evs : List Event) :
    (feed evs (new enc (cfg ++ [.lineBreak .any]) w)).1 = (feed evs (new enc (cfg ++ [.lineBreak .ln]) w)).1 ∧
    (feed evs (new enc (cfg ++ [.lineBreak .any]) w)).2.written = (feed evs (new enc (cfg ++ [.lineBreak .ln]) w)).2.written := by
  refine C63_settings enc _ _ w ?_ evs
  have key : ∀ {α : Type} (f : Setting → Option α) (b : Break), lastSet f (cfg ++ [.lineBreak b]) = (f (.lineBreak b)).or (lastSet f cfg) := by
    intro α f b
    induction cfg with
    | nil => simp [lastSet]
    | cons x xs ih =>
      rw [List.cons_append, lastSet, ih, lastSet]
      cases f (.lineBreak b) with
      | some a => rfl
      | none => cases lastSet f xs <;> rfl
  unfold settings
  simp only [key]
  rfl

/-- Unusable values, calls that are overridden and calls in another order. -/
example : settings [.indent 12, .width 3] = settings [] ∧ settings [.width 4, .indent (-1), .lineBreak .any] = settings [] ∧
    settings [.indent 7, .canonical true, .indent 4] = settings [.indent 4, .canonical true] ∧
    settings [.width 8, .indent 4] = settings [.indent 4] ∧ settings [.width 8, .indent 3] ≠ settings [.indent 3] ∧
    settings [.width (-5)] = settings [.width 2147483647] ∧ settings [] = ⟨false, false, 2, 80, .ln⟩ := by decide

/-- The settings in force do matter: the indentation and the width are seen in the output. -/
example : (feed breakSample (new .any [] ⟨[], []⟩)).2.written = (feed breakSample (new .any [.indent 12, .width 3] ⟨[], []⟩)).2.written ∧
    (feed breakSample (new .any [] ⟨[], []⟩)).1 = .ok () ∧
    (feed breakSample (new .any [.indent 4] ⟨[], []⟩)).2.written = utf8Encode (cs! "a: |\n    x\n    y\nb: 'x\n\n    y'\n") := by decide +kernel

end Yaml.Props
