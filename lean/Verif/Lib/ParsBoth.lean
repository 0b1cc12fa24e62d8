import Verif.Lib.Pars4

/-
Partial correctness of parser programs, and both kinds of rules together.
-/

namespace Yaml
open Spec Parser
set_option linter.unusedVariables false

/-- Partial correctness over a list of tokens. -/
abbrev wpA {α : Type} (m : Pars α) (Q : α → PState → Toks → Prop) (p : PState) (g : Toks) : Prop :=
  M.wp stepL (fun _ => True) AnyE m Q p g

theorem wp_andL {α : Type} (x : Free TokOp TokOp.Ans α) (Q Q' : α → Toks → Prop) (g : Toks)
    (h : x.wp stepL Q g) (h' : x.wp stepL Q' g) : x.wp stepL (fun a g' => Q a g' ∧ Q' a g') g := by
  induction x generalizing g with
  | ret a => exact ⟨h, h'⟩
  | op o k ih =>
    cases o with
    | peek =>
      obtain ⟨h1, h2, h3⟩ := h
      obtain ⟨_, _, h3'⟩ := h'
      refine ⟨h1, h2, ?_⟩
      cases hg : g.toks with
      | cons t ts => rw [hg] at h3 h3'; exact ih _ _ h3 h3'
      | nil => rw [hg] at h3 h3'; exact fun e he => ih _ _ (h3 e he) (h3' e he)
    | setFront d =>
      obtain ⟨h1, h2, h3, t, ts, h4, h5, h6⟩ := h
      obtain ⟨_, _, _, t', ts', h4', _, h6'⟩ := h'
      rw [h4] at h4'; cases h4'
      exact ⟨h1, h2, h3, t, ts, h4, h5, ih _ _ h6 h6'⟩
    | skip =>
      obtain ⟨h1, h2, h3, t, ts, h4, h5⟩ := h
      obtain ⟨_, _, _, t', ts', h4', h5'⟩ := h'
      rw [h4] at h4'; cases h4'
      exact ⟨h1, h2, h3, t, ts, h4, ih _ _ h5 h5'⟩
    | streamEnded => exact ⟨h.1, ih _ _ h.2 h'.2⟩
    | streamStarted => exact ⟨h.1, ih _ _ h.2 h'.2⟩

/-- Both rules together. -/
theorem wpA_and {α : Type} {P : PanicSite → Prop} {E : Err → PState → Toks → Prop} {m : Pars α} {Q Q' : α → PState → Toks → Prop}
    {p : PState} {g : Toks} (h : M.wp stepL P E m Q p g) (h' : wpA m Q' p g) : M.wp stepL P E m (fun a p' g' => Q a p' g' ∧ Q' a p' g') p g := by
  refine Free.wp_mono stepL_mono ?_ (wp_andL _ _ _ _ h h')
  rintro ⟨o, s'⟩ b' ⟨h1, h2⟩
  cases o with
  | ok a => exact ⟨h1, h2⟩
  | err e => exact h1
  | panic p => exact h1
  | fuel => exact h1

end Yaml
