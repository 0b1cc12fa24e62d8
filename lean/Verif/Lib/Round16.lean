import Verif.Lib.Round15

/-
Reading back, scanner side: between documents.
-/

namespace Yaml.Lx
open Yaml Scanner Spec
set_option linter.unusedSimpArgs false
set_option linter.unusedVariables false

/-- Outside all collections. -/
structure Top (A : Cfg) : Prop where
  flow : A.flow = 0
  indent : A.indent = -1
  cool : Cool A

/-- Between documents, at the beginning of a line: the white space `g` ends in column 0. -/
theorem Top.line {A C : Cfg} {F : Nat} {g t t' : Str} (h : Top A) (hg : Blanks g) (hst : Starts t) (hne : t ≠ [])
    (hl : ∀ A1 : Cfg, A1.unroll (-1) = A.to g → A1.mark = advance A.mark g → A1.hot = false → Lex F A1 t C t') : Reach F A (g ++ t) C t' := by
  refine .fetch ⟨g, t, rfl, hg.ws, hst, hne, h.cool.cold _, ?_⟩ (.refl _ _)
  have e : A.gap g = A.to g := unroll_le (A := (A.skip g).stale) (fun _ => by show A.indent ≤ _; rw [h.indent]; omega)
  have e' : (A.to g).unroll (-1) = A.to g := unroll_le (fun _ => by show A.indent ≤ _; rw [h.indent]; omega)
  intro A1 h1 _ h2 _ _ h3
  rw [e] at h1 h3
  rw [e'] at h1
  refine hl A1 h1 h2 ?_
  have := (h.cool.to g).hot
  unfold Cfg.hot at this ⊢
  rw [h3]; exact this

theorem Top.after {A : Cfg} (h : Top A) (g w : Str) (d : TokenData) :
    Top ((((A.to g).clear.allow false).eat w).push d) ∧ Dead ((((A.to g).clear.allow false).eat w).push d) ∧
      ((((A.to g).clear.allow false).eat w).push d).toks = A.toks ++ [d] ∧
      ((((A.to g).clear.allow false).eat w).push d).mark = advance (advance A.mark g) w := by
  have hc := (h.cool.to g).clear
  have e1 : (A.to g).clear.flow = A.flow := by unfold Cfg.clear; split <;> rfl
  have e2 : (A.to g).clear.indent = A.indent := by unfold Cfg.clear; split <;> rfl
  have e3 : (A.to g).clear.toks = A.toks := by unfold Cfg.clear; split <;> rfl
  have e4 : (A.to g).clear.mark = advance A.mark g := by unfold Cfg.clear; split <;> rfl
  refine ⟨⟨e1.trans h.flow, e2.trans h.indent, ?_⟩, hc.2, ?_, ?_⟩
  · exact hc.1.same (B := ((((A.to g).clear.allow false).eat w).push d)) rfl rfl (advance_line _ _)
  · show (A.to g).clear.toks ++ [d] = _; rw [e3]
  · show advance (A.to g).clear.mark w = _; rw [e4]

/-- `---` or `...`. -/
theorem read_doc {A : Cfg} (F : Nat) {c : Char} {d : TokenData} {g t : Str} (hc : (c = '-' ∧ d = .documentStart) ∨ (c = '.' ∧ d = .documentEnd)) (h : Top A) (hg : Blanks g)
    (h0 : (advance A.mark g).column = 0) (hz : EndsTag t) :
    ∃ B, Reach F A (g ++ c :: c :: c :: t) B t ∧ Top B ∧ Dead B ∧ B.toks = A.toks ++ [d] ∧ B.mark = advance (advance A.mark g) [c, c, c] ∧ B.allowed = false := by
  obtain ⟨h1, h2, h3, h4⟩ := h.after g [c, c, c] d
  have hs : Starts (c :: c :: c :: t) := by rcases hc with ⟨rfl, _⟩ | ⟨rfl, _⟩ <;> exact starts_cons (by decide) (by decide) (by decide) (by decide) (by decide)
  refine ⟨_, h.line hg hs (by simp) ?_, h1, h2, h3, h4, rfl⟩
  intro A1 e1 e2 e3
  have := lex_doc (F := F) (A := A1) hc (by rw [e2]; exact h0) (blankzO_of hz) e3
  rw [e1] at this
  exact this

/-- A directive and the line break after it. -/
theorem read_directive {A : Cfg} (F : Nat) {w l b t : Str} {c : Char} {d : TokenData} (hw : DirectiveText w d) (hl : LineRest l) (hb : BreakAt (b ++ t) c t) (hd : d ≠ .streamEnd)
    {g : Str} (h : Top A) (hg : Blanks g) (h0 : (advance A.mark g).column = 0) :
    ∃ B, Reach F A (g ++ '%' :: (w ++ (l ++ (b ++ t)))) B t ∧ Top B ∧ Dead B ∧ B.toks = A.toks ++ [d] ∧
      B.mark = advance (advance A.mark g) ('%' :: (w ++ (l ++ b))) ∧ B.allowed = false := by
  obtain ⟨h1, h2, h3, h4⟩ := h.after g ('%' :: (w ++ (l ++ b))) d
  refine ⟨_, h.line hg (starts_cons (by decide) (by decide) (by decide) (by decide) (by decide)) (by simp) ?_, h1, h2, h3, h4, rfl⟩
  intro A1 e1 e2 e3
  have := lex_directive (F := F) (A := A1) hw hl hb (by rw [e2]; exact h0) e3 hd
  rw [e1] at this
  exact this

/-- The end of the text. -/
theorem Top.final {A : Cfg} (h : Top A) {t : Str} (ht : WsT A.flow A.allowed t []) : Final A t (A.toks ++ [.streamEnd]) := by
  have e : A.gap t = A.to t := unroll_le (A := (A.skip t).stale) (fun _ => by show A.indent ≤ _; rw [h.indent]; omega)
  have e' : (A.to t).unroll (-1) = A.to t := unroll_le (fun _ => by show A.indent ≤ _; rw [h.indent]; omega)
  refine ⟨ht, h.flow, h.cool.cold _, ?_, ?_⟩
  · rw [e]; exact (h.cool.to t).hot
  · rw [e, e']; rfl

theorem Top.moved {A B : Cfg} {ts : List TokenData} (h : Top A) (hm : Moved A B ts) : Top B :=
  ⟨hm.flow.trans h.flow, hm.indent.trans h.indent, hm.cool⟩

/-- White space may be passed first. -/
theorem Top.skip {A : Cfg} (h : Top A) (g : Str) : Top (A.skip g) :=
  ⟨h.flow, h.indent, h.cool.same (B := A.skip g) rfl rfl (advance_line _ _)⟩

theorem top_start (e : Encoding) : Top (start e) := ⟨rfl, rfl, rfl, by
  intro k hk hp
  simp only [start, List.mem_singleton] at hk
  subst hk
  cases hp⟩

end Yaml.Lx
