import Verif.Lib.Lexeme

/-
One `fetch_next_token` over a plain text: the white space, the stale keys and the closed block
collections, up to the dispatch on the first characters of the token.
-/

namespace Yaml.Lx
open Yaml Scanner Spec
set_option linter.unusedSimpArgs false
set_option linter.unusedVariables false

/-- The two counters that may overflow on a huge input. -/
def Big (p : PanicSite) : Prop := p = .rollIndentOverflow ∨ p = .flowLevelOverflow

/-- No error is acceptable. -/
def NoErr {B : Type} : Err → SState → B → Prop := fun _ _ _ => False

section
variable {B : Type} {step : Step CharOp CharOp.Ans B} {P : PanicSite → Prop} {E : Err → SState → B → Prop} {b : B}
  {Q : Unit → SState → B → Prop}

theorem wp_unroll {out : List TokenData} {A : Cfg} {s : SState} {col : Int} (h : Here out A s) (hcol : -1 ≤ col)
    (hQ : ∀ s', Here out (A.unroll col) s' → Q () s' b) : M.wp step P E (unrollIndent col) Q s b := by
  unfold unrollIndent
  simp only [M.wp_bind, M.wp_get]
  by_cases hf : s.flowLevel = 0
  · rw [if_neg (by simp [hf])]
    obtain ⟨ts', h1, h2⟩ := unrollLoop_eq hcol s.mark s.indents s.indent out s.tokens h.op.ind
    obtain ⟨n, i', is', k1, k2, k3, k4⟩ := unrollLoop_spec hcol s.mark s.indents s.indent s.tokens h.op.ind
    rw [h1] at k1
    simp only [Option.some.injEq, Prod.mk.injEq] at k1
    rw [h1]
    refine hQ _ ?_
    have hop := h.op.unroll (s' := { s with indent := i', indents := is', tokens := s.tokens ++ List.replicate n ⟨.blockEnd, s.mark, s.mark⟩ })
      (col := col) ⟨n, i', is', rfl, k2, k3, fun _ => k4.1, k4.2.1, k4.2.2, fun h => absurd hf h⟩
    obtain ⟨k5, k6, k7⟩ := k1
    rw [h.indent, h.indents, ← h.toks] at k5 k6 h2
    have hA : A.flow = 0 := by rw [← h.flow]; exact hf
    refine ⟨?_, ?_, ?_, ?_, ?_, ?_, ?_, ?_, h.parsed⟩
    · show SOpen { s with indent := _, indents := _, tokens := ts' }
      rw [h.indent, h.indents, ← h.toks, k5, k6, k7]; exact hop
    all_goals simp only [Cfg.unroll, hA, if_true]
    · exact h.mark
    · rw [← hA]; exact h.flow
    · rw [h.indent, h.indents, ← h.toks]
    · rw [h.indent, h.indents, ← h.toks]
    · exact h.allowed
    · exact h.keys
    · exact h2
  · rw [if_pos (by simpa using hf)]
    refine hQ _ ?_
    have hA : A.flow ≠ 0 := by rw [← h.flow]; exact hf
    unfold Cfg.unroll
    rw [if_neg hA]
    exact h

end

section
variable {e : Encoding}

/-- What the dispatch does from an exact configuration. -/
def Lex (F : Nat) (A : Cfg) (t : Str) (C : Cfg) (t' : Str) : Prop :=
  ∀ out s e, Here out A s → t.length + 8 < F →
    M.wp stepT Big NoErr (dispatch F s.mark s.flowLevel t[0]? t[1]? t[2]? t[3]?)
      (fun _ s' x => x.enc = e ∧ Ahead out C t' s' x.text ∧ x.text.length < t.length) s ⟨t, e⟩

/-- Up to the dispatch. -/
theorem wpT_prelude {F : Nat} {out : List TokenData} {V : Cfg} {t u g t'' : Str} {s : SState} {P : PanicSite → Prop} {E : Err → SState → Txt → Prop}
    {Q : Unit → SState → Txt → Prop} (h : At out V t s u) (ht : t = g ++ t'') (hg : WsT V.flow V.allowed g t'') (hs : Starts t'')
    (hk : (staleList (advance V.mark g) V.keys.reverse).2 = none) (hF : u.length + 8 < F)
    (hQ : ∀ s1 A1, Here out A1 s1 → A1.unroll (-1) = (V.gap g).unroll (-1) → (¬ Bound (advance V.mark g) t'' → A1 = V.gap g) →
      A1.mark = advance V.mark g → A1.flow = V.flow → A1.allowed = (V.gap g).allowed → A1.keys = (V.gap g).keys →
      t''.length ≤ u.length →
      M.wp stepT P E (dispatch F s1.mark s1.flowLevel t''[0]? t''[1]? t''[2]? t''[3]?) Q s1 ⟨t'', e⟩) :
    M.wp stepT P E (fetchNextToken F) Q s ⟨u, e⟩ := by
  obtain ⟨A, t0, hA, hV⟩ := h
  obtain ⟨g0, rfl, hg0, v1, v2, v3, v4, v5⟩ := hV.spec ht hg hs
  obtain ⟨p, p1, p2, p3⟩ := hA.gap
  obtain ⟨g1, rfl, rfl, hg1⟩ := ws_suffix p1 hg0 p2 hs
  have hns : NoSplit p g1 := by
    obtain ⟨q, q1, q2, q3⟩ := hA.adv
    have : q = p := by
      rw [List.append_assoc] at q1
      exact (List.append_inj_left' q1 rfl).symm
    subst this
    exact noSplit_of_append q3 hs.solid
  have hm : s.mark = advance A.mark p := (show Adv A.mark (p ++ (g1 ++ t'')) s.mark (g1 ++ t'') by simpa using hA.adv).pre
  unfold fetchNextToken
  simp only [M.wp_bind, wpT_cache, M.wp_get, hA.op.started, Bool.not_true, Bool.false_eq_true, if_false]
  refine wpT_toNext (by rw [hA.flow, p3]; exact hg1) hs (by simp at hF; omega) fun s1 e1 a1 => ?_
  have hm1 : s1.mark = advance A.mark (p ++ g1) := by rw [a1.pre, hm, advance_blanks _ hns]
  have hop1 : SOpen s1 := by
    rw [e1]
    exact (hA.op.allow _).frame (s' := { s with mark := s1.mark, simpleKeyAllowed := _ }) rfl a1.le
  have hk1 : s1.simpleKeys = s.simpleKeys := by rw [e1]
  have hks : (staleList s1.mark s.simpleKeys.reverse) = staleList s1.mark A.keys.reverse :=
    hA.keys _ a1.le (by rw [hm1, ← v3, ← v2]; exact hk)
  rw [wp_staleSimpleKeys]
  have hse : staleErr s1 = none := by
    unfold staleErr
    rw [hk1, hks, hm1, ← v3, ← v2]; exact hk
  rw [hse]
  have hH : Here out ((A.skip (p ++ g1)).stale) (staleS s1) := by
    refine ⟨hop1.stale, hm1, ?_, ?_, ?_, ?_, ?_, ?_, ?_⟩
    · show s1.flowLevel = A.flow; rw [e1]; exact hA.flow
    · show s1.indent = A.indent; rw [e1]; exact hA.indent
    · show s1.indents = A.indents; rw [e1]; exact hA.indents
    · show s1.simpleKeyAllowed = _
      rw [e1]
      show (s.simpleKeyAllowed || (s.flowLevel == 0 && hasBrk g1)) = (A.allowed || (A.flow == 0 && hasBrk (p ++ g1)))
      rw [p3, hA.flow, hasBrk_append]
      cases A.allowed <;> cases (A.flow == 0) <;> simp
    · show (staleList s1.mark s1.simpleKeys.reverse).1.reverse = (staleList (advance A.mark (p ++ g1)) A.keys.reverse).1.reverse
      rw [hk1, hks, hm1]
    · show A.toks = out ++ s1.tokens.map _; rw [e1]; exact hA.toks
    · show s1.tokensParsed = _; rw [e1]; exact hA.parsed
  simp only [getMark, M.wp_bind, M.wp_get, M.wp_pure]
  refine wp_unroll hH (by omega) fun s2 h2 => ?_
  have hmc : ((staleS s1).mark.column : Int) = ((advance A.mark (p ++ g1)).column : Int) := by
    show (s1.mark.column : Int) = _; rw [hm1]
  rw [hmc] at h2
  have h2 : Here out (A.gap (p ++ g1)) s2 := h2
  simp only [M.wp_bind, wpT_cache, wpT_at, M.wp_get]
  have hfl : ∀ (X : Cfg) (y : Str), (X.gap y).flow = X.flow := by
    intro X y; unfold Cfg.gap Cfg.unroll; split <;> rfl
  have hmk : ∀ (X : Cfg) (y : Str), (X.gap y).mark = advance X.mark y := by
    intro X y; unfold Cfg.gap Cfg.unroll; split <;> rfl
  have hal : ∀ (X : Cfg) (y : Int), (X.unroll y).allowed = X.allowed := by
    intro X y; unfold Cfg.unroll; split <;> rfl
  have hke : ∀ (X : Cfg) (y : Int), (X.unroll y).keys = X.keys := by
    intro X y; unfold Cfg.unroll; split <;> rfl
  refine hQ s2 _ h2 v4 v5 (by rw [hmk, v3]) (by rw [hfl, v1]) ?_ ?_ (by simp)
  · have := congrArg Cfg.allowed v4
    rwa [hal, hal] at this
  · have := congrArg Cfg.keys v4
    rwa [hke, hke] at this

end

end Yaml.Lx
