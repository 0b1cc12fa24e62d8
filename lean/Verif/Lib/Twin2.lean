import Verif.Lib.Twin

/-
Two runs of the scanner side by side: the lexical functions.
-/

namespace Yaml
open Scanner
set_option linter.unusedSimpArgs false
set_option linter.unusedVariables false

namespace Tw

/-- Run the next simple operations on both sides. -/
macro "tws" : tactic => `(tactic| repeat (first
  | with_reducible refine w2_bind (w2_at ?_) | with_reducible refine w2_bind (w2_cache ?_) | with_reducible refine w2_bind (w2_get ?_)
  | with_reducible refine w2_bind (w2_mark ?_) | with_reducible refine w2_bind (w2_modify ?_) | with_reducible refine w2_bind (w2_allow ?_)))

section
variable {L K : Nat} {s1 s2 : SState} {t1 t2 : Txt} {F : Nat}

theorem NoBrk.not {p : Option Char → Bool} (hp : NoBrk p) {c : Option Char} (h : p c = true) : isBreakO c = false := by
  cases c with
  | none => rfl
  | some c =>
    cases hb : isBreak c with
    | false => exact hb
    | true => rw [hp c hb] at h; cases h

theorem Nm.nth1 {t1 t2 : Str} (h : Nm t1 t2) (h0 : isBreakO t1[0]? = false) : Ch t1[1]? t2[1]? :=
  h.nth 1 (by intro j hj; have : j = 0 := by omega
              subst this; exact h0)
theorem Nm.nth2 {t1 t2 : Str} (h : Nm t1 t2) (h0 : isBreakO t1[0]? = false) (h1 : isBreakO t1[1]? = false) : Ch t1[2]? t2[2]? :=
  h.nth 2 (by
    intro j hj
    rcases (by omega : j = 0 ∨ j = 1) with h | h
    · subst h; exact h0
    · subst h; exact h1)
theorem Nm.nth3 {t1 t2 : Str} (h : Nm t1 t2) (h0 : isBreakO t1[0]? = false) (h1 : isBreakO t1[1]? = false)
    (h2 : isBreakO t1[2]? = false) : Ch t1[3]? t2[3]? :=
  h.nth 3 (by
    intro j hj
    rcases (by omega : j = 0 ∨ j = 1 ∨ j = 2) with h | h | h
    · subst h; exact h0
    · subst h; exact h1
    · subst h; exact h2)

/-- `skip_char`, and where it leads. -/
theorem do_skip' (h : St L K s1 t1 s2 t2) (hb : isBreakO t1.text[0]? = false) :
    W2 (Er L) skipChar skipChar (fun _ s1' t1' _ s2' t2' => St L K s1' t1' s2' t2' ∧ ∀ k : Nat, t1'.text[k]? = t1.text[k + 1]?) s1 t1 s2 t2 := by
  obtain ⟨x1, e1⟩ := t1
  obtain ⟨x2, e2⟩ := t2
  have ht : Nm x1 x2 := h.text
  cases ht with
  | nil => exact (rfl : PanicSite.skipCharEmpty = PanicSite.skipCharEmpty)
  | char hc hr => exact ⟨h.char hc, fun k => rfl⟩
  | brk h1 h2 hr =>
    obtain ⟨d, r, rfl, hd⟩ := h1.head
    simp [isBreakO, hd] at hb

/-- Skipping several characters. -/
theorem do_skips : ∀ (n : Nat) {s1 s2 : SState} {t1 t2 : Txt}, St L K s1 t1 s2 t2 → (∀ j : Nat, j < n → isBreakO t1.text[j]? = false) →
    Do L K (skipChars n) (skipChars n) Eq s1 t1 s2 t2
  | 0, _, _, _, _, h, _ => ⟨rfl, h⟩
  | n + 1, s1, s2, t1, t2, h, hn => by
    refine w2_seq (do_skip' h (hn 0 (by omega))) ?_
    rintro _ s3 t3 _ s4 t4 ⟨h, hk⟩
    exact do_skips n h fun j hj => by rw [hk]; exact hn (j + 1) (by omega)

/-- How a loop whose invariant is "related values, related states" goes on. -/
theorem ok_inl {α β σ τ : Type} {R : σ → τ → Prop} {R' : α → β → Prop} {x : σ} {y : τ} (hx : R x y) (h : St L K s1 t1 s2 t2) :
    (match (Sum.inl x : σ ⊕ α), (Sum.inl y : τ ⊕ β) with
      | .inl x, .inl y => Ok L K R x s1 t1 y s2 t2
      | .inr a, .inr b => Ok L K R' a s1 t1 b s2 t2
      | _, _ => False) := ⟨hx, h⟩

theorem do_loop {α β σ τ : Type} {body1 : σ → Scan (σ ⊕ α)} {body2 : τ → Scan (τ ⊕ β)} {R : σ → τ → Prop} {R' : α → β → Prop}
    {x : σ} {y : τ} (h : St L K s1 t1 s2 t2) (hx : R x y)
    (hb : ∀ x y s1 t1 s2 t2, R x y → St L K s1 t1 s2 t2 → W2 (Er L) (body1 x) (body2 y)
      (fun r s1 t1 r' s2 t2 => match r, r' with
        | .inl x, .inl y => Ok L K R x s1 t1 y s2 t2
        | .inr a, .inr b => Ok L K R' a s1 t1 b s2 t2
        | _, _ => False) s1 t1 s2 t2) :
    Do L K (M.loop F body1 x) (M.loop F body2 y) R' s1 t1 s2 t2 :=
  w2_loop (Ok L K R) (fun x s t y s' t' hi => hb x y s t s' t' hi.1 hi.2) F ⟨hx, h⟩

theorem do_skipWhile {p q : Option Char → Bool} (h : St L K s1 t1 s2 t2) (hp : NoBrk p) (hpq : p = q) :
    Do L K (skipWhile F p) (skipWhile F q) Eq s1 t1 s2 t2 := by
  subst hpq
  refine do_loop (R := Eq) h rfl ?_
  intro x y s1 t1 s2 t2 hx h
  tws
  refine w2_ite (by rw [h.ch0.test hp]) (fun h1 h2 => ?_) (fun h1 h2 => ?_)
  · refine w2_seq (do_skip h (hp.not h1)) ?_
    rintro _ s1 t1 _ s2 t2 ⟨-, h⟩
    tws
    exact ⟨rfl, h⟩
  · exact ⟨rfl, h⟩

theorem do_readWhile {p : Option Char → Bool} {str str' : Str} (h : St L K s1 t1 s2 t2) (hp : NoBrk p) (hs : str = str') :
    Do L K (readWhile F p str) (readWhile F p str') Eq s1 t1 s2 t2 := by
  refine do_loop (R := Eq) h hs ?_
  intro x y s1 t1 s2 t2 hx h
  tws
  refine w2_ite (by rw [h.ch0.test hp]) (fun h1 h2 => ?_) (fun h1 h2 => ?_)
  · refine w2_seq (do_read h (hp.not h1) hx) ?_
    rintro _ s1 t1 _ s2 t2 ⟨hs, h⟩
    tws
    exact ⟨hs, h⟩
  · exact ⟨hx, h⟩

theorem noBrk_alpha : NoBrk isAlphaO := noBrk_of (by decide)
theorem noBrk_blank : NoBrk isBlankO := noBrk_of (by decide)
theorem noBrk_digit : NoBrk isDigitO := noBrk_of (by decide)
theorem noBrk_hex : NoBrk isHexO := noBrk_of (by decide)
theorem noBrk_notz : NoBrk (fun c => !isBreakzO c) := noBrk_of (by decide)
theorem noBrk_uri (u : Bool) : NoBrk (isUriChar u) := noBrk_of (by cases u <;> decide)
theorem noBrk_eq {x : Char} (hx : isBreak x = false) : NoBrk (fun c => c == some x) := by
  intro c hc
  show (some c == some x) = false
  rw [beq_eq_false_iff_ne]
  rintro ⟨⟩
  rw [hx] at hc; cases hc

theorem not_brk {c : Option Char} {x : Char} (h : (c == some x) = true) (hx : isBreak x = false) : isBreakO c = false := by
  rw [beq_iff_eq] at h; subst h; exact hx

theorem do_scanToNextToken (h : St L K s1 t1 s2 t2) : Do L K (scanToNextToken F) (scanToNextToken F) Eq s1 t1 s2 t2 := by
  refine do_loop (R := Eq) h rfl ?_
  intro x y s1 t1 s2 t2 hx h
  tws
  refine w2_seq (Q' := Ok L K Eq) (w2_when ?_ (fun h1 h2 => do_skip h ?_) (fun h1 h2 => ⟨rfl, h⟩)) ?_
  · rw [h.col]; unfold isBomO; rw [h.ch0.isb (by decide)]
  · simp only [Bool.and_eq_true] at h1
    exact not_brk h1.2 (by decide)
  rintro _ s1 t1 _ s2 t2 ⟨-, h⟩
  tws
  have hfl := h.fl
  have hska := h.ska
  refine w2_seq (do_skipWhile h ?_ ?_) ?_
  · exact noBrk_of (by simp)
  · funext c; rw [h.fl, h.ska]
  rintro _ s3 t3 _ s4 t4 ⟨-, h⟩
  tws
  refine w2_seq (Q' := Ok L K Eq) (w2_when ?_ (fun h1 h2 => do_skipWhile h noBrk_notz rfl) (fun h1 h2 => ⟨rfl, h⟩)) ?_
  · rw [h.ch0.isb (by decide)]
  rintro _ s3 t3 _ s4 t4 ⟨-, h⟩
  tws
  refine w2_ite (by rw [h.ch0.brk]) (fun h1 h2 => ⟨rfl, h⟩) (fun h1 h2 => ?_)
  tws
  refine w2_seq (do_skipLine h) ?_
  rintro _ s3 t3 _ s4 t4 ⟨-, h⟩
  refine w2_seq (Q' := Ok L K Eq) (w2_when (by rw [hfl]) (fun h1 h2 => ⟨rfl, h.allow true⟩) (fun h1 h2 => ⟨rfl, h⟩)) ?_
  rintro _ s3 t3 _ s4 t4 ⟨-, h⟩
  exact ⟨rfl, h⟩

theorem do_directiveName {m m' : Mark} (h : St L K s1 t1 s2 t2) (hm : Mz L m m') :
    Do L K (scanDirectiveName F m) (scanDirectiveName F m') Eq s1 t1 s2 t2 := by
  unfold scanDirectiveName
  tws
  refine w2_seq (do_readWhile h noBrk_alpha rfl) ?_
  rintro a s1 t1 _ s2 t2 ⟨rfl, h⟩
  tws
  refine w2_ite Iff.rfl (fun _ _ => do_err h hm) (fun _ _ => ?_)
  exact w2_ite (by rw [h.ch0.blankz]) (fun _ _ => do_err h hm) (fun _ _ => ⟨rfl, h⟩)

theorem do_versionNumber {m m' : Mark} (h : St L K s1 t1 s2 t2) (hm : Mz L m m') :
    Do L K (scanVersionDirectiveNumber F m) (scanVersionDirectiveNumber F m') Eq s1 t1 s2 t2 := by
  unfold scanVersionDirectiveNumber
  tws
  refine w2_seq (Q' := Ok L K Eq) (do_loop (R := Eq) h rfl ?_) ?_
  · rintro ⟨v, n⟩ _ s1 t1 s2 t2 rfl h
    tws
    refine w2_ite (by rw [h.ch0.test noBrk_digit]) (fun h1 h2 => ?_) (fun h1 h2 => ⟨rfl, h⟩)
    refine w2_ite Iff.rfl (fun _ _ => do_err h hm) (fun _ _ => ?_)
    rw [← h.ch0.eq (noBrk_digit.not h1)]
    cases hd : t1.text[0]?.bind toDigit? with
    | none => exact w2_panic
    | some d =>
      refine w2_seq (do_skip h (noBrk_digit.not h1)) ?_
      rintro _ s1 t1 _ s2 t2 ⟨-, h⟩
      tws
      exact ⟨rfl, h⟩
  · rintro ⟨v, n⟩ s1 t1 _ s2 t2 ⟨rfl, h⟩
    exact w2_ite Iff.rfl (fun _ _ => do_err h hm) (fun _ _ => ⟨rfl, h⟩)

theorem do_version {m m' : Mark} (h : St L K s1 t1 s2 t2) (hm : Mz L m m') :
    Do L K (scanVersionDirectiveValue F m) (scanVersionDirectiveValue F m') Eq s1 t1 s2 t2 := by
  unfold scanVersionDirectiveValue
  tws
  refine w2_seq (do_skipWhile h noBrk_blank rfl) ?_
  rintro _ s1 t1 _ s2 t2 ⟨-, h⟩
  refine w2_seq (do_versionNumber h hm) ?_
  rintro a s1 t1 _ s2 t2 ⟨rfl, h⟩
  tws
  refine w2_ite (by simp only [bne_iff_ne, ne_eq, h.ch0.is (x := '.') (by decide)]) (fun _ _ => do_err h hm) (fun h1 h2 => ?_)
  refine w2_seq (do_skip h (not_brk (x := '.') (by simpa using h1) (by decide))) ?_
  rintro _ s1 t1 _ s2 t2 ⟨-, h⟩
  refine w2_seq (do_versionNumber h hm) ?_
  rintro b s1 t1 _ s2 t2 ⟨rfl, h⟩
  exact ⟨rfl, h⟩

theorem do_tagHandle {d : Bool} {m m' : Mark} (h : St L K s1 t1 s2 t2) (hm : Mz L m m') :
    Do L K (scanTagHandle F d m) (scanTagHandle F d m') Eq s1 t1 s2 t2 := by
  unfold scanTagHandle
  tws
  refine w2_ite (by simp only [bne_iff_ne, ne_eq, h.ch0.is (x := '!') (by decide)]) (fun _ _ => do_err h hm) (fun h1 h2 => ?_)
  refine w2_seq (do_read h (not_brk (x := '!') (by simpa using h1) (by decide)) rfl) ?_
  rintro a s1 t1 _ s2 t2 ⟨rfl, h⟩
  tws
  refine w2_seq (do_readWhile h noBrk_alpha rfl) ?_
  rintro a s1 t1 _ s2 t2 ⟨rfl, h⟩
  tws
  refine w2_ite (by rw [h.ch0.isb (x := '!') (by decide)]) (fun h1 h2 => do_read h (not_brk h1 (by decide)) rfl) (fun _ _ => ?_)
  exact w2_ite Iff.rfl (fun _ _ => do_err h hm) (fun _ _ => ⟨rfl, h⟩)

theorem do_uriEscapes {d : Bool} {m m' : Mark} {str str' : Str} (h : St L K s1 t1 s2 t2) (hm : Mz L m m') (hs : str = str') :
    Do L K (scanUriEscapes F d m str) (scanUriEscapes F d m' str') Eq s1 t1 s2 t2 := by
  subst hs
  unfold scanUriEscapes
  refine do_loop (R := Eq) h rfl ?_
  rintro ⟨w, str⟩ _ s1 t1 s2 t2 rfl h
  tws
  have key : (t1.text[0]? == some '%' && isHexO t1.text[1]? && isHexO t1.text[2]?) =
      (t2.text[0]? == some '%' && isHexO t2.text[1]? && isHexO t2.text[2]?) := by
    rw [h.ch0.isb (by decide)]
    cases h0 : (t2.text[0]? == some '%') with
    | false => rfl
    | true =>
      have b0 : isBreakO t1.text[0]? = false := by rw [h.ch0.brk]; exact not_brk h0 (by decide)
      have c1 := h.text.nth1 b0
      rw [c1.test noBrk_hex]
      cases h1 : isHexO t2.text[1]? with
      | false => rfl
      | true =>
        have b1 : isBreakO t1.text[1]? = false := by rw [c1.brk]; exact noBrk_hex.not h1
        have c2 := h.text.nth2 b0 b1
        rw [c2.test noBrk_hex]
  refine w2_ite (by rw [key]) (fun _ _ => do_err h hm) (fun h1 h2 => ?_)
  simp only [Bool.not_eq_true', Bool.not_eq_false, Bool.and_eq_true] at h1
  obtain ⟨⟨a0, a1⟩, a2⟩ := h1
  have b0 : isBreakO t1.text[0]? = false := not_brk a0 (by decide)
  have b1 : isBreakO t1.text[1]? = false := noBrk_hex.not a1
  have b2 : isBreakO t1.text[2]? = false := noBrk_hex.not a2
  have e1 := (h.text.nth1 b0).eq b1
  have e2 := (h.text.nth2 b0 b1).eq b2
  rw [← e1, ← e2]
  cases hx : t1.text[1]?.bind toHex? with
  | none => exact w2_panic
  | some a =>
    cases hy : t1.text[2]?.bind toHex? with
    | none => exact w2_panic
    | some b =>
      dsimp only
      refine w2_ite Iff.rfl (fun _ _ => do_err h hm) (fun _ _ => ?_)
      refine w2_ite Iff.rfl (fun _ _ => do_err h hm) (fun _ _ => ?_)
      refine w2_seq (do_skip' h b0) ?_
      rintro _ s1 t3 _ s2 t4 ⟨h, k1⟩
      refine w2_seq (do_skip' h (by rw [k1]; exact b1)) ?_
      rintro _ s1 t5 _ s2 t6 ⟨h, k2⟩
      refine w2_seq (do_skip h (by rw [k2, k1]; exact b2)) ?_
      rintro _ s1 t7 _ s2 t8 ⟨-, h⟩
      exact w2_ite Iff.rfl (fun _ _ => ⟨rfl, h⟩) (fun _ _ => ⟨rfl, h⟩)

theorem do_tagUri {u d : Bool} {m m' : Mark} {hd : Str} (h : St L K s1 t1 s2 t2) (hm : Mz L m m') :
    Do L K (scanTagUri F u d hd m) (scanTagUri F u d hd m') Eq s1 t1 s2 t2 := by
  unfold scanTagUri
  tws
  refine w2_seq (Q' := Ok L K Eq) (do_loop (R := Eq) h rfl ?_) ?_
  · rintro ⟨str, n⟩ _ s1 t1 s2 t2 rfl h
    tws
    refine w2_ite (by rw [h.ch0.test (noBrk_uri u)]) (fun h1 h2 => ?_) (fun h1 h2 => ⟨rfl, h⟩)
    have hpc := h.ch0.isb (x := '%') (by decide)
    refine w2_ite (by rw [hpc]) (fun _ _ => ?_) (fun _ _ => ?_)
    · refine w2_seq (do_uriEscapes h hm rfl) ?_
      rintro a s1 t1 _ s2 t2 ⟨rfl, h⟩
      tws
      exact ⟨rfl, h⟩
    · refine w2_seq (do_read h ((noBrk_uri u).not h1) rfl) ?_
      rintro a s1 t1 _ s2 t2 ⟨rfl, h⟩
      tws
      exact ⟨rfl, h⟩
  · rintro ⟨v, n⟩ s1 t1 _ s2 t2 ⟨rfl, h⟩
    exact w2_ite Iff.rfl (fun _ _ => do_err h hm) (fun _ _ => ⟨rfl, h⟩)

theorem do_tagDirective {m m' : Mark} (h : St L K s1 t1 s2 t2) (hm : Mz L m m') :
    Do L K (scanTagDirectiveValue F m) (scanTagDirectiveValue F m') Eq s1 t1 s2 t2 := by
  unfold scanTagDirectiveValue
  tws
  refine w2_seq (do_skipWhile h noBrk_blank rfl) ?_
  rintro _ s1 t1 _ s2 t2 ⟨-, h⟩
  refine w2_seq (do_tagHandle h hm) ?_
  rintro a s1 t1 _ s2 t2 ⟨rfl, h⟩
  tws
  refine w2_ite (by rw [h.ch0.blank]) (fun _ _ => do_err h hm) (fun h1 h2 => ?_)
  refine w2_seq (do_skipWhile h noBrk_blank rfl) ?_
  rintro _ s1 t1 _ s2 t2 ⟨-, h⟩
  refine w2_seq (do_tagUri h hm) ?_
  rintro b s1 t1 _ s2 t2 ⟨rfl, h⟩
  tws
  exact w2_ite (by rw [h.ch0.blankz]) (fun _ _ => do_err h hm) (fun _ _ => ⟨rfl, h⟩)

theorem do_directiveValue {m m' : Mark} {n : Str} (h : St L K s1 t1 s2 t2) (hm : Mk L m m') :
    Do L K (scanDirectiveValue F m n) (scanDirectiveValue F m' n) (Tk L) s1 t1 s2 t2 := by
  unfold scanDirectiveValue
  refine w2_ite Iff.rfl (fun _ _ => ?_) (fun _ _ => w2_ite Iff.rfl (fun _ _ => ?_) (fun _ _ => do_err h (Or.inl hm)))
  · refine w2_seq (do_version h (Or.inl hm)) ?_
    rintro ⟨a, b⟩ s1 t1 _ s2 t2 ⟨rfl, h⟩
    tws
    exact ⟨⟨rfl, hm, h.mark⟩, h⟩
  · refine w2_seq (do_tagDirective h (Or.inl hm)) ?_
    rintro ⟨a, b⟩ s1 t1 _ s2 t2 ⟨rfl, h⟩
    tws
    exact ⟨⟨rfl, hm, h.mark⟩, h⟩

theorem do_comment (h : St L K s1 t1 s2 t2) : Do L K (skipBlanksAndComment F) (skipBlanksAndComment F) Eq s1 t1 s2 t2 := by
  unfold skipBlanksAndComment
  tws
  refine w2_seq (do_skipWhile h noBrk_blank rfl) ?_
  rintro _ s1 t1 _ s2 t2 ⟨-, h⟩
  tws
  exact w2_when (by rw [h.ch0.isb (by decide)]) (fun h1 h2 => do_skipWhile h noBrk_notz rfl) (fun h1 h2 => ⟨rfl, h⟩)

/-- `if is_break { cache(2); skip_line_break }`. -/
theorem do_whenBreak (h : St L K s1 t1 s2 t2) : Do L K (M.when (isBreakO t1.text[0]?) (do cache 2; skipLineBreak))
    (M.when (isBreakO t2.text[0]?) (do cache 2; skipLineBreak)) Eq s1 t1 s2 t2 := by
  refine w2_when (by rw [h.ch0.brk]) (fun h1 h2 => ?_) (fun h1 h2 => ⟨rfl, h⟩)
  tws
  exact do_skipLine h

theorem do_directive (h : St L K s1 t1 s2 t2) (hb : isBreakO t1.text[0]? = false) :
    Do L K (scanDirective F) (scanDirective F) (Tk L) s1 t1 s2 t2 := by
  unfold scanDirective
  have hm := h.mark
  tws
  refine w2_seq (do_skip h hb) ?_
  rintro _ s3 t3 _ s4 t4 ⟨-, h⟩
  refine w2_seq (do_directiveName h (Or.inl hm)) ?_
  rintro n s3 t3 _ s4 t4 ⟨rfl, h⟩
  refine w2_seq (do_directiveValue h hm) ?_
  rintro k s3 t3 k' s4 t4 ⟨hk, h⟩
  refine w2_seq (do_comment h) ?_
  rintro _ s3 t3 _ s4 t4 ⟨-, h⟩
  tws
  refine w2_ite (by rw [h.ch0.brkz]) (fun _ _ => ?_) (fun _ _ => do_err h (Or.inl hm))
  refine w2_seq (do_whenBreak h) ?_
  rintro _ s3 t3 _ s4 t4 ⟨-, h⟩
  exact ⟨hk, h⟩

theorem anchorFollow_ch {c d : Option Char} (h : Ch c d) : anchorFollow c = anchorFollow d := by
  unfold anchorFollow
  rw [h.blankz, h.isb (x := '?') (by decide), h.isb (x := ':') (by decide), h.isb (x := ',') (by decide), h.isb (x := ']') (by decide),
    h.isb (x := '}') (by decide), h.isb (x := '%') (by decide), h.isb (x := '@') (by decide), h.isb (x := '`') (by decide)]

theorem do_anchor {al : Bool} (h : St L K s1 t1 s2 t2) (hb : isBreakO t1.text[0]? = false) :
    Do L K (scanAnchor F al) (scanAnchor F al) (Tk L) s1 t1 s2 t2 := by
  unfold scanAnchor
  have hm := h.mark
  tws
  refine w2_seq (do_skip h hb) ?_
  rintro _ s3 t3 _ s4 t4 ⟨-, h⟩
  tws
  refine w2_seq (do_readWhile h noBrk_alpha rfl) ?_
  rintro n s3 t3 _ s4 t4 ⟨rfl, h⟩
  tws
  refine w2_ite (by rw [anchorFollow_ch h.ch0]) (fun _ _ => do_err h (Or.inl hm)) (fun _ _ => ?_)
  exact ⟨⟨rfl, hm, h.mark⟩, h⟩

theorem do_tagBody {m m' : Mark} (h : St L K s1 t1 s2 t2) (hb : isBreakO t1.text[0]? = false) (hm : Mz L m m') :
    Do L K (scanTagBody F m) (scanTagBody F m') Eq s1 t1 s2 t2 := by
  unfold scanTagBody
  tws
  have c1 := h.text.nth1 hb
  refine w2_ite (by rw [c1.isb (by decide)]) (fun h1 h2 => ?_) (fun h1 h2 => ?_)
  · refine w2_seq (do_skip' h hb) ?_
    rintro _ s3 t3 _ s4 t4 ⟨h, k1⟩
    refine w2_seq (do_skip h (by rw [k1]; exact not_brk h1 (by decide))) ?_
    rintro _ s3 t3 _ s4 t4 ⟨-, h⟩
    refine w2_seq (do_tagUri h hm) ?_
    rintro n s3 t3 _ s4 t4 ⟨rfl, h⟩
    tws
    refine w2_ite (by simp only [bne_iff_ne, ne_eq, h.ch0.is (x := '>') (by decide)]) (fun _ _ => do_err h hm) (fun h1 h2 => ?_)
    refine w2_seq (do_skip h (not_brk (x := '>') (by simpa using h1) (by decide))) ?_
    rintro _ s3 t3 _ s4 t4 ⟨-, h⟩
    exact ⟨rfl, h⟩
  · refine w2_seq (do_tagHandle h hm) ?_
    rintro n s3 t3 _ s4 t4 ⟨rfl, h⟩
    refine w2_ite Iff.rfl (fun _ _ => ?_) (fun _ _ => ?_)
    · refine w2_seq (do_tagUri h hm) ?_
      rintro n s3 t3 _ s4 t4 ⟨rfl, h⟩
      exact ⟨rfl, h⟩
    · refine w2_seq (do_tagUri h hm) ?_
      rintro n s3 t3 _ s4 t4 ⟨rfl, h⟩
      exact w2_ite Iff.rfl (fun _ _ => ⟨rfl, h⟩) (fun _ _ => ⟨rfl, h⟩)

theorem do_tag (h : St L K s1 t1 s2 t2) (hb : isBreakO t1.text[0]? = false) :
    Do L K (scanTag F) (scanTag F) (Tk L) s1 t1 s2 t2 := by
  unfold scanTag
  have hm := h.mark
  tws
  refine w2_seq (do_tagBody h hb (Or.inl hm)) ?_
  rintro ⟨a, b⟩ s3 t3 _ s4 t4 ⟨rfl, h⟩
  tws
  refine w2_ite (by rw [h.ch0.blankz]) (fun _ _ => ?_) (fun _ _ => ?_)
  · tws
    exact w2_ite (by rw [h.fl]; simp only [Bool.or_eq_true, bne_iff_ne, ne_eq, h.ch0.is (x := ',') (by decide)]) (fun _ _ => do_err h (Or.inl hm)) (fun _ _ => w2_panic)
  · tws
    exact ⟨⟨rfl, hm, h.mark⟩, h⟩

theorem do_skipIndent {n : Int} (h : St L K s1 t1 s2 t2) : Do L K (skipIndent F n) (skipIndent F n) Eq s1 t1 s2 t2 := by
  refine do_loop (R := Eq) h rfl ?_
  intro x y s1 t1 s2 t2 hx h
  tws
  refine w2_ite (by unfold isSpaceO; rw [h.col, h.ch0.isb (by decide)]) (fun h1 h2 => ?_) (fun h1 h2 => ⟨rfl, h⟩)
  simp only [Bool.and_eq_true] at h1
  refine w2_seq (do_skip h (not_brk h1.2 (by decide))) ?_
  rintro _ s3 t3 _ s4 t4 ⟨-, h⟩
  tws
  exact ⟨rfl, h⟩

theorem do_blockBreaks {n : Int} {br : Str} {m m' : Mark} (h : St L K s1 t1 s2 t2) (hm : Mz L m m') :
    Do L K (scanBlockScalarBreaks F n br m) (scanBlockScalarBreaks F n br m')
      (fun a b => a.1 = b.1 ∧ a.2.1 = b.2.1 ∧ Mk L a.2.2 b.2.2) s1 t1 s2 t2 := by
  unfold scanBlockScalarBreaks
  tws
  refine w2_seq (Q' := Ok L K (fun (a b : Int × Str × Mark) => a.1 = b.1 ∧ a.2.1 = b.2.1 ∧ Mk L a.2.2 b.2.2))
    (do_loop (R := fun (a b : Int × Str × Mark) => a.1 = b.1 ∧ a.2.1 = b.2.1 ∧ Mk L a.2.2 b.2.2) h ⟨rfl, rfl, h.mark⟩ ?_) ?_
  · rintro ⟨x, br, e⟩ ⟨x', br', e'⟩ s1 t1 s2 t2 ⟨hx, hb, he⟩ h
    dsimp only at hx hb he
    subst hx; subst hb
    tws
    refine w2_seq (do_skipIndent h) ?_
    rintro _ s3 t3 _ s4 t4 ⟨-, h⟩
    tws
    rw [h.col]
    refine w2_ite (by unfold isTabO; rw [h.ch0.isb (by decide)]) (fun _ _ => do_err h hm) (fun _ _ => ?_)
    refine w2_ite (by rw [h.ch0.brk]) (fun _ _ => ⟨⟨rfl, rfl, he⟩, h⟩) (fun _ _ => ?_)
    tws
    refine w2_seq (do_readLine h rfl) ?_
    rintro a s3 t3 _ s4 t4 ⟨rfl, h⟩
    tws
    exact ⟨⟨rfl, rfl, h.mark⟩, h⟩
  · rintro ⟨x, br, e⟩ s1 t1 ⟨x', br', e'⟩ s2 t2 ⟨⟨hx, hb, he⟩, h⟩
    dsimp only at hx hb he
    subst hx; subst hb
    tws
    rw [h.i]
    exact w2_ite Iff.rfl (fun _ _ => ⟨⟨rfl, rfl, he⟩, h⟩) (fun _ _ => ⟨⟨rfl, rfl, he⟩, h⟩)

theorem do_blockDigit {m m' : Mark} (h : St L K s1 t1 s2 t2) (hm : Mz L m m') (hd : isDigitO t1.text[0]? = true) :
    Do L K (blockIndicatorDigit m t1.text[0]?) (blockIndicatorDigit m' t2.text[0]?) Eq s1 t1 s2 t2 := by
  unfold blockIndicatorDigit
  rw [← h.ch0.eq (noBrk_digit.not hd)]
  refine w2_ite Iff.rfl (fun _ _ => do_err h hm) (fun _ _ => ?_)
  cases t1.text[0]?.bind toDigit? with
  | none => exact w2_panic
  | some d =>
    refine w2_seq (do_skip h (noBrk_digit.not hd)) ?_
    rintro a s3 t3 _ s4 t4 ⟨rfl, h⟩
    exact ⟨rfl, h⟩

theorem do_blockHeader {m m' : Mark} (h : St L K s1 t1 s2 t2) (hm : Mz L m m') :
    Do L K (blockScalarHeader m) (blockScalarHeader m') Eq s1 t1 s2 t2 := by
  unfold blockScalarHeader
  tws
  have pm : ∀ {t1 t2 : Txt} {s1 s2 : SState}, St L K s1 t1 s2 t2 → ((t1.text[0]? == some '+' || t1.text[0]? == some '-') = true ↔
      (t2.text[0]? == some '+' || t2.text[0]? == some '-') = true) := by
    intro t1 t2 s1 s2 h; rw [h.ch0.isb (x := '+') (by decide), h.ch0.isb (x := '-') (by decide)]
  have nb : ∀ {c : Option Char}, (c == some '+' || c == some '-') = true → isBreakO c = false := by
    intro c hc
    simp only [Bool.or_eq_true] at hc
    exact hc.elim (fun h => not_brk h (by decide)) (fun h => not_brk h (by decide))
  refine w2_ite (pm h) (fun h1 h2 => ?_) (fun h1 h2 => ?_)
  · rw [h.ch0.isb (x := '+') (by decide)]
    refine w2_seq (do_skip h (nb h1)) ?_
    rintro a s3 t3 _ s4 t4 ⟨rfl, h⟩
    tws
    refine w2_ite (by rw [h.ch0.test noBrk_digit]) (fun h1 h2 => ?_) (fun _ _ => ⟨rfl, h⟩)
    refine w2_seq (do_blockDigit h hm h1) ?_
    rintro a s3 t3 _ s4 t4 ⟨rfl, h⟩
    exact ⟨rfl, h⟩
  · refine w2_ite (by rw [h.ch0.test noBrk_digit]) (fun h1 h2 => ?_) (fun _ _ => ⟨rfl, h⟩)
    refine w2_seq (do_blockDigit h hm h1) ?_
    rintro a s3 t3 _ s4 t4 ⟨rfl, h⟩
    tws
    refine w2_ite (pm h) (fun h1 h2 => ?_) (fun h1 h2 => ⟨rfl, h⟩)
    rw [h.ch0.isb (x := '+') (by decide)]
    refine w2_seq (do_skip h (nb h1)) ?_
    rintro b s3 t3 _ s4 t4 ⟨-, h⟩
    exact ⟨rfl, h⟩

/-- Loop variables of block scalars. -/
structure Bv (L : Nat) (v v' : BlockVars) : Prop where
  string : v.string = v'.string
  lb : v.leadingBreak = v'.leadingBreak
  tb : v.trailingBreaks = v'.trailingBreaks
  bl : v.leadingBlank = v'.leadingBlank
  ind : v.indent = v'.indent
  em : Mk L v.endMark v'.endMark

theorem do_blockContent {lit : Bool} {m m' : Mark} {v v' : BlockVars} (h : St L K s1 t1 s2 t2) (hm : Mz L m m') (hv : Bv L v v') :
    Do L K (blockContent F lit m v) (blockContent F lit m' v') (Bv L) s1 t1 s2 t2 := by
  refine do_loop (R := Bv L) h hv ?_
  intro v v' s1 t1 s2 t2 hv h
  tws
  refine w2_ite (by rw [h.col, hv.ind, h.ch0.none]) (fun _ _ => ⟨hv, h⟩) (fun _ _ => ?_)
  have e : blockFlush lit (isBlankO t1.text[0]?) v = blockFlush lit (isBlankO t2.text[0]?) v' := by
    unfold blockFlush; rw [h.ch0.blank, hv.string, hv.lb, hv.tb, hv.bl]
  rw [h.ch0.blank] at e ⊢
  refine w2_seq (do_readWhile h noBrk_notz e) ?_
  rintro str s3 t3 _ s4 t4 ⟨rfl, h⟩
  tws
  refine w2_seq (do_readLine h rfl) ?_
  rintro lb s3 t3 _ s4 t4 ⟨rfl, h⟩
  rw [hv.ind]
  refine w2_seq (do_blockBreaks h hm) ?_
  rintro ⟨x, br, em⟩ s3 t3 ⟨x', br', em'⟩ s4 t4 ⟨⟨hx, hb, he⟩, h⟩
  dsimp only at hx hb he
  subst hx; subst hb
  exact ⟨⟨rfl, rfl, rfl, rfl, rfl, he⟩, h⟩

theorem do_blockScalar {lit : Bool} (h : St L K s1 t1 s2 t2) (hb : isBreakO t1.text[0]? = false) :
    Do L K (scanBlockScalar F lit) (scanBlockScalar F lit) (Tk L) s1 t1 s2 t2 := by
  unfold scanBlockScalar
  have hm := h.mark
  tws
  refine w2_seq (do_skip h hb) ?_
  rintro _ s3 t3 _ s4 t4 ⟨-, h⟩
  refine w2_seq (do_blockHeader h (Or.inl hm)) ?_
  rintro ⟨ch, inc⟩ s3 t3 _ s4 t4 ⟨rfl, h⟩
  refine w2_seq (do_comment h) ?_
  rintro _ s3 t3 _ s4 t4 ⟨-, h⟩
  tws
  refine w2_ite (by rw [h.ch0.brkz]) (fun _ _ => do_err h (Or.inl hm)) (fun _ _ => ?_)
  refine w2_seq (do_whenBreak h) ?_
  rintro _ s3 t3 _ s4 t4 ⟨-, h⟩
  tws
  rw [h.i]
  refine w2_seq (do_blockBreaks h (Or.inl hm)) ?_
  rintro ⟨x, br, em⟩ s3 t3 ⟨x', br', em'⟩ s4 t4 ⟨⟨hx, hb, he⟩, h⟩
  dsimp only at hx hb he
  subst hx; subst hb
  tws
  refine w2_seq (do_blockContent h (Or.inl hm) ⟨rfl, rfl, rfl, rfl, rfl, he⟩) ?_
  rintro v s3 t3 v' s4 t4 ⟨hv, h⟩
  rw [hv.string, hv.lb, hv.tb]
  exact ⟨⟨rfl, hm, hv.em⟩, h⟩

end
end Tw
end Yaml
