import Verif.Spec.Plain
import Verif.Lib.EmitText

/-
`scan_plain_scalar` run over a plain text: it reads what `Spec.PlainScalar` describes.
-/

namespace Yaml
open Scanner Emitter
set_option linter.unusedSimpArgs false
set_option linter.unusedVariables false

section
variable {P : PanicSite → Prop} {E : Err → SState → Txt → Prop} {s : SState} {t : Str} {e : Encoding}

theorem _root_.Yaml.Spec.Gap.length {t bs t' : Str} (h : Spec.Gap t bs t') : t'.length ≤ t.length := by
  induction h with
  | stop => exact Nat.le_refl _
  | space => simp; omega
  | brk hb h ih => have := hb.length; omega

theorem _root_.Yaml.Spec.PlainBody.length {fl : Bool} {n : Int} {t v t' : Str} (h : Spec.PlainBody fl n t v t') : t'.length ≤ t.length := by
  induction h with
  | done => exact Nat.le_refl _
  | fold hb hf hn hd hc hx h ih => have := hf.length; simp at this ⊢; omega
  | _ => simp; omega

/-- Spaces up to the first break. -/
theorem _root_.Yaml.Spec.Gap.split {t bs t' : Str} (h : Spec.Gap t bs t') (hn : bs ≠ []) :
    ∃ k t0 c t1 bs', t = List.replicate k ' ' ++ t0 ∧ Spec.BreakAt t0 c t1 ∧ bs = c :: bs' ∧ Spec.Gap t1 bs' t' := by
  induction h with
  | stop t h => exact absurd rfl hn
  | space h ih =>
    obtain ⟨k, t0, d, t1, bs', rfl, h2, h3, h4⟩ := ih hn
    exact ⟨k + 1, t0, d, t1, bs', by simp [List.replicate_succ], h2, h3, h4⟩
  | brk hb h ih => exact ⟨0, _, _, _, _, rfl, hb, rfl, h⟩

theorem _root_.Yaml.Spec.Gap.nil {t bs t' : Str} (h : Spec.Gap t bs t') (hn : bs = []) : Spec.Solid t' ∧ ∃ k, t = List.replicate k ' ' ++ t' := by
  induction h with
  | stop t h => exact ⟨h, 0, rfl⟩
  | space h ih => obtain ⟨h', k, rfl⟩ := ih hn; exact ⟨h', k + 1, by simp [List.replicate_succ]⟩
  | brk hb h ih => cases hn

theorem _root_.Yaml.Spec.Gap.solid {t bs t' : Str} (h : Spec.Gap t bs t') : Spec.Solid t' := by
  induction h with
  | stop t h => exact h
  | space h ih => exact ih
  | brk hb h ih => exact ih

theorem _root_.Yaml.Spec.BreakAt.prefix {t t1 : Str} {c : Char} (h : Spec.BreakAt t c t1) : ∃ p, t = p ++ t1 := by
  cases h with
  | crlf t => exact ⟨['\r', '\n'], rfl⟩
  | one c t _ _ => exact ⟨[c], rfl⟩

theorem _root_.Yaml.Spec.Gap.prefix {t bs t' : Str} (h : Spec.Gap t bs t') : ∃ p, t = p ++ t' := by
  induction h with
  | stop t h => exact ⟨[], rfl⟩
  | space h ih => obtain ⟨p, rfl⟩ := ih; exact ⟨' ' :: p, rfl⟩
  | brk hb h ih =>
    obtain ⟨p, rfl⟩ := ih
    obtain ⟨q, rfl⟩ := hb.prefix
    exact ⟨q ++ p, by simp⟩

/-! ### The blank loop -/

theorem wpT_plainBlanks_lead {F : Nat} {n : Int} {m : Mark} {v : BlankVars} {Q : BlankVars → SState → Txt → Prop} {bs t' : Str}
    (h : Spec.Gap t bs t') (hv : v.leadingBlanks = true) (hF : t.length < F)
    (hQ : ∀ s', Mv s t s' t' → Q { v with trailingBreaks := v.trailingBreaks ++ bs } s' ⟨t', e⟩) :
    M.wp stepT P E (plainBlanks F n m v) Q s ⟨t, e⟩ := by
  unfold plainBlanks
  induction h generalizing s F v with
  | stop t h =>
    obtain ⟨F, rfl⟩ : ∃ n, F = n + 1 := ⟨F - 1, by omega⟩
    rw [M.wp_loop_succ]
    simp only [M.wp_bind, wpT_at, wp_getMark]
    have h0 : isBlankO t[0]? = false ∧ isBreakO t[0]? = false := by
      cases t with
      | nil => exact ⟨rfl, rfl⟩
      | cons c r =>
        have := h c r rfl
        exact ⟨isBlankO_false.2 this.1, by rw [List.getElem?_cons_zero, breakO_eq]; exact this.2⟩
    simp only [h0.1, h0.2, Bool.false_eq_true, if_false, M.wp_pure, M.next_inr]
    have := hQ s (Mv.refl _ _)
    simpa using this
  | @space t bs t' h ih =>
    obtain ⟨F, rfl⟩ : ∃ n, F = n + 1 := ⟨F - 1, by simp at hF; omega⟩
    rw [M.wp_loop_succ]
    simp only [M.wp_bind, wpT_at, wp_getMark, List.getElem?_cons_zero, isBlankO_iff.2 (Or.inl rfl), if_true, hv]
    rw [if_neg (by simp [isTabO]), if_neg (by simp)]
    rw [M.wp_bind]
    refine wpT_skipChar (by decide) fun s' hs' => ?_
    simp only [wpT_cache, M.wp_bind, M.wp_pure, M.next_inl]
    exact ih hv (by simp at hF; omega) fun s'' hs'' => hQ _ (hs'.trans hs'')
  | @brk t t1 bs t' c hb h ih =>
    obtain ⟨F, rfl⟩ : ∃ n, F = n + 1 := ⟨F - 1, by omega⟩
    rw [M.wp_loop_succ]
    obtain ⟨d, r, hd, hbr⟩ := hb.head
    have h0 : isBlankO t[0]? = false ∧ isBreakO t[0]? = true := by
      rw [hd, List.getElem?_cons_zero]
      refine ⟨isBlankO_false.2 fun hb => ?_, hbr⟩
      rw [hb.noBreak] at hbr; simp at hbr
    simp only [M.wp_bind, wpT_at, wp_getMark, h0.1, h0.2, Bool.false_eq_true, if_false, if_true, wpT_cache, hv]
    refine wpT_readLineBreak hb fun s' hs' _ _ => ?_
    simp only [wpT_cache, M.wp_bind, M.wp_pure, M.next_inl]
    refine ih rfl (by have := hb.length; omega) fun s'' hs'' => ?_
    have := hQ _ (hs'.trans hs'')
    simpa [hv] using this

/-- The blank loop on spaces and then a line break. -/
theorem wpT_plainBlanks {F : Nat} {n : Int} {m : Mark} {v : BlankVars} {Q : BlankVars → SState → Txt → Prop} {b t0 t1 bs t' : Str} {c : Char}
    (hb : ∀ x ∈ b, Spec.IsBlank x) (h0 : Spec.BreakAt t0 c t1) (h : Spec.Gap t1 bs t') (hv : v.leadingBlanks = false)
    (hF : (b ++ t0).length < F)
    (hQ : ∀ s', Mv s (b ++ t0) s' t' → Q ⟨v.leadingBreak ++ [c], v.trailingBreaks ++ bs, [], true⟩ s' ⟨t', e⟩) :
    M.wp stepT P E (plainBlanks F n m v) Q s ⟨b ++ t0, e⟩ := by
  induction b generalizing s F v with
  | nil =>
    unfold plainBlanks
    obtain ⟨F, rfl⟩ : ∃ n, F = n + 1 := ⟨F - 1, by omega⟩
    rw [M.wp_loop_succ]
    obtain ⟨d, r, hd, hbr⟩ := h0.head
    have hz : isBlankO t0[0]? = false ∧ isBreakO t0[0]? = true := by
      rw [hd, List.getElem?_cons_zero]
      refine ⟨isBlankO_false.2 fun hb => ?_, hbr⟩
      rw [hb.noBreak] at hbr; simp at hbr
    simp only [M.wp_bind, wpT_at, wp_getMark, List.nil_append, hz.1, hz.2, Bool.false_eq_true, if_false, if_true, wpT_cache, hv]
    refine wpT_readLineBreak h0 fun s' hs' _ _ => ?_
    simp only [wpT_cache, M.wp_bind, M.wp_pure, M.next_inl]
    have := wpT_plainBlanks_lead (P := P) (E := E) (s := s') (e := e) (F := F) (Q := Q) (n := n) (m := m)
      (v := { v with whitespaces := [], leadingBreak := v.leadingBreak ++ [c], leadingBlanks := true }) h rfl
      (by have := h0.length; simp at hF; omega) fun s'' hs'' => hQ _ (hs'.trans hs'')
    exact this
  | cons x b ih =>
    have hx := hb x List.mem_cons_self
    have hb := fun y hy => hb y (List.mem_cons_of_mem _ hy)
    unfold plainBlanks
    obtain ⟨F, rfl⟩ : ∃ n, F = n + 1 := ⟨F - 1, by omega⟩
    rw [M.wp_loop_succ]
    simp only [M.wp_bind, wpT_at, wp_getMark, List.cons_append, List.getElem?_cons_zero, isBlankO_iff.2 hx, if_true, hv]
    rw [if_neg (by simp), if_pos (by simp), M.wp_bind]
    refine wpT_readChar hx.noBreak fun s' hs' => ?_
    simp only [wpT_cache, M.wp_bind, M.wp_pure, M.next_inl]
    have := ih (s := s') (F := F) (v := { v with whitespaces := v.whitespaces ++ [x] })
      hb hv (by simp at hF ⊢; omega) fun s'' hs'' => hQ _ (hs'.trans hs'')
    simpa [plainBlanks, hv] using this

/-- The blank loop on blanks only. -/
theorem wpT_plainBlanks_only {F : Nat} {n : Int} {m : Mark} {v : BlankVars} {Q : BlankVars → SState → Txt → Prop} {b t' : Str}
    (hb : ∀ x ∈ b, Spec.IsBlank x) (h : Spec.Solid t') (hv : v.leadingBlanks = false) (hF : b.length < F)
    (hQ : ∀ s', Mv s (b ++ t') s' t' → Q { v with whitespaces := v.whitespaces ++ b } s' ⟨t', e⟩) :
    M.wp stepT P E (plainBlanks F n m v) Q s ⟨b ++ t', e⟩ := by
  induction b generalizing s F v with
  | nil =>
    unfold plainBlanks
    obtain ⟨F, rfl⟩ : ∃ n, F = n + 1 := ⟨F - 1, by omega⟩
    rw [M.wp_loop_succ]
    have h0 : isBlankO t'[0]? = false ∧ isBreakO t'[0]? = false := by
      cases t' with
      | nil => exact ⟨rfl, rfl⟩
      | cons c r =>
        have := h c r rfl
        exact ⟨isBlankO_false.2 this.1, by rw [List.getElem?_cons_zero, breakO_eq]; exact this.2⟩
    simp only [M.wp_bind, wpT_at, wp_getMark, List.nil_append, h0.1, h0.2, Bool.false_eq_true, if_false, M.wp_pure, M.next_inr]
    have := hQ s (Mv.refl _ _)
    simpa using this
  | cons x b ih =>
    have hx := hb x List.mem_cons_self
    have hb := fun y hy => hb y (List.mem_cons_of_mem _ hy)
    unfold plainBlanks
    obtain ⟨F, rfl⟩ : ∃ n, F = n + 1 := ⟨F - 1, by omega⟩
    rw [M.wp_loop_succ]
    simp only [M.wp_bind, wpT_at, wp_getMark, List.cons_append, List.getElem?_cons_zero, isBlankO_iff.2 hx, if_true, hv]
    rw [if_neg (by simp), if_pos (by simp), M.wp_bind]
    refine wpT_readChar hx.noBreak fun s' hs' => ?_
    simp only [wpT_cache, M.wp_bind, M.wp_pure, M.next_inl]
    have := ih (s := s') (F := F) (v := { v with whitespaces := v.whitespaces ++ [x] })
      hb hv (by simp at hF ⊢; omega) fun s'' hs'' => by
        have := hQ _ (hs'.trans hs'')
        simpa using this
    simpa [plainBlanks, hv] using this

/-! ### Chunks -/

/-- The part of the main loop after the non-blank loop. -/
def plainAfter (F : Nat) (n : Int) (m : Mark) (v : PlainVars) : Scan (PlainVars ⊕ PlainVars) := do
  let c ← at_ 0
  if !(isBlankO c || isBreakO c) then pure (.inr v)
  else do
    cache 1
    let b ← plainBlanks F n m v.blanks
    let v := { v with blanks := b }
    let s ← M.get
    if s.flowLevel == 0 && decide ((s.mark.column : Int) < n) then pure (.inr v)
    else pure (.inl v)

/-- One pass of the main loop. -/
def plainPass (F : Nat) (n : Int) (m : Mark) (v : PlainVars) : Scan (PlainVars ⊕ PlainVars) := do
  cache 4
  let c0 ← at_ 0
  let c1 ← at_ 1
  let c2 ← at_ 2
  let c3 ← at_ 3
  let mk ← getMark
  if isDocIndicator mk c0 c1 c2 c3 then pure (.inr v)
  else if c0 == some '#' then pure (.inr v)
  else do
    let v ← plainChunk F m v
    plainAfter F n m v

theorem plainBody_eq (F : Nat) (n : Int) (m : Mark) :
    plainBody F n m = M.loop F (plainPass F n m) { string := [], blanks := {}, endMark := m } := rfl

/-- What follows the non-blank loop, with `G` passes left. -/
def PRest (P : PanicSite → Prop) (E : Err → SState → Txt → Prop) (F : Nat) (n : Int) (m : Mark) (G : Nat)
    (Q : PlainVars → SState → Txt → Prop) : PlainVars → SState → Txt → Prop := fun v s b =>
  M.wp stepT P E (plainAfter F n m v)
    (M.next (fun x s b => M.wp stepT P E (M.loop G (plainPass F n m) x) Q s b) Q) s b

theorem flowInd_iff {c : Char} : (some c == some ',' || some c == some '[' || some c == some ']' || some c == some '{' || some c == some '}') = true ↔
    Spec.isFlowIndicator c := by
  simp [Spec.isFlowIndicator, or_assoc]

theorem plainStop_iff {fl : Nat} {c : Char} {t : Str} :
    plainStop fl (some c) t.head? = true ↔ Spec.PlainStop (fl != 0) (c :: t) := by
  unfold plainStop Spec.PlainStop
  simp only [Bool.or_eq_true, Bool.and_eq_true, beq_iff_eq, Option.some.injEq, blankz_iff]
  constructor
  · rintro (⟨rfl, h⟩ | ⟨h1, h2⟩)
    · exact Or.inr (Or.inl ⟨t, rfl, fun d r hd => h d (by rw [hd]; rfl)⟩)
    · refine Or.inr (Or.inr ⟨h1, c, t, rfl, ?_⟩)
      simpa [Spec.isFlowIndicator, or_assoc] using h2
  · rintro (h | ⟨r, h1, h2⟩ | ⟨h1, d, r, h2, h3⟩)
    · cases h
    · cases h1
      refine Or.inl ⟨rfl, fun d hd => ?_⟩
      cases t with
      | nil => cases hd
      | cons x r => cases hd; exact h2 _ _ rfl
    · cases h2
      refine Or.inr ⟨h1, ?_⟩
      simpa [Spec.isFlowIndicator, or_assoc] using h3

theorem plainBad_false {fl : Nat} {c : Char} {t : Str} (h : (fl != 0) = true → c = ':' → ∀ d r, t = d :: r → ¬ Spec.isFlowIndicator d ∧ d ≠ '?') :
    plainBadColon fl (some c) t.head? = false := by
  cases hb : plainBadColon fl (some c) t.head? with
  | false => rfl
  | true =>
    exfalso
    simp only [plainBadColon, Bool.and_eq_true, beq_iff_eq, Option.some.injEq] at hb
    obtain ⟨⟨h1, h2⟩, h3⟩ := hb
    cases t with
    | nil => simp at h3
    | cons d r =>
      obtain ⟨h4, h5⟩ := h h1 h2 d r rfl
      apply h4
      simp at h3
      unfold Spec.isFlowIndicator
      rcases h3 with ((((h | h) | h) | h) | h) | h <;> simp_all

/-- One character of a plain scalar. -/
theorem wpT_plainChar {F1 : Nat} {m : Mark} {Q : PlainVars → SState → Txt → Prop} {c : Char} {v : PlainVars}
    (hc : Spec.PlainChar (s.flowLevel != 0) c t)
    (hQ : ∀ s', Mv s (c :: t) s' t → M.wp stepT P E (plainChunk F1 m ⟨v.string ++ joinBlanks v.blanks ++ [c], {}, s'.mark⟩) Q s' ⟨t, e⟩) :
    M.wp stepT P E (plainChunk (F1 + 1) m v) Q s ⟨c :: t, e⟩ := by
  unfold plainChunk
  rw [M.wp_loop_succ]
  simp only [M.wp_bind, wpT_at, List.getElem?_cons_zero, List.getElem?_cons_succ, M.wp_get]
  rw [if_neg (by rw [blankz_false hc.solid.1 hc.solid.2]; simp), if_neg (by rw [← List.head?_eq_getElem?, plainBad_false hc.colon]; simp),
    if_neg (by rw [← List.head?_eq_getElem?]; exact fun h => hc.go (plainStop_iff.1 h))]
  simp only [M.wp_bind]
  refine wpT_readChar (by rw [← isLineBreak_eq]; exact hc.solid.2) fun s' hs' => ?_
  simp only [wp_getMark, M.wp_bind, wpT_cache, M.wp_pure, M.next_inl]
  exact hQ s' hs'

theorem Mv.colAfter {s' : SState} {p t' : Str} (h : Mv s (p ++ t') s' t') : (s'.mark.column : Int) = Emitter.colAfter s.mark.column p := by
  have h1 := h.2.pre
  rw [h1]; exact colAfter_advance _ _

theorem colAfter_nonneg (c : Int) (hc : 0 ≤ c) (p : Str) : 0 ≤ Emitter.colAfter c p := by
  induction p generalizing c with
  | nil => exact hc
  | cons x p ih => simp only [Emitter.colAfter]; split <;> exact ih _ (by omega)

theorem Mv.column_spaces {s' : SState} {p t' : Str} {k : Nat} (h : Mv s (p ++ (List.replicate k ' ' ++ t')) s' t') : (k : Int) ≤ s'.mark.column := by
  rw [show p ++ (List.replicate k ' ' ++ t') = (p ++ List.replicate k ' ') ++ t' by simp] at h
  rw [h.colAfter, colAfter_append, colAfter_spaces]
  have := colAfter_nonneg s.mark.column (by omega) p
  omega

theorem Mv.column_exact {s' : SState} {p t' : Str} {k : Nat} {c : Char} (hc : isBreak c = true)
    (h : Mv s (p ++ c :: (List.replicate k ' ' ++ t')) s' t') : (s'.mark.column : Int) = k := by
  rw [show p ++ c :: (List.replicate k ' ' ++ t') = (p ++ c :: List.replicate k ' ') ++ t' by simp] at h
  rw [h.colAfter, colAfter_append]
  simp only [Emitter.colAfter, hc, if_true]
  rw [colAfter_spaces]; omega

theorem wpT_plainHead {F G : Nat} {n : Int} {m : Mark} {v : PlainVars} {Q : PlainVars → SState → Txt → Prop}
    (h : s.mark.column ≠ 0 ∨ ¬ Spec.IsDocMarker t) (hx : t.head? ≠ some '#')
    (hQ : M.wp stepT P E (plainChunk F m v) (PRest P E F n m G Q) s ⟨t, e⟩) :
    M.wp stepT P E (M.loop (G + 1) (plainPass F n m) v) Q s ⟨t, e⟩ := by
  rw [M.wp_loop_succ]
  simp only [plainPass, M.wp_bind, wpT_cache, wpT_at, wp_getMark]
  rw [docIndicator_text h, if_neg (by simp), if_neg (by rw [← List.head?_eq_getElem?]; simpa using hx), M.wp_bind]
  exact hQ

theorem wpT_plainAfter {F G : Nat} {n : Int} {m : Mark} {v : PlainVars} {Q : PlainVars → SState → Txt → Prop} {d : Char} {r : Str} (ht : t = d :: r)
    (hd : isBlankO (some d) = true ∨ isBreakO (some d) = true)
    (h : M.wp stepT P E (plainBlanks F n m v.blanks)
      (fun b s x => (¬ (s.flowLevel = 0 ∧ (s.mark.column : Int) < n) → M.wp stepT P E (M.loop G (plainPass F n m) { v with blanks := b }) Q s x) ∧
        (s.flowLevel = 0 ∧ (s.mark.column : Int) < n → Q { v with blanks := b } s x)) s ⟨t, e⟩) :
    PRest P E F n m G Q v s ⟨t, e⟩ := by
  unfold PRest plainAfter
  simp only [M.wp_bind, wpT_at, ht, List.getElem?_cons_zero]
  rw [if_neg (by simp; intro h; rcases hd with hd | hd <;> simp_all)]
  simp only [M.wp_bind, wpT_cache, M.wp_get]
  rw [ht] at h
  refine M.wp_mono stepT_mono h ?_ (fun _ _ _ h => h) (fun _ h => h)
  rintro b s x ⟨h1, h2⟩
  by_cases hc : s.flowLevel = 0 ∧ (s.mark.column : Int) < n
  · rw [if_pos (by simpa using hc)]
    exact h2 hc
  · rw [if_neg (by simpa using hc)]
    exact h1 hc

theorem wpT_plainChunk_blank {F1 : Nat} {m : Mark} {Q : PlainVars → SState → Txt → Prop} {v : PlainVars}
    (hz : isBlankzO t.head? = true) (hQ : Q v s ⟨t, e⟩) : M.wp stepT P E (plainChunk (F1 + 1) m v) Q s ⟨t, e⟩ := by
  unfold plainChunk
  rw [M.wp_loop_succ]
  simp only [M.wp_bind, wpT_at, M.wp_get]
  rw [if_pos (by rw [← List.head?_eq_getElem?]; exact hz)]
  exact hQ

theorem wpT_plainChunk_stop {F1 : Nat} {m : Mark} {Q : PlainVars → SState → Txt → Prop} {v : PlainVars}
    (hz : Spec.PlainStop (s.flowLevel != 0) t) (hQ : Q v s ⟨t, e⟩) : M.wp stepT P E (plainChunk (F1 + 1) m v) Q s ⟨t, e⟩ := by
  cases t with
  | nil => exact wpT_plainChunk_blank rfl hQ
  | cons c t =>
    unfold plainChunk
    rw [M.wp_loop_succ]
    simp only [M.wp_bind, wpT_at, M.wp_get, List.getElem?_cons_zero, List.getElem?_cons_succ]
    by_cases hb : isBlankzO (some c) = true
    · rw [if_pos hb]; exact hQ
    · rw [if_neg hb]
      have hbad : plainBadColon s.flowLevel (some c) t.head? = false := by
        refine plainBad_false fun h1 h2 d r ht => ?_
        subst h2
        rcases hz with hz | ⟨r', hz, hz'⟩ | ⟨_, d', r', hz, hz'⟩
        · cases hz
        · cases hz
          have := hz' d r ht
          constructor
          · rintro (rfl | rfl | rfl | rfl | rfl) <;> rcases this with (h | h) | h <;> revert h <;> decide
          · rintro rfl; rcases this with (h | h) | h <;> revert h <;> decide
        · cases hz; simp [Spec.isFlowIndicator] at hz'
      rw [if_neg (by rw [← List.head?_eq_getElem?, hbad]; simp), if_pos (by rw [← List.head?_eq_getElem?]; exact plainStop_iff.2 hz)]
      exact hQ

theorem blanks_spaces {tr b : Str} {k : Nat} (h : ∀ x ∈ tr, Spec.IsBlank x) (hb : b = tr ++ List.replicate k ' ') : ∀ x ∈ b, Spec.IsBlank x := by
  subst hb
  intro x hx
  rcases List.mem_append.1 hx with hx | hx
  · exact h x hx
  · exact Or.inl (List.eq_of_mem_replicate hx)

theorem blankBreak_head {b t0 t1 : Str} {c : Char} (hbb : ∀ x ∈ b, Spec.IsBlank x) (hb : Spec.BreakAt t0 c t1) :
    ∃ d r, b ++ t0 = d :: r ∧ (isBlankO (some d) = true ∨ isBreakO (some d) = true) := by
  cases b with
  | nil => obtain ⟨d, r, rfl, hb'⟩ := hb.head; exact ⟨d, r, rfl, Or.inr (by simpa [isBreakO] using hb')⟩
  | cons x b => exact ⟨x, _, rfl, Or.inl (isBlankO_iff.2 (hbb x List.mem_cons_self))⟩

/-- Reading the body of a plain scalar. -/
theorem wpT_plainChunk {F : Nat} {fl : Bool} {n : Int} {m : Mark} {Q : PlainVars → SState → Txt → Prop} {w t' : Str}
    (h : Spec.PlainBody fl n t w t') (hF : t.length < F) :
    ∀ {F1 G : Nat} {s : SState} {str : Str} {em : Mark}, (s.flowLevel != 0) = fl → (fl = false → n ≤ s.mark.column) → t.length < F1 → t.length < G →
    s.mark.column ≠ 0 →
    (∀ F1' G' s' em', t'.length < F1' → t'.length < G' → Mv s t s' t' → s'.mark.column ≠ 0 →
      M.wp stepT P E (plainChunk F1' m ⟨str ++ w, {}, em'⟩) (PRest P E F n m G' Q) s' ⟨t', e⟩) →
    M.wp stepT P E (plainChunk F1 m ⟨str, {}, em⟩) (PRest P E F n m G Q) s ⟨t, e⟩ := by
  induction h with
  | done t =>
    intro F1 G s str em hfl hn h1 hG h0 hQ
    have := hQ F1 G s em h1 hG (Mv.refl _ _) h0
    simpa using this
  | @char c t v t' hc h ih =>
    intro F1 G s str em hfl hn hF1 hG h0 hQ
    obtain ⟨F1, rfl⟩ : ∃ n, F1 = n + 1 := ⟨F1 - 1, by omega⟩
    refine wpT_plainChar (by rw [hfl]; exact hc) fun s' hs' => ?_
    have hcol : s'.mark = _ := hs'.line (p := [c]) (by simpa [isLineBreak_eq] using hc.solid.2)
    have hcol : s'.mark.column = s.mark.column + 1 := by rw [hcol]; simp
    refine ih (by simp at hF; omega) (by rw [hs'.flowLevel]; exact hfl) (fun hf => by have := hn hf; omega) (by simp at hF1; omega) (by simp at hG; omega)
      (by omega) fun F1' G' s'' em' a b hm hc => ?_
    have := hQ F1' G' s'' em' a b (hs'.trans hm) hc
    simpa [joinBlanks] using this
  | @blanks b c t v t' hk hbb hc hx h ih =>
    intro F1 G s str em hfl hn hF1 hG h0 hQ
    obtain ⟨F1, rfl⟩ : ∃ n, F1 = n + 1 := ⟨F1 - 1, by omega⟩
    obtain ⟨G, rfl⟩ : ∃ n, G = n + 1 := ⟨G - 1, by omega⟩
    obtain ⟨d, b, rfl⟩ := List.exists_cons_of_ne_nil hk
    have hlen := h.length
    have hd : isBlankO (some d) = true := isBlankO_iff.2 (hbb d List.mem_cons_self)
    refine wpT_plainChunk_blank (by simp [isBlankzO, hd]) ?_
    refine wpT_plainAfter (d := d) (r := b ++ c :: t) (by simp) (Or.inl hd) ?_
    refine wpT_plainBlanks_only hbb (by intro d r hd; cases hd; exact hc.solid) rfl (by simp at hF ⊢; omega) fun s' hs' => ?_
    have hcol : s'.mark = _ := hs'.line (fun x hx => (hbb x hx).noBreak)
    have hcol : s'.mark.column = s.mark.column + (b.length + 1) := by rw [hcol]; simp
    refine ⟨fun _ => ?_, fun hh => ?_⟩
    · refine wpT_plainHead (Or.inl (by omega)) (by simpa using hx) ?_
      obtain ⟨F', rfl⟩ : ∃ n, F = n + 1 := ⟨F - 1, by omega⟩
      refine wpT_plainChar (by rw [hs'.flowLevel, hfl]; exact hc) fun s2 hs2 => ?_
      have hcol2 : s2.mark = _ := hs2.line (p := [c]) (by simpa [isLineBreak_eq] using hc.solid.2)
      have hcol2 : s2.mark.column = s'.mark.column + 1 := by rw [hcol2]; simp
      refine ih (by simp at hF; omega) (by rw [hs2.flowLevel, hs'.flowLevel]; exact hfl) (fun hf => by have := hn hf; omega)
        (F1 := F') (G := G) (by simp at hF; omega) (by simp at hG; omega) (by omega) fun F1' G' s'' em' a b hm hc' => ?_
      have := hQ F1' G' s'' em' a b ((hs'.trans hs2).trans hm) hc'
      simpa [joinBlanks] using this
    · exfalso
      have hf : fl = false := by rw [← hfl, ← hs'.flowLevel, hh.1]; rfl
      have := hn hf
      omega
  | @fold tr t0 bs t v t' c htr hf hn' hi hc hx h ih =>
    intro F1 G s str em hfl hn hF1 hG h0 hQ
    obtain ⟨k, t0, d, t1, bs, rfl, hb, rfl, hg⟩ := hf.split hn'
    obtain ⟨b, hbe⟩ : ∃ b, b = tr ++ List.replicate k ' ' := ⟨_, rfl⟩
    have hbb : ∀ x ∈ b, Spec.IsBlank x := blanks_spaces htr hbe
    obtain ⟨p, x0, k', hp, hx0, hkn, hk'⟩ := hi
    have hp : b ++ t0 = (tr ++ p) ++ x0 :: (List.replicate k' ' ' ++ c :: t) := by
      rw [hbe, List.append_assoc, hp]; simp
    rw [← List.append_assoc, ← hbe] at hQ hF hF1 hG ⊢
    obtain ⟨F1, rfl⟩ : ∃ n, F1 = n + 1 := ⟨F1 - 1, by omega⟩
    obtain ⟨G, rfl⟩ : ∃ n, G = n + 1 := ⟨G - 1, by omega⟩
    have hlen := h.length
    have hl0 := hb.length
    have hl1 := hg.length
    have hz : ∃ d r, b ++ t0 = d :: r ∧ (isBlankO (some d) = true ∨ isBreakO (some d) = true) := blankBreak_head hbb hb
    obtain ⟨x, r, hxr, hxz⟩ := hz
    refine wpT_plainChunk_blank (by
      rw [hxr]; simp only [List.head?_cons, isBlankzO, isBreakzO]
      rcases hxz with h | h <;> simp [h] <;> simp_all [isBreakO]) ?_
    refine wpT_plainAfter hxr hxz ?_
    refine wpT_plainBlanks hbb hb hg rfl hF fun s' hs' => ?_
    have hcol : (s'.mark.column : Int) = k' := by
      rw [hp] at hs'; exact hs'.column_exact (by rw [← isLineBreak_eq]; exact hx0)
    refine ⟨fun _ => ?_, fun hh => ?_⟩
    · refine wpT_plainHead (by by_cases h : k' = 0
                               · exact Or.inr (hk' h)
                               · exact Or.inl (by omega)) (by simpa using hx) ?_
      obtain ⟨F', rfl⟩ : ∃ n, F = n + 1 := ⟨F - 1, by omega⟩
      refine wpT_plainChar (by rw [hs'.flowLevel, hfl]; exact hc) fun s2 hs2 => ?_
      have hcol2 : s2.mark = _ := hs2.line (p := [c]) (by simpa [isLineBreak_eq] using hc.solid.2)
      have hcol2 : s2.mark.column = s'.mark.column + 1 := by rw [hcol2]; simp
      refine ih (by simp at hF hl1; omega) (by rw [hs2.flowLevel, hs'.flowLevel]; exact hfl) (fun hf => by have := hkn hf; omega)
        (F1 := F') (G := G) (by simp at hF hl1; omega) (by simp at hG hl1; omega) (by omega) fun F1' G' s'' em' a b hm hc' => ?_
      have := hQ F1' G' s'' em' a b ((hs'.trans hs2).trans hm) hc'
      simpa [joinBlanks_fold] using this
    · exfalso
      have hf : fl = false := by rw [← hfl, ← hs'.flowLevel, hh.1]; rfl
      have := hkn hf
      omega

theorem docIndicator_true {m : Mark} {t : Str} (h : m.column = 0) (hd : Spec.IsDocMarker t) :
    isDocIndicator m t[0]? t[1]? t[2]? t[3]? = true := by
  obtain ⟨r, hr, hz⟩ := hd
  have hz : isBlankzO r[0]? = true := by
    rw [blankz_iff, ← List.head?_eq_getElem?]
    intro d hd
    cases r with
    | nil => cases hd
    | cons x r => cases hd; exact hz _ _ rfl
  rcases hr with rfl | rfl <;> simp [isDocIndicator, h, hz]

/-- A plain scalar is read as the string it denotes. -/
theorem wpT_scanPlainScalar {F : Nat} {Q : Token → SState → Txt → Prop} {v rest : Str} {brk : Bool}
    (h : Spec.PlainScalar (s.flowLevel != 0) (s.indent + 1) t v brk rest) (hF : t.length + 1 < F)
    (hcol : s.flowLevel = 0 → s.indent ≤ s.mark.column) (hdoc : s.mark.column ≠ 0 ∨ ¬ Spec.IsDocMarker t)
    (hQ : ∀ s' m, Mv s t s' rest → Q ⟨.scalar v .plain, s.mark, m⟩ (if brk then { s' with simpleKeyAllowed := true } else s') ⟨rest, e⟩) :
    M.wp stepT P E (scanPlainScalar F) Q s ⟨t, e⟩ := by
  obtain ⟨c, t1, v1, t', rfl, rfl, hc, hx, hb, he⟩ := h
  unfold scanPlainScalar
  simp only [M.wp_bind, M.wp_get, plainBody_eq]
  -- what to do with the result of the loop
  suffices hend : M.wp stepT P E (M.loop F (plainPass F (s.indent + 1) s.mark) { string := [], blanks := {}, endMark := s.mark })
      (fun x s' b => x.string = c :: v1 ∧ x.blanks.leadingBlanks = brk ∧ Mv s (c :: t1) s' rest ∧ b = ⟨rest, e⟩) s ⟨c :: t1, e⟩ by
    refine M.wp_mono stepT_mono hend ?_ (fun _ _ _ h => h) (fun _ h => h)
    rintro x s' b ⟨h1, h2, h3, rfl⟩
    have := hQ s' x.endMark h3
    rw [h1, h2]
    cases brk
    · exact this
    · exact this
  obtain ⟨F, rfl⟩ : ∃ n, F = n + 1 := ⟨F - 1, by omega⟩
  refine wpT_plainHead hdoc (by simpa using hx) ?_
  refine wpT_plainChar hc fun s1 hs1 => ?_
  have hcol1 : s1.mark = _ := hs1.line (p := [c]) (by simpa [isLineBreak_eq] using hc.solid.2)
  have hcol1 : s1.mark.column = s.mark.column + 1 := by rw [hcol1]; simp
  refine wpT_plainChunk hb (by simp at hF; omega) (by rw [hs1.flowLevel]) (fun hf => by
    have := hcol (by simpa using hf); omega) (by simp at hF; omega) (by simp at hF; omega) (by omega) fun F1 G s2 em a b hs2 hc2 => ?_
  have hfl2 : s2.flowLevel = s.flowLevel := by rw [hs2.flowLevel, hs1.flowLevel]
  obtain ⟨F1, rfl⟩ : ∃ n, F1 = n + 1 := ⟨F1 - 1, by omega⟩
  have hlen := hb.length
  cases he with
  | here hstop =>
    refine wpT_plainChunk_stop (by rw [hfl2]; exact hstop) ?_
    unfold PRest plainAfter
    simp only [M.wp_bind, wpT_at]
    have h0 : isBlankO rest[0]? = false ∧ isBreakO rest[0]? = false := by
      rcases hstop with rfl | ⟨r, rfl, _⟩ | ⟨_, d, r, rfl, rfl | rfl | rfl | rfl | rfl⟩ <;> exact ⟨rfl, rfl⟩
    rw [if_pos (by simp [h0])]
    exact ⟨by simp [joinBlanks], rfl, hs1.trans hs2, rfl⟩
  | @gap b0 t0 bs _ hb0 hg hne hend =>
    have hso := hg.solid
    have hl1 := hg.length
    have hz : ∃ d r, b0 ++ t0 = d :: r ∧ (isBlankO (some d) = true ∨ isBreakO (some d) = true) := by
      cases b0 with
      | cons x b => exact ⟨x, _, rfl, Or.inl (isBlankO_iff.2 (hb0 x List.mem_cons_self))⟩
      | nil =>
        cases hg with
        | stop => exact absurd rfl hne
        | space h => exact ⟨_, _, rfl, Or.inl (by decide)⟩
        | brk hb h => obtain ⟨d, r, rfl, hb'⟩ := hb.head; exact ⟨d, r, rfl, Or.inr (by simpa [isBreakO] using hb')⟩
    obtain ⟨x, r, hxr, hxz⟩ := hz
    refine wpT_plainChunk_blank (by
      rw [hxr]; simp only [List.head?_cons, isBlankzO, isBreakzO]
      rcases hxz with h | h <;> simp [h] <;> simp_all [isBreakO]) ?_
    refine wpT_plainAfter hxr hxz ?_
    obtain ⟨G, rfl⟩ : ∃ n, G = n + 1 := ⟨G - 1, by omega⟩
    -- after the white space
    have key : ∀ (b : BlankVars) (s' : SState), b.leadingBlanks = decide (bs ≠ []) → Mv s2 (b0 ++ t0) s' rest →
        (¬ (s'.flowLevel = 0 ∧ (s'.mark.column : Int) < s.indent + 1) → M.wp stepT P E
          (M.loop (G + 1) (plainPass (F + 1) (s.indent + 1) s.mark) ⟨[] ++ joinBlanks {} ++ [c] ++ v1, b, em⟩)
          (fun x s' b => x.string = c :: v1 ∧ x.blanks.leadingBlanks = decide (bs ≠ []) ∧ Mv s (c :: t1) s' rest ∧ b = ⟨rest, e⟩) s' ⟨rest, e⟩) ∧
        (s'.flowLevel = 0 ∧ (s'.mark.column : Int) < s.indent + 1 →
          ([] ++ joinBlanks {} ++ [c] ++ v1 : Str) = c :: v1 ∧ b.leadingBlanks = decide (bs ≠ []) ∧ Mv s (c :: t1) s' rest ∧ (⟨rest, e⟩ : Txt) = ⟨rest, e⟩) := by
      intro b s' hb' hm
      have hall : Mv s (c :: t1) s' rest := (hs1.trans hs2).trans hm
      have hstr : ([] ++ joinBlanks {} ++ [c] ++ v1 : Str) = c :: v1 := by simp [joinBlanks]
      refine ⟨fun hnc => ?_, fun _ => ⟨hstr, hb', hall, rfl⟩⟩
      rw [hstr]
      have hchunk : (s'.mark.column ≠ 0 ∨ ¬ Spec.IsDocMarker rest) → rest.head? ≠ some '#' → Spec.PlainStop (s.flowLevel != 0) rest →
          M.wp stepT P E (M.loop (G + 1) (plainPass (F + 1) (s.indent + 1) s.mark) ⟨c :: v1, b, em⟩)
          (fun x s' b => x.string = c :: v1 ∧ x.blanks.leadingBlanks = decide (bs ≠ []) ∧ Mv s (c :: t1) s' rest ∧ b = ⟨rest, e⟩) s' ⟨rest, e⟩ := by
        intro h1 h2 h3
        refine wpT_plainHead h1 h2 ?_
        refine wpT_plainChunk_stop (by rw [hm.flowLevel, hfl2]; exact h3) ?_
        unfold PRest plainAfter
        simp only [M.wp_bind, wpT_at]
        have h0 : isBlankO rest[0]? = false ∧ isBreakO rest[0]? = false := by
          rcases h3 with rfl | ⟨r, rfl, _⟩ | ⟨_, d, r, rfl, rfl | rfl | rfl | rfl | rfl⟩ <;> exact ⟨rfl, rfl⟩
        rw [if_pos (by simp [h0])]
        exact ⟨rfl, hb', hall, rfl⟩
      by_cases hdi : s'.mark.column = 0 ∧ Spec.IsDocMarker rest
      · rw [M.wp_loop_succ]
        simp only [plainPass, M.wp_bind, wpT_cache, wpT_at, wp_getMark]
        rw [docIndicator_true hdi.1 hdi.2, if_pos rfl]
        exact ⟨rfl, hb', hall, rfl⟩
      · have hdi' : s'.mark.column ≠ 0 ∨ ¬ Spec.IsDocMarker rest := by
          by_cases h : s'.mark.column = 0
          · exact Or.inr fun h' => hdi ⟨h, h'⟩
          · exact Or.inl h
        by_cases hsharp : rest.head? = some '#'
        · rw [M.wp_loop_succ]
          simp only [plainPass, M.wp_bind, wpT_cache, wpT_at, wp_getMark]
          rw [docIndicator_text hdi', if_neg (by simp), if_pos (by rw [← List.head?_eq_getElem?, hsharp]; rfl)]
          exact ⟨rfl, hb', hall, rfl⟩
        · rcases hend with h3 | h3 | ⟨h3, h4, p, d, k, h5, h6, h7⟩ | ⟨h3, h4, p, d, h5, h6⟩
          · exact hchunk hdi' hsharp h3
          · exact absurd h3 hsharp
          · exfalso
            rw [h5, ← List.append_assoc] at hm
            have := hm.column_exact (by rw [← isLineBreak_eq]; exact h6)
            exact hnc ⟨by rw [hm.flowLevel, hfl2]; simpa using h4, by omega⟩
          · exfalso
            rw [h5, ← List.append_assoc] at hm
            have := hm.column_exact (k := 0) (by rw [← isLineBreak_eq]; exact h6)
            exact hdi ⟨by omega, h4⟩
    by_cases hbs : bs = []
    · obtain ⟨_, k, hk⟩ := hg.nil hbs
      have hk : b0 ++ t0 = (b0 ++ List.replicate k ' ') ++ rest := by rw [hk]; simp
      rw [hk] at hlen key ⊢
      refine wpT_plainBlanks_only (blanks_spaces hb0 rfl) hso rfl (by simp at hF hlen ⊢; omega) fun s' hs' => ?_
      exact key _ s' (by simp [hbs]) hs'
    · obtain ⟨k, t3, d, t2, bs', hk, hb2, rfl, hg2⟩ := hg.split hbs
      have hk : b0 ++ t0 = (b0 ++ List.replicate k ' ') ++ t3 := by rw [hk]; simp
      rw [hk] at hlen key ⊢
      refine wpT_plainBlanks (blanks_spaces hb0 rfl) hb2 hg2 rfl (by simp at hF hlen ⊢; omega) fun s' hs' => ?_
      exact key _ s' (by simp) hs'

end
end Yaml
