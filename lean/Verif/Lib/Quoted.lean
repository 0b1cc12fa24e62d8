import Verif.Lib.TextScan

/-
`scan_flow_scalar` run over a plain text: it reads what `Spec.Body` describes.
-/

namespace Yaml
open Scanner
set_option linter.unusedSimpArgs false
set_option linter.unusedVariables false

section
variable {P : PanicSite → Prop} {E : Err → SState → Txt → Prop} {s : SState} {t : Str} {e : Encoding}

/-! ### Characters -/

theorem isBlankO_iff {c : Char} : isBlankO (some c) = true ↔ Spec.IsBlank c := by
  simp [isBlankO, isSpaceO, isTabO, Spec.IsBlank]

theorem isBlankO_false {c : Char} : isBlankO (some c) = false ↔ ¬ Spec.IsBlank c := by
  rw [← isBlankO_iff]; simp

theorem _root_.Yaml.Spec.IsBlank.noBreak {c : Char} (h : Spec.IsBlank c) : isBreak c = false := by
  rcases h with rfl | rfl <;> decide

theorem breakO_eq {c : Char} : isBreakO (some c) = Spec.isLineBreak c := (isLineBreak_eq c).symm

theorem blankz_false {c : Char} (h1 : ¬ Spec.IsBlank c) (h2 : Spec.isLineBreak c = false) : isBlankzO (some c) = false := by
  rw [isLineBreak_eq] at h2
  simp [isBlankzO, isBlankO_false.2 h1, isBreakzO, h2]

theorem blankz_iff {c : Option Char} : isBlankzO c = true ↔ ∀ d, c = some d → Spec.IsBlank d ∨ Spec.isLineBreak d = true := by
  cases c with
  | none => simp [isBlankzO, isBreakzO]
  | some c => simp [isBlankzO, isBlankO_iff, isBreakzO, isLineBreak_eq]

/-! ### The blank loop -/

/-- What the blank loop makes of breaks `bs`, once a break has been seen. -/
theorem wpT_flowBlanks_lead {F : Nat} {v : BlankVars} {Q : BlankVars → SState → Txt → Prop} {bs t' : Str}
    (h : Spec.Folds t bs t') (hv : v.leadingBlanks = true) (hF : t.length < F)
    (hQ : ∀ s', Mv s t s' t' → Q { v with trailingBreaks := v.trailingBreaks ++ bs } s' ⟨t', e⟩) :
    M.wp stepT P E (flowBlanks F v) Q s ⟨t, e⟩ := by
  unfold flowBlanks
  induction h generalizing s F v with
  | stop t h =>
    obtain ⟨F, rfl⟩ : ∃ n, F = n + 1 := ⟨F - 1, by omega⟩
    rw [M.wp_loop_succ]
    simp only [M.wp_bind, wpT_at]
    have h0 : isBlankO t[0]? = false ∧ isBreakO t[0]? = false := by
      cases t with
      | nil => exact ⟨rfl, rfl⟩
      | cons c r =>
        have := h c r rfl
        exact ⟨isBlankO_false.2 this.1, by rw [List.getElem?_cons_zero, breakO_eq]; exact this.2⟩
    simp only [h0.1, h0.2, Bool.false_eq_true, if_false, M.wp_pure, M.next_inr]
    have := hQ s (Mv.refl _ _)
    simpa using this
  | @blank c t bs t' hc h ih =>
    obtain ⟨F, rfl⟩ : ∃ n, F = n + 1 := ⟨F - 1, by simp at hF; omega⟩
    rw [M.wp_loop_succ]
    simp only [M.wp_bind, wpT_at, List.getElem?_cons_zero, isBlankO_iff.2 hc, if_true, hv]
    refine wpT_skipChar hc.noBreak fun s' hs' => ?_
    simp only [wpT_cache, M.wp_bind, M.wp_pure, M.next_inl]
    exact ih hv (by simp at hF; omega) fun s'' hs'' => hQ _ (hs'.trans hs'')
  | @brk t t1 bs t' c hb h ih =>
    obtain ⟨F, rfl⟩ : ∃ n, F = n + 1 := ⟨F - 1, by omega⟩
    rw [M.wp_loop_succ]
    obtain ⟨d, r, hd, hbr⟩ := hb.head
    have h0 : isBlankO t[0]? = false ∧ isBreakO t[0]? = true := by
      rw [hd, List.getElem?_cons_zero]
      refine ⟨isBlankO_false.2 fun hb => ?_, hbr⟩
      rw [hb.noBreak] at hbr; simp at hbr
    simp only [M.wp_bind, wpT_at, h0.1, h0.2, Bool.false_eq_true, if_false, if_true, wpT_cache, hv]
    refine wpT_readLineBreak hb fun s' hs' _ _ => ?_
    simp only [wpT_cache, M.wp_bind, M.wp_pure, M.next_inl]
    refine ih rfl (by have := hb.length; omega) fun s'' hs'' => ?_
    have := hQ _ (hs'.trans hs'')
    simpa [hv] using this

/-- The blank loop on blanks and then a line break. -/
theorem wpT_flowBlanks {F : Nat} {v : BlankVars} {Q : BlankVars → SState → Txt → Prop} {b t0 t1 bs t' : Str} {c : Char}
    (hb : ∀ c ∈ b, Spec.IsBlank c) (h0 : Spec.BreakAt t0 c t1) (h : Spec.Folds t1 bs t') (hv : v.leadingBlanks = false)
    (hF : (b ++ t0).length < F)
    (hQ : ∀ s', Mv s (b ++ t0) s' t' → Q ⟨v.leadingBreak ++ [c], v.trailingBreaks ++ bs, [], true⟩ s' ⟨t', e⟩) :
    M.wp stepT P E (flowBlanks F v) Q s ⟨b ++ t0, e⟩ := by
  induction b generalizing s F v with
  | nil =>
    unfold flowBlanks
    obtain ⟨F, rfl⟩ : ∃ n, F = n + 1 := ⟨F - 1, by omega⟩
    rw [M.wp_loop_succ]
    obtain ⟨d, r, hd, hbr⟩ := h0.head
    have hz : isBlankO t0[0]? = false ∧ isBreakO t0[0]? = true := by
      rw [hd, List.getElem?_cons_zero]
      refine ⟨isBlankO_false.2 fun hb => ?_, hbr⟩
      rw [hb.noBreak] at hbr; simp at hbr
    simp only [M.wp_bind, wpT_at, List.nil_append, hz.1, hz.2, Bool.false_eq_true, if_false, if_true, wpT_cache, hv]
    refine wpT_readLineBreak h0 fun s' hs' _ _ => ?_
    simp only [wpT_cache, M.wp_bind, M.wp_pure, M.next_inl]
    have := wpT_flowBlanks_lead (P := P) (E := E) (s := s') (e := e) (F := F) (Q := Q)
      (v := { v with whitespaces := [], leadingBreak := v.leadingBreak ++ [c], leadingBlanks := true }) h rfl
      (by have := h0.length; simp at hF; omega) fun s'' hs'' => hQ _ (hs'.trans hs'')
    exact this
  | cons d b ih =>
    have hc := hb d List.mem_cons_self
    unfold flowBlanks
    obtain ⟨F, rfl⟩ : ∃ n, F = n + 1 := ⟨F - 1, by omega⟩
    rw [M.wp_loop_succ]
    simp only [M.wp_bind, wpT_at, List.cons_append, List.getElem?_cons_zero, isBlankO_iff.2 hc, if_true, hv, Bool.false_eq_true, if_false]
    refine wpT_readChar hc.noBreak fun s' hs' => ?_
    simp only [wpT_cache, M.wp_bind, M.wp_pure, M.next_inl]
    have := ih (s := s') (F := F) (v := { v with whitespaces := v.whitespaces ++ [d] })
      (fun c hc => hb c (List.mem_cons_of_mem _ hc)) hv (by simp at hF ⊢; omega) fun s'' hs'' => hQ _ (hs'.trans hs'')
    simpa [flowBlanks, hv] using this

/-- The blank loop on blanks only. -/
theorem wpT_flowBlanks_only {F : Nat} {v : BlankVars} {Q : BlankVars → SState → Txt → Prop} {b t' : Str}
    (hb : ∀ c ∈ b, Spec.IsBlank c) (h : Spec.Solid t') (hv : v.leadingBlanks = false) (hF : b.length < F)
    (hQ : ∀ s', Mv s (b ++ t') s' t' → Q { v with whitespaces := v.whitespaces ++ b } s' ⟨t', e⟩) :
    M.wp stepT P E (flowBlanks F v) Q s ⟨b ++ t', e⟩ := by
  induction b generalizing s F v with
  | nil =>
    unfold flowBlanks
    obtain ⟨F, rfl⟩ : ∃ n, F = n + 1 := ⟨F - 1, by omega⟩
    rw [M.wp_loop_succ]
    have h0 : isBlankO t'[0]? = false ∧ isBreakO t'[0]? = false := by
      cases t' with
      | nil => exact ⟨rfl, rfl⟩
      | cons c r =>
        have := h c r rfl
        exact ⟨isBlankO_false.2 this.1, by rw [List.getElem?_cons_zero, breakO_eq]; exact this.2⟩
    simp only [M.wp_bind, wpT_at, List.nil_append, h0.1, h0.2, Bool.false_eq_true, if_false, M.wp_pure, M.next_inr]
    have := hQ s (Mv.refl _ _)
    simpa using this
  | cons d b ih =>
    have hc := hb d List.mem_cons_self
    unfold flowBlanks
    obtain ⟨F, rfl⟩ : ∃ n, F = n + 1 := ⟨F - 1, by omega⟩
    rw [M.wp_loop_succ]
    simp only [M.wp_bind, wpT_at, List.cons_append, List.getElem?_cons_zero, isBlankO_iff.2 hc, if_true, hv, Bool.false_eq_true, if_false]
    refine wpT_readChar hc.noBreak fun s' hs' => ?_
    simp only [wpT_cache, M.wp_bind, M.wp_pure, M.next_inl]
    have := ih (s := s') (F := F) (v := { v with whitespaces := v.whitespaces ++ [d] })
      (fun c hc => hb c (List.mem_cons_of_mem _ hc)) hv (by simp at hF ⊢; omega) fun s'' hs'' => by
        have := hQ _ (hs'.trans hs'')
        simpa using this
    simpa [flowBlanks, hv] using this

/-! ### Escapes -/

theorem toHex_of_digit {c : Char} {n : Nat} (h : Spec.HexDigit c n) : toHex? c = some n := by
  unfold toHex?
  rcases h with ⟨h1, h2⟩ | ⟨h1, h2, h3 | h3⟩
  · have : ('0' ≤ c && c ≤ '9') = true := by
      simp only [Bool.and_eq_true, decide_eq_true_eq, Char.le_def, UInt32.le_iff_toNat_le]
      exact ⟨by show 48 ≤ c.toNat; omega, by show c.toNat ≤ 57; omega⟩
    rw [if_pos this, h2]; simp [show '0'.toNat = 48 from rfl]
  · have h0 : ¬ ('0' ≤ c && c ≤ '9') = true := by
      simp only [Bool.and_eq_true, decide_eq_true_eq, Char.le_def, UInt32.le_iff_toNat_le]
      rintro ⟨_, h⟩
      have : c.toNat ≤ 57 := h
      omega
    have h4 : ¬ ('a' ≤ c && c ≤ 'f') = true := by
      simp only [Bool.and_eq_true, decide_eq_true_eq, Char.le_def, UInt32.le_iff_toNat_le]
      rintro ⟨h, _⟩
      have : 97 ≤ c.toNat := h
      omega
    have h5 : ('A' ≤ c && c ≤ 'F') = true := by
      simp only [Bool.and_eq_true, decide_eq_true_eq, Char.le_def, UInt32.le_iff_toNat_le]
      exact ⟨by show 65 ≤ c.toNat; omega, by show c.toNat ≤ 70; omega⟩
    rw [if_neg h0, if_neg h4, if_pos h5, h3, show 'A'.toNat = 65 from rfl]
    congr 1; omega
  · have h0 : ¬ ('0' ≤ c && c ≤ '9') = true := by
      simp only [Bool.and_eq_true, decide_eq_true_eq, Char.le_def, UInt32.le_iff_toNat_le]
      rintro ⟨_, h⟩
      have : c.toNat ≤ 57 := h
      omega
    have h4 : ('a' ≤ c && c ≤ 'f') = true := by
      simp only [Bool.and_eq_true, decide_eq_true_eq, Char.le_def, UInt32.le_iff_toNat_le]
      exact ⟨by show 97 ≤ c.toNat; omega, by show c.toNat ≤ 102; omega⟩
    rw [if_neg h0, if_pos h4, h3, show 'a'.toNat = 97 from rfl]
    congr 1; omega

theorem _root_.Yaml.Spec.HexDigit.noBreak {c : Char} {n : Nat} (h : Spec.HexDigit c n) : isBreak c = false := by
  have hn : 48 ≤ c.toNat ∧ c.toNat ≤ 102 := by rcases h with ⟨h1, h2⟩ | ⟨h1, h2, h3 | h3⟩ <;> omega
  cases hb : isBreak c with
  | false => rfl
  | true =>
    simp only [isBreak, Bool.or_eq_true, beq_iff_eq] at hb
    rcases hb with (((rfl | rfl) | rfl) | rfl) | rfl <;> simp at hn

theorem _root_.Yaml.Spec.HexNum.noBreak {ds : Str} {n : Nat} (h : Spec.HexNum ds n) : ∀ c ∈ ds, isBreak c = false := by
  induction h with
  | nil => simp
  | snoc h hc ih =>
    intro c hm
    rcases List.mem_append.1 hm with hm | hm
    · exact ih c hm
    · simp at hm; subst hm; exact hc.noBreak

/-- The hex digit loop reads the digits. -/
theorem wpT_hexLoop {Q : Nat → SState → Txt → Prop} {ds : Str} {n : Nat} (m : Mark) (h : Spec.HexNum ds n) :
    ∀ (j : Nat) (rest : Str), M.wp stepT P E (hexLoop m j ds.length n) Q s ⟨ds ++ rest, e⟩ →
      M.wp stepT P E (hexLoop m (ds.length + j) 0 0) Q s ⟨ds ++ rest, e⟩ := by
  induction h with
  | nil => intro j rest h; simpa using h
  | @snoc ds k n c h hc ih =>
    intro j rest hw
    have := ih (j + 1) (c :: rest)
    simp only [List.append_assoc, List.singleton_append, List.length_append, List.length_cons, List.length_nil] at hw ⊢
    rw [show ds.length + (0 + 1) + j = ds.length + (j + 1) by omega]
    refine this ?_
    rw [hexLoop]
    simp only [M.wp_bind, wpT_at]
    rw [List.getElem?_append_right (by omega)]
    simp only [Nat.sub_self, List.getElem?_cons_zero, isHexO, toHex_of_digit hc, Option.isSome_some, Bool.not_true, Bool.false_eq_true,
      if_false, Option.bind_some]
    rw [Nat.mul_comm k 16]
    simpa using hw

theorem wpT_skipChars {Q : Unit → SState → Txt → Prop} {ds rest : Str} (hd : ∀ c ∈ ds, isBreak c = false)
    (hQ : ∀ s', Mv s (ds ++ rest) s' rest → Q () s' ⟨rest, e⟩) :
    M.wp stepT P E (skipChars ds.length) Q s ⟨ds ++ rest, e⟩ := by
  induction ds generalizing s with
  | nil => exact hQ _ (Mv.refl _ _)
  | cons c ds ih =>
    simp only [List.length_cons, skipChars, M.wp_bind, List.cons_append]
    refine wpT_skipChar (hd c List.mem_cons_self) fun s' hs' => ?_
    exact ih (fun c hc => hd c (List.mem_cons_of_mem _ hc)) fun s'' hs'' => hQ _ (hs'.trans hs'')

theorem escapeChar_of {c : Char} {n : Nat} (h : (c, n) ∈ Spec.escapes) : escapeChar c = some (Char.ofNat n) ∧ isBreak c = false := by
  simp only [Spec.escapes, List.mem_cons, Prod.mk.injEq, List.not_mem_nil, or_false] at h
  rcases h with ⟨rfl, rfl⟩ | ⟨rfl, rfl⟩ | ⟨rfl, rfl⟩ | ⟨rfl, rfl⟩ | ⟨rfl, rfl⟩ | ⟨rfl, rfl⟩ | ⟨rfl, rfl⟩ | ⟨rfl, rfl⟩ | ⟨rfl, rfl⟩ |
    ⟨rfl, rfl⟩ | ⟨rfl, rfl⟩ | ⟨rfl, rfl⟩ | ⟨rfl, rfl⟩ | ⟨rfl, rfl⟩ | ⟨rfl, rfl⟩ | ⟨rfl, rfl⟩ | ⟨rfl, rfl⟩ | ⟨rfl, rfl⟩ <;> decide

theorem escapeChar_iff (c : Char) (v : Char) : escapeChar c = some v ↔ ∃ n, (c, n) ∈ Spec.escapes ∧ v = Char.ofNat n := by
  constructor
  · intro h
    unfold escapeChar at h
    split at h <;> first
      | (cases h; exact ⟨_, by simp [Spec.escapes]; rfl, by decide⟩)
      | skip
    all_goals first
      | cases h
      | skip
  · rintro ⟨n, h, rfl⟩; exact (escapeChar_of h).1

theorem codes_of {c : Char} {k : Nat} (h : (c, k) ∈ Spec.codes) :
    escapeChar c = none ∧ escapeCodeLength c = some k ∧ isBreak c = false := by
  simp only [Spec.codes, List.mem_cons, Prod.mk.injEq, List.not_mem_nil, or_false] at h
  rcases h with ⟨rfl, rfl⟩ | ⟨rfl, rfl⟩ | ⟨rfl, rfl⟩ <;> decide

theorem escapeCodeLength_iff (c : Char) (k : Nat) : escapeCodeLength c = some k ↔ (c, k) ∈ Spec.codes := by
  constructor
  · intro h
    unfold escapeCodeLength at h
    split at h <;> first
      | (cases h; simp [Spec.codes]; done)
      | skip
    all_goals first
      | cases h
      | skip
  · intro h; exact (codes_of h).2.1

theorem _root_.Yaml.Spec.Escape.head {x : Str} {c : Char} (h : Spec.Escape x c) : ∃ d r, x = d :: r ∧ isBreak d = false := by
  cases h with
  | simple h => exact ⟨_, _, rfl, (escapeChar_of h).2⟩
  | code h => exact ⟨_, _, rfl, (codes_of h).2.2⟩

/-- An escape is read as the character it denotes. -/
theorem wpT_scanEscape {Q : Str → SState → Txt → Prop} {x rest str : Str} {c : Char} (m : Mark) (h : Spec.Escape x c)
    (hQ : ∀ s', Mv s ('\\' :: (x ++ rest)) s' rest → Q (str ++ [c]) s' ⟨rest, e⟩) :
    M.wp stepT P E (scanEscape m str) Q s ⟨'\\' :: (x ++ rest), e⟩ := by
  have hbs : isBreak '\\' = false := by decide
  cases h with
  | @simple d n h =>
    have := escapeChar_of h
    simp only [scanEscape, M.wp_bind, wpT_at, List.cons_append, List.nil_append, List.getElem?_cons_succ, List.getElem?_cons_zero, this.1]
    refine wpT_skipChar hbs fun s' hs' => ?_
    refine wpT_skipChar this.2 fun s'' hs'' => ?_
    exact hQ _ (hs'.trans hs'')
  | @code d k n ds h hk hn hs =>
    have := codes_of h
    simp only [scanEscape, M.wp_bind, wpT_at, List.cons_append, List.getElem?_cons_succ, List.getElem?_cons_zero, this.1, this.2.1]
    refine wpT_skipChar hbs fun s' hs' => ?_
    refine wpT_skipChar this.2.2 fun s'' hs'' => ?_
    simp only [M.wp_bind, wpT_cache]
    subst hk
    refine wpT_hexLoop m hn 0 rest ?_
    rw [hexLoop]
    simp only [M.wp_pure]
    rw [show charFromU32 n = some (Char.ofNat n) from if_pos hs]
    simp only [M.wp_bind]
    refine wpT_skipChars hn.noBreak fun s3 hs3 => ?_
    exact hQ _ ((hs'.trans hs'').trans hs3)

/-! ### The chunks and the body -/

/-- The part of the main loop after the non-blank loop. -/
def quotedAfter (F : Nat) (single : Bool) (r : Str × Bool) : Scan (Str ⊕ Str) := do
  cache 1
  let c ← at_ 0
  if c == some (quoteChar single) then pure (.inr r.1)
  else do
    cache 1
    let v ← flowBlanks F { leadingBlanks := r.2 }
    pure (.inl (r.1 ++ joinBlanks v))

/-- One pass of the main loop. -/
def flowPass (F : Nat) (single : Bool) (m : Mark) (string : Str) : Scan (Str ⊕ Str) := do
  flowHead m
  let r ← flowChunk F single m string
  quotedAfter F single r

theorem flowBody_eq (F : Nat) (single : Bool) (m : Mark) : flowBody F single m = M.loop F (flowPass F single m) [] := rfl

/-- What follows the non-blank loop, with `G` passes left. -/
def Rest (P : PanicSite → Prop) (E : Err → SState → Txt → Prop) (F : Nat) (single : Bool) (m : Mark) (G : Nat)
    (Q : Str → SState → Txt → Prop) : Str × Bool → SState → Txt → Prop := fun r s b =>
  M.wp stepT P E (quotedAfter F single r)
    (M.next (fun x s b => M.wp stepT P E (M.loop G (flowPass F single m) x) Q s b) Q) s b

theorem docIndicator_text {m : Mark} {t : Str} (h : m.column ≠ 0 ∨ ¬ Spec.IsDocMarker t) :
    isDocIndicator m t[0]? t[1]? t[2]? t[3]? = false := by
  cases hd : isDocIndicator m t[0]? t[1]? t[2]? t[3]? with
  | false => rfl
  | true =>
    exfalso
    simp only [isDocIndicator, Bool.and_eq_true, beq_iff_eq, Bool.or_eq_true] at hd
    obtain ⟨⟨h0, h1⟩, h2⟩ := hd
    rcases h with h | h
    · exact h h0
    · apply h
      have key : ∀ (a b c : Char), t[0]? = some a → t[1]? = some b → t[2]? = some c → ∃ r, t = a :: b :: c :: r ∧ r.head? = t[3]? := by
        intro a b c ha hb hc
        match t with
        | [] => simp at ha
        | [_] => simp at hb
        | [_, _] => simp at hc
        | x :: y :: z :: r =>
          simp at ha hb hc; subst ha; subst hb; subst hc
          exact ⟨r, rfl, by simp [List.head?_eq_getElem?]⟩
      rcases h1 with ⟨⟨ha, hb⟩, hc⟩ | ⟨⟨ha, hb⟩, hc⟩
      · obtain ⟨r, hr, hr3⟩ := key _ _ _ ha hb hc
        refine ⟨r, Or.inl hr, fun c r' hcr => ?_⟩
        rw [← hr3, blankz_iff] at h2
        exact h2 c (by rw [hcr]; rfl)
      · obtain ⟨r, hr, hr3⟩ := key _ _ _ ha hb hc
        refine ⟨r, Or.inr hr, fun c r' hcr => ?_⟩
        rw [← hr3, blankz_iff] at h2
        exact h2 c (by rw [hcr]; rfl)

theorem wpT_flowHead {Q : Unit → SState → Txt → Prop} {m : Mark} (h : s.mark.column ≠ 0 ∨ ¬ Spec.IsDocMarker t) (hn : t ≠ [])
    (hQ : Q () s ⟨t, e⟩) : M.wp stepT P E (flowHead m) Q s ⟨t, e⟩ := by
  simp only [flowHead, M.wp_bind, wpT_cache, wpT_at, wp_getMark]
  rw [docIndicator_text h, if_neg (by simp)]
  have : t[0]?.isNone = false := by cases t <;> simp_all
  rw [this, if_neg (by simp), wpT_cache]
  exact hQ

/-- The column after a blank. -/
theorem Mv.column_blank {s' : SState} {p t' : Str} {c : Char} (h : Mv s (p ++ c :: t') s' t') (hc : Spec.IsBlank c) :
    s'.mark.column ≠ 0 := by
  have h2 := h.2
  rw [show p ++ c :: t' = (p ++ [c]) ++ t' by simp] at h2
  rw [h2.pre, advance_append _ _ _ (by rcases hc with rfl | rfl <;> simp)]
  rw [advance_plain _ [c] (by simpa using hc.noBreak)]
  simp

theorem joinBlanks_fold (c : Char) (bs w : Str) : joinBlanks ⟨[c], bs, w, true⟩ = Spec.fold (c :: bs) := by
  simp only [joinBlanks, Spec.fold, if_true, List.head?_cons, beq_iff_eq, Option.some.injEq]
  cases bs <;> simp

theorem _root_.Yaml.Spec.Folds.length {t bs t' : Str} (h : Spec.Folds t bs t') : t'.length ≤ t.length := by
  induction h with
  | stop => exact Nat.le_refl _
  | blank => simp; omega
  | brk hb h ih => have := hb.length; omega

theorem _root_.Yaml.Spec.Body.length {single : Bool} {t v t' : Str} (h : Spec.Body single t v t') : t'.length ≤ t.length := by
  induction h with
  | done => exact Nat.le_refl _
  | fold hf hn hd h ih => have := hf.length; simp; omega
  | cont hs h0 hf hd h ih => have := hf.length; have := h0.length; simp; omega
  | _ => simp; omega

theorem breakAt_unique {t t1 t2 : Str} {c d : Char} (h : Spec.BreakAt t c t1) (h' : Spec.BreakAt t d t2) : c = d ∧ t1 = t2 := by
  cases h with
  | crlf t =>
    cases h' with
    | crlf t => exact ⟨rfl, rfl⟩
    | one c t hb hc => simp at hc
  | one c t hb hc =>
    cases h' with
    | crlf t => simp at hc
    | one c t hb hc => exact ⟨rfl, rfl⟩

/-- Blanks up to the first break. -/
theorem _root_.Yaml.Spec.Folds.split {t bs t' : Str} (h : Spec.Folds t bs t') (hn : bs ≠ []) :
    ∃ b t0 c t1 bs', t = b ++ t0 ∧ (∀ c ∈ b, Spec.IsBlank c) ∧ Spec.BreakAt t0 c t1 ∧ bs = c :: bs' ∧ Spec.Folds t1 bs' t' := by
  induction h with
  | stop t h => exact absurd rfl hn
  | blank c hc h ih =>
    obtain ⟨b, t0, d, t1, bs', rfl, h1, h2, h3, h4⟩ := ih hn
    exact ⟨c :: b, t0, d, t1, bs', rfl, by simpa using ⟨hc, h1⟩, h2, h3, h4⟩
  | brk hb h ih => exact ⟨[], _, _, _, _, rfl, by simp, hb, rfl, h⟩

theorem quote_eq (single : Bool) : quoteChar single = Spec.quote single := rfl

theorem blankz_cons_break {t t1 : Str} {c : Char} (h : Spec.BreakAt t c t1) : isBlankzO t[0]? = true := by
  obtain ⟨d, r, rfl, hb⟩ := h.head
  simp [isBlankzO, isBreakzO, hb]

theorem wpT_flowRest_quote {F F1 G : Nat} {m : Mark} {Q : Str → SState → Txt → Prop} {str rest : Str}
    (h : M.wp stepT P E (flowChunk F1 false m str) (Rest P E F false m G Q) s ⟨'"' :: rest, e⟩) (lb : Bool) (hF : F1 ≠ 0) :
    Rest P E F false m G Q (str, lb) s ⟨'"' :: rest, e⟩ := by
  obtain ⟨F1, rfl⟩ : ∃ n, F1 = n + 1 := ⟨F1 - 1, by omega⟩
  unfold flowChunk at h
  rw [M.wp_loop_succ] at h
  simp only [M.wp_bind, wpT_at, List.getElem?_cons_zero] at h
  rw [if_neg (by decide), if_neg (by simp), if_pos (by decide)] at h
  simp only [M.wp_pure, M.next_inr, Rest, quotedAfter, M.wp_bind, wpT_cache, wpT_at, List.getElem?_cons_zero] at h
  rw [if_pos (by decide)] at h
  simp only [M.wp_pure, M.next_inr, Rest, quotedAfter, M.wp_bind, wpT_cache, wpT_at, List.getElem?_cons_zero]
  rw [if_pos (by decide)]
  exact h

theorem _root_.Yaml.Spec.Body.atQuote {t v t' : Str} (h : Spec.Body false ('"' :: t) v t') : v = [] ∧ t' = '"' :: t := by
  generalize ht : '"' :: t = u at h
  cases h with
  | done => exact ⟨rfl, rfl⟩
  | char c h1 h2 h3 h4 h => cases ht; exact absurd rfl h3
  | quote hs h => cases hs
  | escape hs hx h => cases ht
  | @blanks b t v _ hb hn ht' h =>
    cases b with
    | nil => exact absurd rfl hn
    | cons c b => cases ht; have := hb _ List.mem_cons_self; simp [Spec.IsBlank] at this
  | @fold t0 bs t v _ hf hn hd h =>
    subst ht
    cases hf with
    | stop _ h => exact absurd rfl hn
    | blank c hc h => simp [Spec.IsBlank] at hc
    | brk hb h =>
      obtain ⟨d, r, hd, hb⟩ := hb.head
      cases hd; simp [isBreak] at hb
  | cont hs h0 hf hd h => cases ht

theorem wpT_flowAfter {F G : Nat} {single : Bool} {m : Mark} {Q : Str → SState → Txt → Prop} {str : Str} {lb : Bool}
    (hq : t.head? ≠ some (Spec.quote single))
    (h : M.wp stepT P E (flowBlanks F { leadingBlanks := lb })
      (fun v s b => M.wp stepT P E (M.loop G (flowPass F single m) (str ++ joinBlanks v)) Q s b) s ⟨t, e⟩) :
    Rest P E F single m G Q (str, lb) s ⟨t, e⟩ := by
  unfold Rest quotedAfter
  simp only [M.wp_bind, wpT_cache, wpT_at, ← List.head?_eq_getElem?]
  rw [if_neg (by simpa [quote_eq] using hq)]
  simp only [M.wp_bind, wpT_cache, M.wp_pure, M.next_inl]
  exact h

/-- Reading the body of a quoted scalar: what `Spec.Body` says is collected. -/
theorem wpT_flowChunk {F : Nat} {single : Bool} {m : Mark} {Q : Str → SState → Txt → Prop} {v t' : Str} (hne : t' ≠ [])
    (h : Spec.Body single t v t') (hF : t.length < F) :
    ∀ {F1 G : Nat} {s : SState} {str : Str}, t.length < F1 → t.length < G →
    (∀ F1' G' s', t'.length < F1' → t'.length < G' → Mv s t s' t' →
      M.wp stepT P E (flowChunk F1' single m (str ++ v)) (Rest P E F single m G' Q) s' ⟨t', e⟩) →
    M.wp stepT P E (flowChunk F1 single m str) (Rest P E F single m G Q) s ⟨t, e⟩ := by
  induction h with
  | done t =>
    intro F1 G s str h1 hG hQ
    have := hQ F1 G s h1 hG (Mv.refl _ _)
    simpa using this
  | @char c t v t' h1 h2 h3 h4 h ih =>
    intro F1 G s str hF1 hG hQ
    obtain ⟨F1, rfl⟩ : ∃ n, F1 = n + 1 := ⟨F1 - 1, by omega⟩
    unfold flowChunk
    rw [M.wp_loop_succ]
    simp only [M.wp_bind, wpT_at, List.getElem?_cons_zero, blankz_false h1 h2, Bool.false_eq_true, if_false]
    have hq1 : (single && some c == some '\'' && (c :: t)[1]? == some '\'') = false := by
      cases single with
      | false => rfl
      | true => have : c ≠ '\'' := h3; simp [this]
    have hq2 : (!single && some c == some '\\') = false := by
      cases single with
      | false => simp [h4 rfl]
      | true => rfl
    rw [if_neg (by rw [hq1]; simp), if_neg (by rw [quote_eq]; simpa using h3), if_neg (by rw [hq2]; simp), if_neg (by rw [hq2]; simp)]
    rw [M.wp_bind]
    refine wpT_readChar (by rw [← isLineBreak_eq]; exact h2) fun s' hs' => ?_
    simp only [M.wp_bind, wpT_cache, M.wp_pure, M.next_inl]
    refine ih hne (by simp at hF; omega) (by simp at hF1; omega) (by simp at hG; omega) fun F1' G' s'' a b hm => ?_
    have := hQ F1' G' s'' a b (hs'.trans hm)
    simpa using this
  | @quote t v t' hs h ih =>
    intro F1 G s str hF1 hG hQ
    subst hs
    obtain ⟨F1, rfl⟩ : ∃ n, F1 = n + 1 := ⟨F1 - 1, by omega⟩
    unfold flowChunk
    rw [M.wp_loop_succ]
    simp only [M.wp_bind, wpT_at, List.getElem?_cons_zero, List.getElem?_cons_succ]
    rw [if_neg (by decide), if_pos (by decide)]
    simp only [M.wp_bind]
    refine wpT_skipChar (by decide) fun s1 hs1 => ?_
    refine wpT_skipChar (by decide) fun s2 hs2 => ?_
    simp only [M.wp_bind, wpT_cache, M.wp_pure, M.next_inl]
    refine ih hne (by simp at hF; omega) (by simp at hF1; omega) (by simp at hG; omega) fun F1' G' s'' a b hm => ?_
    have := hQ F1' G' s'' a b ((hs1.trans hs2).trans hm)
    simpa using this
  | @escape x t v t' c hs hx h ih =>
    intro F1 G s str hF1 hG hQ
    subst hs
    obtain ⟨F1, rfl⟩ : ∃ n, F1 = n + 1 := ⟨F1 - 1, by omega⟩
    unfold flowChunk
    rw [M.wp_loop_succ]
    obtain ⟨d, r, rfl, hd⟩ := hx.head
    simp only [M.wp_bind, wpT_at, List.getElem?_cons_zero, List.getElem?_cons_succ, List.cons_append]
    rw [if_neg (by decide), if_neg (by simp), if_neg (by decide), if_neg (by simp [isBreakO, hd]), if_pos (by decide)]
    simp only [M.wp_bind]
    rw [show ('\\' :: d :: (r ++ t)) = '\\' :: ((d :: r) ++ t) from rfl]
    refine wpT_scanEscape m hx fun s' hs' => ?_
    simp only [M.wp_bind, wpT_cache, M.wp_pure, M.next_inl]
    refine ih hne (by simp at hF; omega) (by simp at hF1; omega) (by simp at hG; omega) fun F1' G' s'' a b hm => ?_
    have := hQ F1' G' s'' a b (hs'.trans hm)
    simpa using this
  | @blanks b t v t' hb hn ht h ih =>
    intro F1 G s str hF1 hG hQ
    obtain ⟨F1, rfl⟩ : ∃ n, F1 = n + 1 := ⟨F1 - 1, by omega⟩
    obtain ⟨G, rfl⟩ : ∃ n, G = n + 1 := ⟨G - 1, by omega⟩
    obtain ⟨d, b, rfl⟩ : ∃ d b', b = d :: b' := by cases b with
      | nil => exact absurd rfl hn
      | cons d b => exact ⟨d, b, rfl⟩
    have hd := hb d List.mem_cons_self
    have hlen := h.length
    unfold flowChunk
    rw [M.wp_loop_succ]
    simp only [M.wp_bind, wpT_at, List.getElem?_cons_zero, List.cons_append]
    rw [if_pos (by simp [isBlankzO, isBlankO_iff.2 hd])]
    simp only [M.wp_pure, M.next_inr]
    refine wpT_flowAfter (by simp; rintro rfl; cases single <;> rcases hd with h | h <;> simp [Spec.quote] at h) ?_
    rw [show (d :: (b ++ t)) = (d :: b) ++ t from rfl]
    refine wpT_flowBlanks_only hb ht rfl (by simp at hF ⊢; omega) fun s' hs' => ?_
    rw [M.wp_loop_succ]
    have hcol : s'.mark.column ≠ 0 := by
      have h5 : s'.mark = _ := hs'.line fun c hc => (hb c hc).noBreak
      rw [h5]; simp
    simp only [flowPass, M.wp_bind]
    refine wpT_flowHead (Or.inl hcol) (by rintro rfl; simp at hlen; exact hne (by simpa using hlen)) ?_
    refine ih hne (by simp at hF; omega) (F1 := F) (G := G) (by simp at hF; omega) (by simp at hG; omega) fun F1' G' s'' a b hm => ?_
    have := hQ F1' G' s'' a b (hs'.trans hm)
    simpa [joinBlanks] using this
  | @fold t0 bs t v t' hf hn hd h ih =>
    intro F1 G s str hF1 hG hQ
    obtain ⟨b, t0, c, t1, bs, rfl, hb, h0, rfl, hf'⟩ := hf.split hn
    obtain ⟨F1, rfl⟩ : ∃ n, F1 = n + 1 := ⟨F1 - 1, by omega⟩
    obtain ⟨G, rfl⟩ : ∃ n, G = n + 1 := ⟨G - 1, by omega⟩
    have hlen := h.length
    have hl0 := h0.length
    have hl1 := hf'.length
    have hz : ∃ d r, b ++ t0 = d :: r ∧ isBlankzO (some d) = true := by
      cases b with
      | nil => obtain ⟨d, r, rfl, hb⟩ := h0.head; exact ⟨d, r, rfl, by simp [isBlankzO, isBreakzO, hb]⟩
      | cons d b => exact ⟨d, _, rfl, by simp [isBlankzO, isBlankO_iff.2 (hb d List.mem_cons_self)]⟩
    obtain ⟨d, r, hdr, hdz⟩ := hz
    unfold flowChunk
    rw [M.wp_loop_succ]
    simp only [M.wp_bind, wpT_at]
    rw [show (b ++ t0)[0]? = some d by rw [hdr]; rfl]
    rw [if_pos hdz]
    simp only [M.wp_pure, M.next_inr]
    refine wpT_flowAfter (by
      rw [hdr]; simp; rintro rfl
      cases single <;> exact absurd hdz (by decide)) ?_
    refine wpT_flowBlanks hb h0 hf' rfl hF fun s' hs' => ?_
    rw [M.wp_loop_succ]
    have hcol : s'.mark.column ≠ 0 ∨ ¬ Spec.IsDocMarker t := by
      rcases hd with ⟨p, x, hp, hx⟩ | hd
      · rw [hp] at hs'
        exact Or.inl (hs'.column_blank hx)
      · exact Or.inr hd
    simp only [flowPass, M.wp_bind]
    refine wpT_flowHead hcol (by rintro rfl; simp at hlen; exact hne (by simpa using hlen)) ?_
    simp only [List.nil_append, joinBlanks_fold]
    refine ih hne (by simp at hF; omega) (F1 := F) (G := G) (by simp at hF; omega) (by simp at hG; omega) fun F1' G' s'' a b hm => ?_
    have := hQ F1' G' s'' a b (hs'.trans hm)
    simpa using this
  | @cont t0 t1 bs t v t' c hs h0 hf hd h ih =>
    intro F1 G s str hF1 hG hQ
    subst hs
    obtain ⟨F1, rfl⟩ : ∃ n, F1 = n + 1 := ⟨F1 - 1, by omega⟩
    obtain ⟨G, rfl⟩ : ∃ n, G = n + 1 := ⟨G - 1, by omega⟩
    have hlen := h.length
    have hl0 := h0.length
    have hl1 := hf.length
    obtain ⟨d, r, hdr, hdb⟩ := h0.head
    unfold flowChunk
    rw [M.wp_loop_succ]
    simp only [M.wp_bind, wpT_at, List.getElem?_cons_zero, List.getElem?_cons_succ]
    rw [if_neg (by decide), if_neg (by simp), if_neg (by decide), if_pos (by rw [hdr]; simp [isBreakO, hdb])]
    simp only [M.wp_bind, wpT_cache]
    refine wpT_skipChar (by decide) fun s1 hs1 => ?_
    refine wpT_skipLineBreak h0 fun s2 hs2 hc2 _ => ?_
    simp only [M.wp_pure, M.next_inr]
    cases hq : decide (t1.head? = some '"') with
    | true =>
      have hq : t1.head? = some '"' := by simpa using hq
      obtain ⟨r1, rfl⟩ : ∃ r1, t1 = '"' :: r1 := by
        cases t1 with
        | nil => simp at hq
        | cons x r1 => simp at hq; subst hq; exact ⟨r1, rfl⟩
      cases hf with
      | blank c hc h => simp [Spec.IsBlank] at hc
      | brk hb h => obtain ⟨x, y, hxy, hb'⟩ := hb.head; cases hxy; simp [isBreak] at hb'
      | stop _ hst =>
        obtain ⟨rfl, rfl⟩ := h.atQuote
        have := hQ F1 (G + 1) s2 (by simp at hF1 hl0 ⊢; omega) (by simp at hG hl0 ⊢; omega) (hs1.trans hs2)
        simp only [List.append_nil] at this
        exact wpT_flowRest_quote this true (by rintro rfl; simp at hF1)
    | false =>
    refine wpT_flowAfter (by simpa [Spec.quote] using hq) ?_
    refine wpT_flowBlanks_lead hf rfl (by simp at hF; omega) fun s' hs' => ?_
    rw [M.wp_loop_succ]
    have hcol : s'.mark.column ≠ 0 ∨ ¬ Spec.IsDocMarker t := by
      rcases hd with ⟨p, x, rfl, hx⟩ | hd
      · exact Or.inl ((hs2.trans hs').column_blank hx)
      · exact Or.inr hd
    simp only [flowPass, M.wp_bind]
    refine wpT_flowHead hcol (by rintro rfl; simp at hlen; exact hne (by simpa using hlen)) ?_
    refine ih hne (by simp at hF; omega) (F1 := F) (G := G) (by simp at hF; omega) (by simp at hG; omega) fun F1' G' s'' a b hm => ?_
    have := hQ F1' G' s'' a b (((hs1.trans hs2).trans hs').trans hm)
    simpa [joinBlanks] using this


/-- The body of a quoted scalar up to any place: the scanner gets there with the denoted text collected. -/
theorem wpT_flowBody {F : Nat} {single : Bool} {m : Mark} {Q : Str → SState → Txt → Prop} {v t' : Str} (hne : t' ≠ [])
    (h : Spec.Body single t v t') (hF : t.length + 1 < F) (hcol : s.mark.column ≠ 0)
    (hQ : ∀ F1' G' s', t'.length < F1' → t'.length < G' → Mv s t s' t' →
      M.wp stepT P E (flowChunk F1' single m v) (Rest P E F single m G' Q) s' ⟨t', e⟩) :
    M.wp stepT P E (flowBody F single m) Q s ⟨t, e⟩ := by
  rw [flowBody_eq]
  obtain ⟨F', rfl⟩ : ∃ n, F = n + 1 := ⟨F - 1, by omega⟩
  rw [M.wp_loop_succ]
  have hl := h.length
  simp only [flowPass, M.wp_bind]
  refine wpT_flowHead (Or.inl hcol) (by rintro rfl; simp at hl; exact hne hl) ?_
  refine wpT_flowChunk hne h (by omega) (by omega) (by omega) fun F1' G' s' a b hm => ?_
  simpa using hQ F1' G' s' a b hm

/-- A quoted scalar is read as the string it denotes. -/
theorem wpT_scanFlowScalar {F : Nat} {single : Bool} {Q : Token → SState → Txt → Prop} {v rest : Str}
    (h : Spec.Quoted single t v rest) (hF : t.length < F)
    (hQ : ∀ s', Mv s t s' rest → Q ⟨.scalar v (if single then .singleQuoted else .doubleQuoted), s.mark, s'.mark⟩ s' ⟨rest, e⟩) :
    M.wp stepT P E (scanFlowScalar F single) Q s ⟨t, e⟩ := by
  obtain ⟨body, rfl, hb, hr⟩ := h
  simp only [scanFlowScalar, M.wp_bind, wp_getMark]
  have hqb : isBreak (Spec.quote single) = false := by cases single <;> decide
  refine wpT_skipChar hqb fun s1 hs1 => ?_
  have hcol : s1.mark.column ≠ 0 := by
    have : s1.mark = _ := Mv.line (p := [Spec.quote single]) hs1 (by simpa using hqb)
    rw [this]; simp
  refine wpT_flowBody (by simp) hb (by simp at hF; omega) hcol fun F1 G s2 hF1 hG hs2 => ?_
  obtain ⟨F1, rfl⟩ : ∃ n, F1 = n + 1 := ⟨F1 - 1, by omega⟩
  unfold flowChunk
  rw [M.wp_loop_succ]
  simp only [M.wp_bind, wpT_at, List.getElem?_cons_zero, List.getElem?_cons_succ]
  rw [if_neg (by cases single <;> decide), if_neg (by cases single <;> simp_all [List.head?_eq_getElem?]), if_pos (by simp [quote_eq])]
  simp only [M.wp_pure, M.next_inr, Rest, quotedAfter, M.wp_bind, wpT_cache, wpT_at, List.getElem?_cons_zero]
  rw [if_pos (by simp [quote_eq])]
  simp only [M.wp_pure, M.next_inr]
  refine wpT_skipChar hqb fun s3 hs3 => ?_
  exact hQ _ ((hs1.trans hs2).trans hs3)

end
end Yaml
