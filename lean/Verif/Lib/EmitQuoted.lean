import Verif.Lib.EmitText
import Verif.Lib.Analyze

/-
The text written for quoted scalars denotes the value.
-/

namespace Yaml.Emitter
open Yaml Spec
set_option linter.unusedSimpArgs false
set_option linter.unusedVariables false

/-! ### Escapes -/

theorem hexDigit_upper {n : Nat} (h : n < 16) : HexDigit (hexUpper n) n := by
  unfold hexUpper
  have key : ∀ m, m < 16 → HexDigit (if m < 10 then Char.ofNat (m + 48) else Char.ofNat (m - 10 + 65)) m := by
    intro m hm
    have : m = 0 ∨ m = 1 ∨ m = 2 ∨ m = 3 ∨ m = 4 ∨ m = 5 ∨ m = 6 ∨ m = 7 ∨ m = 8 ∨ m = 9 ∨ m = 10 ∨ m = 11 ∨ m = 12 ∨ m = 13 ∨ m = 14 ∨ m = 15 := by omega
    rcases this with rfl | rfl | rfl | rfl | rfl | rfl | rfl | rfl | rfl | rfl | rfl | rfl | rfl | rfl | rfl | rfl <;>
      first
        | exact Or.inl ⟨by decide, by decide⟩
        | exact Or.inr ⟨by decide, by decide, Or.inl (by decide)⟩
  exact key n h

theorem hexDigits_length (k n : Nat) : (hexDigits k n).length = k := by
  induction k with
  | zero => rfl
  | succ k ih => simp [hexDigits, ih]

/-- The digits, least significant last. -/
theorem hexDigits_snoc (k n : Nat) : hexDigits (k + 1) n = hexDigits k (n / 16) ++ [hexUpper (n % 16)] := by
  induction k generalizing n with
  | zero => simp [hexDigits]
  | succ k ih =>
    rw [hexDigits, ih n, hexDigits]
    simp only [List.cons_append, List.cons.injEq, and_true]
    congr 2
    rw [Nat.div_div_eq_div_mul, Nat.pow_succ, Nat.mul_comm]

theorem hexNum_digits (k n : Nat) (h : n < 16 ^ k) : HexNum (hexDigits k n) n := by
  induction k generalizing n with
  | zero => simp at h; subst h; exact HexNum.nil
  | succ k ih =>
    rw [hexDigits_snoc]
    have h1 := ih (n / 16) (by rw [Nat.pow_succ] at h; exact Nat.div_lt_of_lt_mul (by omega))
    have := h1.snoc (hexDigit_upper (Nat.mod_lt n (by decide : 0 < 16)))
    rwa [Nat.div_add_mod] at this

theorem isScalar_char (c : Char) : IsScalar c.toNat := by
  rcases c.valid with h | ⟨h1, h2⟩
  · exact Or.inl h
  · exact Or.inr ⟨h1, h2⟩

theorem escape_text (c : Char) : Escape (escapeText c) c := by
  have hs : ∀ (e : Char) (n : Nat), c.toNat = n → (e, n) ∈ escapes → Escape [e] c := by
    intro e n hn he
    have := Escape.simple he
    rwa [← hn, Char.ofNat_toNat] at this
  have hcode : ∀ (e : Char) (k : Nat), (e, k) ∈ codes → c.toNat < 16 ^ k → Escape (e :: hexDigits k c.toNat) c := by
    intro e k he hk
    have := Escape.code he (hexDigits_length k c.toNat) (hexNum_digits k c.toNat hk) (isScalar_char c)
    rwa [Char.ofNat_toNat] at this
  have hmax : c.toNat < 16 ^ 8 := by
    have := isScalar_char c
    unfold IsScalar at this
    omega
  unfold escapeText
  by_cases h : c.toNat = 0x0
  · rw [if_pos h]; exact hs _ _ h (by simp [escapes])
  rw [if_neg h]; clear h
  by_cases h : c.toNat = 0x7
  · rw [if_pos h]; exact hs _ _ h (by simp [escapes])
  rw [if_neg h]; clear h
  by_cases h : c.toNat = 0x8
  · rw [if_pos h]; exact hs _ _ h (by simp [escapes])
  rw [if_neg h]; clear h
  by_cases h : c.toNat = 0x9
  · rw [if_pos h]; exact hs _ _ h (by simp [escapes])
  rw [if_neg h]; clear h
  by_cases h : c.toNat = 0xa
  · rw [if_pos h]; exact hs _ _ h (by simp [escapes])
  rw [if_neg h]; clear h
  by_cases h : c.toNat = 0xb
  · rw [if_pos h]; exact hs _ _ h (by simp [escapes])
  rw [if_neg h]; clear h
  by_cases h : c.toNat = 0xc
  · rw [if_pos h]; exact hs _ _ h (by simp [escapes])
  rw [if_neg h]; clear h
  by_cases h : c.toNat = 0xd
  · rw [if_pos h]; exact hs _ _ h (by simp [escapes])
  rw [if_neg h]; clear h
  by_cases h : c.toNat = 0x1b
  · rw [if_pos h]; exact hs _ _ h (by simp [escapes])
  rw [if_neg h]; clear h
  by_cases h : c.toNat = 0x22
  · rw [if_pos h]; exact hs _ _ h (by simp [escapes])
  rw [if_neg h]; clear h
  by_cases h : c.toNat = 0x5c
  · rw [if_pos h]; exact hs _ _ h (by simp [escapes])
  rw [if_neg h]; clear h
  by_cases h : c.toNat = 0x85
  · rw [if_pos h]; exact hs _ _ h (by simp [escapes])
  rw [if_neg h]; clear h
  by_cases h : c.toNat = 0xa0
  · rw [if_pos h]; exact hs _ _ h (by simp [escapes])
  rw [if_neg h]; clear h
  by_cases h : c.toNat = 0x2028
  · rw [if_pos h]; exact hs _ _ h (by simp [escapes])
  rw [if_neg h]; clear h
  by_cases h : c.toNat = 0x2029
  · rw [if_pos h]; exact hs _ _ h (by simp [escapes])
  rw [if_neg h]; clear h
  by_cases h : c.toNat ≤ 0xFF
  · rw [if_pos h]; exact hcode 'x' 2 (by simp [codes]) (by omega)
  rw [if_neg h]; clear h
  by_cases h : c.toNat ≤ 0xFFFF
  · rw [if_pos h]; exact hcode 'u' 4 (by simp [codes]) (by omega)
  rw [if_neg h]; clear h
  exact hcode 'U' 8 (by simp [codes]) (by omega)

theorem escape_noBreak {x : Str} {c : Char} (he : Escape x c) : ∀ d ∈ x, isBreak d = false := by
  cases he with
  | simple h => intro d hd; simp at hd; subst hd; exact (escapeChar_of h).2
  | code h hk hn hs =>
    intro d hd
    rcases List.mem_cons.1 hd with rfl | hd
    · exact (codes_of h).2.2
    · exact hn.noBreak d hd

theorem strLen_hex (k n : Nat) : strLen (hexDigits k n) = k := by
  induction k with
  | zero => rfl
  | succ k ih =>
    have h : lenUtf8 (hexUpper (n / 16 ^ k % 16)) = 1 := by
      have hd := hexDigit_upper (n := n / 16 ^ k % 16) (Nat.mod_lt _ (by decide))
      unfold lenUtf8
      rw [if_pos]
      rcases hd with ⟨h1, h2⟩ | ⟨h1, h2, h3 | h3⟩ <;> omega
    simp only [hexDigits, strLen, ih, h]; omega

/-- An escape is at most four times as long as the character. -/
theorem strLen_escape (c : Char) : 1 + strLen (escapeText c) ≤ 4 * lenUtf8 c := by
  have hp := lenUtf8_pos c
  have h1 : ∀ d : Char, lenUtf8 d = 1 → 1 + strLen [d] ≤ 4 * lenUtf8 c := by
    intro d hd; simp only [strLen, hd]; omega
  unfold escapeText
  by_cases h : c.toNat = 0x0
  · rw [if_pos h]; exact h1 _ rfl
  rw [if_neg h]; clear h
  by_cases h : c.toNat = 0x7
  · rw [if_pos h]; exact h1 _ rfl
  rw [if_neg h]; clear h
  by_cases h : c.toNat = 0x8
  · rw [if_pos h]; exact h1 _ rfl
  rw [if_neg h]; clear h
  by_cases h : c.toNat = 0x9
  · rw [if_pos h]; exact h1 _ rfl
  rw [if_neg h]; clear h
  by_cases h : c.toNat = 0xa
  · rw [if_pos h]; exact h1 _ rfl
  rw [if_neg h]; clear h
  by_cases h : c.toNat = 0xb
  · rw [if_pos h]; exact h1 _ rfl
  rw [if_neg h]; clear h
  by_cases h : c.toNat = 0xc
  · rw [if_pos h]; exact h1 _ rfl
  rw [if_neg h]; clear h
  by_cases h : c.toNat = 0xd
  · rw [if_pos h]; exact h1 _ rfl
  rw [if_neg h]; clear h
  by_cases h : c.toNat = 0x1b
  · rw [if_pos h]; exact h1 _ rfl
  rw [if_neg h]; clear h
  by_cases h : c.toNat = 0x22
  · rw [if_pos h]; exact h1 _ rfl
  rw [if_neg h]; clear h
  by_cases h : c.toNat = 0x5c
  · rw [if_pos h]; exact h1 _ rfl
  rw [if_neg h]; clear h
  by_cases h : c.toNat = 0x85
  · rw [if_pos h]; exact h1 _ rfl
  rw [if_neg h]; clear h
  by_cases h : c.toNat = 0xa0
  · rw [if_pos h]; exact h1 _ rfl
  rw [if_neg h]; clear h
  by_cases h : c.toNat = 0x2028
  · rw [if_pos h]; exact h1 _ rfl
  rw [if_neg h]; clear h
  by_cases h : c.toNat = 0x2029
  · rw [if_pos h]; exact h1 _ rfl
  rw [if_neg h]; clear h
  by_cases h : c.toNat ≤ 0xFF
  · rw [if_pos h]; simp only [strLen, strLen_hex, show lenUtf8 'x' = 1 from rfl]; omega
  rw [if_neg h]
  by_cases h' : c.toNat ≤ 0xFFFF
  · rw [if_pos h']; simp only [strLen, strLen_hex, show lenUtf8 'u' = 1 from rfl]
    have : 2 ≤ lenUtf8 c := by
      unfold lenUtf8
      rw [if_neg (by omega)]
      split
      · omega
      · split <;> omega
    omega
  rw [if_neg h']
  simp only [strLen, strLen_hex, show lenUtf8 'U' = 1 from rfl]
  have : 4 ≤ lenUtf8 c := by
    unfold lenUtf8
    rw [if_neg (by omega), if_neg (by omega), if_neg (by omega)]
    omega
  omega

/-! ### Double-quoted -/

theorem body_close {single : Bool} {b t tail v : Str} (hb : ∀ c ∈ b, IsBlank c) (hs : Solid t) (h : Body single t v tail) :
    Body single (b ++ t) (b ++ v) tail := by
  cases b with
  | nil => exact h
  | cons c b => exact Body.blanks hb (by simp) hs h

theorem solid_cons {c : Char} {t : Str} (h1 : ¬ IsBlank c) (h2 : isLineBreak c = false) : Solid (c :: t) := by
  intro d r h; cases h; exact ⟨h1, h2⟩

theorem folds_spaces {n : Nat} {t : Str} (h : Solid t) : Folds (List.replicate n ' ' ++ t) [] t := by
  induction n with
  | zero => exact Folds.stop t h
  | succ n ih => exact Folds.blank ' ' (Or.inl rfl) ih

theorem head_spaces {n : Nat} {t : Str} (hn : n ≠ 0) : (List.replicate n ' ' ++ t).head? = some ' ' := by
  obtain ⟨n, rfl⟩ : ∃ k, n = k + 1 := ⟨n - 1, by omega⟩
  rfl

/-- A line break and at least one space of indentation fold to a space. -/
theorem body_fold {single : Bool} {b : Break} {n : Nat} {t v t' : Str} (hb : b ≠ .any) (hn : n ≠ 0) (hs : Solid t)
    (h : Body single t v t') : Body single (breakChars b ++ List.replicate n ' ' ++ t) (' ' :: v) t' := by
  have h0 := breakAt_chars (t := List.replicate n ' ' ++ t) hb (Or.inr (by rw [head_spaces hn]; simp))
  have := Body.fold (single := single) (Folds.brk h0 (folds_spaces hs)) (by simp) (Or.inl ⟨breakChars b ++ List.replicate (n - 1) ' ', ' ', by
      obtain ⟨k, rfl⟩ : ∃ k, n = k + 1 := ⟨n - 1, by omega⟩
      simp [List.replicate_succ', List.append_assoc], Or.inl rfl⟩) h
  simpa [Spec.fold, List.append_assoc] using this

/-- The loop of the double-quoted writer; `b`: blanks already written and not yet followed by anything else. -/
theorem writes_doubleLoop (ab : Bool) : ∀ (cs : Str) (spaces first : Bool) (s : EState) (b : Str),
    s.lineBreak ≠ .any → 1 ≤ s.indent →
    (s.indention = false ∨ s.indent < s.column ∨ (spaces = true ∧ s.indent ≤ s.column)) →
    (∀ c ∈ b, IsBlank c) → (b ≠ [] → spaces = true) →
    ∃ s' w, Writes (doubleLoop ab cs spaces first) s () s' w ∧ Wrote s w s' ∧
      ((∀ c ∈ w, isBreak c = true → ab = true) ∧ (ab = false → strLen w ≤ 4 * strLen cs)) ∧
      (b = [] → cs.head? = some ' ' → spaces = true →
        ∀ tail, Solid tail → Body false ('\\' :: (w ++ tail)) cs tail) ∧
      (b = [] → cs.head? ≠ some ' ' → ∀ tail, Solid tail → Solid (w ++ tail)) ∧
      ∀ tail, Solid tail → Body false (b ++ (w ++ tail)) (b ++ cs) tail := by
  intro cs
  induction cs with
  | nil =>
    intro spaces first s b hl hi hc hb hbs
    refine ⟨s, [], Writes.pure () s, Wrote.refl s, ⟨by simp, by simp [strLen]⟩, by simp, by simp, fun tail ht => ?_⟩
    have := body_close (single := false) hb ht (Body.done _)
    simpa using this
  | cons c cs ih =>
    intro spaces first s b hl hi hc hb hbs
    unfold doubleLoop
    by_cases hm : mustEscape s.unicode c = true
    · -- an escape
      obtain ⟨s', w, h1, h2, h3, h4, h5, h6⟩ := ih false false { s with column := s.column + 1 + (escapeText c).length } [] hl hi
        (by rcases hc with h | h | h
            · exact Or.inl h
            · exact Or.inr (Or.inl (by show s.indent < s.column + 1 + _; omega))
            · exact Or.inr (Or.inl (by show s.indent < s.column + 1 + _; omega))) (by simp) (by simp)
      have hne : isSpace c = false := by
        cases hsp : isSpace c with
        | false => rfl
        | true =>
          rw [isSpace, beq_iff_eq] at hsp; subst hsp
          exfalso; revert hm
          cases s.unicode <;> decide
      refine ⟨s', '\\' :: (escapeText c ++ w), ?_, ?_, ?_, ?_, ?_, ?_⟩
      · refine Writes.bind_get ?_
        rw [if_pos hm]
        exact (writes_put '\\' s).bind ((writes_putAll (escapeText c) _).bind h1)
      · have hes := escape_noBreak (escape_text c)
        have := (wrote_char (c := '\\') (by decide) s).trans ((wrote_str hes _).trans h2)
        exact this
      · refine ⟨fun d hd hb' => ?_, fun hab => ?_⟩
        · rcases List.mem_cons.1 hd with rfl | hd
          · simp [isBreak] at hb'
          rcases List.mem_append.1 hd with hd | hd
          · rw [escape_noBreak (escape_text c) d hd] at hb'; simp at hb'
          · exact h3.1 d hd hb'
        · have h1 := h3.2 hab
          have h2 := strLen_escape c
          simp only [strLen, strLen_append, show lenUtf8 '\\' = 1 from rfl]
          omega
      · intro _ h; simp at h; subst h; simp [isSpace] at hne
      · intro _ _ tail _
        exact solid_cons (by simp [IsBlank]) (by decide)
      · intro tail ht
        have hsol : Solid ('\\' :: (escapeText c ++ w) ++ tail) := solid_cons (by simp [IsBlank]) (by decide)
        refine body_close hb hsol ?_
        have := Body.escape rfl (escape_text c) (h6 tail ht)
        simpa using this
    · have hm : mustEscape s.unicode c = false := by simpa using hm
      have hbr : isBreak c = false := by
        simp only [mustEscape, Bool.or_eq_false_iff] at hm
        exact hm.1.1.2
      have hq : c ≠ '"' ∧ c ≠ '\\' := by
        simp only [mustEscape, Bool.or_eq_false_iff, beq_eq_false_iff_ne] at hm
        exact ⟨hm.1.2, hm.2⟩
      have htab : c ≠ '\t' := by
        rintro rfl; revert hm; cases s.unicode <;> decide
      by_cases hsp : isSpace c = true
      · have hcs : c = ' ' := by simpa [isSpace] using hsp
        subst hcs
        by_cases hf : (ab && !spaces && decide (s.column > s.bestWidth) && !first && !cs.isEmpty) = true
        · -- a fold
          simp only [Bool.and_eq_true, Bool.not_eq_true', decide_eq_true_eq] at hf
          obtain ⟨⟨⟨⟨hab, hsf⟩, hw⟩, hfi⟩, hne⟩ := hf
          subst hsf
          have hbn : b = [] := by
            cases b with
            | nil => rfl
            | cons x b => have := hbs (by simp); simp at this
          subst hbn
          have hbl : breaksLine s = true := by
            unfold breaksLine
            rw [if_pos (show s.indent ≥ 0 by omega)]
            rcases hc with h | h | h
            · simp [h]
            · simp [h]
            · simp at h
          have hwi := writes_writeIndent_break hbl
          rw [if_pos (show s.indent ≥ 0 by omega)] at hwi
          have hwr := wrote_indent_break (s := s) hl
          rw [if_pos (show s.indent ≥ 0 by omega)] at hwr
          by_cases hnx : cs.head? = some ' '
          · -- the next character is a space: a backslash first
            obtain ⟨s', w, h1, h2, h3, h4, h5, h6⟩ := ih true false
              { s with column := s.indent + 1, line := s.line + 1, whitespace := true, indention := true } [] hl hi
              (Or.inr (Or.inl (by show s.indent < s.indent + 1; omega))) (by simp) (by simp)
            refine ⟨s', breakChars s.lineBreak ++ List.replicate s.indent.toNat ' ' ++ '\\' :: w, ?_, ?_, ?_, ?_, ?_, ?_⟩
            · refine Writes.bind_get ?_
              rw [if_neg (by simp [hm]), if_pos hsp, if_pos (by simp [hab, hw, hfi, hne])]
              have hnx' : isSpaceO cs.head? = true := by rw [hnx]; rfl
              have := hwi.bind (f := fun _ => M.when (isSpaceO cs.head?) (put '\\') >>= fun _ => doubleLoop ab cs true false)
                ((Writes.when_true hnx' (writes_put '\\' _)).bind h1)
              exact this
            · have := hwr.trans ((wrote_char (c := '\\') (by decide) _).trans h2)
              simpa using this
            · exact ⟨fun _ _ _ => hab, fun h => by rw [hab] at h; cases h⟩
            · intro _ _ h; simp at h
            · intro _ h; simp at h
            · intro tail ht
              have := body_fold (single := false) (n := s.indent.toNat) hl (by omega) (solid_cons (by simp [IsBlank]) (by decide)) (h4 rfl hnx rfl tail ht)
              simpa using this
          · obtain ⟨s', w, h1, h2, h3, h4, h5, h6⟩ := ih true false
              { s with column := s.indent, line := s.line + 1, whitespace := true, indention := true } [] hl hi
              (Or.inr (Or.inr ⟨rfl, by show s.indent ≤ s.indent; omega⟩)) (by simp) (by simp)
            refine ⟨s', breakChars s.lineBreak ++ List.replicate s.indent.toNat ' ' ++ w, ?_, ?_, ?_, ?_, ?_, ?_⟩
            · refine Writes.bind_get ?_
              rw [if_neg (by simp [hm]), if_pos hsp, if_pos (by simp [hab, hw, hfi, hne])]
              have hnx' : isSpaceO cs.head? = false := by
                simpa [isSpaceO] using hnx
              have := hwi.bind (f := fun _ => M.when (isSpaceO cs.head?) (put '\\') >>= fun _ => doubleLoop ab cs true false)
                ((Writes.when_false hnx').bind h1)
              exact this
            · have := hwr.trans h2
              simpa using this
            · exact ⟨fun _ _ _ => hab, fun h => by rw [hab] at h; cases h⟩
            · intro _ _ h; simp at h
            · intro _ h; simp at h
            · intro tail ht
              have := body_fold (single := false) (n := s.indent.toNat) hl (by omega) (h5 rfl hnx tail ht) (h6 tail ht)
              simpa using this
        · -- a space as it is
          obtain ⟨s', w, h1, h2, h3, h4, h5, h6⟩ := ih true false { s with column := s.column + 1 } (b ++ [' ']) hl hi
            (by rcases hc with h | h | h
                · exact Or.inl h
                · exact Or.inr (Or.inl (by show s.indent < s.column + 1; omega))
                · exact Or.inr (Or.inl (by show s.indent < s.column + 1; omega)))
            (by intro d hd; rcases List.mem_append.1 hd with hd | hd
                · exact hb d hd
                · simp at hd; subst hd; exact Or.inl rfl) (by simp)
          obtain ⟨s'0, w0, h10, h20, h30, h40, h50, h60⟩ := ih true false { s with column := s.column + 1 } [] hl hi
            (by rcases hc with h | h | h
                · exact Or.inl h
                · exact Or.inr (Or.inl (by show s.indent < s.column + 1; omega))
                · exact Or.inr (Or.inl (by show s.indent < s.column + 1; omega))) (by simp) (by simp)
          obtain ⟨_, rfl, rfl⟩ := h1.det h10
          refine ⟨s', ' ' :: w, ?_, ?_, ?_, ?_, ?_, ?_⟩
          · refine Writes.bind_get ?_
            rw [if_neg (by simp [hm]), if_pos hsp, if_neg hf]
            exact (writes_writeChar ' ' s).bind h1
          · exact (wrote_char (c := ' ') (by decide) s).trans h2
          · refine ⟨fun d hd hb' => ?_, fun hab => ?_⟩
            · rcases List.mem_cons.1 hd with rfl | hd
              · simp [isBreak] at hb'
              · exact h3.1 d hd hb'
            · have h1 := h3.2 hab
              simp only [strLen, show lenUtf8 ' ' = 1 from rfl]
              omega
          · intro _ _ _ tail ht
            have := Body.escape (x := [' ']) (c := ' ') rfl (Escape.simple (e := ' ') (n := 0x20) (by simp [escapes])) (h60 tail ht)
            simpa using this
          · intro _ h; simp at h
          · intro tail ht
            have := h6 tail ht
            simpa using this
      · have hsp : isSpace c = false := by simpa using hsp
        have hnb : ¬ IsBlank c := by
          rintro (rfl | rfl)
          · simp [isSpace] at hsp
          · exact htab rfl
        have hlb : isLineBreak c = false := by rw [isLineBreak_eq]; exact hbr
        obtain ⟨s', w, h1, h2, h3, h4, h5, h6⟩ := ih false false { s with column := s.column + 1 } [] hl hi
          (by rcases hc with h | h | h
              · exact Or.inl h
              · exact Or.inr (Or.inl (by show s.indent < s.column + 1; omega))
              · exact Or.inr (Or.inl (by show s.indent < s.column + 1; omega))) (by simp) (by simp)
        refine ⟨s', c :: w, ?_, ?_, ?_, ?_, ?_, ?_⟩
        · refine Writes.bind_get ?_
          rw [if_neg (by simp [hm]), if_neg (by simp [hsp])]
          exact (writes_writeChar c s).bind h1
        · exact (wrote_char hbr s).trans h2
        · refine ⟨fun d hd hb' => ?_, fun hab => ?_⟩
          · rcases List.mem_cons.1 hd with rfl | hd
            · rw [hbr] at hb'; simp at hb'
            · exact h3.1 d hd hb'
          · have h1 := h3.2 hab
            simp only [strLen]
            omega
        · intro _ h; simp at h; subst h; simp [isSpace] at hsp
        · intro _ _ tail _; exact solid_cons hnb hlb
        · intro tail ht
          refine body_close (t := c :: w ++ tail) hb (solid_cons hnb hlb) ?_
          exact Body.char c hnb hlb hq.1 (fun _ => hq.2) (h6 tail ht)


/-- The space before an indicator. -/
def sep (s : EState) : Str := if s.whitespace then [] else [' ']

theorem sep_noBreak (s : EState) : ∀ c ∈ sep s, isBreak c = false := by
  unfold sep; split <;> simp [isBreak]

theorem sep_length (s : EState) : strLen (sep s) ≤ 1 := by
  unfold sep; split <;> simp [strLen]; decide

theorem writes_indicator (t : Str) (w i : Bool) (s : EState) (ht : ∀ c ∈ t, isBreak c = false) :
    ∃ s', Writes (writeIndicator t true w i) s () s' (sep s ++ t) ∧ Wrote s (sep s ++ t) s' ∧ s'.whitespace = w ∧ s'.indention = (s.indention && i) := by
  refine ⟨_, (writes_writeIndicator t true w i s).cast rfl (by unfold sep; cases s.whitespace <;> rfl), ?_, rfl, rfl⟩
  refine ⟨rfl, ?_⟩
  rw [colAfter_plain]
  · unfold sep; cases s.whitespace <;> simp <;> omega
  · intro c hc
    rcases List.mem_append.1 hc with hc | hc
    · exact sep_noBreak s c hc
    · exact ht c hc

theorem writes_indicator0 (t : Str) (w i : Bool) (s : EState) (ht : ∀ c ∈ t, isBreak c = false) :
    ∃ s', Writes (writeIndicator t false w i) s () s' t ∧ Wrote s t s' ∧ s'.whitespace = w ∧ s'.indention = (s.indention && i) := by
  refine ⟨_, (writes_writeIndicator t false w i s).cast rfl rfl, ?_, rfl, rfl⟩
  refine ⟨rfl, ?_⟩
  rw [colAfter_plain _ _ ht]
  simp

/-- The text of a double-quoted scalar denotes the value. -/
theorem writes_writeDoubleQuoted (v : Str) (ab : Bool) (s : EState) (hl : s.lineBreak ≠ .any) (hi : 1 ≤ s.indent) :
    ∃ s' w, Writes (writeDoubleQuoted v ab) s () s' (sep s ++ w) ∧ Wrote s (sep s ++ w) s' ∧ s'.whitespace = false ∧ s'.indention = false ∧
      (ab = false → (∀ c ∈ w, isBreak c = false) ∧ strLen w ≤ 4 * strLen v + 2) ∧ ∀ rest, Quoted false (w ++ rest) v rest := by
  obtain ⟨s1, w1, wr1, hw1, hi1⟩ := writes_indicator ['"'] false false s (by simp [isBreak])
  have hi1 : s1.indention = false := by simpa using hi1
  obtain ⟨s2, w, w2, wr2, ⟨hbr, hlen⟩, _, _, hb⟩ := writes_doubleLoop ab v false true s1 [] (by rw [wr1.lineBreak]; exact hl)
    (by rw [wr1.indent]; exact hi) (Or.inl hi1) (by simp) (by simp)
  obtain ⟨s3, w3, wr3, _, _⟩ := writes_indicator0 ['"'] false false s2 (by simp [isBreak])
  refine ⟨{ s3 with whitespace := false, indention := false }, '"' :: (w ++ ['"']), ?_, ?_, rfl, rfl, ?_, ?_⟩
  · have := w1.bind (f := fun _ => doubleLoop ab v false true >>= fun _ => writeIndicator ['"'] false false false >>= fun _ => setWI false false)
      (w2.bind (w3.bind (f := fun _ => setWI false false) (Writes.modify _ _)))
    exact this.cast rfl (by simp)
  · have := (wr1.trans (wr2.trans wr3)).setWI false false
    simpa using this
  · intro hab
    refine ⟨fun c hc => ?_, ?_⟩
    · cases hcb : isBreak c with
      | false => rfl
      | true =>
        rcases List.mem_cons.1 hc with rfl | hc
        · revert hcb; decide
        · rcases List.mem_append.1 hc with hc | hc
          · have := hbr c hc hcb; rw [hab] at this; cases this
          · simp at hc; subst hc; revert hcb; decide
    · have := hlen hab
      simp only [strLen, strLen_append, show lenUtf8 '"' = 1 from rfl]
      omega
  · intro rest
    refine ⟨w ++ '"' :: rest, by simp [Spec.quote], ?_, by simp⟩
    have := hb ('"' :: rest) (solid_cons (by simp [IsBlank]) (by decide))
    simpa [Spec.quote] using this

/-! ### Single-quoted -/

/-- `u` is a written sequence of line breaks that denotes `bs`. -/
def Brks (b : Break) (u bs : Str) : Prop :=
  ∀ t bs' t', (b ≠ .cr ∨ t.head? ≠ some '\n') → Folds t bs' t' → Folds (u ++ t) (bs ++ bs') t'

theorem Brks.nil (b : Break) : Brks b [] [] := fun t bs' t' _ h => h

theorem Brks.snoc {b : Break} {u bs : Str} {c : Char} (h : Brks b u bs) (hb : b ≠ .any) (hc : c = '\n' ∨ c = '\u2028' ∨ c = '\u2029') :
    Brks b (u ++ breakText b c) (bs ++ [c]) := by
  intro t bs' t' ht hf
  have := h (breakText b c ++ t) (c :: bs') t' (breakText_head hb hc t) (Folds.brk (breakAt_text hb hc ht) hf)
  simpa using this

/-- Breaks and indentation before solid text fold. -/
theorem body_brks {single : Bool} {b : Break} {u bs t v t' : Str} {n : Nat} (hb : Brks b u bs) (hne : bs ≠ []) (hn : n ≠ 0) (hs : Solid t)
    (h : Body single t v t') : Body single (u ++ (List.replicate n ' ' ++ t)) (Spec.fold bs ++ v) t' := by
  have h1 := hb (List.replicate n ' ' ++ t) [] t (Or.inr (by rw [head_spaces hn]; simp)) (folds_spaces hs)
  rw [List.append_nil] at h1
  refine Body.fold h1 hne (Or.inl ⟨u ++ List.replicate (n - 1) ' ', ' ', ?_, Or.inl rfl⟩) h
  obtain ⟨k, rfl⟩ : ∃ k, n = k + 1 := ⟨n - 1, by omega⟩
  simp [List.replicate_succ', List.append_assoc]

/-- The breaks collected so far are kept when another one follows. -/
def Long (bs : Str) : Prop := bs ≠ [] ∧ (2 ≤ bs.length ∨ bs.head? ≠ some '\n')

theorem fold_snoc {bs : Str} (h : Long bs) (c : Char) : Spec.fold (bs ++ [c]) = Spec.fold bs ++ [c] := by
  obtain ⟨h1, h2⟩ := h
  cases bs with
  | nil => exact absurd rfl h1
  | cons x bs =>
    simp only [List.cons_append, Spec.fold]
    by_cases hx : x = '\n'
    · simp only [hx, if_true]
      cases bs with
      | nil => simp [hx] at h2
      | cons y bs => simp
    · simp only [hx, if_false, List.cons_append]

theorem Long.snoc {bs : Str} (h : Long bs) (c : Char) : Long (bs ++ [c]) := by
  obtain ⟨h1, h2⟩ := h
  refine ⟨by simp, ?_⟩
  cases bs with
  | nil => exact absurd rfl h1
  | cons x bs => left; simp

/-- `write_indent` after line breaks. -/
theorem writes_indent_col0 {s : EState} (hc : s.column = 0) (hi : 1 ≤ s.indent) (hn : s.indention = true) :
    Writes writeIndent s () { s with column := s.indent, whitespace := true, indention := true } (List.replicate s.indent.toNat ' ') ∧
    Wrote s (List.replicate s.indent.toNat ' ') { s with column := s.indent, whitespace := true, indention := true } := by
  have hb : breaksLine s = false := by
    unfold breaksLine
    rw [if_pos (show s.indent ≥ 0 by omega), hc, hn]
    simp; omega
  have := writes_writeIndent_stay hb
  rw [if_pos (show s.indent ≥ 0 by omega), hc] at this
  refine ⟨this.cast rfl (by simp), rfl, ?_⟩
  rw [colAfter_spaces, hc]
  show s.indent = _
  omega

theorem wrote_break {s : EState} (hl : s.lineBreak ≠ .any) {c : Char} (hc : isBreak c = true) :
    Wrote s (breakText s.lineBreak c) { s with column := 0, line := s.line + 1 } := by
  refine ⟨rfl, ?_⟩
  unfold breakText
  split
  · rw [colAfter_break hl]
  · simp [colAfter, hc]

theorem wrote_putBreak {s : EState} (hl : s.lineBreak ≠ .any) : Wrote s (breakChars s.lineBreak) { s with column := 0, line := s.line + 1 } :=
  ⟨rfl, by rw [colAfter_break hl]⟩

/-- The loop of the single-quoted writer and the final indentation. -/
def SFin (m : Emit Bool) (s s' : EState) (w : Str) : Prop :=
  ∃ br s1 w1 w2, Writes m s br s1 w1 ∧ Writes (M.when br writeIndent) s1 () s' w2 ∧ w = w1 ++ w2

theorem SFin.step {α : Type} {m : Emit α} {f : α → Emit Bool} {s s1 s' : EState} {a : α} {u w : Str} (h : Writes m s a s1 u) (h' : SFin (f a) s1 s' w) :
    SFin (m >>= f) s s' (u ++ w) := by
  obtain ⟨br, s2, w1, w2, h1, h2, rfl⟩ := h'
  exact ⟨br, s2, _, w2, h.bind h1, h2, by simp⟩

/-- The loop of the single-quoted writer with the final indentation; `b`: pending blanks, `u`: pending
line breaks that denote `bs`. -/
theorem writes_singleLoop (ab : Bool) : ∀ (cs : Str) (spaces breaks : Bool) (prev : Option Char) (s : EState) (b u bs : Str),
    s.lineBreak ≠ .any → 1 ≤ s.indent → (∀ c ∈ cs, isPrintable c = true) →
    chain (fun a b => ¬ (isBreak a = true ∧ b = ' ')) prev cs → chain (fun a b => ¬ (a = ' ' ∧ isBreak b = true)) prev cs →
    (spaces = true ↔ prev = some ' ') →
    (breaks = true → s.column = 0 ∧ s.indention = true ∧ Long bs ∧ b = [] ∧ isBreakO prev = true) →
    (breaks = false → u = [] ∧ bs = [] ∧ (spaces = false → s.indention = false ∨ prev = none)) →
    Brks s.lineBreak u bs → (∀ c ∈ b, IsBlank c) → (b ≠ [] → spaces = true) →
    ∃ s' w, SFin (singleLoop ab cs spaces breaks prev.isNone) s s' w ∧ Wrote s w s' ∧
      (ab = false → breaks = false → (∀ c ∈ cs, isBreak c = false) → (∀ c ∈ w, isBreak c = false) ∧ strLen w ≤ 2 * strLen cs) ∧
      (breaks = false → b = [] → ∀ d r, cs = d :: r → d ≠ ' ' → isBreak d = false → ∀ tail, Solid (w ++ tail)) ∧
      ∀ tail, Solid tail → Body true (b ++ (u ++ (w ++ tail))) (b ++ (Spec.fold bs ++ cs)) tail := by
  intro cs
  induction cs with
  | nil =>
    intro spaces breaks prev s b u bs hl hi hp hc1 hc2 hsp hbt hbf hbr hb hbs
    cases breaks with
    | true =>
      obtain ⟨h0, h1, h2, rfl, _⟩ := hbt rfl
      obtain ⟨h3, h4⟩ := writes_indent_col0 h0 hi h1
      refine ⟨_, _, ⟨true, s, [], _, Writes.pure true s, Writes.when_true rfl h3, rfl⟩, h4, by simp, by simp, fun tail ht => ?_⟩
      have := body_brks (single := true) (n := s.indent.toNat) hbr h2.1 (by omega) ht (Body.done _)
      simpa using this
    | false =>
      obtain ⟨rfl, rfl, _⟩ := hbf rfl
      refine ⟨_, _, ⟨false, s, [], _, Writes.pure false s, Writes.when_false rfl, rfl⟩, Wrote.refl s, ?_, by simp, fun tail ht => ?_⟩
      · intros; exact ⟨by simp, by simp [strLen]⟩
      · have := body_close (single := true) hb ht (Body.done _)
        simpa [Spec.fold] using this
  | cons c cs ih =>
    intro spaces breaks prev s b u bs hl hi hp hc1 hc2 hsp hbt hbf hbr hb hbs
    have hpc := hp c List.mem_cons_self
    have hp' : ∀ d ∈ cs, isPrintable d = true := fun d hd => hp d (List.mem_cons_of_mem _ hd)
    have hch : ∀ {R : Char → Char → Prop}, chain R prev (c :: cs) → chain R (some c) cs ∧ ∀ a, prev = some a → R a c := by
      intro R h
      cases prev with
      | none => exact ⟨h, by simp⟩
      | some a => exact ⟨h.2, by rintro x ⟨⟩; exact h.1⟩
    obtain ⟨hc1', hc1p⟩ := hch hc1
    obtain ⟨hc2', hc2p⟩ := hch hc2
    rw [show singleLoop ab (c :: cs) spaces breaks prev.isNone = _ from by unfold singleLoop; rfl]
    by_cases hs : isSpace c = true
    · -- a space
      have hcs : c = ' ' := by simpa [isSpace] using hs
      subst hcs
      have hbk : breaks = false := by
        cases hbreaks : breaks with
        | false => rfl
        | true =>
          obtain ⟨_, _, _, _, h5⟩ := hbt hbreaks
          cases prev with
          | none => cases h5
          | some a => exact absurd ⟨h5, rfl⟩ (hc1p a rfl)
      subst hbk
      obtain ⟨rfl, rfl, hind⟩ := hbf rfl
      rw [if_pos hs]
      by_cases hf : (ab && !spaces && decide (s.column > s.bestWidth) && !prev.isNone && !cs.isEmpty && !isSpaceO cs.head?) = true
      · have hf' := hf
        simp only [Bool.and_eq_true, Bool.not_eq_true', decide_eq_true_eq] at hf
        obtain ⟨⟨⟨⟨⟨hab, hsf⟩, hw⟩, hfi⟩, hne⟩, hns⟩ := hf
        have hbn : b = [] := by
          cases b with
          | nil => rfl
          | cons x b => have := hbs (by simp); rw [hsf] at this; cases this
        subst hbn
        have hbl : breaksLine s = true := by
          rcases hind hsf with h | h
          · unfold breaksLine; simp [h]
          · rw [h] at hfi; cases hfi
        have hwi := writes_writeIndent_break hbl
        rw [if_pos (show s.indent ≥ 0 by omega)] at hwi
        have hwr := wrote_indent_break (s := s) hl
        rw [if_pos (show s.indent ≥ 0 by omega)] at hwr
        obtain ⟨s', w, h1, h2, h3, h4, h5⟩ := ih true false (some ' ')
          { s with column := s.indent, line := s.line + 1, whitespace := true, indention := true } [] [] [] hl hi hp' hc1' hc2' (by simp) (by simp)
          (by simp) (Brks.nil _) (by simp) (by simp)
        refine ⟨s', breakChars s.lineBreak ++ List.replicate s.indent.toNat ' ' ++ w, ?_, ?_, ?_, ?_, ?_⟩
        · refine SFin.step (u := []) (Writes.get s) ?_
          rw [if_pos hf']
          exact SFin.step hwi h1
        · simpa using hwr.trans h2
        · intro h; rw [hab] at h; cases h
        · intro _ _ d r h hd; cases h; exact absurd rfl hd
        · intro tail ht
          obtain ⟨d, r, rfl⟩ : ∃ d r, cs = d :: r := by
            cases cs with
            | nil => simp at hne
            | cons d r => exact ⟨d, r, rfl⟩
          have hd : d ≠ ' ' := by rintro rfl; simp [isSpaceO] at hns
          have hdb : isBreak d = false := by
            cases hdb : isBreak d with
            | false => rfl
            | true => exact absurd ⟨rfl, hdb⟩ hc2'.1
          have := body_fold (single := true) (n := s.indent.toNat) hl (by omega) (h4 rfl rfl d r rfl hd hdb tail) (h5 tail ht)
          simpa [Spec.fold] using this
      · obtain ⟨s', w, h1, h2, h3, h4, h5⟩ := ih true false (some ' ')
          { s with column := s.column + 1 } (b ++ [' ']) [] [] hl hi hp' hc1' hc2' (by simp) (by simp)
          (by simp) (Brks.nil _) (by intro d hd; rcases List.mem_append.1 hd with hd | hd
                                     · exact hb d hd
                                     · simp at hd; subst hd; exact Or.inl rfl) (by simp)
        refine ⟨s', ' ' :: w, ?_, ?_, ?_, ?_, ?_⟩
        · refine SFin.step (u := []) (Writes.get s) ?_
          rw [if_neg hf]
          exact SFin.step (writes_writeChar ' ' s) h1
        · exact (wrote_char (c := ' ') (by decide) s).trans h2
        · intro hab _ hcb
          obtain ⟨h6, h7⟩ := h3 hab rfl (fun d hd => hcb d (List.mem_cons_of_mem _ hd))
          refine ⟨fun d hd => ?_, ?_⟩
          · rcases List.mem_cons.1 hd with rfl | hd
            · decide
            · exact h6 d hd
          · simp only [strLen]; omega
        · intro _ _ d r h hd; cases h; exact absurd rfl hd
        · intro tail ht
          have := h5 tail ht
          simpa [Spec.fold] using this
    · have hs' : isSpace c = false := by simpa using hs
      have hcs : c ≠ ' ' := by rintro rfl; simp [isSpace] at hs'
      rw [if_neg hs]
      by_cases hk : isBreak c = true
      · rw [if_pos hk]
        have hcc := printable_break hpc hk
        have hsf : spaces = false := by
          cases hsx : spaces with
          | false => rfl
          | true => exact absurd ⟨rfl, hk⟩ (hc2p ' ' (hsp.1 hsx))
        subst hsf
        have hbn : b = [] := by
          cases b with
          | nil => rfl
          | cons x b => have := hbs (by simp); cases this
        subst hbn
        by_cases hfirst : (!breaks && c == '\n') = true
        · simp only [Bool.and_eq_true, Bool.not_eq_true', beq_iff_eq] at hfirst
          obtain ⟨rfl, rfl⟩ := hfirst
          obtain ⟨rfl, rfl, hind⟩ := hbf rfl
          have hbr1 := (hbr.snoc hl hcc).snoc hl hcc
          obtain ⟨s', w, h1, h2, h3, h4, h5⟩ := ih false true (some '\n')
            { s with column := 0, line := s.line + 1 + 1, indention := true } [] _ _ hl hi hp' hc1' hc2' (by simp)
            (fun _ => ⟨rfl, rfl, ⟨by simp, by simp⟩, rfl, hk⟩) (by simp) hbr1 (by simp) (by simp)
          refine ⟨s', breakChars s.lineBreak ++ (breakText s.lineBreak '\n' ++ w), ?_, ?_, ?_, ?_, ?_⟩
          · refine SFin.step (Writes.when_true rfl (writes_putBreak s)) ?_
            refine SFin.step (writes_writeBreak '\n' _) ?_
            refine SFin.step (u := []) (Writes.modify _ _) ?_
            exact h1
          · have h6 := (wrote_putBreak hl).trans ((wrote_break (s := { s with column := 0, line := s.line + 1 }) hl hk).setI true)
            have := h6.trans h2
            simpa using this
          · intro _ _ hcb; have := hcb '\n' List.mem_cons_self; rw [hk] at this; cases this
          · intro _ _ d r h _ hd; cases h; rw [hk] at hd; cases hd
          · intro tail ht
            have := h5 tail ht
            simpa [Spec.fold, breakText] using this
        · have hbs' : Long (bs ++ [c]) ∧ Spec.fold (bs ++ [c]) = Spec.fold bs ++ [c] := by
            cases breaks with
            | true =>
              obtain ⟨_, _, h, _, _⟩ := hbt rfl
              exact ⟨h.snoc c, fold_snoc h c⟩
            | false =>
              obtain ⟨rfl, rfl, _⟩ := hbf rfl
              have hcn : c ≠ '\n' := by rintro rfl; exact hfirst rfl
              refine ⟨⟨by simp, Or.inr (by simpa using hcn)⟩, by simp [Spec.fold, hcn]⟩
          obtain ⟨s', w, h1, h2, h3, h4, h5⟩ := ih false true (some c)
            { s with column := 0, line := s.line + 1, indention := true } [] _ _ hl hi hp' hc1' hc2' (by simpa using hcs)
            (fun _ => ⟨rfl, rfl, hbs'.1, rfl, hk⟩) (by simp) (hbr.snoc hl hcc) (by simp) (by simp)
          refine ⟨s', breakText s.lineBreak c ++ w, ?_, ?_, ?_, ?_, ?_⟩
          · refine SFin.step (u := []) (Writes.when_false (by simpa using hfirst)) ?_
            refine SFin.step (writes_writeBreak c _) ?_
            refine SFin.step (u := []) (Writes.modify _ _) ?_
            exact h1
          · exact ((wrote_break hl hk).setI true).trans h2
          · intro _ _ hcb; have := hcb c List.mem_cons_self; rw [hk] at this; cases this
          · intro _ _ d r h _ hd; cases h; rw [hk] at hd; cases hd
          · intro tail ht
            have := h5 tail ht
            rw [hbs'.2] at this
            simpa using this
      · rw [if_neg hk]
        have hk' : isBreak c = false := by simpa using hk
        have hnb : ¬ IsBlank c := by
          rintro (rfl | rfl)
          · exact hcs rfl
          · exact printable_noTab hpc rfl
        have hlb : isLineBreak c = false := by rw [isLineBreak_eq]; exact hk'
        -- the quote and the character
        have hquote : ∀ s0 : EState, ∃ s1 q, Writes (M.when (c == '\'') (put '\'')) s0 () s1 q ∧ Wrote s0 q s1 ∧
            (∀ d ∈ q, isBreak d = false) ∧ strLen (q ++ [c]) ≤ 2 * lenUtf8 c ∧ (∀ tail, Solid (q ++ c :: tail)) ∧
            ∀ t v t', Body true t v t' → Body true (q ++ c :: t) (c :: v) t' := by
          intro s0
          have hpos := lenUtf8_pos c
          by_cases hq : c = '\''
          · subst hq
            exact ⟨_, _, Writes.when_true rfl (writes_put '\'' s0), wrote_char (by decide) s0, by simp [isBreak], by decide,
              fun tail => solid_cons hnb hlb, fun t v t' h => Body.quote rfl h⟩
          · exact ⟨_, _, Writes.when_false (by simpa using hq), Wrote.refl s0, by simp, by simp [strLen]; omega,
              fun tail => solid_cons hnb hlb, fun t v t' h => Body.char c hnb hlb hq (by simp) h⟩
        cases breaks with
        | true =>
          obtain ⟨h0, hi1, hlong, rfl, _⟩ := hbt rfl
          obtain ⟨h6, h7⟩ := writes_indent_col0 h0 hi hi1
          obtain ⟨s1, q, hq1, hq2, hq3, hq4, hq5, hq6⟩ := hquote { s with column := s.indent, whitespace := true, indention := true }
          have hfr := hq2.frame
          obtain ⟨s', w, h1, h2, h3, h4, h5⟩ := ih false false (some c)
            { s1 with column := s1.column + 1, indention := false } [] [] [] (by have := hq2.lineBreak; simp at this ⊢; rw [this]; exact hl)
            (by have := hq2.indent; simp at this ⊢; rw [this]; exact hi) hp' hc1' hc2' (by simpa using hcs) (by simp) (by simp) (Brks.nil _) (by simp) (by simp)
          refine ⟨s', List.replicate s.indent.toNat ' ' ++ (q ++ (c :: w)), ?_, ?_, ?_, ?_, ?_⟩
          · refine SFin.step (Writes.when_true rfl h6) ?_
            refine SFin.step hq1 ?_
            refine SFin.step (writes_writeChar c _) ?_
            refine SFin.step (u := []) (Writes.modify _ _) ?_
            exact h1
          · have := h7.trans (hq2.trans (((wrote_char hk' s1).setI false).trans h2))
            simpa using this
          · intro _ h; cases h
          · intro h; cases h
          · intro tail ht
            have h8 := hq6 _ _ _ (h5 tail ht)
            have := body_brks (single := true) (n := s.indent.toNat) hbr hlong.1 (by omega) (hq5 _) h8
            simpa [Spec.fold] using this
        | false =>
          obtain ⟨rfl, rfl, hind⟩ := hbf rfl
          obtain ⟨s1, q, hq1, hq2, hq3, hq4, hq5, hq6⟩ := hquote s
          obtain ⟨s', w, h1, h2, h3, h4, h5⟩ := ih false false (some c)
            { s1 with column := s1.column + 1, indention := false } [] [] [] (by have := hq2.lineBreak; simp at this ⊢; rw [this]; exact hl)
            (by have := hq2.indent; simp at this ⊢; rw [this]; exact hi) hp' hc1' hc2' (by simpa using hcs) (by simp) (by simp) (Brks.nil _) (by simp) (by simp)
          refine ⟨s', q ++ (c :: w), ?_, ?_, ?_, ?_, ?_⟩
          · refine SFin.step (u := []) (Writes.when_false rfl) ?_
            refine SFin.step hq1 ?_
            refine SFin.step (writes_writeChar c _) ?_
            refine SFin.step (u := []) (Writes.modify _ _) ?_
            exact h1
          · have := hq2.trans (((wrote_char hk' s1).setI false).trans h2)
            simpa using this
          · intro hab _ hcb
            obtain ⟨h6, h7⟩ := h3 hab rfl (fun d hd => hcb d (List.mem_cons_of_mem _ hd))
            refine ⟨fun d hd => ?_, ?_⟩
            · rcases List.mem_append.1 hd with hd | hd
              · exact hq3 d hd
              rcases List.mem_cons.1 hd with rfl | hd
              · exact hk'
              · exact h6 d hd
            · have : strLen (q ++ c :: w) = strLen (q ++ [c]) + strLen w := by
                rw [← strLen_append]; simp
              rw [this]; simp only [strLen]; omega
          · intro _ _ d r _ _ _ tail
            have := hq5 (w ++ tail)
            simpa using this
          · intro tail ht
            have h8 := body_close (single := true) hb (hq5 _) (hq6 _ _ _ (h5 tail ht))
            simpa [Spec.fold] using h8

/-- The text of a single-quoted scalar denotes the value. -/
theorem writes_writeSingleQuoted (v : Str) (ab : Bool) (s : EState) (hl : s.lineBreak ≠ .any) (hi : 1 ≤ s.indent) (hv : SingleOk v) :
    ∃ s' w, Writes (writeSingleQuoted v ab) s () s' (sep s ++ w) ∧ Wrote s (sep s ++ w) s' ∧ s'.whitespace = false ∧ s'.indention = false ∧
      (ab = false → (∀ c ∈ v, isBreak c = false) → (∀ c ∈ w, isBreak c = false) ∧ strLen w ≤ 2 * strLen v + 2) ∧
      ∀ rest, rest.head? ≠ some '\'' → Quoted true (w ++ rest) v rest := by
  obtain ⟨s1, w1, wr1, hw1, hi1⟩ := writes_indicator ['\''] false false s (by simp [isBreak])
  have hi1 : s1.indention = false := by simpa using hi1
  obtain ⟨s2, w, ⟨br, s2', u1, u2, w2, w2', rfl⟩, wr2, hlen, _, hb⟩ := writes_singleLoop ab v false false none s1 [] [] [] (by rw [wr1.lineBreak]; exact hl)
    (by rw [wr1.indent]; exact hi) hv.chars hv.breakSpace hv.spaceBreak (by simp) (by simp) (by simp) (Brks.nil _) (by simp) (by simp)
  obtain ⟨s3, w3, wr3, _, _⟩ := writes_indicator0 ['\''] false false s2 (by simp [isBreak])
  refine ⟨{ s3 with whitespace := false, indention := false }, '\'' :: (u1 ++ u2 ++ ['\'']), ?_, ?_, rfl, rfl, ?_, ?_⟩
  · have := w1.bind (f := fun _ => singleLoop ab v false false true >>= fun br => M.when br writeIndent >>= fun _ => writeIndicator ['\''] false false false >>= fun _ => setWI false false)
      (w2.bind (w2'.bind (w3.bind (f := fun _ => setWI false false) (Writes.modify _ _))))
    exact this.cast rfl (by simp)
  · have := (wr1.trans (wr2.trans wr3)).setWI false false
    simpa using this
  · intro hab hvb
    obtain ⟨h1, h2⟩ := hlen hab rfl hvb
    refine ⟨fun c hc => ?_, ?_⟩
    · rcases List.mem_cons.1 hc with rfl | hc
      · decide
      · rcases List.mem_append.1 hc with hc | hc
        · exact h1 c hc
        · simp at hc; subst hc; decide
    · rw [show '\'' :: (u1 ++ u2 ++ ['\'']) = ['\''] ++ ((u1 ++ u2) ++ ['\'']) from rfl, strLen_append, strLen_append, show strLen ['\''] = 1 from rfl]
      omega
  · intro rest hr
    refine ⟨u1 ++ u2 ++ '\'' :: rest, by simp [Spec.quote], ?_, fun _ => hr⟩
    have := hb ('\'' :: rest) (solid_cons (by simp [IsBlank]) (by decide))
    simpa [Spec.quote, Spec.fold] using this

end Yaml.Emitter
