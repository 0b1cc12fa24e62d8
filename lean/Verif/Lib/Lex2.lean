import Verif.Lib.Lex

/- Lexical functions over the demonic input, continued: directives, anchors, tags. -/

namespace Yaml
open Scanner
set_option linter.unusedSimpArgs false
set_option linter.unusedVariables false

/-- Unfold the basic program constructs under `wp`. -/
macro "wps" loc:(Lean.Parser.Tactic.location)? : tactic => `(tactic| simp only [M.wp_bind, M.wp_pure, M.wp_get, M.wp_modify, M.wp_throw,
  M.wp_panic, M.next_inl, M.next_inr, wpB_cache, wpB_at, wp_getMark, wp_setMark, wp_scannerError, wp_allowSimpleKey] $[$loc]?)

theorem isAlpha_not_break {c : Char} (h : isAlpha c = true) : isBreak c = false := by
  cases hb : isBreak c with
  | false => rfl
  | true =>
    simp only [isBreak, Bool.or_eq_true, beq_iff_eq] at hb
    rcases hb with (((rfl | rfl) | rfl) | rfl) | rfl <;> exact absurd h (by decide)

theorem toHex_not_break {c : Char} (h : (toHex? c).isSome = true) : isBreak c = false := by
  cases hb : isBreak c with
  | false => rfl
  | true =>
    simp only [isBreak, Bool.or_eq_true, beq_iff_eq] at hb
    rcases hb with (((rfl | rfl) | rfl) | rfl) | rfl <;> exact absurd h (by decide)

theorem toDigit_not_break {c : Char} (h : (toDigit? c).isSome = true) : isBreak c = false := by
  cases hb : isBreak c with
  | false => rfl
  | true =>
    simp only [isBreak, Bool.or_eq_true, beq_iff_eq] at hb
    rcases hb with (((rfl | rfl) | rfl) | rfl) | rfl <;> exact absurd h (by decide)

theorem isBlank_not_break {c : Char} (h : isBlankO (some c) = true) : isBreak c = false := by
  cases hb : isBreak c with
  | false => rfl
  | true =>
    simp only [isBreak, Bool.or_eq_true, beq_iff_eq] at hb
    rcases hb with (((rfl | rfl) | rfl) | rfl) | rfl <;> exact absurd h (by decide)

theorem isUriChar_not_break {c : Char} {u : Bool} (h : isUriChar u (some c) = true) : isBreak c = false := by
  cases hb : isBreak c with
  | false => rfl
  | true =>
    simp only [isBreak, Bool.or_eq_true, beq_iff_eq] at hb
    rcases hb with (((rfl | rfl) | rfl) | rfl) | rfl <;> cases u <;> exact absurd h (by decide)

theorem notBreakz_not_break {c : Char} (h : (!isBreakzO (some c)) = true) : isBreak c = false := by
  simpa [isBreakzO] using h

theorem toDigit_isDigit {c : Char} (h : isDigitO (some c) = true) :
    toDigit? c = some (c.toNat - '0'.toNat) := by
  have h' : ('0' ≤ c && c ≤ '9') = true := h
  unfold toDigit?; rw [if_pos h']

theorem isDigit_not_break {c : Char} (h : isDigitO (some c) = true) : isBreak c = false :=
  toDigit_not_break (by rw [toDigit_isDigit h]; rfl)

/-- A test that fails at the end of input holds of the head. -/
theorem head_of {p : Option Char → Bool} {t : List Char} (h0 : p none = false) (h : p t[0]? = true) :
    ∃ c r, t = c :: r ∧ p (some c) = true := by
  cases t with
  | nil => simp [h0] at h
  | cons c r => exact ⟨c, r, rfl, by simpa using h⟩

/-- Decimal value of a list of digits. -/
def decValue (ds : List Char) : Int := ds.foldl (fun v c => v * 10 + ((c.toNat - '0'.toNat : Nat) : Int)) 0

theorem decValue_snoc (ds : List Char) (c : Char) :
    decValue (ds ++ [c]) = decValue ds * 10 + ((c.toNat - '0'.toNat : Nat) : Int) := by
  simp [decValue]

theorem decValue_range (ds : List Char) (h : ∀ c ∈ ds, isDigitO (some c) = true) :
    0 ≤ decValue ds ∧ decValue ds < (10 : Int) ^ ds.length := by
  have aux : ∀ (ds : List Char), (∀ c ∈ ds, isDigitO (some c) = true) → ∀ v : Int, 0 ≤ v →
      0 ≤ ds.foldl (fun v c => v * 10 + ((c.toNat - '0'.toNat : Nat) : Int)) v ∧
      ds.foldl (fun v c => v * 10 + ((c.toNat - '0'.toNat : Nat) : Int)) v < (v + 1) * (10 : Int) ^ ds.length := by
    intro ds
    induction ds with
    | nil => intro _ v hv; simp; omega
    | cons c r ih =>
      intro h v hv
      have hc : ('0' ≤ c && c ≤ '9') = true := h c (by simp)
      simp only [Bool.and_eq_true, decide_eq_true_eq] at hc
      have h9 : c.toNat ≤ 57 := hc.2
      have h0 : 48 ≤ c.toNat := hc.1
      have hz : '0'.toNat = 48 := rfl
      rw [hz] at *
      obtain ⟨h1, h2⟩ := ih (fun c hc => h c (by simp [hc])) (v * 10 + ((c.toNat - 48 : Nat) : Int)) (by omega)
      refine ⟨h1, Int.lt_of_lt_of_le h2 ?_⟩
      simp only [List.length_cons, Int.pow_succ]
      have : (v + 1) * ((10 : Int) ^ r.length * 10) = ((v + 1) * 10) * (10 : Int) ^ r.length := by
        rw [Int.mul_comm ((10 : Int) ^ r.length) 10, ← Int.mul_assoc]
      rw [this]
      exact Int.mul_le_mul_of_nonneg_right (by omega) (Int.pow_nonneg (by omega))
  have := aux ds h 0 (by omega)
  simpa [decValue] using this

/-- A tag handle: `!`, or `!` name `!`. -/
def handleB : Str → Bool
  | '!' :: r => r.isEmpty || (r.getLast? == some '!' && r.dropLast.all isAlpha)
  | _ => false

/-- A number of at most nine digits. -/
def numberB (v : Int) : Bool := decide (0 ≤ v) && decide (v < 1000000000)

/-- Data of the tokens made by the lexical functions, with what is always true of their contents. -/
def lexData : TokenData → Bool
  | .versionDirective a b => numberB a && numberB b
  | .tagDirective h p => handleB h && !p.isEmpty
  | .alias n | .anchor n => !n.isEmpty && n.all isAlpha
  | .tag h t => !t.isEmpty && (h.isEmpty || handleB h)
  | .scalar v style => style != .any && (style != .plain || !v.isEmpty)
  | _ => false

theorem numberB_digits {ds : List Char} (h9 : ds.length ≤ 9) (h : ∀ c ∈ ds, isDigitO (some c) = true) :
    numberB (decValue ds) = true := by
  obtain ⟨h1, h2⟩ := decValue_range ds h
  have h3 : (10 : Int) ^ ds.length ≤ (10 : Int) ^ 9 := by
    have h4 : (10 : Nat) ^ ds.length ≤ (10 : Nat) ^ 9 := Nat.pow_le_pow_right (by omega) h9
    exact_mod_cast h4
  have h5 : (10 : Int) ^ 9 = 1000000000 := by decide
  simp only [numberB, Bool.and_eq_true, decide_eq_true_eq]
  omega

theorem handleB_name {n : List Char} (h : ∀ c ∈ n, isAlpha c = true) : handleB ('!' :: n ++ ['!']) = true := by
  simp only [handleB, List.cons_append, List.getLast?_append, List.dropLast_concat]
  simpa using h

theorem all_isAlpha {r : List Char} (h : ∀ c ∈ r, isAlphaO (some c) = true) : r.all isAlpha = true := by
  simp only [List.all_eq_true]; exact fun c hc => h c hc

/-- The token starts at the current position, ends at a position that was reached, and at least
one character was consumed. -/
structure TokOk (s : SState) (b : Inp) (tok : Token) (s' : SState) (b' : Inp) : Prop where
  go : Go s b s' b'
  start : tok.startMark = s.mark
  mid : ∃ t, Adv s.mark b.text tok.endMark t ∧ Adv tok.endMark t s'.mark b'.text
  data : lexData tok.data = true
  progress : b'.text.length < b.text.length

section
variable {P : PanicSite → Prop} {E : Err → SState → Inp → Prop} {s : SState} {b : Inp} {sm : Mark}

theorem wpB_scanToNextToken {F : Nat} {Q : Unit → SState → Inp → Prop}
    (hF : b.text.length < F) (hE : GoodE sm E s b)
    (hQ : ∀ s' b', Go s b s' b' → 0 < b'.cached → Q () s' b') :
    M.wp stepB P E (scanToNextToken F) Q s b := by
  refine M.wp_loop stepB_mono (I := fun _ s' b' => Go s b s' b')
    (μ := fun _ _ b => b.text.length) ?_ F () s b (Go.refl s b) hF
  rintro _ s1 b1 hg
  have hlen := hg.length
  have hE1 := hE.go hg
  wps
  refine ⟨⟨by show 0 < max _ _; omega, ?_⟩, hE1.reader⟩
  refine M.wp_when_cut stepB_mono (R := fun s2 b2 => Go s1 b1 s2 b2) ?_ (fun _ => Go.refl _ _) ?_
  · intro hbom
    obtain ⟨c, t, ht⟩ : ∃ c t, b1.text = c :: t := by
      cases ht : b1.text with
      | nil => simp [ht, isBomO] at hbom
      | cons c t => exact ⟨c, t, rfl⟩
    simp only [ht, List.getElem?_cons_zero, isBomO, Bool.and_eq_true, beq_iff_eq, Option.some.injEq] at hbom
    exact wpB_skipChar (b := { b1 with cached := max b1.cached 1 }) ht (by rw [hbom.2]; decide)
      (by show 0 < max _ _; omega) (fun _ _ hg _ _ _ _ => hg)
  intro s2 b2 hg2
  have hE2 := hE1.go hg2
  have hl2 := hg2.length
  refine ⟨?_, hE2.reader⟩
  refine wpB_skipWhile (sm := sm) (by simp) ?_ (by show 0 < max _ _; omega) (by show b2.text.length < F; omega) (hE2.cache _) ?_
  · intro c hc
    simp only [Option.some.injEq, beq_iff_eq, Bool.or_eq_true, Bool.and_eq_true] at hc
    rcases hc with hc | hc
    · subst hc; decide
    · rw [hc.2]; decide
  intro s3 b3 hg3 hc3 _ _ _
  have hg3' : Go s2 b2 s3 b3 := hg3
  have hE3 := hE2.go hg3'
  have hl3 := hg3'.length
  refine ⟨hc3, ?_⟩
  refine M.wp_when_cut stepB_mono (R := fun s4 b4 => Go s3 b3 s4 b4 ∧ 0 < b4.cached) ?_
    (fun _ => ⟨Go.refl _ _, hc3⟩) ?_
  · intro _
    refine wpB_skipWhile (sm := sm) (by simp [isBreakzO]) (fun c hc => notBreakz_not_break hc) hc3 (by omega) hE3 ?_
    exact fun s4 b4 hg4 hc4 _ _ _ => ⟨hg4, hc4⟩
  intro s4 b4 ⟨hg4, hc4⟩
  have hE4 := hE3.go hg4
  have hl4 := hg4.length
  have hgo := ((hg.trans hg2).trans hg3').trans hg4
  refine ⟨hc4, ?_⟩
  split
  · exact hQ _ _ hgo hc4
  · rename_i hb
    obtain ⟨c, t, ht⟩ : ∃ c t, b4.text = c :: t := by
      cases ht : b4.text with
      | nil => simp [ht, isBreakO] at hb
      | cons c t => exact ⟨c, t, rfl⟩
    simp only [ht, List.getElem?_cons_zero, isBreakO, Bool.not_eq_true, Bool.not_eq_false'] at hb
    wps
    refine ⟨wpB_skipLineBreak (b := { b4 with cached := max b4.cached 2 }) ht hb (by show 1 < max _ _; omega) ?_, hE4.reader⟩
    intro s5 b5 hg5 hl5 _ _
    have hg5' : Go s4 b4 s5 b5 := hg5
    have hl5' : b5.text.length < b4.text.length := hl5
    have hgo5 := hgo.trans hg5'
    refine M.wp_when_cut stepB_mono (R := fun s6 b6 => Go s b s6 b6 ∧ b6.text.length < b1.text.length)
      (fun _ => ?_) (fun _ => ⟨hgo5, by omega⟩) (fun _ _ h => h)
    exact ⟨⟨hgo5.1.trans (Frame.mk' _ _ _), hgo5.2⟩, by omega⟩

theorem wpB_scanDirectiveName {F : Nat} {Q : Str → SState → Inp → Prop}
    (hF : b.text.length < F) (hE : GoodE sm E s b)
    (hQ : ∀ a s' b', Go s b s' b' → 0 < b'.cached → isBlankzO b'.text[0]? = true → Q a s' b') :
    M.wp stepB P E (scanDirectiveName F sm) Q s b := by
  unfold scanDirectiveName
  wps
  refine ⟨?_, hE.reader⟩
  refine wpB_readWhile (sm := sm) rfl (fun c => isAlpha_not_break) (by show 0 < max _ _; omega) hF hE ?_
  intro str s1 b1 hg hc hn _ _
  have hg : Go s b s1 b1 := hg
  refine ⟨hc, ?_⟩
  split
  · exact (hE.go hg).err
  split
  · exact (hE.go hg).err
  · rename_i h; exact hQ _ _ _ hg hc (by simpa using h)

theorem wpB_scanVersionDirectiveNumber {F : Nat} {Q : Int → SState → Inp → Prop}
    (hF : b.text.length < F) (hE : GoodE sm E s b)
    (hQ : ∀ v s' b', Go s b s' b' → 0 < b'.cached →
      (∃ ds, b.text = ds ++ b'.text ∧ 0 < ds.length ∧ ds.length ≤ 9 ∧
        (∀ c ∈ ds, isDigitO (some c) = true) ∧ isDigitO b'.text[0]? = false ∧ v = decValue ds) →
      Q v s' b') :
    M.wp stepB P E (scanVersionDirectiveNumber F sm) Q s b := by
  unfold scanVersionDirectiveNumber
  wps
  refine ⟨?_, hE.reader⟩
  refine M.wp_cut stepB_mono (fun (r : Int × Nat) s' b' => Go s b s' b' ∧ 0 < b'.cached ∧
      ∃ ds, b.text = ds ++ b'.text ∧ r.2 = ds.length ∧ ds.length ≤ 9 ∧
        (∀ c ∈ ds, isDigitO (some c) = true) ∧ isDigitO b'.text[0]? = false ∧ r.1 = decValue ds) ?_ ?_
  · refine M.wp_loop stepB_mono (I := fun (r : Int × Nat) s' b' => Go s b s' b' ∧ 0 < b'.cached ∧
      ∃ ds, b.text = ds ++ b'.text ∧ r.2 = ds.length ∧ ds.length ≤ 9 ∧
        (∀ c ∈ ds, isDigitO (some c) = true) ∧ r.1 = decValue ds)
      (μ := fun _ _ b => b.text.length) ?_ F _ s _
      ⟨Go.refl _ _, by show 0 < max _ _; omega, [], by simp, rfl, by simp, by simp, rfl⟩ hF
    rintro ⟨v, n⟩ s1 b1 ⟨hg, hc, ds, hds, hn, h9, hdig, hv⟩
    dsimp only at hn hv ⊢
    wps
    refine ⟨hc, ?_⟩
    split
    · rename_i h
      obtain ⟨c, t, ht, hd⟩ := head_of (p := isDigitO) rfl h
      split
      · exact (hE.go hg).err
      · rename_i hlen
        simp only [ht, List.getElem?_cons_zero, Option.bind_some, toDigit_isDigit hd]
        wps
        refine wpB_skipChar ht (isDigit_not_break hd) hc ?_
        intro s2 b2 hg2 ht2 _ _ _
        have hg2 := hg.trans hg2
        refine ⟨⟨⟨hg2, by show 0 < max _ _; omega, ds ++ [c], by simp [hds, ht, ht2], by simp [hn],
          by simp; omega, ?_, by rw [decValue_snoc, hv]⟩, by simp [ht, ht2]⟩, (hE.go hg2).reader⟩
        intro c' hc'
        rcases List.mem_append.1 hc' with h' | h'
        · exact hdig c' h'
        · simp at h'; subst h'; exact hd
    · rename_i h
      exact ⟨hg, hc, ds, hds, hn, h9, hdig, by simpa using h, hv⟩
  · rintro ⟨v, n⟩ s1 b1 ⟨hg, hc, ds, hds, hn, h9, hdig, hnd, hv⟩
    dsimp only at hn hv ⊢
    split
    · exact (hE.go hg).err
    · rename_i h
      exact hQ _ _ _ hg hc ⟨ds, hds, by simp [hn] at h; exact List.length_pos_iff.2 h, h9, hdig, hnd, hv⟩

theorem wpB_scanVersionDirectiveValue {F : Nat} {Q : Int × Int → SState → Inp → Prop}
    (hF : b.text.length < F) (hE : GoodE sm E s b)
    (hQ : ∀ v s' b', Go s b s' b' → 0 < b'.cached → numberB v.1 = true → numberB v.2 = true → Q v s' b') :
    M.wp stepB P E (scanVersionDirectiveValue F sm) Q s b := by
  unfold scanVersionDirectiveValue
  wps
  refine ⟨?_, hE.reader⟩
  refine wpB_skipWhile (sm := sm) rfl (fun c => isBlank_not_break) (by show 0 < max _ _; omega) hF hE ?_
  intro s1 b1 hg hc hn _ _
  have hg : Go s b s1 b1 := hg
  have hl := hg.length
  refine wpB_scanVersionDirectiveNumber (by omega) (hE.go hg) ?_
  rintro v s2 b2 hg2 hc2 ⟨ds, _, _, h9, hdig, _, rfl⟩
  have hg2 := hg.trans hg2
  have hl2 := hg2.length
  refine ⟨hc2, ?_⟩
  split
  · exact (hE.go hg2).err
  · rename_i h
    obtain ⟨c, t, ht, hd⟩ := head_of (p := fun c => c == some '.') rfl (by simpa using h)
    simp at hd; subst hd
    wps
    refine wpB_skipChar ht (by decide) hc2 ?_
    intro s3 b3 hg3 ht3 _ _ _
    have hg3 := hg2.trans hg3
    have hl3 := hg3.length
    refine wpB_scanVersionDirectiveNumber (by omega) (hE.go hg3) ?_
    rintro v s4 b4 hg4 hc4 ⟨ds', _, _, h9', hdig', _, rfl⟩
    exact hQ _ _ _ (hg3.trans hg4) hc4 (numberB_digits h9 hdig) (numberB_digits h9' hdig')

theorem wpB_scanTagHandle {F : Nat} {Q : Str → SState → Inp → Prop} {dir : Bool}
    (hF : b.text.length < F) (hE : GoodE sm E s b)
    (hQ : ∀ a s' b', Go s b s' b' → b'.text.length < b.text.length →
      (∃ n, (∀ c ∈ n, isAlpha c = true) ∧ (a = '!' :: n ++ ['!'] ∨ a = '!' :: n ∧ (dir = true → n = []))) → Q a s' b') :
    M.wp stepB P E (scanTagHandle F dir sm) Q s b := by
  unfold scanTagHandle
  wps
  refine ⟨⟨by show 0 < max _ _; omega, ?_⟩, hE.reader⟩
  split
  · exact hE.err
  rename_i h
  obtain ⟨c, t, ht, hd⟩ := head_of (p := fun c => c == some '!') rfl (by simpa using h)
  simp at hd; subst hd
  wps
  refine wpB_readChar (b := { b with cached := max b.cached 1 }) ht (by decide) (by show 0 < max _ _; omega) ?_
  intro s1 b1 hg1 ht1 _ _ _
  have hg1 : Go s b s1 b1 := hg1
  have hl1 : b1.text.length < b.text.length := by simp [ht, ht1]
  refine ⟨?_, (hE.go hg1).reader⟩
  refine wpB_readWhile (sm := sm) rfl (fun c => isAlpha_not_break) (by show 0 < max _ _; omega)
    (by show b1.text.length < F; omega) (hE.go hg1) ?_
  rintro str s2 b2 hg2 hc2 hn _ ⟨r, rfl, hr, hal⟩
  have hl2 : b2.text.length ≤ b1.text.length := hg2.length
  have hg2 : Go s b s2 b2 := hg1.trans hg2
  refine ⟨hc2, ?_⟩
  split
  · rename_i h
    obtain ⟨c, t2, ht2, hd⟩ := head_of (p := fun c => c == some '!') rfl h
    simp at hd; subst hd
    refine wpB_readChar ht2 (by decide) hc2 ?_
    intro s3 b3 hg3 ht3 _ _ _
    have := hg3.length
    exact hQ _ _ _ (hg2.trans hg3) (by omega) ⟨r, hal, Or.inl (by simp)⟩
  · split
    · exact (hE.go hg2).err
    · rename_i h
      refine hQ _ _ _ hg2 (by omega) ⟨r, hal, Or.inr ⟨by simp, fun hd => ?_⟩⟩
      simpa [hd] using h

theorem wpB_scanUriEscapes {F : Nat} {Q : Str → SState → Inp → Prop} {dir : Bool} {str : Str}
    (hF : b.text.length < F) (hE : GoodE sm E s b)
    (hQ : ∀ a s' b', Go s b s' b' → b'.text.length < b.text.length → a ≠ [] → Q a s' b') :
    M.wp stepB P E (scanUriEscapes F dir sm str) Q s b := by
  unfold scanUriEscapes
  refine M.wp_loop stepB_mono (I := fun _ s' b' => Go s b s' b')
    (μ := fun _ _ b => b.text.length) ?_ F _ s b (Go.refl s b) hF
  rintro ⟨w, str⟩ s1 b1 hg
  have hE1 := hE.go hg
  have hl1 := hg.length
  dsimp only
  wps
  refine ⟨⟨by show 0 < max _ _; omega, by show 1 < max _ _; omega, by show 2 < max _ _; omega, ?_⟩, hE1.reader⟩
  split
  · exact hE1.err
  rename_i h
  simp only [Bool.not_eq_true, Bool.not_eq_false', Bool.and_eq_true, beq_iff_eq] at h
  obtain ⟨c0, c1, c2, t, ht⟩ : ∃ c0 c1 c2 t, b1.text = c0 :: c1 :: c2 :: t := by
    match hb : b1.text, h with
    | [], h => simp at h
    | [_], h => simp [isHexO] at h
    | [_, _], h => simp [isHexO] at h
    | c0 :: c1 :: c2 :: t, _ => exact ⟨c0, c1, c2, t, rfl⟩
  simp only [ht, List.getElem?_cons_zero, List.getElem?_cons_succ, isHexO, Option.some.injEq] at h
  obtain ⟨⟨rfl, h1⟩, h2⟩ := h
  obtain ⟨x, hx⟩ := Option.isSome_iff_exists.1 h1
  obtain ⟨y, hy⟩ := Option.isSome_iff_exists.1 h2
  simp only [ht, List.getElem?_cons_zero, List.getElem?_cons_succ, Option.bind_some, hx, hy]
  rw [← ht]
  split
  · exact hE1.err
  split
  · exact hE1.err
  wps
  refine wpB_skipChar (b := { b1 with cached := max b1.cached 3 }) ht (by decide) (by show 0 < max _ _; omega) ?_
  intro s2 b2 hg2 ht2 hc2 _ _
  have hg2 : Go s1 b1 s2 b2 := hg2
  have hc2 : b2.cached = max b1.cached 3 - 1 := hc2
  refine wpB_skipChar ht2 (toHex_not_break h1) (by omega) ?_
  intro s3 b3 hg3 ht3 hc3 _ _
  refine wpB_skipChar ht3 (toHex_not_break h2) (by omega) ?_
  intro s4 b4 hg4 ht4 hc4 _ _
  have hg4 := (hg.trans hg2).trans (hg3.trans hg4)
  have hl4 : b4.text.length < b1.text.length := by simp [ht, ht4]; omega
  generalize (if (w == 0) = true then octetWidth (x * 16 + y) else w) = w'
  split
  · exact hQ _ _ _ hg4 (by omega) (by simp)
  · exact ⟨hg4, hl4⟩

theorem wpB_scanTagUri {F : Nat} {Q : Str → SState → Inp → Prop} {u dir : Bool} {hd : Str}
    (hF : b.text.length < F) (hE : GoodE sm E s b)
    (hQ : ∀ a s' b', Go s b s' b' → 0 < b'.cached → (hd = [] → a ≠ []) → Q a s' b') :
    M.wp stepB P E (scanTagUri F u dir hd sm) Q s b := by
  unfold scanTagUri
  wps
  refine ⟨?_, hE.reader⟩
  refine M.wp_cut stepB_mono (fun (r : Str × Nat) s' b' => Go s b s' b' ∧ 0 < b'.cached ∧ (hd = [] → r.2 ≠ 0 → r.1 ≠ [])) ?_ ?_
  · refine M.wp_loop stepB_mono (I := fun (r : Str × Nat) s' b' => Go s b s' b' ∧ 0 < b'.cached ∧ (hd = [] → r.2 ≠ 0 → r.1 ≠ []))
      (μ := fun _ _ b => b.text.length) ?_ F _ s _ ⟨Go.refl _ _, by show 0 < max _ _; omega, by rintro rfl; simp [strLen]⟩ hF
    rintro ⟨str, n⟩ s1 b1 ⟨hg, hc, hne⟩
    have hE1 := hE.go hg
    have hl1 := hg.length
    dsimp only
    wps
    refine ⟨hc, ?_⟩
    split
    · rename_i h
      obtain ⟨c, t, ht, hu⟩ := head_of (p := isUriChar u) (by cases u <;> rfl) h
      split <;> wps
      · refine wpB_scanUriEscapes (by omega) hE1 ?_
        intro a s2 b2 hg2 hl2 ha
        have hg3 := hg.trans hg2
        exact ⟨⟨⟨hg3, by show 0 < max _ _; omega, fun _ _ => ha⟩, hl2⟩, (hE.go hg3).reader⟩
      · refine wpB_readChar ht (isUriChar_not_break hu) hc ?_
        intro s2 b2 hg2 ht2 _ _ _
        have hg3 := hg.trans hg2
        exact ⟨⟨⟨hg3, by show 0 < max _ _; omega, fun _ _ => by simp⟩, by simp [ht, ht2]⟩, (hE.go hg3).reader⟩
    · exact ⟨hg, hc, hne⟩
  · rintro ⟨str, n⟩ s1 b1 ⟨hg, hc, hne⟩
    dsimp only
    split
    · exact (hE.go hg).err
    · rename_i h; exact hQ _ _ _ hg hc (fun h' => hne h' (by simpa using h))

theorem wpB_scanTagDirectiveValue {F : Nat} {Q : Str × Str → SState → Inp → Prop}
    (hF : b.text.length < F) (hE : GoodE sm E s b)
    (hQ : ∀ a s' b', Go s b s' b' → 0 < b'.cached → handleB a.1 = true → a.2 ≠ [] → Q a s' b') :
    M.wp stepB P E (scanTagDirectiveValue F sm) Q s b := by
  unfold scanTagDirectiveValue
  wps
  refine ⟨?_, hE.reader⟩
  refine wpB_skipWhile (sm := sm) rfl (fun c => isBlank_not_break) (by show 0 < max _ _; omega) hF hE ?_
  intro s1 b1 hg hc hn _ _
  have hg : Go s b s1 b1 := hg
  have hl := hg.length
  refine wpB_scanTagHandle (by omega) (hE.go hg) ?_
  rintro h s2 b2 hg2 hl2 ⟨n, hn, hh⟩
  have hg2 := hg.trans hg2
  refine ⟨⟨by show 0 < max _ _; omega, ?_⟩, (hE.go hg2).reader⟩
  split
  · exact (hE.go hg2).err
  wps
  refine wpB_skipWhile (sm := sm) rfl (fun c => isBlank_not_break) (by show 0 < max _ _; omega)
    (by show b2.text.length < F; omega) (hE.go hg2) ?_
  intro s3 b3 hg3 hc3 _ _ _
  have hg3 : Go s b s3 b3 := hg2.trans hg3
  have hl3 := hg3.length
  refine wpB_scanTagUri (by omega) (hE.go hg3) ?_
  intro a s4 b4 hg4 hc4 ha
  have hg4 := hg3.trans hg4
  refine ⟨⟨by show 0 < max _ _; omega, ?_⟩, (hE.go hg4).reader⟩
  split
  · exact (hE.go hg4).err
  · refine hQ _ _ _ hg4 (by show 0 < max _ _; omega) ?_ (ha rfl)
    rcases hh with rfl | ⟨rfl, h⟩
    · exact handleB_name hn
    · rw [h rfl]; rfl

theorem wpB_scanDirectiveValue {F : Nat} {Q : Token → SState → Inp → Prop} {name : Str}
    (hF : b.text.length < F) (hE : GoodE sm E s b)
    (hQ : ∀ tok s' b', Go s b s' b' → 0 < b'.cached → tok.startMark = sm → tok.endMark = s'.mark →
      lexData tok.data = true → Q tok s' b') :
    M.wp stepB P E (scanDirectiveValue F sm name) Q s b := by
  unfold scanDirectiveValue
  split
  · wps
    refine wpB_scanVersionDirectiveValue hF hE ?_
    rintro ⟨v, w⟩ s1 b1 hg hc hv hw
    exact hQ _ _ _ hg hc rfl rfl (by simp only at hv hw; simp [lexData, hv, hw])
  split
  · wps
    refine wpB_scanTagDirectiveValue hF hE ?_
    rintro ⟨v, w⟩ s1 b1 hg hc hv hw
    exact hQ _ _ _ hg hc rfl rfl (by simp only at hv hw; simp [lexData, hv, hw])
  · exact hE.err

theorem wpB_skipBlanksAndComment {F : Nat} {Q : Unit → SState → Inp → Prop}
    (hF : b.text.length < F) (hE : GoodE sm E s b)
    (hQ : ∀ s' b', Go s b s' b' → 0 < b'.cached → Q () s' b') :
    M.wp stepB P E (skipBlanksAndComment F) Q s b := by
  unfold skipBlanksAndComment
  wps
  refine ⟨?_, hE.reader⟩
  refine wpB_skipWhile (sm := sm) rfl (fun c => isBlank_not_break) (by show 0 < max _ _; omega) hF hE ?_
  intro s1 b1 hg hc hn _ _
  have hg : Go s b s1 b1 := hg
  have hl := hg.length
  refine ⟨hc, ?_⟩
  refine M.wp_when_cut stepB_mono (R := fun s4 b4 => Go s b s4 b4 ∧ 0 < b4.cached) ?_
    (fun _ => ⟨hg, hc⟩) (fun _ _ h => hQ _ _ h.1 h.2)
  intro _
  refine wpB_skipWhile (sm := sm) (by simp [isBreakzO]) (fun c hc => notBreakz_not_break hc) hc (by omega) (hE.go hg) ?_
  exact fun s4 b4 hg4 hc4 _ _ _ => ⟨hg.trans hg4, hc4⟩

/-- `if is_break { cache(2)?; skip_line_break }`. -/
theorem wpB_optionalBreak {Q : Unit → SState → Inp → Prop} (hE : GoodE sm E s b) (hc : 0 < b.cached)
    (hQ : ∀ s' b', Go s b s' b' → (isBreakzO b.text[0]? = true → s' = s ∧ b'.text = [] ∨ s'.mark.column = 0) → Q () s' b') :
    M.wp stepB P E (M.when (isBreakO b.text[0]?) (do cache 2; skipLineBreak)) Q s b := by
  refine M.wp_when_cut stepB_mono (R := fun s' b' => Go s b s' b' ∧ (isBreakzO b.text[0]? = true → s' = s ∧ b'.text = [] ∨ s'.mark.column = 0))
    ?_ ?_ (fun _ _ h => hQ _ _ h.1 h.2)
  · intro h
    obtain ⟨c, t, ht, hb⟩ := head_of (p := isBreakO) rfl h
    wps
    refine ⟨wpB_skipLineBreak (b := { b with cached := max b.cached 2 }) ht hb (by show 1 < max _ _; omega) ?_, hE.reader⟩
    exact fun s' b' hg _ _ h0 => ⟨hg, fun _ => Or.inr h0⟩
  · intro h
    refine ⟨Go.refl _ _, fun hz => Or.inl ⟨rfl, ?_⟩⟩
    cases ht : b.text with
    | nil => rfl
    | cons c t => simp [ht, isBreakzO, isBreakO] at h hz; simp [h] at hz

end
end Yaml
