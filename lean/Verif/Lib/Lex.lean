import Verif.Lib.Input

/-
Lexical functions of the scanner over the demonic input: what they consume, how the mark moves,
which errors they raise.  One lemma per function.
-/

namespace Yaml
open Scanner
set_option linter.unusedSimpArgs false
set_option linter.unusedVariables false

/-- `s'` differs from `s` at most in the mark and in `simpleKeyAllowed`. -/
def Frame (s s' : SState) : Prop :=
  s' = { s with mark := s'.mark, simpleKeyAllowed := s'.simpleKeyAllowed }

theorem Frame.refl (s : SState) : Frame s s := rfl
theorem Frame.trans {s s' s'' : SState} (h : Frame s s') (h' : Frame s' s'') : Frame s s'' := by
  unfold Frame at *
  rw [h'] ; rw [h]
theorem Frame.mk' (s : SState) (m : Mark) (a : Bool) : Frame s { s with mark := m, simpleKeyAllowed := a } := rfl
theorem Frame.setMark {s s' : SState} (h : Frame s s') (m : Mark) : Frame s { s' with mark := m } :=
  h.trans (Frame.mk' s' m s'.simpleKeyAllowed)
theorem Frame.flowLevel {s s' : SState} (h : Frame s s') : s'.flowLevel = s.flowLevel := by rw [h]
theorem Frame.indent {s s' : SState} (h : Frame s s') : s'.indent = s.indent := by rw [h]
theorem Frame.tokens {s s' : SState} (h : Frame s s') : s'.tokens = s.tokens := by rw [h]

/-- Consuming input: frame and position. -/
def Go (s : SState) (b : Inp) (s' : SState) (b' : Inp) : Prop :=
  Frame s s' ∧ Adv s.mark b.text s'.mark b'.text

theorem Go.refl (s : SState) (b : Inp) : Go s b s b := ⟨Frame.refl s, Adv.refl _ _⟩
theorem Go.trans {s s' s'' : SState} {b b' b'' : Inp} (h : Go s b s' b') (h' : Go s' b' s'' b'') :
    Go s b s'' b'' := ⟨h.1.trans h'.1, h.2.trans h'.2⟩
theorem Go.cached {s s' : SState} {b b' : Inp} (h : Go s b s' b') (n : Nat) :
    Go s b s' { b' with cached := n } := h
theorem Go.length {s s' : SState} {b b' : Inp} (h : Go s b s' b') :
    b'.text.length ≤ b.text.length := h.2.length_le

/-- Errors of a lexical function that started at `sm`: from the reader, or a scanner error with
that context mark at a position that was reached. -/
def LexErr (sm : Mark) (s : SState) (b : Inp) (e : Err) (s' : SState) (b' : Inp) : Prop :=
  Frame s s' ∧ Spec.le s.mark s'.mark ∧
    (ReaderErr e ∨ (Adv s.mark b.text s'.mark b'.text ∧ ∃ c p, e = .scanner c sm p s'.mark))

/-- `E` accepts the errors a lexical function may raise from here. -/
def GoodE (sm : Mark) (E : Err → SState → Inp → Prop) (s : SState) (b : Inp) : Prop :=
  ∀ e s' b', LexErr sm s b e s' b' → E e s' b'

theorem GoodE.go {sm : Mark} {E : Err → SState → Inp → Prop} {s s' : SState} {b b' : Inp}
    (hE : GoodE sm E s b) (h : Go s b s' b') : GoodE sm E s' b' := by
  intro e s'' b'' ⟨hf, hle, he⟩
  refine hE _ _ _ ⟨h.1.trans hf, Spec.le_trans h.2.le hle, he.imp id ?_⟩
  exact fun ⟨ha, x⟩ => ⟨h.2.trans ha, x⟩

theorem GoodE.cache {sm : Mark} {E : Err → SState → Inp → Prop} {s : SState} {b : Inp}
    (hE : GoodE sm E s b) (n : Nat) : GoodE sm E s { b with cached := n } := hE

theorem GoodE.reader {sm : Mark} {E : Err → SState → Inp → Prop} {s : SState} {b : Inp}
    (hE : GoodE sm E s b) : ∀ e b', ReaderErr e → E e s b' :=
  fun e b' he => hE e s b' ⟨Frame.refl s, Spec.le_refl _, Or.inl he⟩

theorem GoodE.scanner {sm : Mark} {E : Err → SState → Inp → Prop} {s : SState} {b : Inp}
    (hE : GoodE sm E s b) (c p : String) : E (.scanner c sm p s.mark) s b :=
  hE _ s b ⟨Frame.refl s, Spec.le_refl _, Or.inr ⟨Adv.refl _ _, c, p, rfl⟩⟩

/-- Which panics are acceptable for the text `t`: the known defects, only where they can occur. -/
def PanicsOk (P : PanicSite → Prop) (t : List Char) : Prop :=
  (t.getLast? = some '\\' → P .escapeAtEof) ∧
  ((∃ c, t.getLast? = some c ∧ isBreak c = false) → P .readLineBreakEmpty) ∧
  ('!' ∈ t → ',' ∈ t → P .tagTodo)

theorem PanicsOk.adv {P : PanicSite → Prop} {m m' : Mark} {t t' : List Char} (h : PanicsOk P t)
    (ha : Adv m t m' t') : PanicsOk P t' := by
  obtain ⟨p, rfl, _, _⟩ := ha
  refine ⟨fun h' => h.1 ?_, fun ⟨c, h', hb⟩ => h.2.1 ⟨c, ?_, hb⟩, fun h1 h2 => h.2.2 (by simp [h1]) (by simp [h2])⟩
  · rw [List.getLast?_append, h']; rfl
  · rw [List.getLast?_append, h']; rfl

section
variable {P : PanicSite → Prop} {E : Err → SState → Inp → Prop} {s : SState} {b : Inp} {sm : Mark}

/-- Shorthand: weakest precondition over the demonic input. -/
abbrev wpB {α : Type} (P : PanicSite → Prop) (E : Err → SState → Inp → Prop) (m : Scan α)
    (Q : α → SState → Inp → Prop) (s : SState) (b : Inp) : Prop := M.wp stepB P E m Q s b

theorem wpB_mono {α : Type} {P' : PanicSite → Prop} {E' : Err → SState → Inp → Prop} {m : Scan α}
    {Q Q' : α → SState → Inp → Prop} (h : wpB P E m Q s b)
    (hQ : ∀ a s b, Q a s b → Q' a s b) (hE : ∀ e s b, E e s b → E' e s b) (hP : ∀ p, P p → P' p) :
    wpB P' E' m Q' s b := M.wp_mono stepB_mono h hQ hE hP

@[simp] theorem wpB_cache {Q : Unit → SState → Inp → Prop} (n : Nat) :
    M.wp stepB P E (cache n) Q s b ↔
      Q () s { b with cached := max b.cached n } ∧ ∀ e b', ReaderErr e → E e s b' := by
  simp only [cache, M.wp_bind, M.wp_prim, stepB]
  exact Iff.rfl

@[simp] theorem wpB_at {Q : Option Char → SState → Inp → Prop} (i : Nat) :
    M.wp stepB P E (at_ i) Q s b ↔ i < b.cached ∧ Q b.text[i]? s b := Iff.rfl

@[simp] theorem wpB_pop {Q : Option Char → SState → Inp → Prop} :
    M.wp stepB P E popChar Q s b ↔ 0 < b.cached ∧ Q b.text.head? s ⟨b.text.tail, b.cached - 1⟩ := Iff.rfl

@[simp] theorem wp_getMark {B : Type} {step : Step CharOp CharOp.Ans B} {E : Err → SState → B → Prop}
    {Q : Mark → SState → B → Prop} {s : SState} {b : B} :
    M.wp step P E getMark Q s b ↔ Q s.mark s b := Iff.rfl

@[simp] theorem wp_setMark {B : Type} {step : Step CharOp CharOp.Ans B} {E : Err → SState → B → Prop}
    {Q : Unit → SState → B → Prop} {s : SState} {b : B} (f : Mark → Mark) :
    M.wp step P E (setMark f) Q s b ↔ Q () { s with mark := f s.mark } b := Iff.rfl

@[simp] theorem wp_scannerError {α B : Type} {step : Step CharOp CharOp.Ans B} {E : Err → SState → B → Prop}
    {Q : α → SState → B → Prop} {s : SState} {b : B} (c : String) (cm : Mark) (p : String) :
    M.wp step P E (scannerError c cm p) Q s b ↔ E (.scanner c cm p s.mark) s b := Iff.rfl

@[simp] theorem wp_allowSimpleKey {B : Type} {step : Step CharOp CharOp.Ans B} {E : Err → SState → B → Prop}
    {Q : Unit → SState → B → Prop} {s : SState} {b : B} (x : Bool) :
    M.wp step P E (allowSimpleKey x) Q s b ↔ Q () { s with simpleKeyAllowed := x } b := Iff.rfl

theorem GoodE.err {α : Type} {Q : α → SState → Inp → Prop} {n : Nat} (hE : GoodE sm E s b) {c p : String} :
    M.wp stepB P E (scannerError c sm p) Q s ⟨b.text, n⟩ := hE.scanner (b := ⟨b.text, n⟩) c p

theorem Go.char {c : Char} {t : List Char} {n : Nat} (ht : b.text = c :: t) (hc : isBreak c = false) :
    Go s b { s with mark := bumpMark c s.mark } ⟨t, n⟩ :=
  ⟨Frame.mk' s _ _, by rw [ht]; exact Adv.char hc⟩

/-- `skip_char` on a character that is not a line break. -/
theorem wpB_skipChar {Q : Unit → SState → Inp → Prop} {c : Char} {t : List Char}
    (ht : b.text = c :: t) (hb : isBreak c = false) (hc : 0 < b.cached)
    (hQ : ∀ s' b', Go s b s' b' → b'.text = t → b'.cached = b.cached - 1 → s'.mark = bumpMark c s.mark →
      s'.simpleKeyAllowed = s.simpleKeyAllowed → Q () s' b') :
    M.wp stepB P E skipChar Q s b := by
  simp only [skipChar, M.wp_bind, wpB_pop, ht, List.head?_cons, List.tail_cons, wp_setMark]
  exact ⟨hc, hQ _ _ (Go.char ht hb) rfl rfl rfl rfl⟩

/-- `read_char`. -/
theorem wpB_readChar {Q : Str → SState → Inp → Prop} {c : Char} {t : List Char} {str : Str}
    (ht : b.text = c :: t) (hb : isBreak c = false) (hc : 0 < b.cached)
    (hQ : ∀ s' b', Go s b s' b' → b'.text = t → b'.cached = b.cached - 1 → s'.mark = bumpMark c s.mark →
      s'.simpleKeyAllowed = s.simpleKeyAllowed → Q (str ++ [c]) s' b') :
    M.wp stepB P E (readChar str) Q s b := by
  simp only [readChar, M.wp_bind, wpB_pop, ht, List.head?_cons, List.tail_cons, wp_setMark, M.wp_pure]
  exact ⟨hc, hQ _ _ (Go.char ht hb) rfl rfl rfl rfl⟩

/-- `skip_line_break` at a line break. -/
theorem wpB_skipLineBreak {Q : Unit → SState → Inp → Prop} {c : Char} {t : List Char}
    (ht : b.text = c :: t) (hb : isBreak c = true) (hc : 1 < b.cached)
    (hQ : ∀ s' b', Go s b s' b' → b'.text.length < b.text.length → s'.simpleKeyAllowed = s.simpleKeyAllowed →
      s'.mark.column = 0 → Q () s' b') :
    M.wp stepB P E skipLineBreak Q s b := by
  simp only [skipLineBreak, M.wp_bind, wpB_at, ht, List.getElem?_cons_zero]
  refine ⟨by omega, ?_⟩
  simp only [M.wp_bind, wpB_at, ht, List.getElem?_cons_succ]
  refine ⟨hc, ?_⟩
  split
  · rename_i h
    simp only [Bool.and_eq_true, beq_iff_eq] at h
    obtain ⟨rfl, h2⟩ := h
    cases t with
    | nil => simp at h2
    | cons d t =>
      simp at h2; subst h2
      simp only [M.wp_bind, wpB_pop, wp_setMark, ht, List.tail_cons]
      refine ⟨by omega, by omega, hQ _ _ ⟨Frame.mk' s _ _, ?_⟩ (by simp [ht]; omega) rfl rfl⟩
      rw [ht]; exact Adv.crlf
  · rename_i h
    try rw [if_pos hb]
    simp only [M.wp_bind, wpB_pop, wp_setMark, ht, List.tail_cons]
    refine ⟨by omega, hQ _ _ ⟨Frame.mk' s _ _, ?_⟩ (by simp [ht]) rfl rfl⟩
    rw [ht]; refine Adv.brk hb ?_
    rintro ⟨rfl, h2⟩
    simp [List.head?_eq_getElem?] at h2
    simp [h2] at h

/-- `read_line_break` at a line break. -/
theorem wpB_readLineBreak {Q : Str → SState → Inp → Prop} {c : Char} {t : List Char} {str : Str}
    (ht : b.text = c :: t) (hb : isBreak c = true) (hc : 1 < b.cached)
    (hQ : ∀ str' s' b', Go s b s' b' → b'.text.length < b.text.length →
      s'.simpleKeyAllowed = s.simpleKeyAllowed → s'.mark.column = 0 → Q str' s' b') :
    M.wp stepB P E (readLineBreak str) Q s b := by
  simp only [readLineBreak, M.wp_bind, wpB_at, ht, List.getElem?_cons_zero]
  refine ⟨by omega, ?_⟩
  simp only [M.wp_bind, wpB_at, ht, List.getElem?_cons_succ]
  refine ⟨hc, ?_⟩
  split
  · rename_i h
    simp only [Bool.and_eq_true, beq_iff_eq] at h
    obtain ⟨rfl, h2⟩ := h
    cases t with
    | nil => simp at h2
    | cons d t =>
      simp at h2; subst h2
      simp only [M.wp_bind, wpB_pop, wp_setMark, ht, List.tail_cons]
      refine ⟨by omega, by omega, hQ _ _ _ ⟨Frame.mk' s _ _, ?_⟩ (by simp [ht]; omega) rfl rfl⟩
      rw [ht]; exact Adv.crlf
  · rename_i h
    try rw [if_pos hb]
    simp only [M.wp_bind, wpB_pop, wp_setMark, ht, List.tail_cons]
    refine ⟨by omega, hQ _ _ _ ⟨Frame.mk' s _ _, ?_⟩ (by simp [ht]) rfl rfl⟩
    rw [ht]; refine Adv.brk hb ?_
    rintro ⟨rfl, h2⟩
    simp [List.head?_eq_getElem?] at h2
    simp [h2] at h

/-- `while p { skip_char; cache(1)? }`. -/
theorem wpB_skipWhile {F : Nat} {p : Option Char → Bool} {Q : Unit → SState → Inp → Prop}
    (hp : p none = false) (hpb : ∀ c, p (some c) = true → isBreak c = false)
    (hc : 0 < b.cached) (hF : b.text.length < F) (hE : GoodE sm E s b)
    (hQ : ∀ s' b', Go s b s' b' → 0 < b'.cached → p b'.text[0]? = false →
      s'.simpleKeyAllowed = s.simpleKeyAllowed → (b'.cached < b.cached → b'.text.length < b.text.length) →
      Q () s' b') :
    M.wp stepB P E (skipWhile F p) Q s b := by
  refine M.wp_loop stepB_mono (I := fun _ s' b' => Go s b s' b' ∧ 0 < b'.cached ∧
      s'.simpleKeyAllowed = s.simpleKeyAllowed ∧ (b'.cached < b.cached → b'.text.length < b.text.length))
    (μ := fun _ _ b => b.text.length) ?_ F () s b ⟨Go.refl s b, hc, rfl, by omega⟩ hF
  rintro _ s1 b1 ⟨hg, hc1, hk, hl⟩
  simp only [M.wp_bind, wpB_at]
  refine ⟨hc1, ?_⟩

  split
  · rename_i h
    cases ht : b1.text with
    | nil => simp [ht, hp] at h
    | cons c t =>
      simp only [ht, List.getElem?_cons_zero] at h
      simp only [M.wp_bind]
      refine wpB_skipChar ht (hpb c h) hc1 ?_
      intro s2 b2 hg2 ht2 _ _ hk2
      have hg2 := hg.trans hg2
      simp only [wpB_cache, M.wp_pure, M.next_inl, M.next_inr]
      have := hg.length
      have : b2.text.length < b1.text.length := by simp [ht, ht2]
      refine ⟨⟨⟨hg2, by show 0 < max _ _; omega, hk2.trans hk, fun _ => ?_⟩, by simp [ht2]⟩, (hE.go hg2).reader⟩
      show b2.text.length < _; omega
  · rename_i h
    exact hQ _ _ hg hc1 (by simpa using h) hk hl

/-- `while p { read_char; cache(1)? }`. -/
theorem wpB_readWhile {F : Nat} {p : Option Char → Bool} {Q : Str → SState → Inp → Prop} {str : Str}
    (hp : p none = false) (hpb : ∀ c, p (some c) = true → isBreak c = false)
    (hc : 0 < b.cached) (hF : b.text.length < F) (hE : GoodE sm E s b)
    (hQ : ∀ str' s' b', Go s b s' b' → 0 < b'.cached → p b'.text[0]? = false →
      s'.simpleKeyAllowed = s.simpleKeyAllowed →
      (∃ r, str' = str ++ r ∧ b.text = r ++ b'.text ∧ ∀ c ∈ r, p (some c) = true) →
      Q str' s' b') :
    M.wp stepB P E (readWhile F p str) Q s b := by
  refine M.wp_loop stepB_mono (I := fun str' s' b' => Go s b s' b' ∧ 0 < b'.cached ∧
      s'.simpleKeyAllowed = s.simpleKeyAllowed ∧
      (∃ r, str' = str ++ r ∧ b.text = r ++ b'.text ∧ ∀ c ∈ r, p (some c) = true))
    (μ := fun _ _ b => b.text.length) ?_ F str s b ⟨Go.refl s b, hc, rfl, [], by simp⟩ hF
  rintro str1 s1 b1 ⟨hg, hc1, hk, r, rfl, hr, hrp⟩
  simp only [M.wp_bind, wpB_at]
  refine ⟨hc1, ?_⟩

  split
  · rename_i h
    cases ht : b1.text with
    | nil => simp [ht, hp] at h
    | cons c t =>
      simp only [ht, List.getElem?_cons_zero] at h
      simp only [M.wp_bind]
      refine wpB_readChar ht (hpb c h) hc1 ?_
      intro s2 b2 hg2 ht2 _ _ hk2
      have hg2 := hg.trans hg2
      simp only [wpB_cache, M.wp_pure, M.next_inl, M.next_inr]
      refine ⟨⟨⟨hg2, by show 0 < max _ _; omega, hk2.trans hk, r ++ [c], by simp, by simp [hr, ht, ht2], ?_⟩, by simp [ht2]⟩, (hE.go hg2).reader⟩
      intro c' hc'
      simp at hc'
      rcases hc' with hc' | rfl
      · exact hrp c' hc'
      · exact h
  · rename_i h
    exact hQ _ _ _ hg hc1 (by simpa using h) hk ⟨r, rfl, hr, hrp⟩

end
end Yaml
