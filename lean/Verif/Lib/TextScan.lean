import Verif.Lib.Lex
import Verif.Lib.Lex2
import Verif.Spec.Scalars

/-
The scanner's lexical functions run over a plain text: primitives and simple loops.
-/

namespace Yaml
open Scanner
set_option linter.unusedSimpArgs false
set_option linter.unusedVariables false

/-- `s'` is `s` after consuming the difference between the texts `t` and `t'`. -/
def Mv (s : SState) (t : Str) (s' : SState) (t' : Str) : Prop :=
  s' = { s with mark := s'.mark } ∧ Adv s.mark t s'.mark t'

namespace Mv
variable {s s' s'' : SState} {t t' t'' : Str}

theorem refl (s : SState) (t : Str) : Mv s t s t := ⟨rfl, Adv.refl _ _⟩
theorem trans (h : Mv s t s' t') (h' : Mv s' t' s'' t'') : Mv s t s'' t'' := by
  refine ⟨?_, h.2.trans h'.2⟩
  rw [h'.1]; rw [h.1]
theorem mark {m : Mark} (h : Adv s.mark t m t') : Mv s t { s with mark := m } t' := ⟨rfl, h⟩
theorem flowLevel (h : Mv s t s' t') : s'.flowLevel = s.flowLevel := by rw [h.1]
theorem indent (h : Mv s t s' t') : s'.indent = s.indent := by rw [h.1]
theorem indents (h : Mv s t s' t') : s'.indents = s.indents := by rw [h.1]
theorem tokens (h : Mv s t s' t') : s'.tokens = s.tokens := by rw [h.1]
theorem allowed (h : Mv s t s' t') : s'.simpleKeyAllowed = s.simpleKeyAllowed := by rw [h.1]
theorem keys (h : Mv s t s' t') : s'.simpleKeys = s.simpleKeys := by rw [h.1]
theorem length (h : Mv s t s' t') : t'.length ≤ t.length := h.2.length_le
end Mv

namespace M
variable {Op : Type} {Ans : Op → Type} {B S α σ : Type} {step : Step Op Ans B} {P : PanicSite → Prop}
  {E : Err → S → B → Prop} {Q : α → S → B → Prop} {s : S} {b : B}

/-- One pass of a loop. -/
theorem wp_loop_succ {body : σ → M Op Ans S (σ ⊕ α)} {F : Nat} {x : σ} :
    wp step P E (M.loop (F + 1) body x) Q s b ↔
      wp step P E (body x) (next (fun x' s b => wp step P E (M.loop F body x') Q s b) Q) s b := by
  rw [M.loop, wp_bind]
  apply iff_of_eq; congr 1
  funext r s' b'
  cases r <;> rfl

end M

section
variable {P : PanicSite → Prop} {E : Err → SState → Txt → Prop} {s : SState} {t : Str} {e : Encoding}

@[simp] theorem wpT_cache {b : Txt} {Q : Unit → SState → Txt → Prop} (n : Nat) :
    M.wp stepT P E (cache n) Q s b ↔ Q () s b := by
  simp only [cache, M.wp_bind, M.wp_prim, stepT]
  exact Iff.rfl

@[simp] theorem wpT_at {b : Txt} {Q : Option Char → SState → Txt → Prop} (i : Nat) :
    M.wp stepT P E (at_ i) Q s b ↔ Q b.text[i]? s b := Iff.rfl

@[simp] theorem wpT_pop {b : Txt} {Q : Option Char → SState → Txt → Prop} :
    M.wp stepT P E popChar Q s b ↔ Q b.text.head? s ⟨b.text.tail, b.enc⟩ := Iff.rfl

theorem wpT_skipChar {Q : Unit → SState → Txt → Prop} {c : Char} (hb : isBreak c = false)
    (hQ : ∀ s', Mv s (c :: t) s' t → Q () s' ⟨t, e⟩) : M.wp stepT P E skipChar Q s ⟨c :: t, e⟩ := by
  simp only [skipChar, M.wp_bind, wpT_pop, List.head?_cons, List.tail_cons, wp_setMark]
  exact hQ _ (Mv.mark (Adv.char hb))

theorem wpT_readChar {Q : Str → SState → Txt → Prop} {c : Char} {str : Str} (hb : isBreak c = false)
    (hQ : ∀ s', Mv s (c :: t) s' t → Q (str ++ [c]) s' ⟨t, e⟩) : M.wp stepT P E (readChar str) Q s ⟨c :: t, e⟩ := by
  simp only [readChar, M.wp_bind, wpT_pop, List.head?_cons, List.tail_cons, wp_setMark, M.wp_pure]
  exact hQ _ (Mv.mark (Adv.char hb))

theorem breakValue_eq {c : Char} (h : isBreak c = true) : Spec.breakValue c = if lenUtf8 c == 3 then c else '\n' := by
  simp only [isBreak, Bool.or_eq_true, beq_iff_eq] at h
  rcases h with (((rfl | rfl) | rfl) | rfl) | rfl <;> decide

theorem _root_.Yaml.Spec.BreakAt.length {t t' : Str} {c : Char} (h : Spec.BreakAt t c t') : t'.length < t.length := by
  cases h <;> simp <;> omega

theorem _root_.Yaml.Spec.BreakAt.head {t t' : Str} {c : Char} (h : Spec.BreakAt t c t') : ∃ d r, t = d :: r ∧ isBreak d = true := by
  cases h with
  | crlf t => exact ⟨_, _, rfl, by decide⟩
  | one c t hb hc => exact ⟨_, _, rfl, by rw [← isLineBreak_eq]; exact hb⟩

theorem wpT_readLineBreak {Q : Str → SState → Txt → Prop} {c : Char} {t' str : Str} (h : Spec.BreakAt t c t')
    (hQ : ∀ s', Mv s t s' t' → s'.mark.column = 0 → s'.mark.line = s.mark.line + 1 → Q (str ++ [c]) s' ⟨t', e⟩) :
    M.wp stepT P E (readLineBreak str) Q s ⟨t, e⟩ := by
  cases h with
  | crlf t =>
    simp only [readLineBreak, M.wp_bind, wpT_at, List.getElem?_cons_zero, List.getElem?_cons_succ]
    simp only [beq_self_eq_true, Bool.and_self, if_true, M.wp_bind, wpT_pop, wp_setMark, List.tail_cons, M.wp_pure]
    exact hQ _ (Mv.mark Adv.crlf) rfl rfl
  | one c t hb hc =>
    rw [isLineBreak_eq] at hb
    rw [breakValue_eq hb] at hQ
    simp only [readLineBreak, M.wp_bind, wpT_at, List.getElem?_cons_zero, List.getElem?_cons_succ]
    rw [if_neg (by simpa [← List.head?_eq_getElem?] using hc), if_pos hb]
    simp only [M.wp_bind, wpT_pop, wp_setMark, List.tail_cons, M.wp_pure]
    exact hQ _ (Mv.mark (Adv.brk hb hc)) rfl rfl

theorem wpT_skipLineBreak {Q : Unit → SState → Txt → Prop} {c : Char} {t' : Str} (h : Spec.BreakAt t c t')
    (hQ : ∀ s', Mv s t s' t' → s'.mark.column = 0 → s'.mark.line = s.mark.line + 1 → Q () s' ⟨t', e⟩) :
    M.wp stepT P E skipLineBreak Q s ⟨t, e⟩ := by
  cases h with
  | crlf t =>
    simp only [skipLineBreak, M.wp_bind, wpT_at, List.getElem?_cons_zero, List.getElem?_cons_succ]
    simp only [beq_self_eq_true, Bool.and_self, if_true, M.wp_bind, wpT_pop, wp_setMark, List.tail_cons]
    exact hQ _ (Mv.mark Adv.crlf) rfl rfl
  | one c t hb hc =>
    rw [isLineBreak_eq] at hb
    simp only [skipLineBreak, M.wp_bind, wpT_at, List.getElem?_cons_zero, List.getElem?_cons_succ]
    rw [if_neg (by simpa [← List.head?_eq_getElem?] using hc), if_pos hb]
    simp only [M.wp_bind, wpT_pop, wp_setMark, List.tail_cons]
    exact hQ _ (Mv.mark (Adv.brk hb hc)) rfl rfl

theorem wpT_skipWhile {F : Nat} {p : Option Char → Bool} {Q : Unit → SState → Txt → Prop} {pre rest : Str}
    (hp : ∀ c ∈ pre, p (some c) = true ∧ isBreak c = false) (hr : p rest.head? = false) (hF : pre.length < F)
    (hQ : ∀ s', Mv s (pre ++ rest) s' rest → Q () s' ⟨rest, e⟩) :
    M.wp stepT P E (skipWhile F p) Q s ⟨pre ++ rest, e⟩ := by
  unfold skipWhile
  induction pre generalizing s F with
  | nil =>
    obtain ⟨F, rfl⟩ : ∃ n, F = n + 1 := ⟨F - 1, by simp at hF; omega⟩
    rw [M.wp_loop_succ]
    simp only [M.wp_bind, wpT_at, List.nil_append, ← List.head?_eq_getElem?, hr, Bool.false_eq_true, if_false, M.wp_pure, M.next_inr]
    exact hQ _ (Mv.refl _ _)
  | cons c pre ih =>
    obtain ⟨F, rfl⟩ : ∃ n, F = n + 1 := ⟨F - 1, by simp at hF; omega⟩
    rw [M.wp_loop_succ]
    have := hp c (List.mem_cons_self)
    simp only [M.wp_bind, wpT_at, List.cons_append, List.getElem?_cons_zero, this.1, if_true]
    refine wpT_skipChar this.2 fun s' hs' => ?_
    simp only [wpT_cache, M.wp_bind, M.wp_pure, M.next_inl]
    exact ih (fun c hc => hp c (List.mem_cons_of_mem _ hc)) (by simp at hF; omega) fun s'' hs'' => hQ _ (hs'.trans hs'')

theorem wpT_readWhile {F : Nat} {p : Option Char → Bool} {Q : Str → SState → Txt → Prop} {pre rest str : Str}
    (hp : ∀ c ∈ pre, p (some c) = true ∧ isBreak c = false) (hr : p rest.head? = false) (hF : pre.length < F)
    (hQ : ∀ s', Mv s (pre ++ rest) s' rest → Q (str ++ pre) s' ⟨rest, e⟩) :
    M.wp stepT P E (readWhile F p str) Q s ⟨pre ++ rest, e⟩ := by
  unfold readWhile
  induction pre generalizing s F str with
  | nil =>
    obtain ⟨F, rfl⟩ : ∃ n, F = n + 1 := ⟨F - 1, by simp at hF; omega⟩
    rw [M.wp_loop_succ]
    simp only [M.wp_bind, wpT_at, List.nil_append, ← List.head?_eq_getElem?, hr, Bool.false_eq_true, if_false, M.wp_pure, M.next_inr]
    have := hQ _ (Mv.refl _ _)
    simpa using this
  | cons c pre ih =>
    obtain ⟨F, rfl⟩ : ∃ n, F = n + 1 := ⟨F - 1, by simp at hF; omega⟩
    rw [M.wp_loop_succ]
    have := hp c (List.mem_cons_self)
    simp only [M.wp_bind, wpT_at, List.cons_append, List.getElem?_cons_zero, this.1, if_true]
    refine wpT_readChar this.2 fun s' hs' => ?_
    simp only [wpT_cache, M.wp_bind, M.wp_pure, M.next_inl]
    refine ih (fun c hc => hp c (List.mem_cons_of_mem _ hc)) (by simp at hF; omega) fun s'' hs'' => ?_
    have := hQ _ (hs'.trans hs'')
    simpa using this

end

/-! ### Columns and lines -/

theorem Adv.pre {m m' : Mark} {p t : Str} (h : Adv m (p ++ t) m' t) : m' = Spec.advance m p := by
  obtain ⟨q, h1, h2, _⟩ := h
  rw [List.append_cancel_right h1]; exact h2

theorem advance_plain (m : Mark) : ∀ (p : Str), (∀ c ∈ p, isBreak c = false) →
    Spec.advance m p = ⟨m.index + strLen p, m.line, m.column + p.length⟩ := by
  intro p
  induction p generalizing m with
  | nil => intro _; simp [Spec.advance, strLen]
  | cons c p ih =>
    intro h
    have hc := h c List.mem_cons_self
    rw [advance_cons m c p (by rintro ⟨rfl, _⟩; simp [isBreak] at hc), hc]
    simp only [Bool.false_eq_true, if_false]
    rw [ih _ fun c hc => h c (List.mem_cons_of_mem _ hc)]
    simp [bumpMark, strLen]; omega

/-- On one line. -/
theorem Mv.line {s s' : SState} {p t : Str} (h : Mv s (p ++ t) s' t) (hp : ∀ c ∈ p, isBreak c = false) :
    s'.mark = ⟨s.mark.index + strLen p, s.mark.line, s.mark.column + p.length⟩ := by
  rw [h.2.pre, advance_plain _ _ hp]

end Yaml
