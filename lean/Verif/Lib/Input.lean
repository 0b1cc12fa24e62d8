import Verif.Lib.Wp
import Verif.Scanner
import Verif.Spec.Position

/-
The scanner's view of its input for proofs: `stepB` is a demonic input (look-ahead must be
requested with `cache` before it is used, and any `cache` may fail), `stepT` is a plain text.
Also: the relation `Adv` between positions in a text.
-/

namespace Yaml

open Spec (advance isLineBreak)

theorem isLineBreak_eq (c : Char) : isLineBreak c = isBreak c := by
  simp only [isLineBreak, isBreak, Bool.beq_eq_decide_eq]
  cases decide (c = '\n') <;> cases decide (c = '\r') <;> rfl

theorem lenUtf8_eq (c : Char) : lenUtf8 c = c.utf8Size := by
  unfold lenUtf8 Char.utf8Size
  simp only [Char.toNat, UInt32.le_iff_toNat_le]
  repeat' split
  all_goals first | rfl | (exfalso; simp_all; omega)

/-! ### Positions -/

/-- `(m', t')` is reached from `(m, t)` by consuming a prefix of `t`, not stopping inside CR LF. -/
def Adv (m : Mark) (t : List Char) (m' : Mark) (t' : List Char) : Prop :=
  ∃ pre, t = pre ++ t' ∧ m' = advance m pre ∧ ¬ (pre.getLast? = some '\r' ∧ t'.head? = some '\n')

theorem advance_crlf (m : Mark) (r : List Char) :
    advance m ('\r' :: '\n' :: r) = advance (Scanner.newlineMark 2 m) r := by
  simp [advance, Scanner.newlineMark]

theorem advance_cons (m : Mark) (c : Char) (r : List Char) (h : ¬ (c = '\r' ∧ r.head? = some '\n')) :
    advance m (c :: r) = advance (if isBreak c then Scanner.newlineMark (lenUtf8 c) m
      else Scanner.bumpMark c m) r := by
  rw [advance]
  · rw [isLineBreak_eq]
    split <;> rename_i hb <;> simp [hb, Scanner.newlineMark, Scanner.bumpMark, lenUtf8_eq]
  · rintro r' rfl rfl; simp at h

theorem advance_append (m : Mark) (p q : List Char)
    (h : ¬ (p.getLast? = some '\r' ∧ q.head? = some '\n')) :
    advance m (p ++ q) = advance (advance m p) q := by
  induction hn : p.length using Nat.strongRecOn generalizing m p with
  | _ n ih =>
    match p with
    | [] => simp [advance]
    | [c] =>
      have h' : ¬ (c = '\r' ∧ q.head? = some '\n') := by simpa using h
      rw [List.singleton_append, advance_cons m c q h', advance_cons m c [] (by simp)]
      simp [advance]
    | c :: d :: p =>
      have hl : (c :: d :: p).getLast? = (d :: p).getLast? := by simp
      by_cases hc : c = '\r' ∧ d = '\n'
      · obtain ⟨rfl, rfl⟩ := hc
        simp only [List.cons_append]
        rw [advance_crlf, advance_crlf]
        by_cases hp : p = []
        · subst hp; simp [advance]
        · exact ih p.length (by simp at hn; omega) _ p (by
            rw [hl, List.getLast?_cons_of_ne_nil hp] at h; exact h) rfl
      · simp only [List.cons_append]
        rw [advance_cons m c (d :: (p ++ q)) (by simpa using hc),
          advance_cons m c (d :: p) (by simpa using hc)]
        exact ih (d :: p).length (by simp at hn ⊢; omega) _ (d :: p) (by rw [hl] at h; exact h) rfl

namespace Adv
variable {m m' m'' : Mark} {t t' t'' : List Char}

theorem refl (m : Mark) (t : List Char) : Adv m t m t := ⟨[], rfl, by simp [advance], by simp⟩

theorem trans (h₁ : Adv m t m' t') (h₂ : Adv m' t' m'' t'') : Adv m t m'' t'' := by
  obtain ⟨p, rfl, rfl, hp⟩ := h₁
  obtain ⟨q, rfl, rfl, hq⟩ := h₂
  refine ⟨p ++ q, by simp, ?_, ?_⟩
  · rw [advance_append]
    rintro ⟨h1, h2⟩
    exact hp ⟨h1, by cases q with | nil => simp at h2 | cons c q => simpa using h2⟩
  · rcases List.eq_nil_or_concat q with rfl | ⟨q', c, rfl⟩
    · simpa using hp
    · simpa using hq

theorem char {c : Char} (h : isBreak c = false) : Adv m (c :: t) (Scanner.bumpMark c m) t := by
  refine ⟨[c], rfl, ?_, ?_⟩
  · rw [advance_cons _ _ _ (by simp)]; simp [h, advance]
  · rintro ⟨h1, _⟩
    simp at h1; subst h1; simp [isBreak] at h

theorem crlf : Adv m ('\r' :: '\n' :: t) (Scanner.newlineMark 2 m) t :=
  ⟨['\r', '\n'], rfl, by rw [advance_crlf]; simp [advance], by simp⟩

theorem brk {c : Char} (h : isBreak c = true) (hc : ¬ (c = '\r' ∧ t.head? = some '\n')) :
    Adv m (c :: t) (Scanner.newlineMark (lenUtf8 c) m) t := by
  refine ⟨[c], rfl, ?_, ?_⟩
  · rw [advance_cons _ _ _ (by simp)]; simp [h, advance]
  · simpa using hc

theorem length_le (h : Adv m t m' t') : t'.length ≤ t.length := by
  obtain ⟨p, rfl, _, _⟩ := h; simp

end Adv

theorem lenUtf8_pos (c : Char) : 0 < lenUtf8 c := by
  unfold lenUtf8; repeat' split
  all_goals omega

/-- What reading one more piece does to a position: the index grows, and either the line grows
or only the column does, by at most the number of characters. -/
theorem advance_mono (m : Mark) (p : List Char) :
    m.index + p.length ≤ (advance m p).index ∧
    (((advance m p).line = m.line ∧ (advance m p).column = m.column + p.length) ∨
     (m.line < (advance m p).line ∧ (advance m p).column ≤ p.length ∧ p ≠ [])) := by
  induction hn : p.length using Nat.strongRecOn generalizing m p with
  | _ n ih =>
    match p with
    | [] => subst hn; simp [advance]
    | c :: r =>
      by_cases hc : c = '\r' ∧ r.head? = some '\n'
      · obtain ⟨rfl, h2⟩ := hc
        cases r with
        | nil => simp at h2
        | cons d r =>
          simp at h2; subst h2
          rw [advance_crlf]
          have := ih r.length (by simp at hn; omega) (Scanner.newlineMark 2 m) r rfl
          simp only [Scanner.newlineMark] at this ⊢
          simp at hn
          refine ⟨by omega, Or.inr ⟨by omega, by omega, by simp⟩⟩
      · rw [advance_cons m c r hc]
        have := ih r.length (by simp at hn; omega) (if isBreak c then Scanner.newlineMark (lenUtf8 c) m
          else Scanner.bumpMark c m) r rfl
        have hpos := lenUtf8_pos c
        simp at hn
        cases hb : isBreak c
        · simp only [hb, Scanner.bumpMark, Bool.false_eq_true, if_false] at this ⊢
          refine ⟨by omega, ?_⟩
          rcases this.2 with h | h
          · exact Or.inl ⟨by omega, by omega⟩
          · exact Or.inr ⟨by omega, by omega, by simp⟩
        · simp only [hb, Scanner.newlineMark, if_true] at this ⊢
          refine ⟨by omega, Or.inr ⟨by omega, by omega, by simp⟩⟩

/-- Lexicographic order on (line, column). -/
def lcLe (a b : Mark) : Prop := a.line < b.line ∨ (a.line = b.line ∧ a.column ≤ b.column)
/-- Strict lexicographic order on (line, column). -/
def lcLt (a b : Mark) : Prop := a.line < b.line ∨ (a.line = b.line ∧ a.column < b.column)

theorem Adv.le {m m' : Mark} {t t' : List Char} (h : Adv m t m' t') : Spec.le m m' := by
  obtain ⟨p, rfl, rfl, _⟩ := h
  have := advance_mono m p
  exact ⟨by omega, by omega⟩

theorem Adv.lt {m m' : Mark} {t t' : List Char} (h : Adv m t m' t') (hl : t'.length < t.length) :
    lcLt m m' := by
  obtain ⟨p, rfl, rfl, _⟩ := h
  have := advance_mono m p
  simp at hl
  unfold lcLt
  omega

theorem Spec.le_refl (m : Mark) : Spec.le m m := ⟨Nat.le_refl _, Or.inr ⟨rfl, Nat.le_refl _⟩⟩
theorem Spec.le_trans {a b c : Mark} (h1 : Spec.le a b) (h2 : Spec.le b c) : Spec.le a c := by
  unfold Spec.le at *; omega

/-! ### Inputs -/

/-- The input as the proofs see it: the text still to come, of which the first `cached`
characters (or everything, if shorter) are in the buffer. -/
structure Inp where
  text : List Char
  cached : Nat

/-- Errors that come from the reader. -/
def ReaderErr (e : Err) : Prop := (∃ p o v, e = .reader p o v) ∨ ∃ k, e = .io k

/-- A demonic input: look-ahead has to be requested before it is used; a request may fail, after
which nothing is known about the input. -/
def stepB : Step CharOp CharOp.Ans Inp
  | .cache n, K, b => K none { b with cached := max b.cached n } ∧ ∀ e b', ReaderErr e → K (some e) b'
  | .get i, K, b => i < b.cached ∧ K b.text[i]? b
  | .pop, K, b => 0 < b.cached ∧ K b.text.head? ⟨b.text.tail, b.cached - 1⟩
  | .enc, K, b => 0 < b.cached ∧ ∀ e, K e b

theorem stepB_mono : stepB.Mono := by
  intro o K K' b h
  cases o with
  | cache n => exact fun ⟨h1, h2⟩ => ⟨h _ _ h1, fun e b' he => h _ _ (h2 e b' he)⟩
  | get i => exact fun ⟨h1, h2⟩ => ⟨h1, h _ _ h2⟩
  | pop => exact fun ⟨h1, h2⟩ => ⟨h1, h _ _ h2⟩
  | enc => exact fun ⟨h0, h1⟩ => ⟨h0, fun e => h _ _ (h1 e)⟩

/-- A plain text as input, with the encoding the reader would report. -/
structure Txt where
  text : List Char
  enc : Encoding

/-- Running against a plain text: nothing fails. -/
def stepT : Step CharOp CharOp.Ans Txt
  | .cache _, K, b => K none b
  | .get i, K, b => K b.text[i]? b
  | .pop, K, b => K b.text.head? { b with text := b.text.tail }
  | .enc, K, b => K b.enc b

/-- Running against a plain text, executably. -/
def execT {α : Type} : Free CharOp CharOp.Ans α → Txt → α × Txt
  | .ret a, x => (a, x)
  | .op (.cache _) k, x => execT (k none) x
  | .op (.get i) k, x => execT (k x.text[i]?) x
  | .op .pop k, x => execT (k x.text.head?) { x with text := x.text.tail }
  | .op .enc k, x => execT (k x.enc) x

/-- A scanner method run against a plain text. -/
def runT {S α : Type} (m : M CharOp CharOp.Ans S α) (s : S) (x : Txt) : (Out α × S) × Txt := execT (m s) x

theorem wp_stepT {α : Type} (t : Free CharOp CharOp.Ans α) (Q : α → Txt → Prop) (x : Txt) :
    t.wp stepT Q x ↔ Q (execT t x).1 (execT t x).2 := by
  induction t generalizing x with
  | ret a => exact Iff.rfl
  | op o k ih =>
    cases o with
    | cache n => exact ih _ _
    | get i => exact ih _ _
    | pop => exact ih _ _
    | enc => exact ih _ _

/-- Reading only consumes a prefix of the text. -/
theorem execT_text {α : Type} (t : Free CharOp CharOp.Ans α) (x : Txt) :
    (execT t x).2.enc = x.enc ∧ ∃ p, x.text = p ++ (execT t x).2.text := by
  induction t generalizing x with
  | ret a => exact ⟨rfl, [], rfl⟩
  | op o k ih =>
    cases o with
    | cache n => exact ih _ _
    | get i => exact ih _ _
    | pop =>
      obtain ⟨h1, p, h2⟩ := ih x.text.head? { x with text := x.text.tail }
      refine ⟨h1, x.text.head?.toList ++ p, ?_⟩
      show x.text = x.text.head?.toList ++ p ++ _
      rw [List.append_assoc]
      show x.text = x.text.head?.toList ++ (p ++ (execT (k x.text.head?) { x with text := x.text.tail }).2.text)
      rw [← h2]
      cases x.text <;> simp
    | enc => exact ih _ _

theorem stepT_mono : stepT.Mono := by
  intro o K K' b h
  cases o with
  | cache n => exact h _ _
  | get i => exact h _ _
  | pop => exact h _ _
  | enc => exact h _ _

end Yaml
