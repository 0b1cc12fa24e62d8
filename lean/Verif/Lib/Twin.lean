import Verif.Lib.Lex
import Verif.Lib.Lex2
import Verif.Spec.LineBreaks
import Verif.Lib.TextScan

/-
Two runs of the scanner side by side: over texts that differ only in their line breaks, and at
positions that differ by a number of lines.  A relational logic for programs over plain texts, and
the primitives.
-/

namespace Yaml
open Scanner
set_option linter.unusedSimpArgs false
set_option linter.unusedVariables false

namespace Tw

/-! ### Running two programs -/

theorem execT_bind {α β : Type} (t : Free CharOp CharOp.Ans α) (f : α → Free CharOp CharOp.Ans β) (x : Txt) :
    execT (t.bind f) x = execT (f (execT t x).1) (execT t x).2 := by
  induction t generalizing x with
  | ret a => rfl
  | op o k ih =>
    cases o with
    | cache n => exact ih _ _
    | get i => exact ih _ _
    | pop => exact ih _ _
    | enc => exact ih _ _

/-- Both outcomes `Ok` and related by `Q`, or the same failure, errors being related by `E`. -/
def post2 {α β : Type} (E : Err → Err → Prop) (Q : α → SState → Txt → β → SState → Txt → Prop) :
    (Out α × SState) × Txt → (Out β × SState) × Txt → Prop
  | ((.ok a, s), t), ((.ok b, s'), t') => Q a s t b s' t'
  | ((.err e, _), _), ((.err e', _), _) => E e e'
  | ((.panic p, _), _), ((.panic p', _), _) => p = p'
  | ((.fuel, _), _), ((.fuel, _), _) => True
  | _, _ => False

/-- Both programs run, side by side. -/
def W2 {α β : Type} (E : Err → Err → Prop) (m1 : Scan α) (m2 : Scan β)
    (Q : α → SState → Txt → β → SState → Txt → Prop) (s1 : SState) (t1 : Txt) (s2 : SState) (t2 : Txt) : Prop :=
  post2 E Q (execT (m1 s1) t1) (execT (m2 s2) t2)

section
variable {α β γ δ σ τ : Type} {E : Err → Err → Prop} {s1 s2 : SState} {t1 t2 : Txt}

theorem post2_mono {Q Q' : α → SState → Txt → β → SState → Txt → Prop} (h : ∀ a s t b s' t', Q a s t b s' t' → Q' a s t b s' t') :
    ∀ x y, post2 E Q x y → post2 E Q' x y := by
  rintro ⟨⟨x, s⟩, t⟩ ⟨⟨y, s'⟩, t'⟩ hq
  cases x <;> cases y <;> first | exact h _ _ _ _ _ _ hq | exact hq

theorem W2.mono {m1 : Scan α} {m2 : Scan β} {Q Q' : α → SState → Txt → β → SState → Txt → Prop}
    (h : W2 E m1 m2 Q s1 t1 s2 t2) (hQ : ∀ a s t b s' t', Q a s t b s' t' → Q' a s t b s' t') : W2 E m1 m2 Q' s1 t1 s2 t2 :=
  post2_mono hQ _ _ h

theorem w2_bind {m1 : Scan α} {m2 : Scan β} {f1 : α → Scan γ} {f2 : β → Scan δ} {Q : γ → SState → Txt → δ → SState → Txt → Prop}
    (h : W2 E m1 m2 (fun a s t b s' t' => W2 E (f1 a) (f2 b) Q s t s' t') s1 t1 s2 t2) :
    W2 E (m1 >>= f1) (m2 >>= f2) Q s1 t1 s2 t2 := by
  unfold W2 at h ⊢
  show post2 E Q (execT ((m1 s1).bind (M.cont f1)) t1) (execT ((m2 s2).bind (M.cont f2)) t2)
  rw [execT_bind, execT_bind]
  revert h
  generalize execT (m1 s1) t1 = x
  generalize execT (m2 s2) t2 = y
  obtain ⟨⟨x, s⟩, t⟩ := x
  obtain ⟨⟨y, s'⟩, t'⟩ := y
  intro h
  cases x <;> cases y <;> first | exact h | exact h.elim

/-- The rule for sequencing. -/
theorem w2_seq {m1 : Scan α} {m2 : Scan β} {f1 : α → Scan γ} {f2 : β → Scan δ} {Q : γ → SState → Txt → δ → SState → Txt → Prop}
    {Q' : α → SState → Txt → β → SState → Txt → Prop} (h : W2 E m1 m2 Q' s1 t1 s2 t2)
    (hf : ∀ a s t b s' t', Q' a s t b s' t' → W2 E (f1 a) (f2 b) Q s t s' t') :
    W2 E (m1 >>= f1) (m2 >>= f2) Q s1 t1 s2 t2 := w2_bind (h.mono hf)

theorem w2_pure {a : α} {b : β} {Q : α → SState → Txt → β → SState → Txt → Prop} (h : Q a s1 t1 b s2 t2) :
    W2 E (pure a : Scan α) (pure b : Scan β) Q s1 t1 s2 t2 := h

theorem w2_get {Q : SState → SState → Txt → SState → SState → Txt → Prop} (h : Q s1 s1 t1 s2 s2 t2) :
    W2 E (M.get : Scan SState) (M.get : Scan SState) Q s1 t1 s2 t2 := h

theorem w2_modify {f g : SState → SState} {Q : Unit → SState → Txt → Unit → SState → Txt → Prop} (h : Q () (f s1) t1 () (g s2) t2) :
    W2 E (M.modify f : Scan Unit) (M.modify g : Scan Unit) Q s1 t1 s2 t2 := h

theorem w2_panic {p : PanicSite} {Q : α → SState → Txt → β → SState → Txt → Prop} :
    W2 E (M.panic p : Scan α) (M.panic p : Scan β) Q s1 t1 s2 t2 := rfl

theorem w2_throw {e e' : Err} {Q : α → SState → Txt → β → SState → Txt → Prop} (h : E e e') :
    W2 E (M.throw e : Scan α) (M.throw e' : Scan β) Q s1 t1 s2 t2 := h

theorem w2_at {i j : Nat} {Q : Option Char → SState → Txt → Option Char → SState → Txt → Prop} (h : Q t1.text[i]? s1 t1 t2.text[j]? s2 t2) :
    W2 E (at_ i) (at_ j) Q s1 t1 s2 t2 := h

theorem w2_cache {n : Nat} {Q : Unit → SState → Txt → Unit → SState → Txt → Prop} (h : Q () s1 t1 () s2 t2) :
    W2 E (cache n) (cache n) Q s1 t1 s2 t2 := h

theorem w2_mark {Q : Mark → SState → Txt → Mark → SState → Txt → Prop} (h : Q s1.mark s1 t1 s2.mark s2 t2) :
    W2 E getMark getMark Q s1 t1 s2 t2 := h

theorem w2_allow {x y : Bool} {Q : Unit → SState → Txt → Unit → SState → Txt → Prop}
    (h : Q () { s1 with simpleKeyAllowed := x } t1 () { s2 with simpleKeyAllowed := y } t2) :
    W2 E (allowSimpleKey x) (allowSimpleKey y) Q s1 t1 s2 t2 := h

theorem w2_ite {c1 c2 : Prop} [Decidable c1] [Decidable c2] {a1 b1 : Scan α} {a2 b2 : Scan β}
    {Q : α → SState → Txt → β → SState → Txt → Prop} (hc : c1 ↔ c2) (ha : c1 → c2 → W2 E a1 a2 Q s1 t1 s2 t2)
    (hb : ¬ c1 → ¬ c2 → W2 E b1 b2 Q s1 t1 s2 t2) : W2 E (if c1 then a1 else b1) (if c2 then a2 else b2) Q s1 t1 s2 t2 := by
  by_cases h : c1
  · rw [if_pos h, if_pos (hc.1 h)]; exact ha h (hc.1 h)
  · rw [if_neg h, if_neg (fun h' => h (hc.2 h'))]; exact hb h (fun h' => h (hc.2 h'))

theorem w2_when {c1 c2 : Bool} {a1 a2 : Scan Unit} {Q : Unit → SState → Txt → Unit → SState → Txt → Prop} (hc : c1 = c2)
    (ha : c1 = true → c2 = true → W2 E a1 a2 Q s1 t1 s2 t2) (hb : c1 = false → c2 = false → Q () s1 t1 () s2 t2) :
    W2 E (M.when c1 a1) (M.when c2 a2) Q s1 t1 s2 t2 := by
  subst hc
  cases c1
  · exact hb rfl rfl
  · exact ha rfl rfl

theorem w2_loop {body1 : σ → Scan (σ ⊕ α)} {body2 : τ → Scan (τ ⊕ β)} {Q : α → SState → Txt → β → SState → Txt → Prop}
    (I : σ → SState → Txt → τ → SState → Txt → Prop)
    (hb : ∀ x s t y s' t', I x s t y s' t' → W2 E (body1 x) (body2 y)
      (fun r s t r' s' t' => match r, r' with
        | .inl x, .inl y => I x s t y s' t'
        | .inr a, .inr b => Q a s t b s' t'
        | _, _ => False) s t s' t') (F : Nat) {x : σ} {y : τ} (h : I x s1 t1 y s2 t2) :
    W2 E (M.loop F body1 x) (M.loop F body2 y) Q s1 t1 s2 t2 := by
  induction F generalizing x y s1 s2 t1 t2 with
  | zero => exact trivial
  | succ F ih =>
    rw [M.loop, M.loop]
    refine w2_seq (hb _ _ _ _ _ _ h) ?_
    intro r s t r' s' t' hr
    cases r with
    | inl x =>
      cases r' with
      | inl y => exact ih hr
      | inr b => exact hr.elim
    | inr a =>
      cases r' with
      | inl y => exact hr.elim
      | inr b => exact hr

end

/-! ### Texts -/

/-- The texts differ only in their line breaks. -/
inductive Nm : Str → Str → Prop
  | nil : Nm [] []
  | char {c : Char} {r1 r2 : Str} (hc : isBreak c = false) (h : Nm r1 r2) : Nm (c :: r1) (c :: r2)
  | brk {t1 t2 r1 r2 : Str} {v : Char} (h1 : Spec.BreakAt t1 v r1) (h2 : Spec.BreakAt t2 v r2) (h : Nm r1 r2) : Nm t1 t2

/-- Characters that the scanner does not tell apart: equal, or both line breaks. -/
def Ch (c d : Option Char) : Prop := (c = d ∧ isBreakO c = false) ∨ (isBreakO c = true ∧ isBreakO d = true)

theorem Nm.head {t1 t2 : Str} (h : Nm t1 t2) : Ch t1.head? t2.head? := by
  cases h with
  | nil => exact Or.inl ⟨rfl, rfl⟩
  | char hc h => exact Or.inl ⟨rfl, hc⟩
  | brk h1 h2 h =>
    obtain ⟨d, r, rfl, hd⟩ := h1.head
    obtain ⟨d', r', rfl, hd'⟩ := h2.head
    exact Or.inr ⟨hd, hd'⟩

/-- Character number `k`, if no line break comes before. -/
theorem Nm.nth {t1 t2 : Str} (h : Nm t1 t2) : ∀ k : Nat, (∀ j : Nat, j < k → isBreakO t1[j]? = false) → Ch t1[k]? t2[k]?
  | 0, _ => by rw [← List.head?_eq_getElem?, ← List.head?_eq_getElem?]; exact h.head
  | k + 1, hj => by
    cases h with
    | nil => exact Or.inl ⟨rfl, rfl⟩
    | char hc h =>
      simp only [List.getElem?_cons_succ]
      exact Nm.nth h k fun j hjk => by have := hj (j + 1) (by omega); simpa using this
    | brk h1 h2 h =>
      obtain ⟨d, r, rfl, hd⟩ := h1.head
      have := hj 0 (by omega)
      simp [isBreakO, hd] at this

theorem Ch.eq {c d : Option Char} (h : Ch c d) (hb : isBreakO c = false) : c = d := by
  rcases h with h | h
  · exact h.1
  · rw [h.1] at hb; exact absurd hb (by simp)

theorem Ch.brk {c d : Option Char} (h : Ch c d) : isBreakO c = isBreakO d := by
  rcases h with ⟨rfl, _⟩ | ⟨h1, h2⟩
  · rfl
  · rw [h1, h2]

theorem Ch.is {c d : Option Char} (h : Ch c d) {x : Char} (hx : isBreak x = false) : (c = some x) ↔ (d = some x) := by
  rcases h with ⟨rfl, _⟩ | ⟨h1, h2⟩
  · exact Iff.rfl
  · constructor
    · rintro rfl; simp [isBreakO, hx] at h1
    · rintro rfl; simp [isBreakO, hx] at h2

theorem Ch.isb {c d : Option Char} (h : Ch c d) {x : Char} (hx : isBreak x = false) : (c == some x) = (d == some x) := by
  rw [Bool.eq_iff_iff, beq_iff_eq, beq_iff_eq]; exact h.is hx

theorem Ch.none {c d : Option Char} (h : Ch c d) : c.isNone = d.isNone := by
  rcases h with ⟨rfl, _⟩ | ⟨h1, h2⟩
  · rfl
  · cases c <;> cases d <;> simp_all [isBreakO]

theorem Ch.brkz {c d : Option Char} (h : Ch c d) : isBreakzO c = isBreakzO d := by
  rcases h with ⟨rfl, _⟩ | ⟨h1, h2⟩
  · rfl
  · cases c <;> cases d <;> simp_all [isBreakO, isBreakzO]

theorem Ch.blank {c d : Option Char} (h : Ch c d) : isBlankO c = isBlankO d := by
  simp only [isBlankO, isSpaceO, isTabO]
  rw [h.isb (by decide), h.isb (by decide)]

theorem Ch.blankz {c d : Option Char} (h : Ch c d) : isBlankzO c = isBlankzO d := by
  simp only [isBlankzO]; rw [h.blank, h.brkz]

/-- A test that fails on every line break. -/
def NoBrk (p : Option Char → Bool) : Prop := ∀ c, isBreak c = true → p (some c) = false

theorem Ch.test {c d : Option Char} (h : Ch c d) {p : Option Char → Bool} (hp : NoBrk p) : p c = p d := by
  rcases h with ⟨rfl, _⟩ | ⟨h1, h2⟩
  · rfl
  · cases c with
    | none => simp [isBreakO] at h1
    | some c =>
      cases d with
      | none => simp [isBreakO] at h2
      | some d => rw [hp c h1, hp d h2]

theorem break_cases {c : Char} (h : isBreak c = true) : c = '\r' ∨ c = '\n' ∨ c = '\u0085' ∨ c = '\u2028' ∨ c = '\u2029' := by
  simpa [isBreak, or_assoc] using h

theorem noBrk_of {p : Option Char → Bool} (h : p (some '\r') = false ∧ p (some '\n') = false ∧ p (some '\u0085') = false ∧
    p (some '\u2028') = false ∧ p (some '\u2029') = false) : NoBrk p := by
  intro c hc
  rcases break_cases hc with rfl | rfl | rfl | rfl | rfl
  · exact h.1
  · exact h.2.1
  · exact h.2.2.1
  · exact h.2.2.2.1
  · exact h.2.2.2.2

/-! ### States -/

/-- Positions in the two texts: same column, `L` lines apart. -/
abbrev Mk (L : Nat) (m m' : Mark) : Prop := Spec.Below L m m'

/-- Related positions, or both the default position. -/
def Mz (L : Nat) (m m' : Mark) : Prop := Mk L m m' ∨ (m = Mark.zero ∧ m' = Mark.zero)

/-- The same token at related positions. -/
structure Tk (L : Nat) (t t' : Token) : Prop where
  data : t.data = t'.data
  start : Mk L t.startMark t'.startMark
  stop : Mk L t.endMark t'.endMark

/-- The same error at related positions. -/
inductive Er (L : Nat) : Err → Err → Prop
  | same (e : Err) (h : e.problemMark = none) : Er L e e
  | scanner (c p : String) {m m' n n' : Mark} (h : Mz L m m') (h' : Mz L n n') : Er L (.scanner c m p n) (.scanner c m' p n')
  | parser (c p : String) {m m' n n' : Mark} (h : Mz L m m') (h' : Mz L n n') : Er L (.parser c m p n) (.parser c m' p n')
  | composer (c p : String) {m m' n n' : Mark} (h : Mz L m m') (h' : Mz L n n') : Er L (.composer c m p n) (.composer c m' p n')

/-- The same possible simple key. `m`, `m'` are the current positions. -/
structure Ky (L K : Nat) (m m' : Mark) (k k' : SimpleKey) : Prop where
  possible : k.possible = k'.possible
  required : k.possible = true → k.required = k'.required
  number : k.possible = true → k.tokenNumber = k'.tokenNumber + K
  mark : k.possible = true → Mk L k.mark k'.mark
  line : k.possible = true → k.mark.line ≤ m.line
  index : k.possible = true → k.mark.line = m.line → k.mark.index + m'.index = k'.mark.index + m.index

/-- Related lists, element by element. -/
inductive Zip {A B : Type} (R : A → B → Prop) : List A → List B → Prop
  | nil : Zip R [] []
  | cons {a : A} {b : B} {l : List A} {l' : List B} (h : R a b) (hs : Zip R l l') : Zip R (a :: l) (b :: l')

namespace Zip
variable {A B : Type} {R R' : A → B → Prop} {l l1 l2 : List A} {l' l1' l2' : List B}

theorem append (h : Zip R l1 l1') (h' : Zip R l2 l2') : Zip R (l1 ++ l2) (l1' ++ l2') := by
  induction h with
  | nil => exact h'
  | cons h hs ih => exact .cons h ih
theorem one {a : A} {b : B} (h : R a b) : Zip R [a] [b] := .cons h .nil
theorem mono (h : Zip R l l') (hR : ∀ a b, R a b → R' a b) : Zip R' l l' := by
  induction h with
  | nil => exact .nil
  | cons h hs ih => exact .cons (hR _ _ h) ih
theorem length (h : Zip R l l') : l.length = l'.length := by
  induction h with
  | nil => rfl
  | cons h hs ih => simp [ih]
theorem reverse (h : Zip R l l') : Zip R l.reverse l'.reverse := by
  induction h with
  | nil => exact .nil
  | cons h hs ih => simp only [List.reverse_cons]; exact ih.append (.one h)
theorem isEmpty (h : Zip R l l') : l.isEmpty = l'.isEmpty := by cases h <;> rfl
theorem tail (h : Zip R l l') : Zip R l.tail l'.tail := by
  cases h with
  | nil => exact .nil
  | cons h hs => exact hs
theorem insertIdx {a : A} {b : B} (h : Zip R l l') (hab : R a b) : ∀ n, Zip R (l.insertIdx n a) (l'.insertIdx n b) := by
  induction h with
  | nil =>
    intro n
    cases n with
    | zero => exact .one hab
    | succ n => exact .nil
  | cons h hs ih =>
    intro n
    cases n with
    | zero => exact .cons hab (.cons h hs)
    | succ n => simp only [List.insertIdx_succ_cons]; exact .cons h (ih n)
theorem any {p : A → Bool} {q : B → Bool} (h : Zip R l l') (hpq : ∀ a b, R a b → p a = q b) : l.any p = l'.any q := by
  induction h with
  | nil => rfl
  | cons h hs ih => simp [hpq _ _ h, ih]
end Zip

/-- The two scanners, at texts that differ only in their line breaks, `L` lines and `K` tokens
apart. -/
structure St (L K : Nat) (s1 : SState) (t1 : Txt) (s2 : SState) (t2 : Txt) : Prop where
  text : Nm t1.text t2.text
  enc : t1.enc = t2.enc
  mark : Mk L s1.mark s2.mark
  ss : s1.streamStartProduced = s2.streamStartProduced
  se : s1.streamEndProduced = s2.streamEndProduced
  fl : s1.flowLevel = s2.flowLevel
  toks : Zip (Tk L) s1.tokens s2.tokens
  tp : s1.tokensParsed = s2.tokensParsed + K
  ta : s1.tokenAvailable = s2.tokenAvailable
  is : s1.indents = s2.indents
  i : s1.indent = s2.indent
  ska : s1.simpleKeyAllowed = s2.simpleKeyAllowed
  keys : Zip (Ky L K s1.mark s2.mark) s1.simpleKeys s2.simpleKeys

theorem Ky.char {L K : Nat} {m m' : Mark} {k k' : SimpleKey} (h : Ky L K m m' k k') (c : Char) :
    Ky L K (bumpMark c m) (bumpMark c m') k k' :=
  ⟨h.possible, h.required, h.number, h.mark, h.line, fun a b => by have := h.index a b; simp only [bumpMark]; omega⟩

theorem Ky.later {L K : Nat} {m m' n n' : Mark} {k k' : SimpleKey} (h : Ky L K m m' k k') (hl : m.line < n.line) :
    Ky L K n n' k k' :=
  ⟨h.possible, h.required, h.number, h.mark, fun a => by have := h.line a; omega, fun a b => by have := h.line a; omega⟩

section
variable {L K : Nat} {s1 s2 : SState} {t1 t2 : Txt}

theorem St.char {c : Char} {r1 r2 : Str} {e1 e2 : Encoding} (h : St L K s1 ⟨c :: r1, e1⟩ s2 ⟨c :: r2, e2⟩) (hc : isBreak c = false) :
    St L K { s1 with mark := bumpMark c s1.mark } ⟨r1, e1⟩ { s2 with mark := bumpMark c s2.mark } ⟨r2, e2⟩ := by
  refine ⟨?_, h.enc, ?_, h.ss, h.se, h.fl, h.toks, h.tp, h.ta, h.is, h.i, h.ska, h.keys.mono fun a b => fun hk => hk.char c⟩
  · have := h.text
    generalize hx : (⟨c :: r1, e1⟩ : Txt).text = x at this
    generalize hy : (⟨c :: r2, e2⟩ : Txt).text = y at this
    dsimp only at hx hy
    cases this with
    | nil => cases hx
    | char _ h => cases hx; cases hy; exact h
    | brk h1 h2 h =>
      obtain ⟨d, r, hd, hb⟩ := h1.head
      rw [← hx] at hd; cases hd
      rw [hc] at hb; cases hb
  · exact ⟨h.mark.1, by show s1.mark.column + 1 = s2.mark.column + 1; rw [h.mark.2]⟩

/-- After a line break. -/
theorem St.brk {r1 r2 : Str} {w1 w2 : Nat} (h : St L K s1 t1 s2 t2) (hr : Nm r1 r2) :
    St L K { s1 with mark := newlineMark w1 s1.mark } ⟨r1, t1.enc⟩ { s2 with mark := newlineMark w2 s2.mark } ⟨r2, t2.enc⟩ :=
  ⟨hr, h.enc, ⟨by show s1.mark.line + 1 = s2.mark.line + 1 + L; have := h.mark.1; omega, rfl⟩, h.ss, h.se, h.fl, h.toks, h.tp, h.ta,
    h.is, h.i, h.ska, h.keys.mono fun a b hk => hk.later (Nat.lt_succ_self _)⟩

theorem St.col (h : St L K s1 t1 s2 t2) : s1.mark.column = s2.mark.column := h.mark.2

theorem St.ch0 (h : St L K s1 t1 s2 t2) : Ch t1.text[0]? t2.text[0]? := h.text.nth 0 (by omega)

theorem St.allow (h : St L K s1 t1 s2 t2) (b : Bool) :
    St L K { s1 with simpleKeyAllowed := b } t1 { s2 with simpleKeyAllowed := b } t2 :=
  ⟨h.text, h.enc, h.mark, h.ss, h.se, h.fl, h.toks, h.tp, h.ta, h.is, h.i, rfl, h.keys⟩

theorem St.push {k k' : Token} (h : St L K s1 t1 s2 t2) (hk : Tk L k k') :
    St L K { s1 with tokens := s1.tokens ++ [k] } t1 { s2 with tokens := s2.tokens ++ [k'] } t2 :=
  ⟨h.text, h.enc, h.mark, h.ss, h.se, h.fl, h.toks.append (.one hk), h.tp, h.ta, h.is, h.i, h.ska, h.keys⟩

/-- The results are related by `R`, and the states stay related. -/
def Ok {α β : Type} (L K : Nat) (R : α → β → Prop) (a : α) (s1 : SState) (t1 : Txt) (b : β) (s2 : SState) (t2 : Txt) : Prop :=
  R a b ∧ St L K s1 t1 s2 t2

/-- `m1` and `m2` do the same. -/
abbrev Do {α β : Type} (L K : Nat) (m1 : Scan α) (m2 : Scan β) (R : α → β → Prop) (s1 : SState) (t1 : Txt) (s2 : SState) (t2 : Txt) : Prop :=
  W2 (Er L) m1 m2 (Ok L K R) s1 t1 s2 t2

theorem do_err {α β : Type} {R : α → SState → Txt → β → SState → Txt → Prop} {c p : String} {m m' : Mark} (h : St L K s1 t1 s2 t2) (hm : Mz L m m') :
    W2 (Er L) (scannerError c m p : Scan α) (scannerError c m' p : Scan β) R s1 t1 s2 t2 :=
  Er.scanner c p hm (Or.inl h.mark)

/-- `skip_char` where no line break follows. -/
theorem do_skip (h : St L K s1 t1 s2 t2) (hb : isBreakO t1.text[0]? = false) : Do L K skipChar skipChar Eq s1 t1 s2 t2 := by
  obtain ⟨x1, e1⟩ := t1
  obtain ⟨x2, e2⟩ := t2
  have ht : Nm x1 x2 := h.text
  cases ht with
  | nil => exact (rfl : PanicSite.skipCharEmpty = PanicSite.skipCharEmpty)
  | char hc hr => exact ⟨rfl, h.char hc⟩
  | brk h1 h2 hr =>
    obtain ⟨d, r, rfl, hd⟩ := h1.head
    simp [isBreakO, hd] at hb

theorem do_read {str str' : Str} (h : St L K s1 t1 s2 t2) (hb : isBreakO t1.text[0]? = false) (hs : str = str') :
    Do L K (readChar str) (readChar str') Eq s1 t1 s2 t2 := by
  subst hs
  obtain ⟨x1, e1⟩ := t1
  obtain ⟨x2, e2⟩ := t2
  have ht : Nm x1 x2 := h.text
  cases ht with
  | nil => exact (rfl : PanicSite.readCharEmpty = PanicSite.readCharEmpty)
  | char hc hr => exact ⟨rfl, h.char hc⟩
  | brk h1 h2 hr =>
    obtain ⟨d, r, rfl, hd⟩ := h1.head
    simp [isBreakO, hd] at hb

theorem execT_skipLineBreak {s : SState} {t r : Str} {e : Encoding} {v : Char} (h : Spec.BreakAt t v r) :
    ∃ w, execT (skipLineBreak s) ⟨t, e⟩ = ((.ok (), { s with mark := newlineMark w s.mark }), ⟨r, e⟩) := by
  cases h with
  | crlf t => exact ⟨2, rfl⟩
  | one c t hb hc =>
    rw [isLineBreak_eq] at hb
    refine ⟨lenUtf8 c, ?_⟩
    have hn : (c == '\r' && r[0]? == some '\n') = false := by
      rw [← List.head?_eq_getElem?]; simpa using hc
    have e1 : skipLineBreak s = .op (.get 0) (fun a => (match a with
      | none => (pure () : Scan Unit)
      | some front => do
        let second ← at_ 1
        if front == '\r' && second == some '\n' then do
          let _ ← popChar
          let _ ← popChar
          setMark (newlineMark 2)
        else if isBreak front then do
          let _ ← popChar
          setMark (newlineMark (lenUtf8 front))
        else pure ()) s) := rfl
    rw [e1]
    show execT ((if c == '\r' && r[0]? == some '\n' then (do
          let _ ← popChar
          let _ ← popChar
          setMark (newlineMark 2) : Scan Unit)
        else if isBreak c then (do
          let _ ← popChar
          setMark (newlineMark (lenUtf8 c)))
        else pure ()) s) ⟨c :: r, e⟩ = _
    rw [hn, hb]
    rfl

theorem execT_readLineBreak {s : SState} {t r str : Str} {e : Encoding} {v : Char} (h : Spec.BreakAt t v r) :
    ∃ w, execT (readLineBreak str s) ⟨t, e⟩ = ((.ok (str ++ [v]), { s with mark := newlineMark w s.mark }), ⟨r, e⟩) := by
  cases h with
  | crlf t => exact ⟨2, rfl⟩
  | one c t hb hc =>
    rw [isLineBreak_eq] at hb
    refine ⟨lenUtf8 c, ?_⟩
    rw [breakValue_eq hb]
    have hn : (c == '\r' && r[0]? == some '\n') = false := by
      rw [← List.head?_eq_getElem?]; simpa using hc
    show execT ((if c == '\r' && r[0]? == some '\n' then (do
          let _ ← popChar
          let _ ← popChar
          setMark (newlineMark 2)
          pure (str ++ ['\n']) : Scan Str)
        else if isBreak c then (do
          let _ ← popChar
          setMark (newlineMark (lenUtf8 c))
          pure (str ++ [if lenUtf8 c == 3 then c else '\n']))
        else pure str) s) ⟨c :: r, e⟩ = _
    rw [hn, hb]
    rfl

theorem do_skipLine (h : St L K s1 t1 s2 t2) : Do L K skipLineBreak skipLineBreak Eq s1 t1 s2 t2 := by
  obtain ⟨x1, e1⟩ := t1
  obtain ⟨x2, e2⟩ := t2
  have ht : Nm x1 x2 := h.text
  cases ht with
  | nil => exact ⟨rfl, h⟩
  | @char c r1 r2 hc hr =>
    have key : ∀ (s : SState) (r : Str) (e : Encoding), execT (skipLineBreak s) ⟨c :: r, e⟩ = ((.ok (), s), ⟨c :: r, e⟩) := by
      intro s r e
      show execT ((if c == '\r' && r[0]? == some '\n' then (do
          let _ ← popChar
          let _ ← popChar
          setMark (newlineMark 2) : Scan Unit)
        else if isBreak c then (do
          let _ ← popChar
          setMark (newlineMark (lenUtf8 c)))
        else pure ()) s) ⟨c :: r, e⟩ = _
      have : (c == '\r') = false := by
        rw [beq_eq_false_iff_ne]; rintro rfl; revert hc; decide
      rw [this, hc]
      rfl
    unfold Do W2
    rw [key, key]
    exact ⟨rfl, h⟩
  | brk h1 h2 hr =>
    obtain ⟨w1, a1⟩ := execT_skipLineBreak (s := s1) (e := e1) h1
    obtain ⟨w2, a2⟩ := execT_skipLineBreak (s := s2) (e := e2) h2
    unfold Do W2
    rw [a1, a2]
    exact ⟨rfl, h.brk hr⟩

theorem do_readLine {str str' : Str} (h : St L K s1 t1 s2 t2) (hs : str = str') :
    Do L K (readLineBreak str) (readLineBreak str') Eq s1 t1 s2 t2 := by
  subst hs
  obtain ⟨x1, e1⟩ := t1
  obtain ⟨x2, e2⟩ := t2
  have ht : Nm x1 x2 := h.text
  cases ht with
  | nil => exact (rfl : PanicSite.readLineBreakEmpty = PanicSite.readLineBreakEmpty)
  | @char c r1 r2 hc hr =>
    have key : ∀ (s : SState) (r : Str) (e : Encoding), execT (readLineBreak str s) ⟨c :: r, e⟩ = ((.ok str, s), ⟨c :: r, e⟩) := by
      intro s r e
      show execT ((if c == '\r' && r[0]? == some '\n' then (do
          let _ ← popChar
          let _ ← popChar
          setMark (newlineMark 2)
          pure (str ++ ['\n']) : Scan Str)
        else if isBreak c then (do
          let _ ← popChar
          setMark (newlineMark (lenUtf8 c))
          pure (str ++ [if lenUtf8 c == 3 then c else '\n']))
        else pure str) s) ⟨c :: r, e⟩ = _
      have : (c == '\r') = false := by
        rw [beq_eq_false_iff_ne]; rintro rfl; revert hc; decide
      rw [this, hc]
      rfl
    unfold Do W2
    rw [key, key]
    exact ⟨rfl, h⟩
  | brk h1 h2 hr =>
    obtain ⟨w1, a1⟩ := execT_readLineBreak (s := s1) (e := e1) (str := str) h1
    obtain ⟨w2, a2⟩ := execT_readLineBreak (s := s2) (e := e2) (str := str) h2
    unfold Do W2
    rw [a1, a2]
    exact ⟨rfl, h.brk hr⟩

end

end Tw
end Yaml
