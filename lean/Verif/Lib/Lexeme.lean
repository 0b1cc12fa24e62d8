import Verif.Lib.Fetch
import Verif.Lib.Directive
import Verif.Lib.Plain
import Verif.Lib.Block
import Verif.Lib.Pars2

/-
`fetch_next_token` over a plain text, one lexeme at a time, with the exact effect on the scanner.

A configuration `Cfg` describes the scanner independently of how many tokens were taken from the
queue already, of how far it has read into the white space before the next token, and of whether
the block collections which the next token closes are closed already.
-/

namespace Yaml.Lx
open Yaml Scanner Spec
set_option linter.unusedSimpArgs false
set_option linter.unusedVariables false

/-! ### White space before a token -/

/-- Spaces and line breaks. -/
def Blanks (g : Str) : Prop := ∀ c ∈ g, c = ' ' ∨ isBreak c = true

/-- White space between tokens, `f` flow collections being open and a key being allowed (`al`) before it: spaces, line breaks,
comments with the line break behind them, and tabs where the scanner skips them. -/
inductive Ws (f : Nat) : Bool → Str → Prop
  | nil {al : Bool} : Ws f al []
  | space {al : Bool} {g : Str} (h : Ws f al g) : Ws f al (' ' :: g)
  | tab {al : Bool} {g : Str} (hf : f ≠ 0 ∨ al = false) (h : Ws f al g) : Ws f al ('\t' :: g)
  | brk {al : Bool} {c : Char} {g : Str} (hc : isBreak c = true) (h : Ws f (al || f == 0) g) : Ws f al (c :: g)
  | comment {al : Bool} {com : Str} {c : Char} {g : Str} (hn : ∀ x ∈ com, isBreak x = false) (hc : isBreak c = true) (h : Ws f (al || f == 0) g) :
      Ws f al ('#' :: (com ++ c :: g))

/-- A comment at the end of the text. -/
def LastComment (com : Str) : Prop := ∃ x, com = '#' :: x ∧ ∀ c ∈ x, isBreak c = false

/-- ... before `t`: at the end of the text there may be a comment without a line break. -/
def WsT (f : Nat) (al : Bool) (g t : Str) : Prop := ∃ g1 com, g = g1 ++ com ∧ Ws f al g1 ∧ (com = [] ∨ t = [] ∧ LastComment com)

/-- Is there a line break in it? -/
def hasBrk (g : Str) : Bool := g.any isBreak

/-- No CR LF is cut in two. -/
def NoSplit (g t : Str) : Prop := ¬ (g.getLast? = some '\r' ∧ t.head? = some '\n')

/-- A token, or the end of the text, starts here. -/
structure Starts (t : Str) : Prop where
  solid : Solid t
  sharp : t.head? ≠ some '#'
  bom : t.head? ≠ some '\uFEFF'

theorem Blanks.nil : Blanks [] := by intro c h; cases h
theorem Blanks.append {a b : Str} (h : Blanks a) (h' : Blanks b) : Blanks (a ++ b) := by
  intro c hc
  rcases List.mem_append.1 hc with h1 | h1
  · exact h c h1
  · exact h' c h1
theorem Blanks.left {a b : Str} (h : Blanks (a ++ b)) : Blanks a := fun c hc => h c (List.mem_append_left _ hc)
theorem Blanks.right {a b : Str} (h : Blanks (a ++ b)) : Blanks b := fun c hc => h c (List.mem_append_right _ hc)
theorem Blanks.spaces (n : Nat) : Blanks (List.replicate n ' ') := fun c hc => Or.inl (List.eq_of_mem_replicate hc)

theorem Blanks.tail {c : Char} {g : Str} (h : Blanks (c :: g)) : Blanks g := fun d hd => h d (List.mem_cons_of_mem _ hd)

theorem Blanks.ws : ∀ {g : Str}, Blanks g → ∀ {f : Nat} {al : Bool}, Ws f al g
  | [], _, _, _ => .nil
  | c :: g, h, f, al => by
    rcases h c List.mem_cons_self with rfl | hc
    · exact .space (Blanks.ws h.tail)
    · exact .brk hc (Blanks.ws h.tail)

theorem Ws.t {f : Nat} {al : Bool} {g : Str} (h : Ws f al g) (t : Str) : WsT f al g t := ⟨g, [], by simp, h, Or.inl rfl⟩
theorem Blanks.wsT {g : Str} (h : Blanks g) {f : Nat} {al : Bool} (t : Str) : WsT f al g t := h.ws.t t

theorem Ws.cons_inv {f : Nat} {al : Bool} {d : Char} {r : Str} (h : Ws f al (d :: r)) :
    (d = ' ' ∧ Ws f al r) ∨ (d = '\t' ∧ (f ≠ 0 ∨ al = false) ∧ Ws f al r) ∨ (isBreak d = true ∧ Ws f (al || f == 0) r) ∨
      (d = '#' ∧ ∃ com c g, r = com ++ c :: g ∧ (∀ x ∈ com, isBreak x = false) ∧ isBreak c = true ∧ Ws f (al || f == 0) g) := by
  generalize hx : d :: r = x at h
  cases h with
  | nil => cases hx
  | space h => cases hx; exact Or.inl ⟨rfl, h⟩
  | tab hf h => cases hx; exact Or.inr (Or.inl ⟨rfl, hf, h⟩)
  | brk hc h => cases hx; exact Or.inr (Or.inr (Or.inl ⟨hc, h⟩))
  | comment hn hc h => cases hx; exact Or.inr (Or.inr (Or.inr ⟨rfl, _, _, _, rfl, hn, hc, h⟩))

theorem hasBrk_append (a b : Str) : hasBrk (a ++ b) = (hasBrk a || hasBrk b) := by simp [hasBrk]
theorem hasBrk_flat {g : Str} (h : ∀ x ∈ g, isBreak x = false) : hasBrk g = false := by
  simp only [hasBrk, List.any_eq_false]; intro c hc; simp [h c hc]
theorem LastComment.flat {com : Str} (h : LastComment com) : hasBrk com = false := by
  obtain ⟨x, rfl, hx⟩ := h
  refine hasBrk_flat ?_
  intro c hc
  rcases List.mem_cons.1 hc with rfl | hc
  · decide
  · exact hx c hc

theorem Ws.append {f : Nat} {al : Bool} {a b : Str} (h : Ws f al a) (h' : Ws f (al || (f == 0 && hasBrk a)) b) : Ws f al (a ++ b) := by
  induction h with
  | @nil al => simpa [hasBrk] using h'
  | @space al g h ih => exact .space (ih (by simpa [hasBrk, isBreak] using h'))
  | @tab al g hf h ih => exact .tab hf (ih (by simpa [hasBrk, isBreak] using h'))
  | @brk al c g hc h ih =>
    refine .brk hc (ih ?_)
    have e : hasBrk (c :: g) = true := by simp [hasBrk, hc]
    rw [e] at h'
    cases al <;> cases hf : (f == 0) <;> simp [hf] at h' ⊢ <;> exact h'
  | @comment al com c g hn hc h ih =>
    have e : hasBrk ('#' :: (com ++ c :: g)) = true := by simp [hasBrk, hc]
    rw [e] at h'
    have e2 : ('#' :: (com ++ c :: g)) ++ b = '#' :: (com ++ c :: (g ++ b)) := by simp
    rw [e2]
    refine .comment hn hc (ih ?_)
    cases al <;> cases hf : (f == 0) <;> simp [hf] at h' ⊢ <;> exact h'

theorem Ws.appendT {f : Nat} {al : Bool} {a b t : Str} (h : Ws f al a) (h' : WsT f (al || (f == 0 && hasBrk a)) b t) : WsT f al (a ++ b) t := by
  obtain ⟨g1, com, rfl, h1, h2⟩ := h'
  exact ⟨a ++ g1, com, by simp, h.append h1, h2⟩

/-- In flow context it does not matter whether keys are allowed. -/
theorem Ws.flow {f : Nat} (hf : f ≠ 0) {al : Bool} {g : Str} (h : Ws f al g) : ∀ al', Ws f al' g := by
  induction h with
  | nil => intro _; exact .nil
  | space _ ih => intro _; exact .space (ih _)
  | tab _ _ ih => intro _; exact .tab (Or.inl hf) (ih _)
  | brk hc _ ih => intro _; exact .brk hc (ih _)
  | comment hn hc _ ih => intro _; exact .comment hn hc (ih _)

/-- The first break. -/
theorem first_break {a b : Str} {x y : Char} {r s : Str} (h : a ++ x :: r = b ++ y :: s) (ha : ∀ c ∈ a, isBreak c = false) (hb : ∀ c ∈ b, isBreak c = false)
    (hx : isBreak x = true) (hy : isBreak y = true) : a = b ∧ x = y ∧ r = s := by
  induction a generalizing b with
  | nil =>
    cases b with
    | nil => simp at h; exact ⟨rfl, h.1, h.2⟩
    | cons d b => simp at h; have := hb d (by simp); rw [← h.1, hx] at this; cases this
  | cons c a ih =>
    cases b with
    | nil => simp at h; have := ha c (by simp); rw [h.1, hy] at this; cases this
    | cons d b =>
      simp at h
      obtain ⟨h1, h2, h3⟩ := ih h.2 (fun z hz => ha z (by simp [hz])) (fun z hz => hb z (by simp [hz]))
      exact ⟨by rw [h.1, h1], h2, h3⟩

theorem flat_no_break {a b s : Str} {y : Char} (h : a = b ++ y :: s) (ha : ∀ c ∈ a, isBreak c = false) (hy : isBreak y = true) : False := by
  have := ha y (by rw [h]; simp)
  rw [hy] at this; cases this

theorem hasBrk_spaces (n : Nat) : hasBrk (List.replicate n ' ') = false := by
  simp only [hasBrk, List.any_eq_false]
  intro c hc; rw [List.eq_of_mem_replicate hc]; decide

theorem solid_noLf {t : Str} (h : Solid t) : t.head? ≠ some '\n' := by
  cases t with
  | nil => simp
  | cons c r =>
    have := (h c r rfl).2
    rintro h'
    simp at h'; subst h'
    exact absurd this (by decide)

theorem NoSplit.solid {g t : Str} (h : Solid t) : NoSplit g t := fun h' => solid_noLf h h'.2

theorem NoSplit.spaces {g t : Str} {n : Nat} (hn : n ≠ 0) : NoSplit g (List.replicate n ' ' ++ t) := by
  obtain ⟨n, rfl⟩ : ∃ k, n = k + 1 := ⟨n - 1, by omega⟩
  rintro ⟨_, h⟩
  simp [List.replicate_succ] at h

theorem NoSplit.right {a b t : Str} (h : NoSplit (a ++ b) t) : NoSplit b t := by
  rintro ⟨h1, h2⟩
  refine h ⟨?_, h2⟩
  cases b with
  | nil => simp at h1
  | cons c b => rw [List.getLast?_append, h1]; rfl

theorem starts_not {c : Char} {t : Str} (h : Starts (c :: t)) : c ≠ ' ' ∧ c ≠ '\t' ∧ isBreak c = false ∧ c ≠ '#' := by
  obtain ⟨h1, h2⟩ := h.solid c t rfl
  simp only [IsBlank, not_or] at h1
  rw [isLineBreak_eq] at h2
  refine ⟨h1.1, h1.2, h2, ?_⟩
  rintro rfl
  exact h.sharp rfl

theorem WsT.cons_inv {f : Nat} {al : Bool} {d : Char} {r t : Str} (h : WsT f al (d :: r) t) :
    (d = ' ' ∧ WsT f al r t) ∨ (d = '\t' ∧ (f ≠ 0 ∨ al = false) ∧ WsT f al r t) ∨ (isBreak d = true ∧ WsT f (al || f == 0) r t) ∨
      (d = '#' ∧ ∃ com c g, r = com ++ c :: g ∧ (∀ x ∈ com, isBreak x = false) ∧ isBreak c = true ∧ WsT f (al || f == 0) g t) ∨
      (t = [] ∧ d = '#' ∧ ∀ x ∈ r, isBreak x = false) := by
  obtain ⟨g1, com, h1, h2, h3⟩ := h
  cases g1 with
  | nil =>
    simp at h1
    rcases h3 with rfl | ⟨ht, x, rfl, hx⟩
    · cases h1
    · cases h1
      exact Or.inr (Or.inr (Or.inr (Or.inr ⟨ht, rfl, hx⟩)))
  | cons e g1 =>
    simp at h1
    obtain ⟨rfl, rfl⟩ := h1
    rcases h2.cons_inv with ⟨a, b⟩ | ⟨a, b, c⟩ | ⟨a, b⟩ | ⟨a, com', c, g, rfl, b1, b2, b3⟩
    · exact Or.inl ⟨a, g1, com, rfl, b, h3⟩
    · exact Or.inr (Or.inl ⟨a, b, g1, com, rfl, c, h3⟩)
    · exact Or.inr (Or.inr (Or.inl ⟨a, g1, com, rfl, b, h3⟩))
    · exact Or.inr (Or.inr (Or.inr (Or.inl ⟨a, com', c, g ++ com, by simp, b1, b2, g, com, rfl, b3, h3⟩)))

/-- A suffix of white space and a token. -/
theorem ws_suffix {f : Nat} {al : Bool} {g t p u : Str} (h : g ++ t = p ++ u) (hg : WsT f al g t) (hp : Ws f al p) (ht : Starts t) :
    ∃ g', g = p ++ g' ∧ u = g' ++ t ∧ WsT f (al || (f == 0 && hasBrk p)) g' t := by
  induction hp generalizing g with
  | @nil al => exact ⟨g, rfl, h.symm, by simpa [hasBrk] using hg⟩
  | @space al p hp ih =>
    cases g with
    | nil => simp at h; subst h; exact absurd rfl (starts_not ht).1
    | cons d g =>
      simp at h
      obtain ⟨rfl, h⟩ := h
      rcases hg.cons_inv with ⟨_, b⟩ | ⟨a, _⟩ | ⟨a, _⟩ | ⟨a, _⟩ | ⟨_, a, _⟩
      · obtain ⟨g', rfl, k1, k2⟩ := ih h b
        exact ⟨g', rfl, k1, by simpa [hasBrk, isBreak] using k2⟩
      · exact absurd a (by decide)
      · exact absurd a (by decide)
      · exact absurd a (by decide)
      · exact absurd a (by decide)
  | @tab al p hf hp ih =>
    cases g with
    | nil => simp at h; subst h; exact absurd rfl (starts_not ht).2.1
    | cons d g =>
      simp at h
      obtain ⟨rfl, h⟩ := h
      rcases hg.cons_inv with ⟨a, _⟩ | ⟨_, _, b⟩ | ⟨a, _⟩ | ⟨a, _⟩ | ⟨_, a, _⟩
      · exact absurd a (by decide)
      · obtain ⟨g', rfl, k1, k2⟩ := ih h b
        exact ⟨g', rfl, k1, by simpa [hasBrk, isBreak] using k2⟩
      · exact absurd a (by decide)
      · exact absurd a (by decide)
      · exact absurd a (by decide)
  | @brk al c p hc hp ih =>
    cases g with
    | nil => simp at h; subst h; exact absurd hc (by simp [(starts_not ht).2.2.1])
    | cons d g =>
      simp at h
      obtain ⟨rfl, h⟩ := h
      rcases hg.cons_inv with ⟨a, _⟩ | ⟨a, _⟩ | ⟨_, b⟩ | ⟨a, _⟩ | ⟨_, a, _⟩
      · subst a; exact absurd hc (by decide)
      · subst a; exact absurd hc (by decide)
      · obtain ⟨g', rfl, k1, k2⟩ := ih h b
        refine ⟨g', rfl, k1, ?_⟩
        have e : hasBrk (d :: p) = true := by simp [hasBrk, hc]
        rw [e]
        cases al <;> cases hf : (f == 0) <;> simp [hf] at k2 ⊢ <;> exact k2
      · subst a; exact absurd hc (by decide)
      · subst a; exact absurd hc (by decide)
  | @comment al com c p hn hc hp ih =>
    cases g with
    | nil => simp at h; subst h; exact absurd rfl (starts_not ht).2.2.2
    | cons d g =>
      simp at h
      obtain ⟨rfl, h⟩ := h
      rcases hg.cons_inv with ⟨a, _⟩ | ⟨a, _⟩ | ⟨a, _⟩ | ⟨_, com', c', g1, rfl, b1, b2, b3⟩ | ⟨a, _, b⟩
      · exact absurd a (by decide)
      · exact absurd a (by decide)
      · exact absurd a (by decide)
      · simp at h
        obtain ⟨rfl, rfl, h0⟩ := first_break h b1 hn b2 hc
        obtain ⟨g', rfl, k1, k2⟩ := ih h0 b3
        refine ⟨g', by simp, k1, ?_⟩
        have e : hasBrk ('#' :: (com' ++ c' :: p)) = true := by simp [hasBrk, hc]
        rw [e]
        cases al <;> cases hf : (f == 0) <;> simp [hf] at k2 ⊢ <;> exact k2
      · subst a
        simp at h
        exact (flat_no_break h b hc).elim

/-- Where white space ends is determined by the text. -/
theorem ws_unique {f : Nat} {al : Bool} {g g' t t' : Str} (h : g ++ t = g' ++ t') (hg : WsT f al g t) (hg' : WsT f al g' t') (ht : Starts t) (ht' : Starts t') :
    g = g' ∧ t = t' := by
  obtain ⟨g1, com, rfl, h1, h2⟩ := hg'
  rw [List.append_assoc] at h
  obtain ⟨k, rfl, k1, k2⟩ := ws_suffix h hg h1 ht
  rcases h2 with rfl | ⟨rfl, hc⟩
  · simp at k1
    cases k with
    | nil => simp at k1 ⊢; exact k1.symm
    | cons d k =>
      exfalso
      subst k1
      have := starts_not ht'
      rcases k2.cons_inv with ⟨a, _⟩ | ⟨a, _⟩ | ⟨a, _⟩ | ⟨a, _⟩ | ⟨_, a, _⟩
      · exact this.1 a
      · exact this.2.1 a
      · rw [this.2.2.1] at a; cases a
      · exact this.2.2.2 a
      · exact this.2.2.2 a
  · obtain ⟨x, rfl, hx⟩ := hc
    simp at k1
    cases k with
    | nil => simp at k1; subst k1; exact absurd rfl (starts_not ht).2.2.2
    | cons d k =>
      simp at k1
      obtain ⟨rfl, rfl⟩ := k1
      rcases k2.cons_inv with ⟨a, _⟩ | ⟨a, _⟩ | ⟨a, _⟩ | ⟨_, com', c', g2, rfl, b1, b2, b3⟩ | ⟨a, _⟩
      · exact absurd a (by decide)
      · exact absurd a (by decide)
      · exact absurd a (by decide)
      · have := hx c' (by simp)
        rw [b2] at this; cases this
      · subst a; simp

theorem blanks_unique {g g' t t' : Str} (h : g ++ t = g' ++ t') (hg : Blanks g) (hg' : Blanks g') (ht : Solid t) (ht' : Solid t') :
    g = g' ∧ t = t' := by
  induction g generalizing g' with
  | nil =>
    cases g' with
    | nil => exact ⟨rfl, h⟩
    | cons c g' =>
      exfalso
      simp only [List.nil_append, List.cons_append] at h
      obtain ⟨h1, h2⟩ := ht c _ h
      rcases hg' c List.mem_cons_self with rfl | h3
      · exact h1 (Or.inl rfl)
      · rw [isLineBreak_eq, h3] at h2; exact absurd h2 (by simp)
  | cons c g ih =>
    cases g' with
    | nil =>
      exfalso
      simp only [List.nil_append, List.cons_append] at h
      obtain ⟨h1, h2⟩ := ht' c _ h.symm
      rcases hg c List.mem_cons_self with rfl | h3
      · exact h1 (Or.inl rfl)
      · rw [isLineBreak_eq, h3] at h2; exact absurd h2 (by simp)
    | cons c' g' =>
      simp only [List.cons_append, List.cons.injEq] at h
      obtain ⟨rfl, h⟩ := h
      obtain ⟨h1, h2⟩ := ih h (fun c hc => hg c (List.mem_cons_of_mem _ hc)) (fun c hc => hg' c (List.mem_cons_of_mem _ hc))
      exact ⟨by rw [h1], h2⟩

theorem blanks_suffix {g t p u : Str} (h : g ++ t = p ++ u) (hp : Blanks p) (ht : Solid t) : ∃ g', g = p ++ g' ∧ u = g' ++ t := by
  induction p generalizing g with
  | nil => exact ⟨g, rfl, h.symm⟩
  | cons c p ih =>
    cases g with
    | nil =>
      exfalso
      simp only [List.nil_append, List.cons_append] at h
      obtain ⟨h1, h2⟩ := ht c _ h
      rcases hp c List.mem_cons_self with rfl | h3
      · exact h1 (Or.inl rfl)
      · rw [isLineBreak_eq, h3] at h2; exact absurd h2 (by simp)
    | cons d g =>
      simp only [List.cons_append, List.cons.injEq] at h
      obtain ⟨rfl, h⟩ := h
      obtain ⟨g', rfl, h'⟩ := ih h (fun c hc => hp c (List.mem_cons_of_mem _ hc))
      exact ⟨g', rfl, h'⟩

theorem advance_blanks (m : Mark) {a b : Str} (h : NoSplit a b) : advance m (a ++ b) = advance (advance m a) b := advance_append m a b h

theorem noSplit_of_append {g g' t : Str} (h : NoSplit g (g' ++ t)) (ht : Solid t) : NoSplit g g' := by
  rintro ⟨h1, h2⟩
  refine h ⟨h1, ?_⟩
  cases g' with
  | nil => simp at h2
  | cons c g' => exact h2

/-! ### Stale keys -/

theorem stale_mono {m m' : Mark} (hl : m.line ≤ m'.line) (hi : m.index ≤ m'.index) {ks : List SimpleKey}
    (h : (staleList m' ks).2 = none) : (staleList m ks).2 = none := by
  induction ks with
  | nil => rfl
  | cons k ks ih =>
    unfold staleList at h ⊢
    by_cases h1 : (k.possible && (decide (k.mark.line < m.line) || decide (k.mark.index + 1024 < m.index))) = true
    · have h2 : (k.possible && (decide (k.mark.line < m'.line) || decide (k.mark.index + 1024 < m'.index))) = true := by
        simp only [Bool.and_eq_true, Bool.or_eq_true, decide_eq_true_eq] at h1 ⊢
        exact ⟨h1.1, by omega⟩
      rw [if_pos h2] at h
      rw [if_pos h1]
      by_cases hr : k.required = true
      · rw [if_pos hr] at h; cases h
      · rw [if_neg hr] at h ⊢; exact ih h
    · rw [if_neg h1]
      refine ih ?_
      split at h
      · split at h
        · cases h
        · exact h
      · exact h

theorem stale_stale {m m' : Mark} (hl : m.line ≤ m'.line) (hi : m.index ≤ m'.index) {ks : List SimpleKey}
    (h : (staleList m' ks).2 = none) : staleList m' (staleList m ks).1 = staleList m' ks := by
  induction ks with
  | nil => rfl
  | cons k ks ih =>
    by_cases h1 : (k.possible && (decide (k.mark.line < m.line) || decide (k.mark.index + 1024 < m.index))) = true
    · have h2 : (k.possible && (decide (k.mark.line < m'.line) || decide (k.mark.index + 1024 < m'.index))) = true := by
        simp only [Bool.and_eq_true, Bool.or_eq_true, decide_eq_true_eq] at h1 ⊢
        exact ⟨h1.1, by omega⟩
      by_cases hr : k.required = true
      · rw [staleList, if_pos h2, if_pos hr] at h; cases h
      · have e1 : staleList m (k :: ks) = ({ k with possible := false } :: (staleList m ks).1, (staleList m ks).2) := by
          rw [staleList, if_pos h1, if_neg hr]
        have e2 : staleList m' (k :: ks) = ({ k with possible := false } :: (staleList m' ks).1, (staleList m' ks).2) := by
          rw [staleList, if_pos h2, if_neg hr]
        rw [e2] at h
        rw [e1, e2]
        rw [staleList, if_neg (by simp)]
        rw [ih h]
    · have e1 : staleList m (k :: ks) = (k :: (staleList m ks).1, (staleList m ks).2) := by
        rw [staleList, if_neg h1]
      have h' : (staleList m' ks).2 = none := by
        rw [staleList] at h
        split at h
        · split at h
          · cases h
          · exact h
        · exact h
      have h2 : ¬ ((k.possible && (decide (k.mark.line < m'.line) || decide (k.mark.index + 1024 < m'.index))) = true ∧ k.required = true) := by
        rintro ⟨h2, h3⟩
        rw [staleList, if_pos h2, if_pos h3] at h; cases h
      rw [e1]
      unfold staleList
      rw [ih h']
      by_cases h3 : k.required = true
      · rw [if_neg (fun h => h2 ⟨h, h3⟩), if_neg (fun h => h2 ⟨h, h3⟩)]
      · simp only [h3]; rfl

/-- Without a required key nothing fails. -/
theorem stale_cold {m : Mark} {ks : List SimpleKey} (h : ∀ k ∈ ks, ¬ (k.possible = true ∧ k.required = true)) : (staleList m ks).2 = none := by
  cases hs : (staleList m ks).2 with
  | none => rfl
  | some m' =>
    obtain ⟨k, hk, h1, h2, _⟩ := staleList_some hs
    exact absurd ⟨h1, h2⟩ (h k hk)

/-! ### Closing block collections -/

/-- Close the block collections indented more than `col`. -/
def unrollC (col : Int) : Int → List Int → List TokenData → Int × List Int × List TokenData
  | i, [], ts => (i, [], ts)
  | i, j :: js, ts => if i > col then unrollC col j js (ts ++ [.blockEnd]) else (i, j :: js, ts)

theorem unrollLoop_eq {col : Int} (hcol : -1 ≤ col) (m : Mark) : ∀ (is : List Int) (i : Int) (out : List TokenData) (ts : List Token),
    IndOk i is → ∃ ts', unrollLoop col m i is ts = some ((unrollC col i is (out ++ ts.map (·.data))).1, (unrollC col i is (out ++ ts.map (·.data))).2.1, ts') ∧
      (unrollC col i is (out ++ ts.map (·.data))).2.2 = out ++ ts'.map (·.data) := by
  intro is
  induction is with
  | nil =>
    intro i out ts h
    have h : i = -1 := h
    refine ⟨ts, ?_, rfl⟩
    rw [unrollLoop, if_neg (by omega)]; rfl
  | cons j js ih =>
    intro i out ts h
    unfold unrollLoop unrollC
    by_cases hc : i > col
    · rw [if_pos hc, if_pos hc]
      obtain ⟨ts', h1, h2⟩ := ih j out (ts ++ [(⟨.blockEnd, m, m⟩ : Token)]) h.2
      have e : out ++ (ts ++ [(⟨.blockEnd, m, m⟩ : Token)]).map (fun t : Token => t.data) = out ++ ts.map (·.data) ++ [.blockEnd] := by simp
      rw [e] at h1 h2
      exact ⟨ts', h1, h2⟩
    · rw [if_neg hc, if_neg hc]
      exact ⟨ts, rfl, rfl⟩

theorem unrollC_le {col : Int} {i : Int} {is : List Int} {ts : List TokenData} (h : i ≤ col) : unrollC col i is ts = (i, is, ts) := by
  cases is with
  | nil => rfl
  | cons j js => rw [unrollC, if_neg (by omega)]

theorem unrollC_twice {c : Int} (hc : -1 ≤ c) : ∀ (is : List Int) (i : Int) (ts : List TokenData),
    unrollC (-1) (unrollC c i is ts).1 (unrollC c i is ts).2.1 (unrollC c i is ts).2.2 = unrollC (-1) i is ts := by
  intro is
  induction is with
  | nil => intro i ts; rfl
  | cons j js ih =>
    intro i ts
    by_cases h : i > c
    · have e : unrollC c i (j :: js) ts = unrollC c j js (ts ++ [.blockEnd]) := by rw [unrollC, if_pos h]
      have e' : unrollC (-1) i (j :: js) ts = unrollC (-1) j js (ts ++ [.blockEnd]) := by rw [unrollC, if_pos (by omega)]
      rw [e, e']
      exact ih _ _
    · have e : unrollC c i (j :: js) ts = (i, j :: js, ts) := by rw [unrollC, if_neg h]
      rw [e]

/-! ### Configurations -/

/-- The scanner as it stands after a token. -/
structure Cfg where
  mark : Mark
  flow : Nat
  indent : Int
  indents : List Int
  allowed : Bool
  keys : List SimpleKey
  toks : List TokenData

namespace Cfg

/-- After reading white space. -/
def skip (g : Str) (A : Cfg) : Cfg := { A with mark := advance A.mark g, allowed := A.allowed || (A.flow == 0 && hasBrk g) }

/-- After `stale_simple_keys`. -/
def stale (A : Cfg) : Cfg := { A with keys := (staleList A.mark A.keys.reverse).1.reverse }

/-- After `unroll_indent`. -/
def unroll (col : Int) (A : Cfg) : Cfg :=
  if A.flow = 0 then { A with indent := (unrollC col A.indent A.indents A.toks).1, indents := (unrollC col A.indent A.indents A.toks).2.1,
                              toks := (unrollC col A.indent A.indents A.toks).2.2 }
  else A

/-- At the next token, which comes after the white space `g`. -/
def gap (g : Str) (A : Cfg) : Cfg := (A.skip g).stale.unroll (advance A.mark g).column

/-- The innermost block collection is closed. -/
def close (A : Cfg) : Cfg :=
  match A.indents with
  | [] => A
  | i :: is => { A with indent := i, indents := is, toks := A.toks ++ [.blockEnd] }

theorem unroll_unroll (A : Cfg) {c : Int} (hc : -1 ≤ c) : (A.unroll c).unroll (-1) = A.unroll (-1) := by
  unfold unroll
  by_cases hf : A.flow = 0
  · simp only [hf, if_true]
    rw [unrollC_twice hc]
  · simp only [hf, if_false]

theorem skip_skip {A : Cfg} {a b : Str} (h : NoSplit a b) : (A.skip a).skip b = A.skip (a ++ b) := by
  unfold skip
  simp only [advance_blanks _ h, hasBrk_append]
  congr 1
  cases A.allowed <;> cases (A.flow == 0) <;> simp

theorem gap_skip {A : Cfg} {a b : Str} (h : NoSplit a b) : (A.skip a).gap b = A.gap (a ++ b) := by
  unfold gap
  rw [skip_skip h]
  show _ = _
  rw [advance_blanks _ h]
  rfl

theorem unroll_close {A : Cfg} {c : Int} (hf : A.flow = 0) (hi : A.indents ≠ []) (hc : c < A.indent) : A.close.unroll c = A.unroll c := by
  obtain ⟨i, is, hi⟩ := List.exists_cons_of_ne_nil hi
  unfold close unroll
  simp only [hi, hf, if_true]
  rw [show unrollC c A.indent (i :: is) A.toks = unrollC c i is (A.toks ++ [.blockEnd]) from by rw [unrollC, if_pos hc]]

theorem close_flow (A : Cfg) : A.close.flow = A.flow := by unfold close; split <;> rfl
theorem close_mark (A : Cfg) : A.close.mark = A.mark := by unfold close; split <;> rfl
theorem close_keys (A : Cfg) : A.close.keys = A.keys := by unfold close; split <;> rfl
theorem close_allowed (A : Cfg) : A.close.allowed = A.allowed := by unfold close; split <;> rfl

theorem skip_close (A : Cfg) (g : Str) : A.close.skip g = (A.skip g).close := by
  unfold close
  have : (A.skip g).indents = A.indents := rfl
  rw [this]
  cases A.indents <;> rfl

theorem stale_close (A : Cfg) : A.close.stale = A.stale.close := by
  unfold close
  have : A.stale.indents = A.indents := rfl
  rw [this]
  cases A.indents <;> rfl

theorem gap_close {A : Cfg} {g : Str} (hf : A.flow = 0) (hi : A.indents ≠ []) (hc : ((advance A.mark g).column : Int) < A.indent) : A.close.gap g = A.gap g := by
  unfold gap
  rw [close_mark, skip_close, stale_close]
  exact unroll_close (A := (A.skip g).stale) hf hi hc

end Cfg

/-! ### The scanner and its configuration -/

/-- The scanner is in this configuration, at a token; the tokens `out` were taken from the queue. -/
structure Here (out : List TokenData) (A : Cfg) (s : SState) : Prop where
  op : SOpen s
  mark : s.mark = A.mark
  flow : s.flowLevel = A.flow
  indent : s.indent = A.indent
  indents : s.indents = A.indents
  allowed : s.simpleKeyAllowed = A.allowed
  keys : s.simpleKeys = A.keys
  toks : A.toks = out ++ s.tokens.map (·.data)
  parsed : s.tokensParsed = out.length

/-- The configuration belongs to the position before `t`; the scanner may have read white space up to `u`. -/
structure Ahead (out : List TokenData) (A : Cfg) (t : Str) (s : SState) (u : Str) : Prop where
  op : SOpen s
  adv : Adv A.mark t s.mark u
  gap : ∃ g, t = g ++ u ∧ Ws A.flow A.allowed g ∧ s.simpleKeyAllowed = (A.allowed || (A.flow == 0 && hasBrk g))
  flow : s.flowLevel = A.flow
  indent : s.indent = A.indent
  indents : s.indents = A.indents
  keys : ∀ m, Spec.le s.mark m → (staleList m A.keys.reverse).2 = none → staleList m s.simpleKeys.reverse = staleList m A.keys.reverse
  toks : A.toks = out ++ s.tokens.map (·.data)
  parsed : s.tokensParsed = out.length

/-- The next token in `t` stands at the end of the text or is a document marker or a directive. -/
def Bound (m : Mark) (t : Str) : Prop := t = [] ∨ ((IsDocMarker t ∨ t.head? = some '%') ∧ m.column = 0)

/-- The same situation described as the configuration `V` before `t`. -/
inductive View : Cfg → Str → Cfg → Str → Prop
  | refl (A : Cfg) (t : Str) : View A t A t
  | skip {A V : Cfg} {t g t' : Str} (h : View A t V (g ++ t')) (hg : Ws V.flow V.allowed g) (hs : NoSplit g t') : View A t (V.skip g) t'
  | close {A V : Cfg} {t t' : Str} (h : View A t V t') (hf : V.flow = 0) (hi : V.indents ≠ []) (h0 : 0 ≤ V.indent)
      (hc : ∀ g t'', t' = g ++ t'' → WsT V.flow V.allowed g t'' → Starts t'' →
        ((advance V.mark g).column : Int) < V.indent ∨ Bound (advance V.mark g) t'') : View A t V.close t'

theorem View.spec {A V : Cfg} {t t' : Str} (h : View A t V t') {g t'' : Str} (ht : t' = g ++ t'') (hg : WsT V.flow V.allowed g t'') (hs : Starts t'') :
    ∃ g0, t = g0 ++ t'' ∧ WsT A.flow A.allowed g0 t'' ∧ V.flow = A.flow ∧ V.keys = A.keys ∧ advance V.mark g = advance A.mark g0 ∧
      (A.gap g0).unroll (-1) = (V.gap g).unroll (-1) ∧ (¬ Bound (advance V.mark g) t'' → A.gap g0 = V.gap g) := by
  induction h generalizing g with
  | refl => exact ⟨g, ht, hg, rfl, rfl, rfl, rfl, fun _ => rfl⟩
  | @skip V t g' t' h hg' hs' ih =>
    subst ht
    have hns := noSplit_of_append hs' hs.solid
    obtain ⟨g0, h1, h2, h3, h4, h5, h6, h7⟩ := ih (g := g' ++ g) (by simp) (hg'.appendT hg)
    refine ⟨g0, h1, h2, h3, h4, ?_, ?_, ?_⟩
    · rw [← h5, advance_blanks _ hns]; rfl
    · rw [h6, Cfg.gap_skip hns]
    · intro hb
      rw [h7 ?_, Cfg.gap_skip hns]
      rw [advance_blanks _ hns]; exact hb
  | @close V t t' h hf hi h0 hc ih =>
    obtain ⟨g0, h1, h2, h3, h4, h5, h6, h7⟩ := ih ht (by rw [Cfg.close_flow, Cfg.close_allowed] at hg; exact hg)
    refine ⟨g0, h1, h2, by rw [Cfg.close_flow, h3], by rw [Cfg.close_keys, h4], by rw [Cfg.close_mark, h5], ?_, ?_⟩
    · rw [h6]
      unfold Cfg.gap
      rw [Cfg.unroll_unroll _ (by omega), Cfg.unroll_unroll _ (by omega), Cfg.skip_close, Cfg.stale_close]
      exact (Cfg.unroll_close (A := (V.skip g).stale) hf hi (by show -1 < V.indent; omega)).symm
    · intro hb
      rw [Cfg.close_mark] at hb
      rw [h7 hb]
      rcases hc g t'' ht (by rw [Cfg.close_flow, Cfg.close_allowed] at hg; exact hg) hs with h | h
      · exact (Cfg.gap_close hf hi h).symm
      · exact absurd h hb

/-- The scanner is in configuration `V` before `t` and has read up to `u`. -/
def At (out : List TokenData) (V : Cfg) (t : Str) (s : SState) (u : Str) : Prop :=
  ∃ A t0, Ahead out A t0 s u ∧ View A t0 V t

theorem At.skip {out : List TokenData} {V : Cfg} {g t u : Str} {s : SState} (h : At out V (g ++ t) s u) (hg : Ws V.flow V.allowed g) (hs : NoSplit g t) :
    At out (V.skip g) t s u := by
  obtain ⟨A, t0, h1, h2⟩ := h
  exact ⟨A, t0, h1, h2.skip hg hs⟩

/-! ### The white space before a token -/

section
variable {P : PanicSite → Prop} {E : Err → SState → Txt → Prop} {s : SState} {e : Encoding}

theorem split_ws {f : Nat} {al : Bool} {t : Str} : ∀ (g : Str), WsT f al g t → ∃ k com g', g = k ++ (com ++ g') ∧
    (∀ c ∈ k, c = ' ' ∨ ((f ≠ 0 ∨ al = false) ∧ c = '\t')) ∧ (com = [] ∨ LastComment com) ∧
    ((g' = [] ∧ (com = [] ∨ t = [])) ∨ ∃ c r, g' = c :: r ∧ isBreak c = true ∧ WsT f (al || f == 0) r t)
  | [], _ => ⟨[], [], [], rfl, by simp, Or.inl rfl, Or.inl ⟨rfl, Or.inl rfl⟩⟩
  | d :: g, h => by
    rcases h.cons_inv with ⟨rfl, b⟩ | ⟨rfl, a, b⟩ | ⟨a, b⟩ | ⟨rfl, com, c, g1, rfl, b1, b2, b3⟩ | ⟨rfl, rfl, a⟩
    · obtain ⟨k, com, g', rfl, h1, h2, h3⟩ := split_ws g b
      refine ⟨' ' :: k, com, g', rfl, ?_, h2, h3⟩
      intro c hc
      rcases List.mem_cons.1 hc with rfl | hc
      · exact Or.inl rfl
      · exact h1 c hc
    · obtain ⟨k, com, g', rfl, h1, h2, h3⟩ := split_ws g b
      refine ⟨'\t' :: k, com, g', rfl, ?_, h2, h3⟩
      intro c hc
      rcases List.mem_cons.1 hc with rfl | hc
      · exact Or.inr ⟨a, rfl⟩
      · exact h1 c hc
    · exact ⟨[], [], d :: g, rfl, by simp, Or.inl rfl, Or.inr ⟨d, g, rfl, a, b⟩⟩
    · exact ⟨[], '#' :: com, c :: g1, by simp, by simp, Or.inr ⟨com, rfl, b1⟩, Or.inr ⟨c, g1, rfl, b2, b3⟩⟩
    · exact ⟨[], '#' :: g, [], by simp, by simp, Or.inr ⟨g, rfl, a⟩, Or.inl ⟨rfl, Or.inr rfl⟩⟩

theorem wpT_comment {F : Nat} {com rest : Str} {Q : Unit → SState → Txt → Prop}
    (h : (com = [] ∧ rest.head? ≠ some '#') ∨ (LastComment com ∧ isBreakzO rest.head? = true)) (hF : com.length < F)
    (hQ : ∀ s', Mv s (com ++ rest) s' rest → Q () s' ⟨rest, e⟩) :
    if ((com ++ rest).head? == some '#') = true then M.wp stepT P E (skipWhile F fun c => !isBreakzO c) Q s ⟨com ++ rest, e⟩ else Q () s ⟨com ++ rest, e⟩ := by
  rcases h with ⟨rfl, h⟩ | ⟨⟨x, rfl, hx⟩, h⟩
  · have e1 : (([] ++ rest).head? == some '#') = false := by simpa using h
    rw [e1]
    exact hQ _ (Mv.refl _ _)
  · have e1 : (('#' :: x ++ rest).head? == some '#') = true := by simp
    rw [e1]
    simp only [if_true]
    refine wpT_skipWhile (pre := '#' :: x) (rest := rest) ?_ (by simp [h]) hF hQ
    intro c hc
    have : isBreak c = false := by
      rcases List.mem_cons.1 hc with rfl | hc
      · decide
      · exact hx c hc
    simp [isBreakzO, this]

theorem wpT_toNext {F : Nat} {g t : Str} {Q : Unit → SState → Txt → Prop} (hg : WsT s.flowLevel s.simpleKeyAllowed g t) (ht : Starts t) (hF : g.length + 1 < F)
    (hQ : ∀ s', s' = { s with mark := s'.mark, simpleKeyAllowed := s.simpleKeyAllowed || (s.flowLevel == 0 && hasBrk g) } →
      Adv s.mark (g ++ t) s'.mark t → Q () s' ⟨t, e⟩) :
    M.wp stepT P E (scanToNextToken F) Q s ⟨g ++ t, e⟩ := by
  unfold scanToNextToken
  have gen : ∀ (n : Nat) (g : Str) (s : SState), g.length ≤ n → WsT s.flowLevel s.simpleKeyAllowed g t → g.length + 1 < F → ∀ (N : Nat), g.length < N →
      (∀ s', s' = { s with mark := s'.mark, simpleKeyAllowed := s.simpleKeyAllowed || (s.flowLevel == 0 && hasBrk g) } →
        Adv s.mark (g ++ t) s'.mark t → Q () s' ⟨t, e⟩) →
      M.wp stepT P E (M.loop N (fun (_ : Unit) => do
        cache 1
        let c ← at_ 0
        let s ← M.get
        M.when (s.mark.column == 0 && isBomO c) skipChar
        cache 1
        let s ← M.get
        skipWhile F fun c => c == some ' ' || ((s.flowLevel != 0 || !s.simpleKeyAllowed) && c == some '\t')
        let c ← at_ 0
        M.when (c == some '#') (skipWhile F fun c => !isBreakzO c)
        let c ← at_ 0
        if !isBreakO c then pure (.inr ())
        else do
          cache 2
          skipLineBreak
          M.when (s.flowLevel == 0) (allowSimpleKey true)
          pure (.inl ())) ()) Q s ⟨g ++ t, e⟩ := by
    intro n
    induction n with
    | zero =>
      intro g s hn hg hF N hN hQ
      obtain rfl : g = [] := List.length_eq_zero_iff.1 (by omega)
      obtain ⟨N, rfl⟩ : ∃ k, N = k + 1 := ⟨N - 1, by omega⟩
      rw [M.wp_loop_succ]
      have hb0 : isBomO ([] ++ t : Str)[0]? = false := by
        simp only [List.nil_append, ← List.head?_eq_getElem?, isBomO]
        simpa using ht.bom
      simp only [M.wp_bind, wpT_cache, wpT_at, M.wp_get, M.wp_when, hb0, Bool.and_false, Bool.false_eq_true, if_false]
      refine wpT_skipWhile (pre := []) (rest := t) (by simp) ?_ (by simp; omega) fun s1 h1 => ?_
      · cases t with
        | nil => simp
        | cons c r =>
          have := (ht.solid c r rfl).1
          simp only [IsBlank, not_or] at this
          simp [this]
      have h0 : t[0]? = t.head? := List.head?_eq_getElem?.symm
      have hsh : (t.head? == some '#') = false := by simpa using ht.sharp
      have hnb : isBreakO t.head? = false := by
        cases t with
        | nil => rfl
        | cons c r => have := (ht.solid c r rfl).2; rw [isLineBreak_eq] at this; exact this
      simp only [M.wp_bind, wpT_at, h0, hsh, M.wp_when, Bool.false_eq_true, if_false, hnb, Bool.not_false, if_true, M.wp_pure, M.next_inr]
      refine hQ s1 ?_ h1.2
      rw [h1.1]; simp [hasBrk]
    | succ n ih =>
      intro g s hn hg hF N hN hQ
      obtain ⟨N, rfl⟩ : ∃ k, N = k + 1 := ⟨N - 1, by omega⟩
      obtain ⟨k, com, g', rfl, hk, hcom, hg'⟩ := split_ws g hg
      rw [M.wp_loop_succ]
      -- the first character of the rest after the blanks
      have hhead : ∀ c, (com ++ (g' ++ t)).head? = some c → c ≠ ' ' ∧ c ≠ '\t' ∧ c ≠ '\uFEFF' := by
        intro c hc
        rcases hcom with rfl | ⟨x, rfl, _⟩
        · rcases hg' with ⟨rfl, _⟩ | ⟨d, r, rfl, hd, _⟩
          · cases t with
            | nil => simp at hc
            | cons y r =>
              simp at hc; subst hc
              have := starts_not ht
              refine ⟨this.1, this.2.1, ?_⟩
              rintro rfl; exact ht.bom rfl
          · simp at hc; subst hc
            refine ⟨?_, ?_, ?_⟩ <;> rintro rfl <;> exact absurd hd (by decide)
        · simp at hc; subst hc
          refine ⟨?_, ?_, ?_⟩ <;> decide
      have hb0 : isBomO (k ++ (com ++ g') ++ t)[0]? = false := by
        cases k with
        | cons d k =>
          rcases hk d List.mem_cons_self with rfl | ⟨_, rfl⟩ <;> simp [isBomO]
        | nil =>
          have e : ([] ++ (com ++ g') ++ t : Str)[0]? = (com ++ (g' ++ t)).head? := by rw [← List.head?_eq_getElem?]; simp
          rw [e]
          cases hx : (com ++ (g' ++ t)).head? with
          | none => rfl
          | some c =>
            have := (hhead c hx).2.2
            simp [isBomO, this]
      simp only [M.wp_bind, wpT_cache, wpT_at, M.wp_get, M.wp_when, hb0, Bool.and_false, Bool.false_eq_true, if_false]
      have ea : k ++ (com ++ g') ++ t = k ++ (com ++ (g' ++ t)) := by simp
      rw [ea]
      have hr0 : ∀ (p : Bool), (((com ++ (g' ++ t)).head? == some ' ') || (p && (com ++ (g' ++ t)).head? == some '\t')) = false := by
        intro p
        cases hx : (com ++ (g' ++ t)).head? with
        | none => simp
        | some c => have := hhead c hx; simp [this.1, this.2.1]
      refine wpT_skipWhile (pre := k) (rest := com ++ (g' ++ t)) ?_ (hr0 _) (by simp at hF ⊢; omega) fun s1 h1 => ?_
      · intro c hc; rcases hk c hc with rfl | ⟨hf, rfl⟩
        · exact ⟨by simp, by decide⟩
        · refine ⟨?_, by decide⟩
          rcases hf with hf | hf <;> simp [hf]
      have hfl : s1.flowLevel = s.flowLevel := h1.flowLevel
      have hkb : hasBrk k = false := by
        simp only [hasBrk, List.any_eq_false]
        intro c hc; rcases hk c hc with rfl | ⟨_, rfl⟩ <;> decide
      have hcb : hasBrk com = false := by
        rcases hcom with rfl | h
        · rfl
        · exact h.flat
      have h0 : ∀ l : Str, l[0]? = l.head? := fun l => List.head?_eq_getElem?.symm
      simp only [M.wp_bind, wpT_at, h0]
      refine wpT_comment (com := com) (rest := g' ++ t) ?_ (by simp at hF ⊢; omega) fun s2 h2 => ?_
      · rcases hcom with rfl | h
        · refine Or.inl ⟨rfl, ?_⟩
          rcases hg' with ⟨rfl, _⟩ | ⟨d, r, rfl, hd, _⟩
          · exact ht.sharp
          · intro h; simp at h; subst h; exact absurd hd (by decide)
        · refine Or.inr ⟨h, ?_⟩
          rcases hg' with ⟨rfl, h' | rfl⟩ | ⟨d, r, rfl, hd, _⟩
          · subst h'; obtain ⟨x, hx, _⟩ := h; cases hx
          · rfl
          · exact hd
      have h12 : Mv s (k ++ (com ++ (g' ++ t))) s2 (g' ++ t) := h1.trans h2
      rcases hg' with ⟨rfl, _⟩ | ⟨c, r, rfl, hc, hr⟩
      · have hnb : isBreakO t.head? = false := by
          cases t with
          | nil => rfl
          | cons c r => have := (ht.solid c r rfl).2; rw [isLineBreak_eq] at this; exact this
        simp only [List.nil_append, hnb, Bool.not_false, if_true, M.wp_pure, M.next_inr]
        refine hQ s2 ?_ ?_
        · have e0 : hasBrk (k ++ (com ++ [])) = false := by rw [List.append_nil, hasBrk_append, hkb, hcb]; rfl
          rw [h12.1, e0]; simp
        · simpa using h12.2
      · simp only [List.cons_append, List.head?_cons, isBreakO, hc, Bool.not_true, Bool.false_eq_true, if_false, M.wp_bind, wpT_cache]
        -- the break
        obtain ⟨d, u, hbr, g2, rfl, hg2, hlen⟩ : ∃ d u, BreakAt (c :: (r ++ t)) d u ∧ ∃ g2, u = g2 ++ t ∧
            WsT s.flowLevel (s.simpleKeyAllowed || s.flowLevel == 0) g2 t ∧ g2.length ≤ r.length := by
          by_cases hcr : c = '\r' ∧ (r ++ t).head? = some '\n'
          · obtain ⟨rfl, hh⟩ := hcr
            cases r with
            | nil => exact absurd hh (solid_noLf ht.solid)
            | cons x r =>
              simp at hh; subst hh
              refine ⟨_, _, .crlf _, r, rfl, ?_, by simp⟩
              rcases hr.cons_inv with ⟨a, _⟩ | ⟨a, _⟩ | ⟨_, b⟩ | ⟨a, _⟩ | ⟨_, a, _⟩
              · exact absurd a (by decide)
              · exact absurd a (by decide)
              · rw [Bool.or_assoc, Bool.or_self] at b; exact b
              · exact absurd a (by decide)
              · exact absurd a (by decide)
          · exact ⟨_, _, .one c _ (by rw [isLineBreak_eq]; exact hc) hcr, r, rfl, hr, Nat.le_refl _⟩
        refine wpT_skipLineBreak hbr fun s3 h3 _ _ => ?_
        have hfl : s2.flowLevel = s.flowLevel := h12.flowLevel
        have hal : s2.simpleKeyAllowed = s.simpleKeyAllowed := by rw [h12.1]
        have hal3 : s3.simpleKeyAllowed = s.simpleKeyAllowed := by rw [h3.1]; exact hal
        have hbk : hasBrk (k ++ (com ++ c :: r)) = true := by simp [hasBrk, hc]
        have hle : g2.length + 1 ≤ (k ++ (com ++ c :: r)).length := by simp; omega
        rw [M.wp_when]
        by_cases hf : s.flowLevel = 0
        · simp only [hf, beq_self_eq_true, if_true, allowSimpleKey, M.wp_modify, M.wp_pure, M.next_inl]
          refine ih g2 _ (by omega) ?_ (by omega) N (by omega) fun s4 e4 a4 => ?_
          · show WsT s3.flowLevel true g2 t
            rw [h3.flowLevel, hfl]; simpa [hf] using hg2
          · refine hQ s4 ?_ ?_
            · rw [e4, h3.1, h12.1]; simp [hf, hbk]
            · have := h12.2.trans (h3.2.trans a4)
              simpa [List.append_assoc] using this
        · have hf' : (s.flowLevel == 0) = false := by simpa using hf
          simp only [hf', Bool.false_eq_true, if_false, M.wp_pure, M.next_inl]
          refine ih g2 _ (by omega) ?_ (by omega) N (by omega) fun s4 e4 a4 => ?_
          · rw [h3.flowLevel, hfl, hal3]; simpa [hf'] using hg2
          · refine hQ s4 ?_ ?_
            · rw [e4, h3.1, h12.1]; simp [hf']
            · have := h12.2.trans (h3.2.trans a4)
              simpa [List.append_assoc] using this
  exact gen g.length g s (Nat.le_refl _) hg hF F (by omega) hQ

end

end Yaml.Lx
