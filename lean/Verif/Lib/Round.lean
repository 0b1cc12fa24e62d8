import Verif.Lib.Lexeme6

/-
Reading back, scanner side: one token at a time in a configuration whose possible keys are not
required.
-/

namespace Yaml.Lx
open Yaml Scanner Spec
set_option linter.unusedSimpArgs false
set_option linter.unusedVariables false

/-! ### White space and marks -/

theorem advance_line (m : Mark) (g : Str) : m.line ≤ (advance m g).line := by
  have := advance_mono m g; omega

theorem advance_index (m : Mark) (g : Str) : m.index ≤ (advance m g).index := by
  have := advance_mono m g; omega

theorem hasBrk_cons (c : Char) (g : Str) : hasBrk (c :: g) = (isBreak c || hasBrk g) := rfl
theorem hasBrk_nil : hasBrk [] = false := rfl
theorem hasBrk_false {g : Str} (h : ∀ c ∈ g, isBreak c = false) : hasBrk g = false := by
  simp only [hasBrk, List.any_eq_false]
  intro c hc; rw [h c hc]; simp

theorem advance_brk (m : Mark) (g : Str) (h : hasBrk g = true) : m.line < (advance m g).line := by
  induction hn : g.length using Nat.strongRecOn generalizing m g with
  | _ n ih =>
    cases g with
    | nil => cases h
    | cons c r =>
      by_cases hc : c = '\r' ∧ r.head? = some '\n'
      · obtain ⟨rfl, h'⟩ := hc
        cases r with
        | nil => simp at h'
        | cons d r =>
          simp at h'; subst h'
          rw [advance_crlf]
          have := advance_line (newlineMark 2 m) r
          have e : (newlineMark 2 m).line = m.line + 1 := rfl
          omega
      · rw [advance_cons _ _ _ hc]
        cases hb : isBreak c with
        | true =>
          have := advance_line (newlineMark (lenUtf8 c) m) r
          simp [newlineMark] at this ⊢; omega
        | false =>
          rw [hasBrk_cons, hb] at h
          have := ih r.length (by simp at hn; omega) (bumpMark c m) r (by simpa using h) rfl
          simpa [bumpMark] using this

/-- Text without line breaks stays on the line. -/
theorem advance_flat (m : Mark) (g : Str) (h : ∀ c ∈ g, isBreak c = false) :
    (advance m g).line = m.line ∧ (advance m g).column = m.column + g.length ∧ (advance m g).index ≤ m.index + strLen g := by
  induction g generalizing m with
  | nil => exact ⟨rfl, rfl, by simp [advance, strLen]⟩
  | cons c r ih =>
    have hc := h c List.mem_cons_self
    rw [advance_cons _ _ _ (by rintro ⟨rfl, _⟩; revert hc; decide)]
    obtain ⟨h1, h2, h3⟩ := ih (bumpMark c m) (fun x hx => h x (List.mem_cons_of_mem _ hx))
    simp only [hc, Bool.false_eq_true, if_false]
    refine ⟨by rw [h1]; rfl, by rw [h2]; simp [bumpMark]; omega, ?_⟩
    have e : (bumpMark c m).index = m.index + lenUtf8 c := rfl
    simp only [strLen]
    omega

/-! ### Keys -/

/-- The simple keys are in order and none is required. -/
structure Cool (A : Cfg) : Prop where
  len : A.keys.length = A.flow + 1
  key : ∀ k ∈ A.keys, k.possible = true → k.required = false ∧ k.mark.line ≤ A.mark.line

/-- The current simple key is impossible. -/
def Dead (A : Cfg) : Prop := ∀ k ks, A.keys = k :: ks → k.possible = false

/-- At a token after the white space `g`. -/
def Cfg.to (g : Str) (A : Cfg) : Cfg := (A.skip g).stale

section
variable {A : Cfg} {F : Nat}

theorem Cool.hot (h : Cool A) : A.hot = false := by
  unfold Cfg.hot
  cases hk : A.keys with
  | nil => rfl
  | cons k ks =>
    simp only [Bool.and_eq_false_iff]
    cases hp : k.possible with
    | false => exact Or.inl rfl
    | true => exact Or.inr (h.key k (by rw [hk]; simp) hp).1

theorem Cool.cold (h : Cool A) (m : Mark) : (staleList m A.keys.reverse).2 = none :=
  stale_cold fun k hk ⟨h1, h2⟩ => by
    have := (h.key k (List.mem_reverse.1 hk) h1).1
    rw [h2] at this; cases this

theorem keySub_cool {ks ks' : List SimpleKey} (h : KeySub ks ks') : ∀ k ∈ ks, k.possible = true → k ∈ ks' := by
  induction h with
  | nil => intro k hk; cases hk
  | keep x _ ih =>
    intro k hk hp
    rcases List.mem_cons.1 hk with rfl | hk
    · exact List.mem_cons_self
    · exact List.mem_cons_of_mem _ (ih k hk hp)
  | drop x _ ih =>
    intro k hk hp
    rcases List.mem_cons.1 hk with rfl | hk
    · simp at hp
    · exact List.mem_cons_of_mem _ (ih k hk hp)

theorem to_sub (A : Cfg) (g : Str) : KeySub (A.to g).keys A.keys := by
  have := (staleList_sub (advance A.mark g) A.keys.reverse).reverse
  simpa [Cfg.to, Cfg.stale, Cfg.skip] using this

theorem Cool.to (h : Cool A) (g : Str) : Cool (A.to g) := by
  refine ⟨?_, ?_⟩
  · have := (to_sub A g).length
    rw [this]; exact h.len
  · intro k hk hp
    obtain ⟨h1, h2⟩ := h.key k (keySub_cool (to_sub A g) k hk hp) hp
    exact ⟨h1, Nat.le_trans h2 (advance_line _ _)⟩

/-- A line break ends all keys. -/
theorem Cool.brk (h : Cool A) {g : Str} (hb : hasBrk g = true) : ∀ k ∈ (A.to g).keys, k.possible = false := by
  intro k hk
  cases hp : k.possible with
  | false => rfl
  | true =>
    exfalso
    have h1 := (h.key k (keySub_cool (to_sub A g) k hk hp) hp).2
    have h2 := staleList_none (h.cold (advance A.mark g)) k (by simpa [Cfg.to, Cfg.stale, Cfg.skip] using hk) hp
    have := advance_brk A.mark g hb
    omega

theorem Cool.dead (h : Cool A) {g : Str} (hb : hasBrk g = true) : Dead (A.to g) := by
  intro k ks hk; exact h.brk hb k (by rw [hk]; simp)

theorem Dead.to (h : Dead A) (g : Str) : Dead (A.to g) := by
  intro k ks hk
  have hs := to_sub A g
  cases hp : k.possible with
  | false => rfl
  | true =>
    rw [hk] at hs
    cases hA : A.keys with
    | nil => rw [hA] at hs; cases hs
    | cons k' ks' =>
      have hd := h k' ks' hA
      rw [hA] at hs
      cases hs with
      | keep => rw [hp] at hd; cases hd
      | drop => simp at hp

theorem Cool.nonempty (h : Cool A) : ∃ k ks, A.keys = k :: ks := by
  have := h.len
  cases hk : A.keys with
  | nil => rw [hk] at this; simp at this
  | cons k ks => exact ⟨k, ks, rfl⟩

theorem Cool.clear (h : Cool A) : Cool A.clear ∧ Dead A.clear := by
  obtain ⟨k, ks, hk⟩ := h.nonempty
  refine ⟨⟨?_, ?_⟩, ?_⟩
  · have := h.len; simp only [Cfg.clear, hk] at this ⊢; simpa using this
  · intro x hx hp
    simp only [Cfg.clear, hk] at hx
    rcases List.mem_cons.1 hx with rfl | hx
    · simp at hp
    · exact h.key x (by rw [hk]; exact List.mem_cons_of_mem _ hx) hp
  · intro x xs hx
    simp only [Cfg.clear, hk, List.cons.injEq] at hx
    rw [← hx.1]

theorem Cool.save (h : Cool A) (hi : A.allowed = true → A.flow = 0 → A.indent ≠ A.mark.column) : Cool A.save := by
  unfold Cfg.save
  split
  · rename_i ha
    refine ⟨?_, ?_⟩
    · have := h.len
      simp only [List.length_cons, List.length_tail]
      omega
    · intro k hk hp
      rcases List.mem_cons.1 hk with rfl | hk
      · refine ⟨?_, Nat.le_refl _⟩
        simp only [Cfg.key, Bool.and_eq_false_iff, beq_eq_false_iff_ne]
        by_cases hf : A.flow = 0
        · exact Or.inr (hi ha hf)
        · exact Or.inl hf
      · exact h.key k (List.mem_of_mem_tail hk) hp
  · exact h

theorem Cool.same (h : Cool A) {B : Cfg} (hk : B.keys = A.keys) (hf : B.flow = A.flow) (hm : A.mark.line ≤ B.mark.line) : Cool B :=
  ⟨by rw [hk, hf]; exact h.len, fun k hk' hp => by
    rw [hk] at hk'
    exact ⟨(h.key k hk' hp).1, Nat.le_trans (h.key k hk' hp).2 hm⟩⟩

theorem Cool.eat (h : Cool A) (w : Str) : Cool (A.eat w) := h.same rfl rfl (advance_line _ _)

theorem Cool.down (h : Cool A) : Cool A.down ∧ Dead A.down := by
  refine ⟨⟨?_, ?_⟩, ?_⟩
  · have := h.len; simp only [Cfg.down, List.length_cons]; omega
  · intro k hk hp
    rcases List.mem_cons.1 hk with rfl | hk
    · exact absurd hp (by decide)
    · exact h.key k hk hp
  · intro k ks hk
    simp only [Cfg.down, List.cons.injEq] at hk
    rw [← hk.1]; rfl

theorem Cool.up (h : Cool A) (hf : A.flow ≠ 0) : Cool A.up := by
  refine ⟨?_, ?_⟩
  · have := h.len; simp only [Cfg.up, List.length_tail]; omega
  · intro k hk hp; exact h.key k (List.mem_of_mem_tail hk) hp

/-! ### One token -/

theorem unroll_le {A : Cfg} {c : Int} (h : A.flow = 0 → A.indent ≤ c) : A.unroll c = A := by
  unfold Cfg.unroll
  split
  · rename_i hf; rw [unrollC_le (h hf)]
  · rfl

/-- Reading one token. -/
theorem Reach.oneW {C : Cfg} {g t t' : Str} (hg : Ws A.flow A.allowed g) (hst : Starts t) (hne : t ≠ []) (hb : ¬ Bound (advance A.mark g) t)
    (hs : (staleList (advance A.mark g) A.keys.reverse).2 = none) (hi : A.flow = 0 → A.indent ≤ ((advance A.mark g).column : Int))
    (h : Lex F (A.to g) t C t') : Reach F A (g ++ t) C t' := by
  refine .fetch ⟨g, t, rfl, hg, hst, hne, hs, ?_⟩ (.refl _ _)
  intro A1 _ h2 _ _ _ _
  rw [h2 hb]
  have : A.gap g = A.to g := unroll_le (A := (A.skip g).stale) hi
  rw [this]; exact h

theorem Reach.one {C : Cfg} {g t t' : Str} (hg : Blanks g) (hst : Starts t) (hne : t ≠ []) (hb : ¬ Bound (advance A.mark g) t)
    (hs : (staleList (advance A.mark g) A.keys.reverse).2 = none) (hi : A.flow = 0 → A.indent ≤ ((advance A.mark g).column : Int))
    (h : Lex F (A.to g) t C t') : Reach F A (g ++ t) C t' :=
  Reach.oneW hg.ws hst hne hb hs hi h

end

theorem notBound {m : Mark} {c : Char} {t : Str} (hc : c ≠ '-') (hc' : c ≠ '.') (hp : c ≠ '%') : ¬ Bound m (c :: t) := by
  rintro (h | ⟨h | h, _⟩)
  · cases h
  · obtain ⟨r, h | h, _⟩ := h
    · simp at h; exact hc h.1
    · simp at h; exact hc' h.1
  · simp at h; exact hp h

theorem starts_cons {c : Char} {t : Str} (h1 : c ≠ ' ') (h2 : c ≠ '\t') (h3 : isBreak c = false) (h4 : c ≠ '#') (h5 : c ≠ '\uFEFF') : Starts (c :: t) := by
  refine ⟨?_, by simpa using h4, by simpa using h5⟩
  intro x r hx
  simp at hx
  obtain ⟨rfl, rfl⟩ := hx
  refine ⟨?_, by rw [isLineBreak_eq]; exact h3⟩
  rintro (h | h)
  · exact h1 h
  · exact h2 h

end Yaml.Lx
