import Verif.Lib.JsonLex
import Verif.Lib.Round16

/-
Reading JSON, scanner side: strings, numbers and white space as lexemes.
-/

namespace Yaml.Lx
open Yaml Scanner Spec
set_option linter.unusedSimpArgs false
set_option linter.unusedVariables false

/-! ### Strings -/

theorem Body.glue {b t v t' : Str} (hb : ∀ c ∈ b, c = ' ') (ht : Solid t) (h : Body false t v t') : Body false (b ++ t) (b ++ v) t' := by
  by_cases hn : b = []
  · subst hn; exact h
  · exact .blanks (fun c hc => Or.inl (hb c hc)) hn ht h

theorem jsonChars_body {t v : Str} (h : JsonChars t v) (rest : Str) :
    ∃ b t1 v1, t = b ++ t1 ∧ v = b ++ v1 ∧ (∀ c ∈ b, c = ' ') ∧ Solid (t1 ++ '"' :: rest) ∧ Body false (t1 ++ '"' :: rest) v1 ('"' :: rest) := by
  have solid : ∀ {c : Char} {r : Str}, c ≠ ' ' → c ≠ '\t' → isLineBreak c = false → Solid (c :: r) := by
    intro c r h1 h2 h3 x y hx
    cases hx
    exact ⟨by rintro (h | h); exact h1 h; exact h2 h, h3⟩
  induction h with
  | nil => exact ⟨[], [], [], rfl, rfl, by simp, solid (by decide) (by decide) (by decide), .done _⟩
  | @raw c t v hc hb ht ih =>
    obtain ⟨b, t1, v1, rfl, rfl, h1, h2, h3⟩ := ih
    by_cases hs : c = ' '
    · subst hs
      refine ⟨' ' :: b, t1, v1, rfl, rfl, ?_, h2, h3⟩
      intro x hx
      rcases List.mem_cons.1 hx with rfl | hx
      · rfl
      · exact h1 x hx
    · have ht : c ≠ '\t' := by rintro rfl; exact absurd hc.1 (by decide)
      refine ⟨[], c :: (b ++ t1), c :: (b ++ v1), rfl, rfl, by simp, solid hs ht hb, ?_⟩
      refine .char c (by rintro (h | h); exact hs h; exact ht h) hb hc.2.1 (fun _ => hc.2.2) ?_
      have := Body.glue h1 h2 h3
      simpa using this
  | @escape e n t v he ht ih =>
    obtain ⟨b, t1, v1, rfl, rfl, h1, h2, h3⟩ := ih
    refine ⟨[], '\\' :: e :: (b ++ t1), Char.ofNat n :: (b ++ v1), rfl, rfl, by simp, solid (by decide) (by decide) (by decide), ?_⟩
    have hx : Escape [e] (Char.ofNat n) := .simple (by
      simp only [jsonEscapes, List.mem_cons, Prod.mk.injEq, List.not_mem_nil, or_false] at he
      simp only [escapes, List.mem_cons, Prod.mk.injEq, List.not_mem_nil, or_false]
      rcases he with he | he | he | he | he | he | he | he <;> simp [he])
    have := Body.escape rfl hx (Body.glue h1 h2 h3)
    simpa using this
  | @code ds t v n hl hn hs ht ih =>
    obtain ⟨b, t1, v1, rfl, rfl, h1, h2, h3⟩ := ih
    refine ⟨[], '\\' :: 'u' :: (ds ++ (b ++ t1)), Char.ofNat n :: (b ++ v1), rfl, rfl, by simp, solid (by decide) (by decide) (by decide), ?_⟩
    have hx : Escape ('u' :: ds) (Char.ofNat n) := .code (k := 4) (by simp [codes]) hl hn hs
    have := Body.escape rfl hx (Body.glue h1 h2 h3)
    simpa using this

theorem jsonString_quoted {w v : Str} (h : JsonString w v) (rest : Str) : Quoted false (w ++ rest) v rest := by
  obtain ⟨t, rfl, ht⟩ := h
  obtain ⟨b, t1, v1, rfl, rfl, h1, h2, h3⟩ := jsonChars_body ht rest
  refine ⟨(b ++ t1) ++ '"' :: rest, by simp [quote], ?_, by simp⟩
  have := Body.glue h1 h2 h3
  simpa [quote] using this

theorem hexDigit_flat {c : Char} {n : Nat} (h : HexDigit c n) : isBreak c = false := by
  cases hb : isBreak c with
  | false => rfl
  | true =>
    exfalso
    have : ¬ (48 ≤ c.toNat ∧ c.toNat ≤ 102) := by
      simp only [isBreak, Bool.or_eq_true, beq_iff_eq] at hb
      rcases hb with (((hb | hb) | hb) | hb) | hb <;> subst hb <;> decide
    rcases h with ⟨h1, h2⟩ | ⟨h1, h2, h3⟩ <;> omega

theorem hexNum_flat {ds : Str} {n : Nat} (h : HexNum ds n) : ∀ c ∈ ds, isBreak c = false := by
  induction h with
  | nil => intro c hc; cases hc
  | snoc h hc ih =>
    intro c hx
    rcases List.mem_append.1 hx with hx | hx
    · exact ih c hx
    · simp at hx; subst hx; exact hexDigit_flat hc

theorem jsonChars_flat {t v : Str} (h : JsonChars t v) : ∀ c ∈ t, isBreak c = false := by
  induction h with
  | nil => intro c hc; cases hc
  | raw hc hb ht ih =>
    intro x hx
    rcases List.mem_cons.1 hx with rfl | hx
    · rw [← isLineBreak_eq]; exact hb
    · exact ih x hx
  | @escape e n t v he ht ih =>
    intro x hx
    simp only [List.mem_cons] at hx
    rcases hx with rfl | rfl | hx
    · decide
    · simp only [jsonEscapes, List.mem_cons, Prod.mk.injEq, List.not_mem_nil, or_false] at he
      rcases he with he | he | he | he | he | he | he | he <;> (rw [he.1]; decide)
    · exact ih x hx
  | code hl hn hs ht ih =>
    intro x hx
    simp only [List.mem_cons, List.mem_append] at hx
    rcases hx with rfl | rfl | hx | hx
    · decide
    · decide
    · exact hexNum_flat hn x hx
    · exact ih x hx

theorem jsonString_flat {w v : Str} (h : JsonString w v) : ∀ c ∈ w, isBreak c = false := by
  obtain ⟨t, rfl, ht⟩ := h
  intro c hc
  simp only [List.mem_cons, List.mem_append, List.not_mem_nil, or_false] at hc
  rcases hc with rfl | hc | rfl
  · decide
  · exact jsonChars_flat ht c hc
  · decide

theorem atom_string {F fl : Nat} {m : Int} {w v : Str} (h : JsonString w v) (rest : Str) : Atom F fl m w (.scalar v .doubleQuoted) false rest := by
  have := atom_quoted (F := F) (fl := fl) (m := m) (jsonString_quoted h rest) (by obtain ⟨t, rfl, _⟩ := h; simp)
  simpa using this

/-! ### Words -/

theorem number_word {w : Str} (h : JsonNumber w) : WordText w := by
  obtain ⟨sign, int, frac, exp, rfl, hs, ⟨hi, hid⟩, _, hf, he⟩ := h
  obtain ⟨c, r, rfl⟩ := List.exists_cons_of_ne_nil hi
  have dig : ∀ {c : Char}, IsDigit c → WordChar c := fun h => Or.inl h
  have hd := hid c List.mem_cons_self
  refine ⟨?_, ?_⟩
  · intro x hx
    simp only [List.mem_append] at hx
    rcases hx with hx | hx | hx | hx
    · rcases hs with rfl | rfl
      · cases hx
      · simp at hx; subst hx; decide
    · exact dig (hid x hx)
    · rcases hf with rfl | ⟨ds, rfl, hds⟩
      · cases hx
      · rcases List.mem_cons.1 hx with rfl | hx
        · decide
        · exact dig (hds.2 x hx)
    · rcases he with rfl | ⟨e, s, ds, rfl, he, hs', hds⟩
      · cases hx
      · simp only [List.mem_cons, List.mem_append] at hx
        rcases hx with rfl | hx | hx
        · rcases he with rfl | rfl <;> decide
        · rcases hs' with rfl | rfl | rfl
          · cases hx
          · simp at hx; subst hx; decide
          · simp at hx; subst hx; decide
        · exact dig (hds.2 x hx)
  · rcases hs with rfl | rfl
    · exact Or.inl ⟨c, _, rfl, Or.inl hd⟩
    · exact Or.inr ⟨c, _, rfl, hd⟩

theorem literal_word {w : Str} (h : w = cs! "true" ∨ w = cs! "false" ∨ w = cs! "null") : WordText w := by
  rcases h with rfl | rfl | rfl
  · exact ⟨by decide, Or.inl ⟨_, _, rfl, by decide⟩⟩
  · exact ⟨by decide, Or.inl ⟨_, _, rfl, by decide⟩⟩
  · exact ⟨by decide, Or.inl ⟨_, _, rfl, by decide⟩⟩

/-! ### White space -/

theorem jsonWs_ws {g : Str} (h : JsonWs g) {f : Nat} (hf : f ≠ 0) : Soft f g := by
  intro c hc
  rcases h c hc with rfl | rfl | rfl | rfl
  · exact Or.inl rfl
  · exact Or.inr (Or.inr ⟨hf, rfl⟩)
  · exact Or.inr (Or.inl (by decide))
  · exact Or.inr (Or.inl (by decide))

theorem jsonWs_blanks {g : Str} (h : JsonWs g) (ht : '\t' ∉ g) : Blanks g := by
  intro c hc
  rcases h c hc with rfl | rfl | rfl | rfl
  · exact Or.inl rfl
  · exact absurd hc ht
  · exact Or.inr (by decide)
  · exact Or.inr (by decide)

end Yaml.Lx
