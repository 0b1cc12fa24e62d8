import Verif.Lib.Directive
import Verif.Props.Plain
import Verif.Props.Parser

/-
C15: the numbers of a %YAML directive; and the %TAG directives.  What the text of a directive denotes is specified in
Spec/Directives.lean.  `runT m sc ⟨t, e⟩`: the scanner function `m` in the scanner state `sc`, with the text
`t` ahead.
-/

namespace Yaml.Props
open Yaml Yaml.Spec
set_option linter.unusedSimpArgs false
set_option linter.unusedVariables false

/-- Digits denote less than the next power of ten. -/
theorem decimal_lt : ∀ ds : Str, (∀ c ∈ ds, IsDigit c) → decimal ds < 10 ^ ds.length
  | [], _ => by simp [decimal]
  | c :: r, h => by
    have h1 := decimal_lt r fun c hc => h c (List.mem_cons_of_mem _ hc)
    have h2 := h c List.mem_cons_self
    have h3 : c.toNat - '0'.toNat ≤ 9 := by
      have : c.toNat ≤ 57 := h2.2
      have : '0'.toNat = 48 := rfl
      omega
    have h4 := Nat.mul_le_mul_right (10 ^ r.length) h3
    simp only [decimal, List.length_cons, Nat.pow_succ]
    omega

/-- C15: one to nine digits are read as their decimal value, which is below 2^31: the `i32` in which the code
computes it does not overflow. -/
theorem C15_number_value (ds rest : Str) (sc : SState) (m : Mark) (e : Encoding) (F : Nat) (hd : ∀ c ∈ ds, IsDigit c)
    (h1 : 1 ≤ ds.length) (h9 : ds.length ≤ 9) (hr : ∀ c r, rest = c :: r → ¬ IsDigit c) (hF : ds.length < F) :
    runT (Scanner.scanVersionDirectiveNumber F m) sc ⟨ds ++ rest, e⟩ =
      ((.ok (decimal ds : Int), { sc with mark := advance sc.mark ds }), ⟨rest, e⟩) ∧ decimal ds < 2 ^ 31 := by
  have hr' : isDigitO rest.head? = false := by
    cases rest with
    | nil => rfl
    | cons c r =>
      cases h : isDigitO (c :: r).head? with
      | false => rfl
      | true => exact absurd (digit_of h) (hr c r rfl)
  constructor
  · have h5 := wpT_versionNumber (P := fun _ => False) (E := fun _ _ _ => False) (e := e) (s := sc) (m := m)
      (Q := fun v s' b => v = (decimal ds : Int) ∧ Mv sc (ds ++ rest) s' rest ∧ b = ⟨rest, e⟩) hd ⟨h1, h9⟩ hr' hF fun s' hs => ⟨rfl, hs, rfl⟩
    have h6 := (wp_stepT _ _ _).1 h5
    unfold runT
    generalize execT (Scanner.scanVersionDirectiveNumber F m sc) ⟨ds ++ rest, e⟩ = q at h6
    obtain ⟨⟨o, s'⟩, b⟩ := q
    cases o with
    | ok tok =>
      obtain ⟨rfl, hs, rfl⟩ := h6
      have := hs.2.pre
      rw [← this, ← hs.1]
    | err e => exact h6.elim
    | panic p => exact h6.elim
    | fuel => exact h6.elim
  · have := decimal_lt ds hd
    have h2 : 10 ^ ds.length ≤ 10 ^ 9 := Nat.pow_le_pow_right (by omega) h9
    omega

/-- C15: longer numbers are rejected, and so is no number at all. -/
theorem C15_long_number_rejected (ds rest : Str) (sc : SState) (m : Mark) (e : Encoding) (F : Nat) (hd : ∀ c ∈ ds, IsDigit c)
    (h : 9 < ds.length) (hF : 9 < F) :
    ∃ m', (runT (Scanner.scanVersionDirectiveNumber F m) sc ⟨ds ++ rest, e⟩).1.1 =
      .err (.scanner "while scanning a %YAML directive" m "found extremely long version number" m') := by
  have h5 := wpT_versionNumber_long (P := fun _ => False) (e := e) (s := sc) (m := m) (t := ds.drop 10 ++ rest)
    (E := fun x _ _ => ∃ m', x = .scanner "while scanning a %YAML directive" m "found extremely long version number" m')
    (Q := fun _ _ _ => False) (ds := ds.take 10) (fun c hc => hd c (List.mem_of_mem_take hc)) (by simp; omega) hF (fun m' _ _ => ⟨m', rfl⟩)
  rw [← List.append_assoc, List.take_append_drop] at h5
  have h6 := (wp_stepT _ _ _).1 h5
  unfold runT
  generalize execT (Scanner.scanVersionDirectiveNumber F m sc) ⟨ds ++ rest, e⟩ = q at h6
  obtain ⟨⟨o, s'⟩, b⟩ := q
  cases o with
  | ok tok => exact h6.elim
  | err e => obtain ⟨m', rfl⟩ := h6; exact ⟨m', rfl⟩
  | panic p => exact h6.elim
  | fuel => exact h6.elim

theorem C15_no_number_rejected (t : Str) (sc : SState) (m : Mark) (e : Encoding) (F : Nat) (hr : ∀ c r, t = c :: r → ¬ IsDigit c) (hF : 0 < F) :
    ∃ m', (runT (Scanner.scanVersionDirectiveNumber F m) sc ⟨t, e⟩).1.1 =
      .err (.scanner "while scanning a %YAML directive" m "did not find expected version number" m') := by
  have hr' : isDigitO t.head? = false := by
    cases t with
    | nil => rfl
    | cons c r =>
      cases h : isDigitO (c :: r).head? with
      | false => rfl
      | true => exact absurd (digit_of h) (hr c r rfl)
  have h5 := wpT_versionNumber_none (P := fun _ => False) (e := e) (s := sc) (m := m) (t := t)
    (E := fun x _ _ => ∃ m', x = .scanner "while scanning a %YAML directive" m "did not find expected version number" m')
    (Q := fun _ _ _ => False) hr' hF (fun m' _ _ => ⟨m', rfl⟩)
  have h6 := (wp_stepT _ _ _).1 h5
  unfold runT
  generalize execT (Scanner.scanVersionDirectiveNumber F m sc) ⟨t, e⟩ = q at h6
  obtain ⟨⟨o, s'⟩, b⟩ := q
  cases o with
  | ok tok => exact h6.elim
  | err e => obtain ⟨m', rfl⟩ := h6; exact ⟨m', rfl⟩
  | panic p => exact h6.elim
  | fuel => exact h6.elim

/-- C15: a directive line is scanned as the directive it denotes and consumed with its comment and the line break
that ends it. -/
theorem C15_directive_scanned (w l rest rest' : Str) (d : TokenData) (c : Char) (sc : SState) (e : Encoding) (F : Nat) (hw : DirectiveText w d)
    (hl : LineRest l) (hb : BreakAt rest c rest') (hF : w.length + l.length < F) :
    ∃ m sc', runT (Scanner.scanDirective F) sc ⟨'%' :: (w ++ (l ++ rest)), e⟩ = ((.ok ⟨d, sc.mark, m⟩, sc'), ⟨rest', e⟩) ∧
      sc'.mark.line = sc.mark.line + 1 ∧ sc'.mark.column = 0 := by
  have hr : isBreakzO rest.head? = true := by
    obtain ⟨c', r, rfl, h⟩ := hb.head
    rw [List.head?_cons]
    simp [isBreakzO, isBreakO, h]
  have hnb : ∀ x ∈ '%' :: (w ++ l), isBreak x = false := by
    intro x hx
    rcases List.mem_cons.1 hx with rfl | hx
    · decide
    · rcases List.mem_append.1 hx with hx | hx
      · cases hw with
        | version hsp hM hm =>
          simp only [List.mem_append, List.mem_cons] at hx
          rcases hx with h | h | h | rfl | h
          · simp at h; rcases h with rfl | rfl | rfl | rfl <;> decide
          · exact (blank_facts (hsp.2 x h)).2
          · exact (decDigit_facts (hM x h)).2.1
          · decide
          · exact (decDigit_facts (hm x h)).2.1
        | tag hsp hsp' hh hu =>
          simp only [List.mem_append] at hx
          rcases hx with h | h | h | h | h
          · simp at h; rcases h with rfl | rfl | rfl <;> decide
          · exact (blank_facts (hsp.2 x h)).2
          · rcases hh with rfl | ⟨n, rfl, hn⟩
            · simp at h; subst h; decide
            · simp at h
              rcases h with rfl | h | rfl
              · decide
              · exact (name_facts (hn x h)).2
              · decide
          · exact (blank_facts (hsp'.2 x h)).2
          · exact uri_noBreak hu x h
      · obtain ⟨sp, com, rfl, h1, h2⟩ := hl.facts
        rcases List.mem_append.1 hx with hx | hx
        · exact (blank_facts (h1 x hx)).2
        · rcases h2 with rfl | ⟨_, c, rfl, h2⟩
          · cases hx
          · rcases List.mem_cons.1 hx with rfl | hx
            · decide
            · exact h2 x hx
  have h5 := wpT_scanDirective (P := fun _ => False) (E := fun _ _ _ => False) (e := e) (s := sc)
    (Q := fun tok s' b => ∃ m, tok = ⟨d, sc.mark, m⟩ ∧ s'.mark.line = sc.mark.line + 1 ∧ s'.mark.column = 0 ∧ b = ⟨rest', e⟩)
    hw hl hr hF (fun s1 s' m hs1 => ⟨fun c' r' hb' hs' h1 h2 => ⟨m, rfl, by
      have hs1' : Mv sc (('%' :: (w ++ l)) ++ rest) s1 rest := by simpa using hs1
      have := hs1'.line hnb
      rw [h2, this], h1, by
      have : r' = rest' := by
        clear hr hnb hs1 hs' hl hF
        cases hb with
        | crlf =>
          cases hb' with
          | crlf => rfl
          | one _ _ _ h => exact absurd ⟨rfl, rfl⟩ h
        | one _ _ _ h =>
          cases hb' with
          | crlf => exact absurd ⟨rfl, rfl⟩ h
          | one => rfl
      rw [this]⟩, fun h => by
      obtain ⟨c', r, h', _⟩ := hb.head
      rw [h] at h'; cases h'⟩)
  have h6 := (wp_stepT _ _ _).1 h5
  unfold runT
  generalize execT (Scanner.scanDirective F sc) ⟨'%' :: (w ++ (l ++ rest)), e⟩ = q at h6
  obtain ⟨⟨o, s'⟩, b⟩ := q
  cases o with
  | ok tok =>
    obtain ⟨m, rfl, h7, h8, rfl⟩ := h6
    exact ⟨m, s', rfl, h7, h8⟩
  | err e => exact h6.elim
  | panic p => exact h6.elim
  | fuel => exact h6.elim

example : DirectiveText (cs! "YAML \t12.007") (.versionDirective 12 7) :=
  .version (sp := cs! " \t") (maj := cs! "12") (min := cs! "007") ⟨by simp, by simp [IsBlank]⟩ (by simp [IsDigit]) (by simp [IsDigit]) (by simp) (by simp)

example : (runT (Scanner.scanDirective 100) scanner1 ⟨cs! "%YAML \t12.007 # x\r\n---", .utf8⟩).1.1 =
    .ok ⟨.versionDirective 12 7, ⟨7, 1, 3⟩, ⟨20, 1, 16⟩⟩ ∧
    (runT (Scanner.scanVersionDirectiveNumber 100 Mark.zero) scanner1 ⟨cs! "999999999.", .utf8⟩).1.1 = .ok 999999999 ∧
    (runT (Scanner.scanVersionDirectiveNumber 100 Mark.zero) scanner1 ⟨cs! "1000000000.", .utf8⟩).1.1 =
      .err (.scanner "while scanning a %YAML directive" Mark.zero "found extremely long version number" ⟨16, 1, 12⟩) := by
  decide +kernel

end Yaml.Props
