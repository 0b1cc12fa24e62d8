import Verif.Lib.Quoted

/-
Escapes that are not escapes: the scanner reports an error.
-/

namespace Yaml
open Scanner
set_option linter.unusedSimpArgs false
set_option linter.unusedVariables false
section
variable {P : PanicSite → Prop} {E : Err → SState → Txt → Prop} {s : SState} {t : Str} {e : Encoding}

theorem digit_of_toHex {c : Char} {n : Nat} (h : toHex? c = some n) : Spec.HexDigit c n := by
  unfold toHex? at h
  by_cases h0 : ('0' ≤ c && c ≤ '9') = true
  · rw [if_pos h0] at h
    simp only [Bool.and_eq_true, decide_eq_true_eq, Char.le_def, UInt32.le_iff_toNat_le] at h0
    have h1 : 48 ≤ c.toNat := h0.1
    have h2 : c.toNat ≤ 57 := h0.2
    simp [show '0'.toNat = 48 from rfl] at h
    left; omega
  · rw [if_neg h0] at h
    by_cases h1 : ('a' ≤ c && c ≤ 'f') = true
    · rw [if_pos h1] at h
      simp only [Bool.and_eq_true, decide_eq_true_eq, Char.le_def, UInt32.le_iff_toNat_le] at h1
      have h2 : 97 ≤ c.toNat := h1.1
      have h3 : c.toNat ≤ 102 := h1.2
      simp [show 'a'.toNat = 97 from rfl] at h
      right; omega
    · rw [if_neg h1] at h
      by_cases h2 : ('A' ≤ c && c ≤ 'F') = true
      · rw [if_pos h2] at h
        simp only [Bool.and_eq_true, decide_eq_true_eq, Char.le_def, UInt32.le_iff_toNat_le] at h2
        have h3 : 65 ≤ c.toNat := h2.1
        have h4 : c.toNat ≤ 70 := h2.2
        simp [show 'A'.toNat = 65 from rfl] at h
        right; omega
      · rw [if_neg h2] at h; cases h

/-- The hex digit loop on any text. -/
theorem wpT_hexLoop_any {Q : Nat → SState → Txt → Prop} (m : Mark)
    (hE : ∀ x, E (.scanner "while parsing a quoted scalar" m x s.mark) s ⟨t, e⟩) :
    ∀ (j : Nat) (ds r : Str) (n : Nat), t = ds ++ r → Spec.HexNum ds n →
      (∀ ds' r' n', t = ds' ++ r' → ds'.length = ds.length + j → Spec.HexNum ds' n' → Q n' s ⟨t, e⟩) →
      M.wp stepT P E (hexLoop m j ds.length n) Q s ⟨t, e⟩ := by
  intro j
  induction j with
  | zero =>
    intro ds r n ht hn hQ
    rw [hexLoop]
    exact hQ ds r n ht rfl hn
  | succ j ih =>
    intro ds r n ht hn hQ
    rw [hexLoop]
    simp only [M.wp_bind, wpT_at]
    have hg : t[ds.length]? = r.head? := by
      subst ht
      rw [List.getElem?_append_right (by omega)]
      simp [List.head?_eq_getElem?]
    rw [hg]
    cases r with
    | nil => rw [if_pos (by simp [isHexO])]; exact hE _
    | cons c r =>
      have hx : toHex? c = none ∨ ∃ d, toHex? c = some d := by
        generalize toHex? c = o
        cases o <;> simp
      rcases hx with hx | ⟨d, hx⟩
      · rw [if_pos (by simp [isHexO, hx])]; exact hE _
      · rw [if_neg (by simp [isHexO, hx])]
        simp only [List.head?_cons, Option.bind_some, hx]
        have := ih (ds ++ [c]) r (16 * n + d) (by simp [ht]) (hn.snoc (digit_of_toHex hx))
          (fun ds' r' n' h1 h2 h3 => hQ ds' r' n' h1 (by simp at h2; omega) h3)
        rw [Nat.mul_comm n 16]
        simpa using this

/-- A backslash that starts no escape is an error. -/
theorem wpT_scanEscape_bad {Q : Str → SState → Txt → Prop} {x str : Str} (m : Mark) (hx : x ≠ [])
    (h : ∀ y c r, x = y ++ r → ¬ Spec.Escape y c)
    (hE : ∀ pr s' b, E (.scanner "while parsing a quoted scalar" m pr s'.mark) s' b) :
    M.wp stepT P E (scanEscape m str) Q s ⟨'\\' :: x, e⟩ := by
  have hbs : isBreak '\\' = false := by decide
  cases x with
  | nil => exact absurd rfl hx
  | cons d x =>
    simp only [scanEscape, M.wp_bind, wpT_at, List.getElem?_cons_succ, List.getElem?_cons_zero]
    cases hc : escapeChar d with
    | some v =>
      obtain ⟨n, hn, rfl⟩ := (escapeChar_iff d v).1 hc
      exact absurd (Spec.Escape.simple hn) (h [d] _ x rfl)
    | none =>
      simp only []
      cases hk : escapeCodeLength d with
      | none => exact hE _ s _
      | some k =>
        have hk' := (escapeCodeLength_iff d k).1 hk
        show M.wp stepT P E (skipChar >>= fun _ => _) _ _ _
        rw [M.wp_bind]
        refine wpT_skipChar hbs fun s1 hs1 => ?_
        rw [M.wp_bind]
        refine wpT_skipChar (codes_of hk').2.2 fun s2 hs2 => ?_
        simp only [M.wp_bind, wpT_cache]
        refine wpT_hexLoop_any m (fun _ => hE _ _ _) k [] x 0 rfl .nil fun ds r n h1 h2 h3 => ?_
        have hs : ¬ Spec.IsScalar n := fun hs =>
          h (d :: ds) (Char.ofNat n) r (by rw [h1]; rfl) (Spec.Escape.code hk' (by simpa using h2) h3 hs)
        rw [show charFromU32 n = none from if_neg hs]
        exact hE _ _ _

/-- A double-quoted scalar that runs into a backslash that starts no escape is an error. -/
theorem wpT_scanFlowScalar_bad {F : Nat} {Q : Token → SState → Txt → Prop} {body v x : Str}
    (hb : Spec.Body false body v ('\\' :: x)) (hF : body.length + 1 < F) (hx : x ≠ []) (hlb : ∀ c r, x = c :: r → Spec.isLineBreak c = false)
    (h : ∀ y c r, x = y ++ r → ¬ Spec.Escape y c)
    (hE : ∀ pr s' b, E (.scanner "while parsing a quoted scalar" s.mark pr s'.mark) s' b) :
    M.wp stepT P E (scanFlowScalar F false) Q s ⟨'"' :: body, e⟩ := by
  simp only [scanFlowScalar, M.wp_bind, wp_getMark]
  have hqb : isBreak '"' = false := by decide
  refine wpT_skipChar hqb fun s1 hs1 => ?_
  have hcol : s1.mark.column ≠ 0 := by
    have : s1.mark = _ := Mv.line (p := ['"']) hs1 (by simp [isBreak])
    rw [this]; simp
  refine wpT_flowBody (by simp) hb (by omega) hcol fun F1 G s2 hF1 hG hs2 => ?_
  obtain ⟨F1, rfl⟩ : ∃ n, F1 = n + 1 := ⟨F1 - 1, by omega⟩
  unfold flowChunk
  rw [M.wp_loop_succ]
  simp only [M.wp_bind, wpT_at, List.getElem?_cons_zero, List.getElem?_cons_succ]
  have h1 : isBreakO x[0]? = false := by
    cases x with
    | nil => exact absurd rfl hx
    | cons c r =>
      have := hlb c r rfl
      rw [isLineBreak_eq] at this
      simpa [isBreakO] using this
  rw [if_neg (by decide), if_neg (by simp), if_neg (by decide), if_neg (by simp [h1]), if_pos (by simp)]
  simp only [M.wp_bind]
  exact wpT_scanEscape_bad s.mark hx h hE

end
end Yaml
