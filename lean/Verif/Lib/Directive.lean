import Verif.Spec.Directives
import Verif.Lib.Tags

/-
Directives: scanning what their text denotes.
-/

namespace Yaml
open Spec Scanner
set_option linter.unusedSimpArgs false
set_option linter.unusedVariables false

variable {s : SState} {t : Str} {e : Encoding} {P : PanicSite → Prop} {E : Err → SState → Txt → Prop}

theorem decDigit_facts {c : Char} (h : IsDigit c) : isDigitO (some c) = true ∧ isBreak c = false ∧ toDigit? c = some (c.toNat - '0'.toNat) := by
  have h1 : ('0' ≤ c && c ≤ '9') = true := by
    simp only [Bool.and_eq_true, decide_eq_true_eq]
    exact ⟨h.1, h.2⟩
  have h2 : toDigit? c = some (c.toNat - '0'.toNat) := by unfold toDigit?; rw [if_pos h1]
  refine ⟨?_, ?_, h2⟩
  · simp only [isDigitO, Option.any_some]; exact h1
  · cases hb : isBreak c with
    | false => rfl
    | true =>
      simp only [isBreak, Bool.or_eq_true, beq_iff_eq] at hb
      rcases hb with (((rfl | rfl) | rfl) | rfl) | rfl <;> revert h1 <;> decide

theorem digit_of {c : Char} (h : isDigitO (some c) = true) : IsDigit c := by
  simp only [isDigitO, Option.any_some, toDigit?] at h
  simp only [Bool.and_eq_true, decide_eq_true_eq] at h
  exact h

/-- The loop of `scan_version_directive_number`. -/
def numberLoop (F : Nat) (m : Mark) : Int × Nat → Scan (Int × Nat) :=
  M.loop F (fun ((value, length) : Int × Nat) => do
    let c ← at_ 0
    if isDigitO c then do
      let length := length + 1
      if length > 9 then
        scannerError "while scanning a %YAML directive" m "found extremely long version number"
      else
        match c.bind toDigit? with
        | none => M.panic .asDigit
        | some d => do
          skipChar
          cache 1
          pure (.inl (value * 10 + (d : Int), length))
    else pure (.inr (value, length)))

theorem wpT_numberLoop {m : Mark} {ds rest : Str} {F : Nat} {v : Int} {n : Nat} (hd : ∀ c ∈ ds, IsDigit c) (hl : n + ds.length ≤ 9)
    (hr : isDigitO rest.head? = false) (hF : ds.length < F) :
    M.wp stepT P E (numberLoop F m (v, n)) (fun p s' b => p = (v * 10 ^ ds.length + (decimal ds : Int), n + ds.length) ∧ Mv s (ds ++ rest) s' rest ∧ b = ⟨rest, e⟩)
      s ⟨ds ++ rest, e⟩ := by
  unfold numberLoop
  induction ds generalizing s F v n with
  | nil =>
    obtain ⟨F, rfl⟩ : ∃ k, F = k + 1 := ⟨F - 1, by omega⟩
    rw [M.wp_loop_succ]
    simp only [M.wp_bind, wpT_at, List.nil_append]
    rw [if_neg (by rw [← List.head?_eq_getElem?, hr]; simp)]
    simp only [M.wp_pure, M.next]
    exact ⟨by simp [decimal], Mv.refl _ _, trivial⟩
  | cons c ds ih =>
    obtain ⟨F, rfl⟩ : ∃ k, F = k + 1 := ⟨F - 1, by omega⟩
    obtain ⟨h1, h2, h3⟩ := decDigit_facts (hd c List.mem_cons_self)
    simp only [List.length_cons] at hl hF
    rw [M.wp_loop_succ]
    simp only [M.wp_bind, wpT_at, List.cons_append, List.getElem?_cons_zero, h1, if_true]
    rw [if_neg (by omega)]
    simp only [Option.bind_some, h3, M.wp_bind]
    refine wpT_skipChar h2 fun s1 hs1 => ?_
    simp only [wpT_cache, M.wp_bind, M.wp_pure, M.next]
    refine M.wp_mono stepT_mono (ih (s := s1) (F := F) (n := n + 1) (fun c hc => hd c (List.mem_cons_of_mem _ hc)) (by omega) (by omega)) ?_ (fun _ _ _ h => h) (fun _ h => h)
    rintro p s' b ⟨rfl, h5, rfl⟩
    refine ⟨?_, hs1.trans h5, rfl⟩
    refine Prod.ext ?_ (by simp only [List.length_cons]; omega)
    simp only [decimal, List.length_cons, Int.pow_succ, Int.natCast_add, Int.natCast_mul, Int.natCast_pow]
    rw [Int.add_mul, Int.add_assoc, Int.mul_assoc, Int.mul_comm 10]
    rfl

theorem wpT_versionNumber {m : Mark} {ds rest : Str} {F : Nat} {Q : Int → SState → Txt → Prop} (hd : ∀ c ∈ ds, IsDigit c) (hl : 1 ≤ ds.length ∧ ds.length ≤ 9)
    (hr : isDigitO rest.head? = false) (hF : ds.length < F) (hQ : ∀ s', Mv s (ds ++ rest) s' rest → Q (decimal ds) s' ⟨rest, e⟩) :
    M.wp stepT P E (scanVersionDirectiveNumber F m) Q s ⟨ds ++ rest, e⟩ := by
  unfold scanVersionDirectiveNumber
  simp only [M.wp_bind, wpT_cache]
  refine M.wp_mono stepT_mono (wpT_numberLoop (v := 0) (n := 0) hd (by omega) hr hF) ?_ (fun _ _ _ h => h) (fun _ h => h)
  rintro p s' b ⟨rfl, h1, rfl⟩
  have : (0 + ds.length == 0) = false := by rw [beq_eq_false_iff_ne]; omega
  simp only [this, Bool.false_eq_true, if_false, M.wp_pure, Int.zero_mul, Int.zero_add]
  exact hQ _ h1

/-- Ten digits are too many. -/
theorem wpT_versionNumber_long {m : Mark} {ds : Str} {F : Nat} {Q : Int → SState → Txt → Prop} (hd : ∀ c ∈ ds, IsDigit c) (hl : ds.length = 10)
    (hF : 9 < F) (hE : ∀ m' s' b, E (.scanner "while scanning a %YAML directive" m "found extremely long version number" m') s' b) :
    M.wp stepT P E (scanVersionDirectiveNumber F m) Q s ⟨ds ++ t, e⟩ := by
  unfold scanVersionDirectiveNumber
  simp only [M.wp_bind, wpT_cache]
  have key : ∀ (ds : Str) (s : SState) (F : Nat) (v : Int) (n : Nat), (∀ c ∈ ds, IsDigit c) → n + ds.length = 10 → n ≤ 9 → ds.length ≤ F →
      ∀ R, M.wp stepT P E (numberLoop F m (v, n)) R s ⟨ds ++ t, e⟩ := by
    unfold numberLoop
    intro ds
    induction ds with
    | nil => intro s F v n _ h h' _; simp at h; omega
    | cons c ds ih =>
      intro s F v n hd h hn hF R
      obtain ⟨F, rfl⟩ : ∃ k, F = k + 1 := ⟨F - 1, by simp at hF; omega⟩
      obtain ⟨h1, h2, h3⟩ := decDigit_facts (hd c List.mem_cons_self)
      simp only [List.length_cons] at h hF
      rw [M.wp_loop_succ]
      simp only [M.wp_bind, wpT_at, List.cons_append, List.getElem?_cons_zero, h1, if_true]
      by_cases h9 : n + 1 > 9
      · rw [if_pos h9]
        simp only [scannerError, M.wp_bind, wp_getMark, M.wp_throw]
        exact hE _ _ _
      · rw [if_neg h9]
        simp only [Option.bind_some, h3, M.wp_bind]
        refine wpT_skipChar h2 fun s1 hs1 => ?_
        simp only [wpT_cache, M.wp_bind, M.wp_pure, M.next]
        exact ih s1 F _ (n + 1) (fun c hc => hd c (List.mem_cons_of_mem _ hc)) (by omega) (by omega) (by omega) R
  exact key ds s F 0 0 hd (by omega) (by omega) (by omega) _

theorem wpT_versionNumber_none {m : Mark} {F : Nat} {Q : Int → SState → Txt → Prop} (hr : isDigitO t.head? = false) (hF : 0 < F)
    (hE : ∀ m' s' b, E (.scanner "while scanning a %YAML directive" m "did not find expected version number" m') s' b) :
    M.wp stepT P E (scanVersionDirectiveNumber F m) Q s ⟨t, e⟩ := by
  unfold scanVersionDirectiveNumber
  simp only [M.wp_bind, wpT_cache]
  refine M.wp_mono stepT_mono (wpT_numberLoop (v := 0) (n := 0) (ds := []) (by simp) (by simp) hr hF) ?_ (fun _ _ _ h => h) (fun _ h => h)
  rintro p s' b ⟨rfl, h1, rfl⟩
  simp only [List.length_nil, Nat.add_zero, beq_self_eq_true, if_true, scannerError, M.wp_bind, wp_getMark, M.wp_throw]
  exact hE _ _ _

theorem blank_facts {c : Char} (h : IsBlank c) : isBlankO (some c) = true ∧ isBreak c = false := by
  rcases h with rfl | rfl <;> exact ⟨by decide, by decide⟩

/-- `UriText` does not start with a blank. -/
theorem uriText_head {vb : Bool} {u v : Str} (h : UriText vb u v) (hv : v ≠ []) : ∃ c r, u = c :: r ∧ isBlank c = false := by
  cases h with
  | nil => exact absurd rfl hv
  | char hc h =>
    refine ⟨_, _, rfl, ?_⟩
    obtain ⟨h1, h2, h3⟩ := uriChar_facts hc
    cases hb : isBlank _ with
    | false => rfl
    | true =>
      simp only [isBlank, Bool.or_eq_true, beq_iff_eq] at hb
      rcases hb with rfl | rfl <;> cases vb <;> revert h1 <;> decide
  | escape => exact ⟨_, _, rfl, by decide⟩

theorem _root_.Yaml.Spec.LineRest.facts {l : Str} (h : LineRest l) : ∃ sp com, l = sp ++ com ∧ (∀ c ∈ sp, IsBlank c) ∧ (com = [] ∨ (sp ≠ [] ∧ ∃ c, com = '#' :: c ∧ ∀ x ∈ c, isBreak x = false)) := by
  cases h with
  | blanks h => exact ⟨_, [], by simp, h, Or.inl rfl⟩
  | comment h hc => exact ⟨_, _, rfl, h.2, Or.inr ⟨h.1, _, rfl, fun x hx => by rw [← isLineBreak_eq]; exact hc x hx⟩⟩

theorem wpT_skipBlanksAndComment {F : Nat} {l rest : Str} {Q : Unit → SState → Txt → Prop} (hl : LineRest l) (hr : isBreakzO rest.head? = true) (hF : l.length < F)
    (hQ : ∀ s', Mv s (l ++ rest) s' rest → Q () s' ⟨rest, e⟩) :
    M.wp stepT P E (skipBlanksAndComment F) Q s ⟨l ++ rest, e⟩ := by
  obtain ⟨sp, com, rfl, h1, h2⟩ := hl.facts
  have hrb : isBlankO rest.head? = false ∧ (rest.head? == some '#') = false := by
    cases rest with
    | nil => exact ⟨rfl, rfl⟩
    | cons c r =>
      simp only [List.head?_cons] at hr ⊢
      simp only [isBreakzO, isBreakO, isBreak] at hr
      simp at hr
      rcases hr with (((rfl | rfl) | rfl) | rfl) | rfl <;> exact ⟨by decide, by decide⟩
  unfold skipBlanksAndComment
  simp only [M.wp_bind, wpT_cache, List.append_assoc]
  have hnb : isBlankO (com ++ rest).head? = false := by
    rcases h2 with rfl | ⟨_, c, rfl, _⟩
    · exact hrb.1
    · simp only [List.cons_append, List.head?_cons]; decide
  refine wpT_skipWhile (p := isBlankO) (pre := sp) (rest := com ++ rest) (fun c hc => blank_facts (h1 c hc)) hnb (by simp at hF; omega) fun s1 hs1 => ?_
  simp only [wpT_at]
  rcases h2 with rfl | ⟨_, c, rfl, hc⟩
  · have : (rest[0]? == some '#') = false := by rw [← List.head?_eq_getElem?]; exact hrb.2
    simp only [List.nil_append, this]
    exact hQ _ (by simpa using hs1)
  · simp only [List.cons_append, List.getElem?_cons_zero, beq_self_eq_true]
    refine wpT_skipWhile (p := fun c => !isBreakzO c) (pre := '#' :: c) (rest := rest) ?_ (by simpa using hr) (by simp at hF ⊢; omega) fun s2 hs2 => ?_
    · intro x hx
      have hx' : isBreak x = false := by
        rcases List.mem_cons.1 hx with rfl | hx
        · decide
        · exact hc x hx
      exact ⟨by simp [isBreakzO, isBreakO, hx'], hx'⟩
    · exact hQ _ (by simpa using hs1.trans hs2)

theorem lineRest_ends {l rest : Str} (hl : LineRest l) (hr : isBreakzO rest.head? = true) : EndsTag (l ++ rest) := by
  obtain ⟨sp, com, rfl, h1, h2⟩ := hl.facts
  intro c r h
  cases sp with
  | nil =>
    rcases h2 with rfl | ⟨h, _⟩
    · simp only [List.nil_append] at h
      right
      rw [h] at hr
      rw [isLineBreak_eq]
      simpa [isBreakzO, isBreakO] using hr
    · exact absurd rfl h
  | cons d sp =>
    simp at h
    rw [← h.1]
    exact Or.inl (h1 d List.mem_cons_self)

theorem uri_noBreak {vb : Bool} {u v : Str} (h : UriText vb u v) : ∀ c ∈ u, isBreak c = false := by
  have hnb : ∀ c n, HexDigit c n → isBreak c = false := by
    intro c n h
    cases hb : isBreak c with
    | false => rfl
    | true =>
      simp only [isBreak, Bool.or_eq_true, beq_iff_eq] at hb
      unfold HexDigit at h
      rcases hb with (((rfl | rfl) | rfl) | rfl) | rfl <;> simp at h <;> omega
  induction h with
  | nil => intro c hc; cases hc
  | char hc h ih =>
    intro x hx
    rcases List.mem_cons.1 hx with rfl | hx
    · exact (uriChar_facts hc).2.1
    · exact ih x hx
  | escape ha hb hn h ih =>
    intro x hx
    simp only [List.mem_cons] at hx
    rcases hx with rfl | rfl | rfl | hx
    · decide
    · exact hnb _ _ ha
    · exact hnb _ _ hb
    · exact ih x hx

theorem blanks_head {sp : Str} (h : sp ≠ [] ∧ ∀ c ∈ sp, IsBlank c) (r : Str) :
    isBlankzO (sp ++ r).head? = true ∧ isAlphaO (sp ++ r).head? = false ∧ isBlankO (sp ++ r).head? = true ∧ (sp ++ r).head? ≠ some '!' := by
  cases sp with
  | nil => exact absurd rfl h.1
  | cons c sp =>
    rcases h.2 c List.mem_cons_self with rfl | rfl <;> refine ⟨?_, ?_, ?_, ?_⟩ <;> rw [List.cons_append, List.head?_cons] <;> decide

theorem endsTag_facts {t : Str} (h : EndsTag t) : isDigitO t.head? = false ∧ isUriChar true t.head? = false := by
  cases t with
  | nil => exact ⟨rfl, rfl⟩
  | cons c r =>
    rw [List.head?_cons]
    rcases h c r rfl with h | h
    · rcases h with rfl | rfl <;> decide
    · rw [isLineBreak_eq] at h
      simp only [isBreak, Bool.or_eq_true, beq_iff_eq] at h
      rcases h with (((rfl | rfl) | rfl) | rfl) | rfl <;> decide

theorem wpT_directiveName {F : Nat} {m : Mark} {n rest : Str} {Q : Str → SState → Txt → Prop} (hn : NameOk n) (hr : isBlankzO rest.head? = true)
    (ha : isAlphaO rest.head? = false) (hF : n.length < F) (hQ : ∀ s', Mv s (n ++ rest) s' rest → Q n s' ⟨rest, e⟩) :
    M.wp stepT P E (scanDirectiveName F m) Q s ⟨n ++ rest, e⟩ := by
  unfold scanDirectiveName
  simp only [M.wp_bind, wpT_cache]
  refine wpT_readWhile (p := isAlphaO) (pre := n) (fun c hc => name_facts (hn.2 c hc)) ha hF fun s2 hs2 => ?_
  simp only [wpT_at, List.nil_append]
  rw [if_neg (by simpa using hn.1), if_neg (by rw [← List.head?_eq_getElem?, hr]; simp), M.wp_pure]
  exact hQ _ hs2

theorem wpT_versionValue {F : Nat} {m : Mark} {sp maj min rest : Str} {Q : Int × Int → SState → Txt → Prop} (hsp : ∀ c ∈ sp, IsBlank c)
    (hM : ∀ c ∈ maj, IsDigit c) (hm : ∀ c ∈ min, IsDigit c) (hML : 1 ≤ maj.length ∧ maj.length ≤ 9) (hmL : 1 ≤ min.length ∧ min.length ≤ 9)
    (hr : isDigitO rest.head? = false) (hF : (sp ++ (maj ++ '.' :: min)).length < F)
    (hQ : ∀ s', Mv s (sp ++ (maj ++ '.' :: (min ++ rest))) s' rest → Q (decimal maj, decimal min) s' ⟨rest, e⟩) :
    M.wp stepT P E (scanVersionDirectiveValue F m) Q s ⟨sp ++ (maj ++ '.' :: (min ++ rest)), e⟩ := by
  unfold scanVersionDirectiveValue
  simp only [M.wp_bind, wpT_cache]
  have hhd : isBlankO (maj ++ '.' :: (min ++ rest)).head? = false := by
    cases maj with
    | nil => simp at hML
    | cons c maj =>
      have h1 := (decDigit_facts (hM c List.mem_cons_self)).1
      rw [List.cons_append, List.head?_cons]
      rw [isBlankO_false]
      rintro (rfl | rfl) <;> revert h1 <;> decide
  refine wpT_skipWhile (p := isBlankO) (pre := sp) (fun c hc => blank_facts (hsp c hc)) hhd (by simp at hF; omega) fun s3 hs3 => ?_
  refine wpT_versionNumber hM hML (rest := '.' :: (min ++ rest)) rfl (by simp at hF; omega) fun s4 hs4 => ?_
  simp only [wpT_at, List.getElem?_cons_zero, bne_self_eq_false, Bool.false_eq_true, if_false, M.wp_bind]
  refine wpT_skipChar (by decide) fun s5 hs5 => ?_
  refine wpT_versionNumber hm hmL hr (by simp at hF; omega) fun s6 hs6 => ?_
  rw [M.wp_pure]
  exact hQ _ (hs3.trans (hs4.trans (hs5.trans hs6)))

theorem wpT_directiveHandle {F : Nat} {m : Mark} {h rest : Str} {Q : Str → SState → Txt → Prop} (hh : HandleOk h) (hr : isAlphaO rest.head? = false ∧ rest.head? ≠ some '!')
    (hF : h.length < F) (hQ : ∀ s', Mv s (h ++ rest) s' rest → Q h s' ⟨rest, e⟩) :
    M.wp stepT P E (scanTagHandle F true m) Q s ⟨h ++ rest, e⟩ := by
  unfold scanTagHandle
  simp only [M.wp_bind, wpT_cache, wpT_at]
  rcases hh with rfl | ⟨n, rfl, hn⟩
  · simp only [List.cons_append, List.nil_append, List.getElem?_cons_zero, bne_self_eq_false, Bool.false_eq_true, if_false, M.wp_bind]
    refine wpT_readChar (by decide) fun s4 hs4 => ?_
    refine wpT_readWhile (p := isAlphaO) (pre := []) (rest := rest) (fun c hc => by cases hc) hr.1 (by simp at hF ⊢; omega) fun s5 hs5 => ?_
    simp only [wpT_at]
    rw [if_neg (by rw [← List.head?_eq_getElem?]; simpa using hr.2)]
    simp only [List.nil_append, List.append_nil, bne_self_eq_false, Bool.and_false, Bool.false_eq_true, if_false, M.wp_pure]
    exact hQ _ (hs4.trans hs5)
  · simp only [List.cons_append, List.append_assoc, List.getElem?_cons_zero, bne_self_eq_false, Bool.false_eq_true, if_false, M.wp_bind]
    refine wpT_readChar (by decide) fun s4 hs4 => ?_
    refine wpT_readWhile (p := isAlphaO) (pre := n) (rest := '!' :: ([] ++ rest)) (fun c hc => name_facts (hn c hc)) rfl (by simp at hF; omega) fun s5 hs5 => ?_
    simp only [wpT_at, List.getElem?_cons_zero, beq_self_eq_true, if_true]
    refine wpT_readChar (by decide) fun s6 hs6 => ?_
    exact hQ _ (by simpa using hs4.trans (hs5.trans hs6))

theorem wpT_tagDirectiveValue {F : Nat} {m : Mark} {sp sp' h u v rest : Str} {Q : Str × Str → SState → Txt → Prop} (hsp : ∀ c ∈ sp, IsBlank c)
    (hsp' : sp' ≠ [] ∧ ∀ c ∈ sp', IsBlank c) (hh : HandleOk h) (hu : UriText true u v) (hv : v ≠ [])
    (hr : EndsTag rest) (hF : (sp ++ (h ++ (sp' ++ u))).length < F)
    (hQ : ∀ s', Mv s (sp ++ (h ++ (sp' ++ (u ++ rest)))) s' rest → Q (h, v) s' ⟨rest, e⟩) :
    M.wp stepT P E (scanTagDirectiveValue F m) Q s ⟨sp ++ (h ++ (sp' ++ (u ++ rest))), e⟩ := by
  obtain ⟨g1, g2, g3, g4⟩ := blanks_head hsp' (u ++ rest)
  have hz := blankz_of hr
  unfold scanTagDirectiveValue
  simp only [M.wp_bind, wpT_cache]
  have hbh : isBlankO (h ++ (sp' ++ (u ++ rest))).head? = false := by
    rcases hh with rfl | ⟨n, rfl, _⟩ <;> rw [List.cons_append] <;> rfl
  refine wpT_skipWhile (p := isBlankO) (pre := sp) (fun c hc => blank_facts (hsp c hc)) hbh (by simp at hF; omega) fun s3 hs3 => ?_
  refine wpT_directiveHandle hh ⟨g2, g4⟩ (by simp at hF; omega) fun s4 hs4 => ?_
  simp only [wpT_cache, wpT_at]
  rw [if_neg (by rw [← List.head?_eq_getElem?, g3]; simp)]
  have hub : isBlankO (u ++ rest).head? = false := by
    obtain ⟨c, r, rfl, hc⟩ := uriText_head hu hv
    rw [List.cons_append, List.head?_cons, isBlankO_false]
    rintro (rfl | rfl) <;> exact absurd hc (by decide)
  simp only [M.wp_bind]
  refine wpT_skipWhile (p := isBlankO) (pre := sp') (fun c hc => blank_facts (hsp'.2 c hc)) hub (by simp at hF; omega) fun s5 hs5 => ?_
  refine wpT_scanTagUri hu (endsTag_facts hr).2 (Or.inr hv) (by simp at hF; omega) fun s6 hs6 => ?_
  simp only [wpT_cache, wpT_at, M.wp_bind]
  rw [if_neg (by rw [← List.head?_eq_getElem?, hz]; simp)]
  simp only [M.wp_pure, List.tail_nil, List.nil_append]
  exact hQ _ (hs3.trans (hs4.trans (hs5.trans hs6)))

/-- A directive up to the rest of its line. -/
theorem wpT_directiveValue {F : Nat} {m : Mark} {w rest : Str} {d : TokenData} {Q : Token → SState → Txt → Prop} (hw : DirectiveText w d)
    (hr : EndsTag rest) (hF : w.length < F) (hQ : ∀ s' m', Mv s (w ++ rest) s' rest → Q ⟨d, m, m'⟩ s' ⟨rest, e⟩) :
    M.wp stepT P E (do let name ← scanDirectiveName F m; scanDirectiveValue F m name) Q s ⟨w ++ rest, e⟩ := by
  rw [M.wp_bind]
  cases hw with
  | @version sp maj min hsp hM hm hML hmL =>
    obtain ⟨g1, g2, g3, g4⟩ := blanks_head hsp (maj ++ '.' :: (min ++ rest))
    simp only [List.append_assoc, List.cons_append (a := '.')] at hQ ⊢
    refine wpT_directiveName (n := cs! "YAML") ⟨by simp, by simp [NameChar]⟩ g1 g2 (by simp at hF ⊢; omega) fun s1 hs1 => ?_
    unfold scanDirectiveValue
    rw [if_pos (by decide), M.wp_bind]
    refine wpT_versionValue hsp.2 hM hm hML hmL (endsTag_facts hr).1 (by simp at hF ⊢; omega) fun s2 hs2 => ?_
    simp only [M.wp_bind, wp_getMark, M.wp_pure]
    exact hQ _ _ (hs1.trans hs2)
  | @tag sp sp' h u v hsp hsp' hh hu hv =>
    obtain ⟨g1, g2, g3, g4⟩ := blanks_head hsp (h ++ (sp' ++ (u ++ rest)))
    simp only [List.append_assoc] at hQ ⊢
    refine wpT_directiveName (n := cs! "TAG") ⟨by simp, by simp [NameChar]⟩ g1 g2 (by simp at hF ⊢; omega) fun s1 hs1 => ?_
    unfold scanDirectiveValue
    rw [if_neg (by decide), if_pos (by decide), M.wp_bind]
    refine wpT_tagDirectiveValue hsp.2 hsp' hh hu hv hr (by simp at hF ⊢; omega) fun s2 hs2 => ?_
    simp only [M.wp_bind, wp_getMark, M.wp_pure]
    exact hQ _ _ (hs1.trans hs2)

theorem breakAt_of {c : Char} (r : Str) (hb : isBreak c = true) : ∃ c' r', BreakAt (c :: r) c' r' := by
  by_cases h : c = '\r' ∧ r.head? = some '\n'
  · obtain ⟨rfl, h⟩ := h
    cases r with
    | nil => cases h
    | cons d r => cases h; exact ⟨_, _, .crlf _⟩
  · exact ⟨_, _, .one c r (by rw [isLineBreak_eq]; exact hb) h⟩

/-- The whole line. -/
theorem wpT_scanDirective {F : Nat} {w l rest : Str} {d : TokenData} {Q : Token → SState → Txt → Prop} (hw : DirectiveText w d) (hl : LineRest l)
    (hr : isBreakzO rest.head? = true) (hF : w.length + l.length < F)
    (hQ : ∀ s1 s' m, Mv s ('%' :: (w ++ (l ++ rest))) s1 rest →
      (∀ c rest', BreakAt rest c rest' → Mv s1 rest s' rest' → s'.mark.column = 0 → s'.mark.line = s1.mark.line + 1 → Q ⟨d, s.mark, m⟩ s' ⟨rest', e⟩) ∧
      (rest = [] → Q ⟨d, s.mark, m⟩ s1 ⟨[], e⟩)) :
    M.wp stepT P E (scanDirective F) Q s ⟨'%' :: (w ++ (l ++ rest)), e⟩ := by
  unfold scanDirective
  simp only [M.wp_bind, wp_getMark]
  refine wpT_skipChar (by decide) fun s1 hs1 => ?_
  rw [← M.wp_bind]
  refine wpT_directiveValue hw (lineRest_ends hl hr) (by omega) fun s2 m hs2 => ?_
  refine wpT_skipBlanksAndComment hl hr (by omega) fun s3 hs3 => ?_
  simp only [M.wp_bind, wpT_at]
  rw [if_pos (by rw [← List.head?_eq_getElem?]; exact hr)]
  cases rest with
  | nil => exact (hQ s3 s3 m (hs1.trans (hs2.trans hs3))).2 rfl
  | cons c r =>
    have hb : isBreak c = true := by simpa [isBreakzO, isBreakO] using hr
    obtain ⟨c', r', hB⟩ := breakAt_of r hb
    simp only [List.getElem?_cons_zero, M.wp_bind]
    rw [show isBreakO (some c) = true from hb]
    simp only [M.wp_when, if_true, M.wp_bind, wpT_cache]
    refine wpT_skipLineBreak hB fun s4 hs4 h1 h2 => ?_
    simp only [M.wp_pure]
    exact (hQ s3 s4 m (hs1.trans (hs2.trans hs3))).1 _ _ hB hs4 h1 h2

end Yaml
