import Verif.Spec.Tags
import Verif.Lib.EmitPlain

/-
Anchors, aliases and tags: scanning what their text denotes, and writing it.
-/

namespace Yaml
open Spec Scanner
set_option linter.unusedSimpArgs false
set_option linter.unusedVariables false

variable {s : SState} {t : Str} {e : Encoding} {P : PanicSite → Prop} {E : Err → SState → Txt → Prop}

theorem name_facts {c : Char} (h : NameChar c) : isAlpha c = true ∧ isBreak c = false := by
  have h1 : isAlpha c = true := (Emitter.isAlpha_iff c).2 h
  refine ⟨h1, ?_⟩
  cases hb : isBreak c with
  | false => rfl
  | true =>
    simp only [isBreak, Bool.or_eq_true, beq_iff_eq] at hb
    rcases hb with (((rfl | rfl) | rfl) | rfl) | rfl <;> revert h1 <;> decide

theorem blankz_of {t : Str} (h : EndsTag t) : isBlankzO t.head? = true := by
  rw [blankz_iff]
  intro d hd
  cases t with
  | nil => cases hd
  | cons c r => cases hd; exact h _ r rfl

theorem endsName_facts {t : Str} (h : EndsName t) : isAlphaO t.head? = false ∧ anchorFollow t.head? = true := by
  cases t with
  | nil => exact ⟨rfl, rfl⟩
  | cons c r =>
    simp only [List.head?_cons]
    rcases h c r rfl with h | h | h
    · rcases h with rfl | rfl <;> decide
    · rw [isLineBreak_eq] at h
      simp only [isBreak, Bool.or_eq_true, beq_iff_eq] at h
      rcases h with (((rfl | rfl) | rfl) | rfl) | rfl <;> decide
    · simp at h
      rcases h with rfl | rfl | rfl | rfl | rfl | rfl | rfl | rfl <;> decide

theorem wpT_scanAnchor {F : Nat} {alias : Bool} {Q : Token → SState → Txt → Prop} {n rest : Str} (hn : NameOk n) (hr : EndsName rest) (hF : n.length < F)
    (hQ : ∀ s' m, Mv s ((if alias then '*' else '&') :: (n ++ rest)) s' rest → Q ⟨if alias then .alias n else .anchor n, s.mark, m⟩ s' ⟨rest, e⟩) :
    M.wp stepT P E (scanAnchor F alias) Q s ⟨(if alias then '*' else '&') :: (n ++ rest), e⟩ := by
  obtain ⟨hr1, hr2⟩ := endsName_facts hr
  unfold scanAnchor
  simp only [M.wp_bind, wp_getMark]
  refine wpT_skipChar (by cases alias <;> decide) fun s1 hs1 => ?_
  rw [wpT_cache]
  refine wpT_readWhile (p := isAlphaO) (pre := n) (rest := rest) (fun c hc => name_facts (hn.2 c hc)) hr1 hF fun s2 hs2 => ?_
  simp only [M.wp_bind, wp_getMark, wpT_at, List.nil_append]
  rw [if_neg (by
    have : n.isEmpty = false := by cases n; exact absurd rfl hn.1; rfl
    rw [← List.head?_eq_getElem?, hr2, this]; simp)]
  exact hQ _ _ (hs1.trans hs2)

theorem uriChar_facts {vb : Bool} {c : Char} (h : UriChar vb c) : isUriChar vb (some c) = true ∧ isBreak c = false ∧ c ≠ '%' := by
  rcases h with h | h | ⟨h, h'⟩
  · obtain ⟨h1, h2⟩ := name_facts h
    refine ⟨?_, h2, ?_⟩
    · simp [isUriChar, isAlphaO, h1]
    · rintro rfl; revert h1; decide
  · simp at h
    rcases h with rfl | rfl | rfl | rfl | rfl | rfl | rfl | rfl | rfl | rfl | rfl | rfl | rfl | rfl | rfl | rfl <;> refine ⟨?_, by decide, by decide⟩ <;>
      simp [isUriChar]
  · subst h
    simp at h'
    rcases h' with rfl | rfl | rfl <;> refine ⟨by decide, by decide, by decide⟩

theorem wpT_uriEscape {F : Nat} {directive : Bool} {m : Mark} {str : Str} {a b : Char} {x y : Nat} {Q : Str → SState → Txt → Prop}
    (ha : HexDigit a x) (hb : HexDigit b y) (hn : 16 * x + y < 128) (hF : 0 < F)
    (hQ : ∀ s', Mv s ('%' :: a :: b :: t) s' t → Q (str ++ [Char.ofNat (16 * x + y)]) s' ⟨t, e⟩) :
    M.wp stepT P E (scanUriEscapes F directive m str) Q s ⟨'%' :: a :: b :: t, e⟩ := by
  obtain ⟨F, rfl⟩ : ∃ n, F = n + 1 := ⟨F - 1, by omega⟩
  unfold scanUriEscapes
  rw [M.wp_loop_succ]
  simp only [M.wp_bind, wpT_cache, wpT_at, List.getElem?_cons_zero, List.getElem?_cons_succ, isHexO, toHex_of_digit ha, toHex_of_digit hb,
    Option.isSome_some, Bool.and_true, beq_self_eq_true, Bool.not_true, Bool.false_eq_true, if_false, Option.bind_some]
  have hw : octetWidth (x * 16 + y) = 1 := by
    unfold octetWidth
    rw [if_pos (by omega)]
  simp only [hw, beq_self_eq_true, Bool.true_and, show ((1 : Nat) == 0) = false from rfl, Bool.false_eq_true, if_false, bne_self_eq_false, Bool.false_and, if_true, M.wp_bind]
  have hnb : ∀ c n, HexDigit c n → isBreak c = false := by
    intro c n h
    cases hb : isBreak c with
    | false => rfl
    | true =>
      simp only [isBreak, Bool.or_eq_true, beq_iff_eq] at hb
      unfold HexDigit at h
      rcases hb with (((rfl | rfl) | rfl) | rfl) | rfl <;> simp at h <;> omega
  refine wpT_skipChar (by decide) fun s1 hs1 => ?_
  refine wpT_skipChar (hnb _ _ ha) fun s2 hs2 => ?_
  refine wpT_skipChar (hnb _ _ hb) fun s3 hs3 => ?_
  simp only [Nat.sub_self, beq_self_eq_true, if_true, M.wp_pure, M.next]
  rw [show x * 16 + y = 16 * x + y by omega]
  exact hQ _ (hs1.trans (hs2.trans hs3))

theorem wpT_scanTagUri {F : Nat} {vb directive : Bool} {m : Mark} {head u v rest : Str} {Q : Str → SState → Txt → Prop}
    (hu : UriText vb u v) (hr : isUriChar vb rest.head? = false) (hne : head ≠ [] ∨ v ≠ []) (hF : u.length < F)
    (hQ : ∀ s', Mv s (u ++ rest) s' rest → Q (head.tail ++ v) s' ⟨rest, e⟩) :
    M.wp stepT P E (scanTagUri F vb directive head m) Q s ⟨u ++ rest, e⟩ := by
  unfold scanTagUri
  simp only [M.wp_bind, wpT_cache]
  have hF0 : 0 < F := by omega
  have key : ∀ (G : Nat) (str : Str) (len : Nat) (s : SState), u.length < G →
      M.wp stepT P E (M.loop G (fun ((string, length) : Str × Nat) => do
        let c ← at_ 0
        if isUriChar vb c then do
          let string ← if c == some '%' then scanUriEscapes F directive m string
                       else readChar string
          cache 1
          pure (.inl (string, length + 1))
        else pure (.inr (string, length))) (str, len)) (fun p s' b => ∃ n, p = (str ++ v, len + n) ∧ (n = 0 → v = []) ∧ Mv s (u ++ rest) s' rest ∧ b = ⟨rest, e⟩) s ⟨u ++ rest, e⟩ := by
    clear hF hne hQ
    induction hu with
    | nil =>
      intro G str len s hG
      obtain ⟨G, rfl⟩ : ∃ n, G = n + 1 := ⟨G - 1, by omega⟩
      rw [M.wp_loop_succ]
      simp only [M.wp_bind, wpT_at, List.nil_append]
      rw [if_neg (by rw [← List.head?_eq_getElem?, hr]; simp)]
      simp only [M.wp_pure, M.next]
      exact ⟨0, by simp, fun _ => trivial, Mv.refl _ _, trivial⟩
    | @char c u v hc h ih =>
      intro G str len s hG
      obtain ⟨G, rfl⟩ : ∃ n, G = n + 1 := ⟨G - 1, by omega⟩
      obtain ⟨h1, h2, h3⟩ := uriChar_facts hc
      rw [M.wp_loop_succ]
      simp only [M.wp_bind, wpT_at, List.cons_append, List.getElem?_cons_zero, h1, if_true]
      rw [if_neg (by simpa using h3), M.wp_bind]
      refine wpT_readChar h2 fun s1 hs1 => ?_
      simp only [wpT_cache, M.wp_bind, M.wp_pure, M.next]
      refine M.wp_mono (stepT_mono) (ih G (str ++ [c]) (len + 1) s1 (by simp at hG; omega)) ?_ (fun _ _ _ h => h) (fun _ h => h)
      rintro p s' b ⟨n, rfl, h4, h5, rfl⟩
      exact ⟨n + 1, by simp; omega, by simp, hs1.trans h5, rfl⟩
    | @escape a b x y u v ha hb hn h ih =>
      intro G str len s hG
      obtain ⟨G, rfl⟩ : ∃ n, G = n + 1 := ⟨G - 1, by omega⟩
      rw [M.wp_loop_succ]
      simp only [M.wp_bind, wpT_at, List.cons_append, List.getElem?_cons_zero]
      rw [if_pos (show isUriChar vb (some '%') = true by simp [isUriChar])]
      simp only [beq_self_eq_true, if_true, M.wp_bind]
      refine wpT_uriEscape ha hb hn hF0 fun s1 hs1 => ?_
      simp only [wpT_cache, M.wp_bind, M.wp_pure, M.next]
      refine M.wp_mono (stepT_mono) (ih G (str ++ [Char.ofNat (16 * x + y)]) (len + 1) s1 (by simp at hG; omega)) ?_ (fun _ _ _ h => h) (fun _ h => h)
      rintro p s' b ⟨n, rfl, h4, h5, rfl⟩
      exact ⟨n + 1, by simp; omega, by simp, hs1.trans h5, rfl⟩
  refine M.wp_mono (stepT_mono) (key F head.tail (strLen head) s hF) ?_ (fun _ _ _ h => h) (fun _ h => h)
  rintro p s' b ⟨n, rfl, h1, h2, rfl⟩
  have hlen : (strLen head + n == 0) = false := by
    rw [beq_eq_false_iff_ne]
    intro h
    rcases hne with h' | h'
    · cases head with
      | nil => exact h' rfl
      | cons c r =>
        have := Emitter.lenUtf8_pos c
        simp [strLen] at h; omega
    · exact h' (h1 (by omega))
  simp only [hlen, Bool.false_eq_true, if_false, M.wp_pure]
  exact hQ s' h2

theorem wpT_scanTag {F : Nat} {Q : Token → SState → Txt → Prop} {w h sfx rest : Str} (ht : TagText w h sfx) (hr : EndsTag rest) (hF : w.length < F)
    (hQ : ∀ s' m, Mv s (w ++ rest) s' rest → Q ⟨.tag h sfx, s.mark, m⟩ s' ⟨rest, e⟩) :
    M.wp stepT P E (scanTag F) Q s ⟨w ++ rest, e⟩ := by
  have hz := blankz_of hr
  have huri : ∀ vb, isUriChar vb rest.head? = false := by
    intro vb
    cases rest with
    | nil => cases vb <;> rfl
    | cons c r =>
      simp only [List.head?_cons]
      rcases hr c r rfl with h | h
      · rcases h with rfl | rfl <;> cases vb <;> decide
      · rw [isLineBreak_eq] at h
        simp only [isBreak, Bool.or_eq_true, beq_iff_eq] at h
        rcases h with (((rfl | rfl) | rfl) | rfl) | rfl <;> cases vb <;> decide
  have hal : isAlphaO rest.head? = false ∧ rest.head? ≠ some '!' := by
    have := huri false
    constructor
    · cases h : isAlphaO rest.head? with
      | false => rfl
      | true => simp [isUriChar, h] at this
    · intro h; rw [h] at this; revert this; decide
  unfold scanTag
  simp only [M.wp_bind, wp_getMark]
  -- the end of the tag
  have fin : ∀ s1, Mv s (w ++ rest) s1 rest → M.wp stepT P E (do
      cache 1
      let c ← at_ 0
      if (!isBlankzO c) = true then do
        if ((← M.get).flowLevel == 0 || c != some ',') = true then
          scannerError "while scanning a tag" s.mark "did not find expected whitespace or line break"
        else M.panic .tagTodo
      else do
        let endMark ← getMark
        pure ⟨.tag h sfx, s.mark, endMark⟩) Q s1 ⟨rest, e⟩ := by
    intro s1 hs1
    simp only [M.wp_bind, wpT_cache, wpT_at]
    rw [if_neg (by rw [← List.head?_eq_getElem?, hz]; simp)]
    simp only [M.wp_bind, wp_getMark, M.wp_pure]
    exact hQ s1 _ hs1
  unfold scanTagBody
  simp only [M.wp_bind, wpT_cache, wpT_at]
  cases ht with
  | @verbatim u v hu hv =>
    simp only [List.cons_append, List.nil_append, List.append_assoc, List.getElem?_cons_zero, List.getElem?_cons_succ, beq_self_eq_true, if_true, M.wp_bind] at fin ⊢
    refine wpT_skipChar (by decide) fun s1 hs1 => ?_
    refine wpT_skipChar (by decide) fun s2 hs2 => ?_
    refine wpT_scanTagUri hu rfl (Or.inr hv) (by simp at hF; omega) fun s3 hs3 => ?_
    simp only [wpT_at, List.getElem?_cons_zero, M.wp_bind, bne_self_eq_false, Bool.false_eq_true, if_false, List.tail_nil, List.nil_append]
    refine wpT_skipChar (by decide) fun s4 hs4 => ?_
    simp only [M.wp_pure]
    exact fin s4 (hs1.trans (hs2.trans (hs3.trans hs4)))
  | @named n u v hn hu hv =>
    have hlt : ((('!' :: n ++ '!' :: u) ++ rest)[1]? == some '<') = false := by
      cases n with
      | nil => rfl
      | cons c n =>
        have := (name_facts (hn c List.mem_cons_self)).1
        simp only [List.cons_append, List.getElem?_cons_succ, List.getElem?_cons_zero, beq_eq_false_iff_ne, ne_eq, Option.some.injEq]
        rintro rfl; revert this; decide
    rw [if_neg (by rw [hlt]; simp)]
    unfold scanTagHandle
    simp only [List.cons_append, List.append_assoc, M.wp_bind, wpT_cache, wpT_at, List.getElem?_cons_zero, bne_self_eq_false, Bool.false_eq_true, if_false] at fin ⊢
    refine wpT_readChar (by decide) fun s1 hs1 => ?_
    refine wpT_readWhile (p := isAlphaO) (pre := n) (rest := '!' :: (u ++ rest)) (fun c hc => name_facts (hn c hc)) rfl (by simp at hF; omega) fun s2 hs2 => ?_
    simp only [wpT_at, List.getElem?_cons_zero, beq_self_eq_true, if_true]
    refine wpT_readChar (by decide) fun s3 hs3 => ?_
    rw [if_pos (by
      have h1 := Emitter.strLen_append n ['!']
      have h2 : strLen ['!'] = 1 := by decide
      have h3 : lenUtf8 '!' = 1 := by decide
      have h4 : (([] : Str) ++ ['!'] ++ n ++ ['!']).getLast? = some '!' := by rw [List.getLast?_append]; rfl
      rw [h4]
      simp only [List.nil_append, List.cons_append, List.head?_cons, beq_self_eq_true, Bool.true_and, strLen, h1, h2, h3, Bool.and_true, decide_eq_true_eq]
      omega)]
    simp only [M.wp_bind]
    refine wpT_scanTagUri hu (huri false) (Or.inr hv) (by simp at hF; omega) fun s4 hs4 => ?_
    simp only [M.wp_pure, List.tail_nil, List.nil_append]
    exact fin s4 (hs1.trans (hs2.trans (hs3.trans hs4)))
  | @primary n u v hn hun hu hv =>
    have huh : isAlphaO (u ++ rest).head? = false ∧ (u ++ rest).head? ≠ some '!' ∧ (u ++ rest).head? ≠ some '<' := by
      cases u with
      | nil =>
        refine ⟨hal.1, hal.2, ?_⟩
        intro h
        rw [List.nil_append] at h
        cases rest with
        | nil => cases h
        | cons c r =>
          simp at h; subst h
          simp only [List.head?_cons] at hz
          exact absurd hz (by decide)
      | cons c u =>
        obtain ⟨h1, h2⟩ := hun c u rfl
        refine ⟨?_, by simpa using h2, ?_⟩
        · show isAlpha c = false
          cases h : isAlpha c with
          | false => rfl
          | true => exact absurd ((Emitter.isAlpha_iff c).1 h) h1
        · simp only [List.cons_append, List.head?_cons, ne_eq, Option.some.injEq]
          rintro rfl
          generalize hcu : '<' :: u = cu at hu
          cases hu with
          | nil => cases hcu
          | char hc h =>
            cases hcu
            rcases hc with hc | hc | ⟨hc, _⟩
            · exact h1 hc
            · revert hc; decide
            · cases hc
          | escape => cases hcu
    have hlt : ((('!' :: (n ++ u)) ++ rest)[1]? == some '<') = false := by
      cases n with
      | nil =>
        simp only [List.nil_append, List.cons_append, List.getElem?_cons_succ, beq_eq_false_iff_ne]
        rw [← List.head?_eq_getElem?]; exact huh.2.2
      | cons c n =>
        have := (name_facts (hn c List.mem_cons_self)).1
        simp only [List.cons_append, List.getElem?_cons_succ, List.getElem?_cons_zero, beq_eq_false_iff_ne, ne_eq, Option.some.injEq]
        rintro rfl; revert this; decide
    rw [if_neg (by rw [hlt]; simp)]
    unfold scanTagHandle
    simp only [List.cons_append, List.append_assoc, M.wp_bind, wpT_cache, wpT_at, List.getElem?_cons_zero, bne_self_eq_false, Bool.false_eq_true, if_false] at fin ⊢
    refine wpT_readChar (by decide) fun s1 hs1 => ?_
    refine wpT_readWhile (p := isAlphaO) (pre := n) (rest := u ++ rest) (fun c hc => name_facts (hn c hc)) huh.1 (by simp at hF; omega) fun s2 hs2 => ?_
    simp only [wpT_at, List.nil_append]
    rw [if_neg (by rw [← List.head?_eq_getElem?]; simpa using huh.2.1)]
    simp only [Bool.false_and, Bool.false_eq_true, if_false, M.wp_pure]
    have hnl : (('!' :: n : Str).head? == some '!' && decide (strLen ('!' :: n) > 1) && ('!' :: n : Str).getLast? == some '!') = false := by
      rcases List.eq_nil_or_concat n with h0 | ⟨n', c, h0⟩
      · subst h0; decide
      · rw [h0] at hn ⊢
        have := (name_facts (hn c (by simp))).1
        simp only [Bool.and_eq_false_iff]
        right
        rw [List.concat_eq_append, ← List.cons_append, List.getLast?_append, List.getLast?_singleton]
        simp only [Option.some_or, beq_eq_false_iff_ne, ne_eq, Option.some.injEq]
        rintro rfl; revert this; decide
    simp only [List.cons_append, List.nil_append]
    rw [if_neg (by rw [hnl]; simp)]
    simp only [M.wp_bind]
    refine wpT_scanTagUri (head := '!' :: n) hu (huri false) (Or.inl (by simp)) (by simp at hF; omega) fun s3 hs3 => ?_
    simp only [List.tail_cons]
    have hemp : List.isEmpty (n ++ v) = false := by
      cases h : n ++ v with
      | nil => exact absurd h hv
      | cons => rfl
    simp only [hemp, Bool.false_eq_true, if_false, M.wp_pure]
    exact fin s3 (hs1.trans (hs2.trans hs3))
  | bare =>
    have hlt : (('!' :: rest)[1]? == some '<') = false := by
      simp only [List.getElem?_cons_succ, beq_eq_false_iff_ne]
      rw [← List.head?_eq_getElem?]
      intro h; rw [h] at hz; exact absurd hz (by decide)
    rw [if_neg (by rw [List.cons_append, List.nil_append, hlt]; simp)]
    unfold scanTagHandle
    simp only [List.cons_append, List.nil_append, M.wp_bind, wpT_cache, wpT_at, List.getElem?_cons_zero, bne_self_eq_false, Bool.false_eq_true, if_false] at fin ⊢
    refine wpT_readChar (by decide) fun s1 hs1 => ?_
    refine wpT_readWhile (p := isAlphaO) (pre := []) (rest := rest) (by simp) hal.1 (by simp at hF ⊢; omega) fun s2 hs2 => ?_
    simp only [wpT_at, List.nil_append]
    rw [if_neg (by rw [← List.head?_eq_getElem?]; simpa using hal.2)]
    simp only [Bool.false_and, Bool.false_eq_true, if_false, M.wp_pure]
    rw [if_neg (by decide)]
    simp only [M.wp_bind]
    refine wpT_scanTagUri (u := []) (v := []) (head := ['!']) .nil (huri false) (Or.inl (by simp)) (by simp at hF ⊢; omega) fun s3 hs3 => ?_
    simp only [List.tail_cons, List.append_nil, List.isEmpty_nil, if_true, M.wp_pure]
    exact fin s3 (hs1.trans (hs2.trans hs3))

end Yaml

namespace Yaml.Emitter
open Yaml Spec
set_option linter.unusedSimpArgs false
set_option linter.unusedVariables false

/-- The text of a URI. -/
def uriOf (v : Str) : Str := v.flatMap fun c => if isAlpha c || isTagPunct c then [c] else (utf8Bytes c).flatMap uriEscape

theorem hexUpper_digit : ∀ n, n < 16 → HexDigit (hexUpper n) n := by
  intro n hn
  have : ∀ k : Fin 16, (hexUpper k.val).toNat = if k.val < 10 then 48 + k.val else 55 + k.val := by decide
  have := this ⟨n, hn⟩
  simp only [] at this
  unfold HexDigit
  split at this <;> omega

theorem hexDigit_noBreak {c : Char} {n : Nat} (h : HexDigit c n) : isBreak c = false := by
  cases hb : isBreak c with
  | false => rfl
  | true =>
    simp only [isBreak, Bool.or_eq_true, beq_iff_eq] at hb
    unfold HexDigit at h
    rcases hb with (((rfl | rfl) | rfl) | rfl) | rfl <;> simp at h <;> omega

theorem punct_facts {c : Char} (h : isTagPunct c = true) : isBreak c = false ∧ UriChar true c ∧ (c ∉ (cs! ",[]") → UriChar false c) ∧ c ≠ '!' := by
  simp only [isTagPunct, List.contains_cons, Bool.or_eq_true, beq_iff_eq, List.contains_nil, Bool.false_eq_true, or_false] at h
  rcases h with rfl | rfl | rfl | rfl | rfl | rfl | rfl | rfl | rfl | rfl | rfl | rfl | rfl | rfl | rfl | rfl | rfl | rfl | rfl <;>
    refine ⟨by decide, ?_, ?_, by decide⟩ <;> simp [UriChar, NameChar]

theorem uriOf_noBreak (v : Str) : ∀ c ∈ uriOf v, isBreak c = false := by
  intro c hc
  unfold uriOf at hc
  rw [List.mem_flatMap] at hc
  obtain ⟨d, hd, hc⟩ := hc
  split at hc
  · rename_i h
    simp at hc; subst hc
    rcases Bool.or_eq_true _ _ ▸ h with h | h
    · exact (name_facts ((isAlpha_iff c).1 h)).2
    · exact (punct_facts h).1
  · rw [List.mem_flatMap] at hc
    obtain ⟨b, hb, hc⟩ := hc
    have hb := b.toNat_lt
    simp only [uriEscape, List.mem_cons, List.not_mem_nil, or_false] at hc
    rcases hc with rfl | rfl | rfl
    · decide
    · exact hexDigit_noBreak (hexUpper_digit _ (by omega))
    · exact hexDigit_noBreak (hexUpper_digit _ (by omega))

theorem utf8Bytes_ascii {c : Char} (h : c.toNat < 128) : utf8Bytes c = [UInt8.ofNat c.toNat] := by
  have h' : c.val ≤ 127 := by rw [UInt32.le_iff_toNat_le]; show c.toNat ≤ 127; omega
  unfold utf8Bytes String.utf8EncodeChar
  simp only []
  rw [if_pos (show c.val.toNat ≤ 127 by exact UInt32.le_iff_toNat_le.1 h')]
  rfl

theorem uriOf_text (vb : Bool) : ∀ (v : Str), (∀ c ∈ v, c.toNat < 128) → (vb = true ∨ ∀ c ∈ v, c ∉ (cs! ",[]")) → UriText vb (uriOf v) v := by
  intro v
  induction v with
  | nil => intro _ _; exact .nil
  | cons c v ih =>
    intro ha hf
    have ih := ih (fun d hd => ha d (List.mem_cons_of_mem _ hd)) (hf.imp id fun h d hd => h d (List.mem_cons_of_mem _ hd))
    have hac := ha c List.mem_cons_self
    unfold uriOf
    rw [List.flatMap_cons]
    change UriText vb (_ ++ uriOf v) _
    split
    · rename_i h
      refine .char ?_ ih
      rcases Bool.or_eq_true _ _ ▸ h with h | h
      · exact Or.inl ((isAlpha_iff c).1 h)
      · rcases hf with rfl | hf
        · exact (punct_facts h).2.1
        · have := (punct_facts h).2.2.1 (hf c List.mem_cons_self)
          rcases this with h | h | ⟨h, _⟩
          · exact Or.inl h
          · exact Or.inr (Or.inl h)
          · cases h
    · have hb : utf8Bytes c = [UInt8.ofNat c.toNat] := by
        exact utf8Bytes_ascii hac
      rw [hb]
      have hn : (UInt8.ofNat c.toNat).toNat = c.toNat := by
        rw [UInt8.toNat_ofNat']; omega
      simp only [List.flatMap_cons, List.flatMap_nil, List.append_nil, uriEscape, hn, List.cons_append, List.nil_append]
      have := UriText.escape (verbatim := vb) (hexUpper_digit (c.toNat / 16) (by omega)) (hexUpper_digit (c.toNat % 16) (by omega)) (by omega) ih
      rw [show 16 * (c.toNat / 16) + c.toNat % 16 = c.toNat by omega, Char.ofNat_toNat] at this
      exact this

theorem writes_tagContentLoop : ∀ (v : Str) (s : EState), Writes (tagContentLoop v) s () { s with column := s.column + (uriOf v).length } (uriOf v) := by
  intro v
  induction v with
  | nil => intro s; exact (Writes.pure () s).cast (by simp [uriOf]) rfl
  | cons c v ih =>
    intro s
    rw [show uriOf (c :: v) = (if isAlpha c || isTagPunct c then [c] else (utf8Bytes c).flatMap uriEscape) ++ uriOf v from by unfold uriOf; rw [List.flatMap_cons]]
    rw [show tagContentLoop (c :: v) = _ from by unfold tagContentLoop; rfl]
    by_cases h : (isAlpha c || isTagPunct c) = true
    · rw [if_pos h]
      simp only [h, if_true]
      refine ((writes_writeChar c s).bind (ih _)).cast ?_ rfl
      simp; omega
    · rw [if_neg h]
      simp only [h, if_false]
      refine ((writes_putAll _ s).bind (ih _)).cast ?_ rfl
      simp only [List.length_append]
      congr 1
      push_cast
      omega

/-- The text of a tag. -/
def tagText (t : TagAnalysis) : Str := if t.handle.isEmpty then (cs! "!<") ++ (uriOf t.suffix ++ ['>']) else t.handle ++ uriOf t.suffix

theorem handle_noBreak {h : Str} (hh : HandleOk h) : ∀ c ∈ h, isBreak c = false := by
  rcases hh with rfl | ⟨n, rfl, hn⟩
  · decide
  · intro c hc
    simp at hc
    rcases hc with rfl | hc | rfl
    · decide
    · exact (name_facts (hn c hc)).2
    · decide

theorem tagText_noBreak {t : TagAnalysis} (hh : t.handle = [] ∨ HandleOk t.handle) : ∀ c ∈ tagText t, isBreak c = false := by
  intro c hc
  unfold tagText at hc
  split at hc
  · simp at hc
    rcases hc with rfl | rfl | hc | rfl
    · decide
    · decide
    · exact uriOf_noBreak _ c hc
    · decide
  · rename_i h
    rcases hh with hh | hh
    · rw [hh] at h; exact absurd rfl h
    · rcases List.mem_append.1 hc with hc | hc
      · exact handle_noBreak hh c hc
      · exact uriOf_noBreak _ c hc

theorem writes_processTag (t : TagAnalysis) (s : EState) (ht : t.handle = [] → t.suffix ≠ []) (hh : t.handle = [] ∨ HandleOk t.handle) :
    ∃ s', Writes (processTag (some t)) s () s' (sep s ++ tagText t) ∧ Wrote s (sep s ++ tagText t) s' ∧ s'.whitespace = false ∧ s'.indention = false := by
  unfold processTag
  simp only []
  cases hz : t.handle.isEmpty with
  | true =>
    have hz' : t.handle = [] := by simpa using hz
    have hs : t.suffix.isEmpty = false := by
      cases h : t.suffix with
      | nil => exact absurd h (ht hz')
      | cons => rfl
    simp only [hs, Bool.and_false, Bool.false_eq_true, if_false, if_true]
    obtain ⟨s1, a1, a2, a3, a4⟩ := writes_indicator (cs! "!<") false false s (by decide)
    obtain ⟨s2, b1, b2, b3, b4⟩ := writes_indicator0 (cs! ">") false false { s1 with column := s1.column + (uriOf t.suffix).length, whitespace := false, indention := false } (by decide)
    refine ⟨s2, ?_, ?_, b3, ?_⟩
    · refine (a1.bind (f := fun _ => writeTagContent t.suffix false >>= fun _ => writeIndicator (cs! ">") false false false) (Writes.bind (a := ()) ?_ b1)).cast (w := (sep s ++ cs! "!<") ++ (uriOf t.suffix ++ cs! ">")) rfl ?_
      · unfold writeTagContent
        refine Writes.bind_get ((Writes.when_false (by simp)).bind0 ?_)
        exact ((writes_tagContentLoop t.suffix s1).bind (Writes.modify (fun s => { s with whitespace := false, indention := false }) _)).cast rfl (by simp)
      · simp [tagText, hz]
    · have h2 : Wrote s1 (uriOf t.suffix) { s1 with column := s1.column + (uriOf t.suffix).length, whitespace := false, indention := false } := (wrote_str (uriOf_noBreak _) s1).setWI _ _
      have := a2.trans (h2.trans b2)
      simpa [tagText, hz] using this
    · rw [b4]; rfl
  | false =>
    simp only [Bool.false_and, Bool.false_eq_true, if_false]
    have hh' : HandleOk t.handle := by
      rcases hh with h | h
      · rw [h] at hz; cases hz
      · exact h
    -- the handle
    have h1 : ∃ s1, Writes (writeTagHandle t.handle) s () s1 (sep s ++ t.handle) ∧ Wrote s (sep s ++ t.handle) s1 ∧ s1.whitespace = false ∧ s1.indention = false := by
      unfold writeTagHandle sep
      cases hw : s.whitespace with
      | true =>
        refine ⟨{ s with column := s.column + t.handle.length, whitespace := false, indention := false }, ?_, ?_, rfl, rfl⟩
        · refine Writes.bind_get ((Writes.when_false (by simp [hw])).bind0 ?_)
          exact ((writes_writeStr t.handle s).bind (Writes.modify (fun s => { s with whitespace := false, indention := false }) _)).cast rfl (by simp)
        · exact (wrote_str (handle_noBreak hh') s).setWI _ _
      | false =>
        refine ⟨{ s with column := s.column + 1 + t.handle.length, whitespace := false, indention := false }, ?_, ?_, rfl, rfl⟩
        · refine Writes.bind_get ((Writes.when_true (by simp [hw]) (writes_put ' ' s)).bind ?_)
          exact ((writes_writeStr t.handle _).bind (Writes.modify (fun s => { s with whitespace := false, indention := false }) _)).cast rfl (by simp)
        · exact (((wrote_char (c := ' ') (by decide) s).trans (wrote_str (handle_noBreak hh') _))).setWI _ _
    obtain ⟨s1, a1, a2, a3, a4⟩ := h1
    by_cases hs : t.suffix = []
    · refine ⟨s1, ?_, ?_, a3, a4⟩
      · refine (a1.bind (Writes.when_false (by simp [hs]))).cast rfl ?_
        simp [tagText, hz, hs, uriOf]
      · simpa [tagText, hz, hs, uriOf] using a2
    · refine ⟨{ s1 with column := s1.column + (uriOf t.suffix).length, whitespace := false, indention := false }, ?_, ?_, rfl, rfl⟩
      · refine (a1.bind (Writes.when_true (by simp [hs]) (?_ : Writes _ _ () _ (uriOf t.suffix)))).cast rfl ?_
        · unfold writeTagContent
          refine Writes.bind_get ((Writes.when_false (by simp)).bind0 ?_)
          exact ((writes_tagContentLoop t.suffix s1).bind (Writes.modify (fun s => { s with whitespace := false, indention := false }) _)).cast rfl (by simp)
        · simp [tagText, hz]
      · have h2 : Wrote s1 (uriOf t.suffix) { s1 with column := s1.column + (uriOf t.suffix).length, whitespace := false, indention := false } := (wrote_str (uriOf_noBreak _) s1).setWI _ _
        have := a2.trans h2
        simpa [tagText, hz] using this

/-- The shorthand suffix can be read back. -/
def TagOk (t : TagAnalysis) : Prop :=
  t.suffix ≠ [] ∧ (∀ c ∈ t.suffix, c.toNat < 128) ∧ (t.handle = [] ∨ (HandleOk t.handle ∧ ∀ c ∈ t.suffix, c ∉ (cs! ",[]")))

theorem alpha_split (v : Str) : ∃ n u, v = n ++ u ∧ (∀ c ∈ n, NameChar c) ∧ ∀ c r, u = c :: r → ¬ NameChar c := by
  induction v with
  | nil => exact ⟨[], [], rfl, by simp, by simp⟩
  | cons c v ih =>
    by_cases h : NameChar c
    · obtain ⟨n, u, h1, h2, h3⟩ := ih
      refine ⟨c :: n, u, by rw [h1]; rfl, ?_, h3⟩
      intro d hd
      rcases List.mem_cons.1 hd with rfl | hd
      · exact h
      · exact h2 d hd
    · exact ⟨[], c :: v, rfl, by simp, fun d r e => by cases e; exact h⟩

theorem uriOf_append (a b : Str) : uriOf (a ++ b) = uriOf a ++ uriOf b := by
  unfold uriOf; rw [List.flatMap_append]

theorem uriOf_names {n : Str} (h : ∀ c ∈ n, NameChar c) : uriOf n = n := by
  induction n with
  | nil => rfl
  | cons c n ih =>
    have := (isAlpha_iff c).2 (h c List.mem_cons_self)
    have ih := ih (fun d hd => h d (List.mem_cons_of_mem _ hd))
    unfold uriOf at ih ⊢
    rw [List.flatMap_cons, ih, if_pos (by simp [this])]; rfl

theorem tagText_denotes {t : TagAnalysis} (h : TagOk t) : TagText (tagText t) t.handle t.suffix := by
  obtain ⟨h1, h2, h3⟩ := h
  obtain ⟨th, ts⟩ := t
  simp only [] at h1 h2 h3
  unfold tagText
  simp only []
  rcases h3 with rfl | ⟨h3, h4⟩
  · exact .verbatim (uriOf_text true ts h2 (Or.inl rfl)) h1
  · have hne : th.isEmpty = false := by rcases h3 with rfl | ⟨n, rfl, _⟩ <;> rfl
    rw [if_neg (by rw [hne]; simp)]
    rcases h3 with rfl | ⟨n, rfl, hn⟩
    · obtain ⟨n, u, rfl, hn, hu⟩ := alpha_split ts
      rw [uriOf_append, uriOf_names hn]
      refine TagText.primary (n := n) (u := uriOf u) (v := u) hn ?_ (uriOf_text false u (fun c hc => h2 c (List.mem_append_right _ hc)) (Or.inr fun c hc => h4 c (List.mem_append_right _ hc))) h1
      intro c r hcr
      cases u with
      | nil => cases hcr
      | cons d u =>
        have hd := hu d u rfl
        have hd' : isAlpha d = false := by
          cases h : isAlpha d with
          | false => rfl
          | true => exact absurd ((isAlpha_iff d).1 h) hd
        unfold uriOf at hcr
        rw [List.flatMap_cons] at hcr
        by_cases hp : isTagPunct d = true
        · rw [if_pos (by simp [hp])] at hcr
          cases hcr
          exact ⟨hd, (punct_facts hp).2.2.2⟩
        · rw [if_neg (by simp [hp, hd'])] at hcr
          have hb : utf8Bytes d = [UInt8.ofNat d.toNat] := by
            exact utf8Bytes_ascii (h2 d (by simp))
          rw [hb] at hcr
          simp only [List.flatMap_cons, List.flatMap_nil, uriEscape, List.cons_append] at hcr
          cases hcr
          exact ⟨by unfold NameChar; decide, by decide⟩
    · have := TagText.named hn (uriOf_text false ts h2 (Or.inr h4)) h1
      simpa using this

/-- Splitting an ASCII string. -/
theorem splitBytes_ascii : ∀ (n : Nat) (t : Str), (∀ c ∈ t, c.toNat < 128) → n ≤ t.length → splitBytes n t = some (t.take n, t.drop n) := by
  intro n t
  induction t generalizing n with
  | nil => intro _ h; simp at h; subst h; rfl
  | cons c t ih =>
    intro ha hn
    cases n with
    | zero => rfl
    | succ n =>
      have h1 : lenUtf8 c = 1 := by
        unfold lenUtf8; rw [if_pos (by have := ha c List.mem_cons_self; omega)]
      unfold splitBytes
      rw [h1, if_pos (by omega), Nat.add_sub_cancel, ih n (fun d hd => ha d (List.mem_cons_of_mem _ hd)) (by simp at hn; omega)]
      rfl

theorem strLen_ascii {t : Str} (h : ∀ c ∈ t, c.toNat < 128) : strLen t = t.length := by
  induction t with
  | nil => rfl
  | cons c t ih =>
    have h1 : lenUtf8 c = 1 := by
      unfold lenUtf8; rw [if_pos (by have := h c List.mem_cons_self; omega)]
    rw [strLen, h1, ih (fun d hd => h d (List.mem_cons_of_mem _ hd)), List.length_cons]; omega

/-- What the analysis of an ASCII tag finds. -/
theorem writes_analyzeTag (tag : Str) (ds : List TagDirective) (s : EState) (hne : tag ≠ []) (ha : ∀ c ∈ tag, c.toNat < 128) :
    ∃ t, Writes (analyzeTag tag ds) s t s [] ∧ t.suffix ≠ [] ∧ ((t.handle = [] ∧ t.suffix = tag) ∨ ∃ d ∈ ds, t.handle = d.handle ∧ tag = d.prefix_ ++ t.suffix) := by
  unfold analyzeTag
  rw [if_neg (by simpa using hne)]
  induction ds with
  | nil => exact ⟨⟨[], tag⟩, Writes.pure _ s, hne, Or.inl ⟨rfl, rfl⟩⟩
  | cons d ds ih =>
    obtain ⟨t, h1, h2, h3⟩ := ih
    have h3' : (t.handle = [] ∧ t.suffix = tag) ∨ ∃ d' ∈ d :: ds, t.handle = d'.handle ∧ tag = d'.prefix_ ++ t.suffix :=
      h3.imp id fun ⟨d', h, h'⟩ => ⟨d', List.mem_cons_of_mem _ h, h'⟩
    unfold analyzeTagLoop
    by_cases hlt : strLen d.prefix_ < strLen tag
    · rw [if_pos hlt, strLen_ascii ha] at *
      rw [splitBytes_ascii _ _ ha (by omega)]
      simp only []
      by_cases heq : (d.prefix_ == tag.take (strLen d.prefix_)) = true
      · rw [if_pos heq]
        have heq' := beq_iff_eq.1 heq
        refine ⟨⟨d.handle, tag.drop (strLen d.prefix_)⟩, Writes.pure _ s, ?_, Or.inr ⟨d, by simp, rfl, ?_⟩⟩
        · simp only [ne_eq, List.drop_eq_nil_iff, Nat.not_le]; exact hlt
        · simp only []
          have := List.take_append_drop (strLen d.prefix_) tag
          rw [← heq'] at this
          exact this.symm
      · rw [if_neg heq]
        exact ⟨t, h1, h2, h3'⟩
    · rw [if_neg hlt]
      exact ⟨t, h1, h2, h3'⟩

theorem writes_processAnchor (n : Str) (al : Bool) (s : EState) (hn : NameOk n) :
    ∃ s', Writes (processAnchor (some ⟨n, al⟩)) s () s' (sep s ++ (if al then '*' else '&') :: n) ∧ Wrote s (sep s ++ (if al then '*' else '&') :: n) s' ∧
      s'.whitespace = false ∧ s'.indention = false := by
  obtain ⟨s1, a1, a2, a3, a4⟩ := writes_indicator (if al then ['*'] else ['&']) false false s (by cases al <;> decide)
  refine ⟨{ s1 with column := s1.column + n.length, whitespace := false, indention := false }, ?_, ?_, rfl, rfl⟩
  · unfold processAnchor writeAnchor
    refine (a1.bind ((writes_writeStr n s1).bind (Writes.modify (fun s => { s with whitespace := false, indention := false }) _))).cast rfl ?_
    cases al <;> simp
  · have h2 := (wrote_str (fun c hc => (name_facts (hn.2 c hc)).2) s1).setWI false false
    have := a2.trans h2
    cases al <;> simpa using this

end Yaml.Emitter
