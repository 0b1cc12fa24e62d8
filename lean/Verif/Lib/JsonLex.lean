import Verif.Lib.Round9
import Verif.Spec.Json

/-
Reading JSON, scanner side: words (numbers and literals), with tabs in the white space after them.
-/

namespace Yaml.Lx
open Yaml Scanner Spec
set_option linter.unusedSimpArgs false
set_option linter.unusedVariables false

/-- A character of a number or a literal. -/
def WordChar (c : Char) : Prop := ('0' ≤ c ∧ c ≤ '9') ∨ ('a' ≤ c ∧ c ≤ 'z') ∨ ('A' ≤ c ∧ c ≤ 'Z') ∨ c = '+' ∨ c = '-' ∨ c = '.'

/-- The text of a number or a literal. -/
structure WordText (w : Str) : Prop where
  chars : ∀ c ∈ w, WordChar c
  head : (∃ c r, w = c :: r ∧ (('0' ≤ c ∧ c ≤ '9') ∨ ('a' ≤ c ∧ c ≤ 'z'))) ∨ ∃ c r, w = '-' :: c :: r ∧ '0' ≤ c ∧ c ≤ '9'

theorem WordText.cons {w : Str} (h : WordText w) : ∃ c r, w = c :: r := by
  rcases h.head with ⟨c, r, h, _⟩ | ⟨c, r, h, _⟩
  · exact ⟨_, _, h⟩
  · exact ⟨_, _, h⟩

theorem le_nat {a b : Char} : a ≤ b ↔ a.toNat ≤ b.toNat := Iff.rfl

theorem WordChar.ne {c d : Char} (h : WordChar c) (hd : ¬ WordChar d) : c ≠ d := by rintro rfl; exact hd h

instance (c : Char) : Decidable (WordChar c) := by unfold WordChar; infer_instance

theorem WordChar.solid {c : Char} (h : WordChar c) : ¬ IsBlank c ∧ isLineBreak c = false := by
  refine ⟨?_, ?_⟩
  · rintro (h' | h')
    · exact h.ne (by decide) h'
    · exact h.ne (by decide) h'
  · cases hb : isLineBreak c with
    | false => rfl
    | true =>
      exfalso
      simp only [isLineBreak, Bool.or_eq_true, decide_eq_true_eq] at hb
      rcases hb with (((hb | hb) | hb) | hb) | hb <;> exact h.ne (by decide) hb

theorem WordChar.plain {fl : Bool} {c : Char} (h : WordChar c) (t : Str) : PlainChar fl c t := by
  have hc : c ≠ ':' := h.ne (by decide)
  refine ⟨h.solid, ?_, fun _ h' => absurd h' hc⟩
  rintro (h' | ⟨r, h', _⟩ | ⟨_, d, r, h', hd⟩)
  · cases h'
  · cases h'; exact hc rfl
  · cases h'
    rcases hd with hd | hd | hd | hd | hd <;> exact h.ne (by decide) hd

/-- White space without comments: spaces, line breaks and, in flow context, tabs. -/
def Soft (f : Nat) (g : Str) : Prop := ∀ c ∈ g, c = ' ' ∨ isBreak c = true ∨ (f ≠ 0 ∧ c = '\t')

theorem Blanks.soft {g : Str} (h : Blanks g) {f : Nat} : Soft f g := fun c hc => (h c hc).imp id Or.inl

theorem Soft.ws {f : Nat} : ∀ {g : Str}, Soft f g → ∀ {al : Bool}, Ws f al g
  | [], _, _ => .nil
  | c :: g, h, al => by
    have h' : Soft f g := fun x hx => h x (List.mem_cons_of_mem _ hx)
    rcases h c List.mem_cons_self with rfl | hc | ⟨hf, rfl⟩
    · exact .space h'.ws
    · exact .brk hc h'.ws
    · exact .tab (Or.inl hf) h'.ws

theorem ws_folds {f : Nat} {g rest : Str} (hg : Soft f g) (hr : Solid rest) : ∃ bs, Folds (g ++ rest) bs rest ∧ decide (bs ≠ []) = hasBrk g := by
  induction hn : g.length using Nat.strongRecOn generalizing g with
  | _ n ih =>
    cases g with
    | nil => exact ⟨[], .stop _ hr, rfl⟩
    | cons c g =>
      have hg' : Soft f g := fun x hx => hg x (List.mem_cons_of_mem _ hx)
      rcases hg c List.mem_cons_self with rfl | hb | ⟨_, rfl⟩
      · obtain ⟨bs, h1, h2⟩ := ih g.length (by simp at hn; omega) hg' rfl
        exact ⟨bs, .blank _ (Or.inl rfl) h1, by rw [h2]; simp [hasBrk, isBreak]⟩
      · by_cases hc : c = '\r' ∧ g.head? = some '\n'
        · obtain ⟨rfl, hh⟩ := hc
          cases g with
          | nil => cases hh
          | cons d g =>
            cases hh
            obtain ⟨bs, h1, h2⟩ := ih g.length (by simp at hn; omega) (fun x hx => hg' x (List.mem_cons_of_mem _ hx)) rfl
            exact ⟨'\n' :: bs, .brk (.crlf _) h1, by simp [hasBrk, hb]⟩
        · obtain ⟨bs, h1, h2⟩ := ih g.length (by simp at hn; omega) hg' rfl
          refine ⟨breakValue c :: bs, .brk (.one c (g ++ rest) (by rw [isLineBreak_eq]; exact hb) ?_) h1, by simp [hasBrk, hb]⟩
          rintro ⟨rfl, hh⟩
          cases g with
          | nil =>
            cases rest with
            | nil => cases hh
            | cons x r => cases hh; exact absurd (hr '\n' r rfl).2 (by decide)
          | cons x g => exact hc ⟨rfl, hh⟩
      · obtain ⟨bs, h1, h2⟩ := ih g.length (by simp at hn; omega) hg' rfl
        exact ⟨bs, .blank _ (Or.inr rfl) h1, by rw [h2]; simp [hasBrk, isBreak]⟩

section
variable {P : PanicSite → Prop} {E : Err → SState → Txt → Prop} {s : SState} {t : Str} {e : Encoding}

/-- The blank loop where no indentation is required. -/
theorem wpT_plainBlanks_any {F : Nat} {n : Int} (hn : n ≤ 0) {m : Mark} {v : BlankVars} {Q : BlankVars → SState → Txt → Prop} {bs t' : Str}
    (h : Folds t bs t') (hF : t.length < F)
    (hQ : ∀ v' s', v'.leadingBlanks = (v.leadingBlanks || decide (bs ≠ [])) → Mv s t s' t' → Q v' s' ⟨t', e⟩) :
    M.wp stepT P E (plainBlanks F n m v) Q s ⟨t, e⟩ := by
  unfold plainBlanks
  induction h generalizing s F v with
  | stop t h =>
    obtain ⟨F, rfl⟩ : ∃ n, F = n + 1 := ⟨F - 1, by omega⟩
    rw [M.wp_loop_succ]
    simp only [M.wp_bind, wpT_at, wp_getMark]
    have h0 : isBlankO t[0]? = false ∧ isBreakO t[0]? = false := by
      cases t with
      | nil => exact ⟨rfl, rfl⟩
      | cons c r =>
        have := h c r rfl
        exact ⟨isBlankO_false.2 this.1, by rw [List.getElem?_cons_zero, breakO_eq]; exact this.2⟩
    simp only [h0.1, h0.2, Bool.false_eq_true, if_false, M.wp_pure, M.next_inr]
    exact hQ v s (by simp) (Mv.refl _ _)
  | @blank c t bs t' hc h ih =>
    obtain ⟨F, rfl⟩ : ∃ n, F = n + 1 := ⟨F - 1, by simp at hF; omega⟩
    rw [M.wp_loop_succ]
    simp only [M.wp_bind, wpT_at, wp_getMark, List.getElem?_cons_zero, isBlankO_iff.2 hc, if_true]
    have hcol : decide ((s.mark.column : Int) < n) = false := by simp; omega
    rw [if_neg (by rw [hcol]; simp)]
    by_cases hv : v.leadingBlanks = true
    · rw [if_neg (by simp [hv]), M.wp_bind]
      refine wpT_skipChar hc.noBreak fun s' hs' => ?_
      simp only [wpT_cache, M.wp_bind, M.wp_pure, M.next_inl]
      exact ih (by simp at hF; omega) fun v' s'' hv' hs'' => hQ v' _ hv' (hs'.trans hs'')
    · rw [if_pos (by simp [hv]), M.wp_bind]
      refine wpT_readChar hc.noBreak fun s' hs' => ?_
      simp only [wpT_cache, M.wp_bind, M.wp_pure, M.next_inl]
      exact ih (by simp at hF; omega) fun v' s'' hv' hs'' => hQ v' _ hv' (hs'.trans hs'')
  | @brk t t1 bs t' c hb h ih =>
    obtain ⟨F, rfl⟩ : ∃ n, F = n + 1 := ⟨F - 1, by omega⟩
    rw [M.wp_loop_succ]
    obtain ⟨d, r, hd, hbr⟩ := hb.head
    have h0 : isBlankO t[0]? = false ∧ isBreakO t[0]? = true := by
      rw [hd, List.getElem?_cons_zero]
      refine ⟨isBlankO_false.2 fun hb => ?_, hbr⟩
      rw [hb.noBreak] at hbr; simp at hbr
    simp only [M.wp_bind, wpT_at, wp_getMark, h0.1, h0.2, Bool.false_eq_true, if_false, if_true, wpT_cache]
    have hl := hb.length
    split
    · rename_i hv
      rw [M.wp_bind]
      refine wpT_readLineBreak hb fun s' hs' _ _ => ?_
      simp only [wpT_cache, M.wp_bind, M.wp_pure, M.next_inl]
      exact ih (by omega) fun v' s'' hv' hs'' => hQ v' _ (by rw [hv']; simp [hv]) (hs'.trans hs'')
    · rw [M.wp_bind]
      refine wpT_readLineBreak hb fun s' hs' _ _ => ?_
      simp only [wpT_cache, M.wp_bind, M.wp_pure, M.next_inl]
      exact ih (by omega) fun v' s'' hv' hs'' => hQ v' _ (by rw [hv']; simp) (hs'.trans hs'')

theorem plainStop_solid {fl : Bool} {t : Str} (h : PlainStop fl t) : Solid t := by
  intro c r ht
  rcases h with rfl | ⟨r', rfl, _⟩ | ⟨_, d, r', rfl, hd⟩
  · cases ht
  · cases ht; exact ⟨by rintro (h | h) <;> revert h <;> decide, by decide⟩
  · cases ht
    rcases hd with rfl | rfl | rfl | rfl | rfl <;> exact ⟨by rintro (h | h) <;> revert h <;> decide, by decide⟩

theorem plainStop_next {fl : Bool} {t : Str} (h : PlainStop fl t) : t.head? ≠ some '#' ∧ ¬ IsDocMarker t := by
  rcases h with rfl | ⟨r', rfl, _⟩ | ⟨_, d, r', rfl, hd⟩
  · exact ⟨by simp, by rintro ⟨r, h | h, _⟩ <;> cases h⟩
  · exact ⟨by simp, by rintro ⟨r, h | h, _⟩ <;> cases h⟩
  · rcases hd with rfl | rfl | rfl | rfl | rfl <;> exact ⟨by simp, by rintro ⟨r, h | h, _⟩ <;> cases h⟩

/-- The characters of a word. -/
theorem wpT_wordChunk {m : Mark} {Q : PlainVars → SState → Txt → Prop} {w : Str} (hw : ∀ c ∈ w, WordChar c) :
    ∀ {F1 : Nat} {s : SState} {v : PlainVars}, w.length < F1 → v.blanks = {} →
    (∀ F1' s' v', 0 < F1' → v'.string = v.string ++ w → v'.blanks = {} → Mv s (w ++ t) s' t → s'.mark.column = s.mark.column + w.length →
      M.wp stepT P E (plainChunk F1' m v') Q s' ⟨t, e⟩) →
    M.wp stepT P E (plainChunk F1 m v) Q s ⟨w ++ t, e⟩ := by
  induction w with
  | nil => intro F1 s v hF hv hQ; exact hQ F1 s v hF (by simp) hv (Mv.refl _ _) rfl
  | cons c w ih =>
    intro F1 s v hF hv hQ
    obtain ⟨F1, rfl⟩ : ∃ n, F1 = n + 1 := ⟨F1 - 1, by simp at hF; omega⟩
    have hc := hw c List.mem_cons_self
    refine wpT_plainChar (hc.plain _) fun s1 hs1 => ?_
    have hcol1 : s1.mark = _ := hs1.line (p := [c]) (by simpa [isLineBreak_eq] using hc.solid.2)
    have hcol1 : s1.mark.column = s.mark.column + 1 := by rw [hcol1]; simp
    refine ih (fun x hx => hw x (List.mem_cons_of_mem _ hx)) (by simp at hF; omega) rfl fun F1' s' v' h1 h2 h3 h4 h5 => ?_
    refine hQ F1' s' v' h1 ?_ h3 (hs1.trans h4) (by rw [h5, hcol1]; simp; omega)
    rw [h2, hv]; simp [joinBlanks]

/-- `scan_plain_scalar` on a word. -/
theorem wpT_scanWord {F : Nat} {Q : Token → SState → Txt → Prop} {w g rest : Str} (hw : ∀ c ∈ w, WordChar c) (hw0 : w ≠ [])
    (hi : s.indent = -1) (hg : Soft s.flowLevel g) (hr : PlainStop (s.flowLevel != 0) rest) (hF : (w ++ (g ++ rest)).length + 1 < F)
    (hdoc : s.mark.column ≠ 0 ∨ ¬ Spec.IsDocMarker (w ++ (g ++ rest)))
    (hQ : ∀ s' m, Mv s (w ++ (g ++ rest)) s' rest → Q ⟨.scalar w .plain, s.mark, m⟩ (if hasBrk g then { s' with simpleKeyAllowed := true } else s') ⟨rest, e⟩) :
    M.wp stepT P E (scanPlainScalar F) Q s ⟨w ++ (g ++ rest), e⟩ := by
  unfold scanPlainScalar
  simp only [M.wp_bind, M.wp_get, plainBody_eq]
  have hso := plainStop_solid hr
  obtain ⟨hx, hnd⟩ := plainStop_next hr
  suffices hend : M.wp stepT P E (M.loop F (plainPass F (s.indent + 1) s.mark) { string := [], blanks := {}, endMark := s.mark })
      (fun x s' b => x.string = w ∧ x.blanks.leadingBlanks = hasBrk g ∧ Mv s (w ++ (g ++ rest)) s' rest ∧ b = ⟨rest, e⟩) s ⟨w ++ (g ++ rest), e⟩ by
    refine M.wp_mono stepT_mono hend ?_ (fun _ _ _ h => h) (fun _ h => h)
    rintro x s' b ⟨h1, h2, h3, rfl⟩
    have := hQ s' x.endMark h3
    rw [h1, h2]
    revert this
    cases hasBrk g
    · exact id
    · exact id
  obtain ⟨F, rfl⟩ : ∃ n, F = n + 1 := ⟨F - 1, by omega⟩
  obtain ⟨c, w', rfl⟩ := List.exists_cons_of_ne_nil hw0
  refine wpT_plainHead hdoc (by simpa using (hw c List.mem_cons_self).ne (d := '#') (by decide)) ?_
  refine wpT_wordChunk hw (by simp at hF ⊢; omega) rfl fun F1 s1 v1 hF1 h1 h2 h3 h4 => ?_
  obtain ⟨F1, rfl⟩ : ∃ n, F1 = n + 1 := ⟨F1 - 1, by omega⟩
  have hfl : s1.flowLevel = s.flowLevel := h3.flowLevel
  have h0 : isBlankO rest[0]? = false ∧ isBreakO rest[0]? = false := by
    cases rest with
    | nil => exact ⟨rfl, rfl⟩
    | cons c r =>
      have := hso c r rfl
      exact ⟨isBlankO_false.2 this.1, by rw [List.getElem?_cons_zero, breakO_eq]; exact this.2⟩
  have hstr : v1.string = c :: w' := by rw [h1]; rfl
  cases g with
  | nil =>
    refine wpT_plainChunk_stop (by rw [hfl]; exact hr) ?_
    unfold PRest plainAfter
    simp only [M.wp_bind, wpT_at, List.nil_append]
    rw [if_pos (by simp [h0])]
    exact ⟨hstr, by rw [h2]; rfl, h3, rfl⟩
  | cons d g =>
    have hd : isBlankO (some d) = true ∨ isBreakO (some d) = true := by
      rcases hg d List.mem_cons_self with rfl | hb | ⟨_, rfl⟩
      · exact Or.inl (by decide)
      · exact Or.inr hb
      · exact Or.inl (by decide)
    refine wpT_plainChunk_blank (by
      simp only [List.cons_append, List.head?_cons, isBlankzO, isBreakzO]
      rcases hd with h | h <;> simp [h] <;> simp_all [isBreakO]) ?_
    refine wpT_plainAfter (d := d) (r := g ++ rest) rfl hd ?_
    obtain ⟨bs, hf, hbs⟩ := ws_folds hg hso
    refine wpT_plainBlanks_any (by omega) hf (by simp at hF ⊢; omega) fun v' s2 hv' hs2 => ?_
    have hall := h3.trans hs2
    have hlead : v'.leadingBlanks = hasBrk (d :: g) := by rw [hv', h2, hbs]; rfl
    refine ⟨fun _ => ?_, fun hh => ⟨hstr, hlead, hall, rfl⟩⟩
    obtain ⟨F, rfl⟩ : ∃ n, F = n + 1 := ⟨F - 1, by simp at hF; omega⟩
    refine wpT_plainHead (Or.inr hnd) hx ?_
    refine wpT_plainChunk_stop (by rw [hs2.flowLevel, hfl]; exact hr) ?_
    unfold PRest plainAfter
    simp only [M.wp_bind, wpT_at]
    rw [if_pos (by simp [h0])]
    exact ⟨hstr, hlead, hall, rfl⟩

end

theorem word_notDoc {w t : Str} (hw : WordText w) : ¬ IsDocMarker (w ++ t) := by
  rintro ⟨r, h, _⟩
  rcases hw.head with ⟨c, r', rfl, hc⟩ | ⟨c, r', rfl, hc⟩
  · rcases h with h | h <;> (simp at h; rw [h.1] at hc; revert hc; decide)
  · rcases h with h | h
    · simp at h; rw [h.1] at hc; revert hc; decide
    · simp at h

theorem dispatch_word {F : Nat} {m : Mark} {fl : Nat} {w t : Str} (hw : WordText w) :
    dispatch F m fl (w ++ t)[0]? (w ++ t)[1]? (w ++ t)[2]? (w ++ t)[3]? = fetchPlainScalar F := by
  rcases hw.head with ⟨c, r, rfl, hc⟩ | ⟨c, r, rfl, hc⟩
  · have hwc := hw.chars c List.mem_cons_self
    have hm : c ≠ '-' := by rintro rfl; revert hc; decide
    have hd : c ≠ '.' := by rintro rfl; revert hc; decide
    have ne : ∀ d, ¬ WordChar d → ¬ c = d := fun d hd => hwc.ne hd
    have hz : isBlankzO (some c) = false := blankz_false hwc.solid.1 hwc.solid.2
    simp only [List.cons_append, List.getElem?_cons_zero, List.getElem?_cons_succ]
    unfold dispatch canStartPlain
    simp [hz, hm, hd, ne '%' (by decide), ne '[' (by decide), ne '{' (by decide), ne ']' (by decide), ne '}' (by decide), ne ',' (by decide), ne '?' (by decide),
      ne ':' (by decide), ne '*' (by decide), ne '&' (by decide), ne '!' (by decide), ne '|' (by decide), ne '>' (by decide), ne '\'' (by decide), ne '"' (by decide),
      ne '#' (by decide), ne '@' (by decide), ne '`' (by decide)]
  · have hwc := hw.chars c (by simp)
    have hm : ¬ c = '-' := by rintro rfl; revert hc; decide
    have hz : isBlankzO (some c) = false := blankz_false hwc.solid.1 hwc.solid.2
    have hb : isBlankO (some c) = false := isBlankO_false.2 hwc.solid.1
    simp only [List.cons_append, List.getElem?_cons_zero, List.getElem?_cons_succ]
    unfold dispatch canStartPlain
    simp [hz, hm, hb]

/-- A number or a literal. -/
theorem lex_word {F : Nat} {A : Cfg} {w g rest : Str} (hw : WordText w) (hi : A.indent = -1) (hg : Soft A.flow g) (hr : PlainStop (A.flow != 0) rest)
    (hh : A.allowed = true → A.hot = false) :
    Lex F A (w ++ (g ++ rest)) (((A.save.allow (A.flow != 0 && hasBrk g)).eat w).push (.scalar w .plain)) (g ++ rest) := by
  intro out s e h hF
  rw [dispatch_word hw]
  obtain ⟨c, w', hcw⟩ := hw.cons
  have hw0 : w ≠ [] := by rw [hcw]; simp
  unfold fetchPlainScalar
  simp only [M.wp_bind]
  refine wp_save h hh fun s1 h1 => ?_
  simp only [M.wp_bind, M.wp_modify, allowSimpleKey]
  have hsf : A.save.flow = A.flow := by unfold Cfg.save; split <;> rfl
  have hsi : A.save.indent = A.indent := by unfold Cfg.save; split <;> rfl
  have hfl : s1.flowLevel = A.flow := by rw [h1.flow, hsf]
  have hin : s1.indent = A.indent := by rw [h1.indent, hsi]
  refine wpT_scanWord (w := w) (g := g) (rest := rest) hw.chars hw0 (hin.trans hi) (by show Soft s1.flowLevel g; rw [hfl]; exact hg)
    (by show PlainStop (s1.flowLevel != 0) rest; rw [hfl]; exact hr) (by omega) (Or.inr (word_notDoc hw)) fun s2 m h2 => ?_
  simp only [pushToken, M.wp_modify]
  have hns : NoSplit w (g ++ rest) := by
    rintro ⟨h, _⟩
    exact (hw.chars _ (List.mem_of_getLast? h)).ne (d := '\r') (by decide) rfl
  have hA := ((h1.allow false).ahead2 h2 (g := g) (by show Ws A.save.flow false g; rw [hsf]; exact hg.ws) hns
    (b := (A.save.allow false).allowed || ((A.save.allow false).flow == 0 && hasBrk g)) rfl)
  have hlen : rest.length < (w ++ (g ++ rest)).length := by have := List.length_pos_iff.2 hw0; simp; omega
  refine ⟨trivial, ?_, hlen⟩
  have hst : (if hasBrk g = true then { s2 with simpleKeyAllowed := true } else s2) = { s2 with simpleKeyAllowed := hasBrk g } := by
    have : s2.simpleKeyAllowed = false := by rw [h2.1]
    cases hasBrk g
    · rw [if_neg (by simp)]; rw [← this]
    · rfl
  have hB : Ahead out ((A.save.allow (A.flow != 0 && hasBrk g)).eat w) (g ++ rest) (if hasBrk g = true then { s2 with simpleKeyAllowed := true } else s2) rest := by
    rw [hst]
    refine ⟨?_, hA.adv, ⟨g, rfl, ?_, ?_⟩, hA.flow, hA.indent, hA.indents, hA.keys, hA.toks, hA.parsed⟩
    · exact hA.op.allow (hasBrk g)
    · show Ws A.save.flow _ g; rw [hsf]; exact hg.ws
    · show hasBrk g = ((A.flow != 0 && hasBrk g) || (A.save.flow == 0 && hasBrk g))
      rw [hsf]
      cases hasBrk g <;> by_cases hf : A.flow = 0 <;> simp [hf]
  exact hB.push (k := ⟨.scalar w .plain, s1.mark, m⟩) (by intro hh; cases hh)

theorem atom_word {F fl : Nat} {w g rest : Str} (hw : WordText w) (hg : Soft fl g) (hr : PlainStop (fl != 0) rest) :
    Atom F fl (-1) w (.scalar w .plain) (fl != 0 && hasBrk g) (g ++ rest) := by
  obtain ⟨c, w', rfl⟩ := hw.cons
  have hc := hw.chars c List.mem_cons_self
  refine ⟨by simp, ?_, ?_, ?_⟩
  · exact starts_cons (hc.ne (by decide)) (hc.ne (by decide)) (by rw [← isLineBreak_eq]; exact hc.solid.2) (hc.ne (by decide)) (hc.ne (by decide))
  · intro m
    rintro (h | ⟨h | h, _⟩)
    · cases h
    · exact word_notDoc hw h
    · simp at h; exact hc.ne (d := '%') (by decide) h
  · intro A hf hn _ hh
    have := lex_word (F := F) hw hn (hf ▸ hg) (hf ▸ hr) hh
    rw [hf] at this
    exact this

end Yaml.Lx
