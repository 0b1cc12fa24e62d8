import Verif.Lib.Lex2

/- Lexical functions over the demonic input, continued: directives, anchors, tags, scalars. -/

namespace Yaml
open Scanner
set_option linter.unusedSimpArgs false
set_option linter.unusedVariables false

section
variable {P : PanicSite → Prop} {E : Err → SState → Inp → Prop} {s : SState} {b : Inp} {sm : Mark}

theorem wpB_scanDirective {F : Nat} {Q : Token → SState → Inp → Prop} {c : Char} {t : List Char}
    (ht : b.text = c :: t) (hb : isBreak c = false) (hc : 0 < b.cached)
    (hF : b.text.length < F) (hE : GoodE s.mark E s b)
    (hQ : ∀ tok s' b', TokOk s b tok s' b' → Q tok s' b') :
    M.wp stepB P E (scanDirective F) Q s b := by
  unfold scanDirective
  wps
  refine wpB_skipChar ht hb hc ?_
  intro s1 b1 hg1 ht1 _ _ _
  have hl1 : b1.text.length < b.text.length := by simp [ht, ht1]
  refine wpB_scanDirectiveName (by omega) (hE.go hg1) ?_
  intro name s2 b2 hg2 hc2 _
  have hl2 := hg2.length
  have hg2 := hg1.trans hg2
  refine wpB_scanDirectiveValue (by omega) (hE.go hg2) ?_
  intro tok s3 b3 hg3 hc3 htok1 htok2 htok3
  have hl3 := hg3.length
  have hg3 := hg2.trans hg3
  refine wpB_skipBlanksAndComment (by omega) (hE.go hg3) ?_
  intro s4 b4 hg4 hc4
  have hl4 := hg4.length
  have hg34 := hg4
  have hg4 := hg3.trans hg4
  refine ⟨hc4, ?_⟩
  split
  · wps
    refine wpB_optionalBreak (hE.go hg4) hc4 ?_
    intro s5 b5 hg5 _
    have hl5 := hg5.length
    exact hQ _ _ _ ⟨hg4.trans hg5, htok1, ⟨b3.text, by rw [htok2]; exact hg3.2, by rw [htok2]; exact (hg34.trans hg5).2⟩, htok3, by omega⟩
  · exact (hE.go hg4).err

theorem wpB_scanAnchor {F : Nat} {Q : Token → SState → Inp → Prop} {c : Char} {t : List Char} {al : Bool}
    (ht : b.text = c :: t) (hb : isBreak c = false) (hc : 0 < b.cached)
    (hF : b.text.length < F) (hE : GoodE s.mark E s b)
    (hQ : ∀ tok s' b', TokOk s b tok s' b' → Q tok s' b') :
    M.wp stepB P E (scanAnchor F al) Q s b := by
  unfold scanAnchor
  wps
  refine wpB_skipChar ht hb hc ?_
  intro s1 b1 hg1 ht1 _ _ _
  have hl1 : b1.text.length < b.text.length := by simp [ht, ht1]
  refine ⟨?_, (hE.go hg1).reader⟩
  refine wpB_readWhile (sm := s.mark) rfl (fun c => isAlpha_not_break) (by show 0 < max _ _; omega)
    (by show b1.text.length < F; omega) (hE.go hg1) ?_
  rintro str s2 b2 hg2 hc2 hn _ ⟨r, hstr, hr, hal⟩
  have hstr : str = r := by simpa using hstr
  subst hstr
  have hl2 : b2.text.length ≤ b1.text.length := hg2.length
  have hg2 : Go s b s2 b2 := hg1.trans hg2
  refine ⟨hc2, ?_⟩
  split
  · exact (hE.go hg2).err
  · rename_i h
    refine hQ _ _ _ ⟨hg2, rfl, ⟨b2.text, hg2.2, Adv.refl _ _⟩, ?_, by omega⟩
    have h0 : str ≠ [] := by rintro rfl; simp at h
    have h1 : lexData (.alias str) = true := by simp only [lexData, all_isAlpha hal]; simpa using h0
    cases al <;> exact h1

theorem wpB_scanTagBody {F : Nat} {Q : Str × Str → SState → Inp → Prop} {t : List Char}
    (ht : b.text = '!' :: t)
    (hF : b.text.length < F) (hE : GoodE sm E s b)
    (hQ : ∀ a s' b', Go s b s' b' → b'.text.length < b.text.length → lexData (.tag a.1 a.2) = true → Q a s' b') :
    M.wp stepB P E (scanTagBody F sm) Q s b := by
  unfold scanTagBody
  wps
  refine ⟨⟨by show 1 < max _ _; omega, ?_⟩, hE.reader⟩
  split
  · rename_i h
    obtain ⟨c1, t', rfl⟩ : ∃ c1 t', t = c1 :: t' := by
      cases t with
      | nil => simp [ht] at h
      | cons a b => exact ⟨_, _, rfl⟩
    simp [ht] at h; subst h
    wps
    refine wpB_skipChar (b := { b with cached := max b.cached 2 }) ht (by decide) (by show 0 < max _ _; omega) ?_
    intro s1 b1 hg1 ht1 hc1 _ _
    have hg1 : Go s b s1 b1 := hg1
    have hc1 : b1.cached = max b.cached 2 - 1 := hc1
    refine wpB_skipChar ht1 (by decide) (by omega) ?_
    intro s2 b2 hg2 ht2 _ _ _
    have hg2 := hg1.trans hg2
    have hl2 : b2.text.length < b.text.length := by simp [ht, ht2]; omega
    refine wpB_scanTagUri (by omega) (hE.go hg2) ?_
    intro a s3 b3 hg3 hc3 ha
    have hl3 := hg3.length
    have hg3 := hg2.trans hg3
    refine ⟨hc3, ?_⟩
    split
    · exact (hE.go hg3).err
    · rename_i h
      obtain ⟨c, t, ht3, hd⟩ := head_of (p := fun c => c == some '>') rfl (by simpa using h)
      simp at hd; subst hd
      wps
      refine wpB_skipChar ht3 (by decide) hc3 ?_
      intro s4 b4 hg4 _ _ _ _
      have hl4 := hg4.length
      exact hQ _ _ _ (hg3.trans hg4) (by omega) (by simp [lexData, ha rfl])
  · wps
    refine wpB_scanTagHandle (b := { b with cached := max b.cached 2 }) hF hE ?_
    rintro a s1 b1 hg1 hl1 ⟨n, hn, hh⟩
    have hg1 : Go s b s1 b1 := hg1
    have hl1 : b1.text.length < b.text.length := hl1
    split
    · rename_i hcond
      wps
      refine wpB_scanTagUri (by omega) (hE.go hg1) ?_
      intro a2 s2 b2 hg2 _ ha2
      have := hg2.length
      refine hQ _ _ _ (hg1.trans hg2) (by omega) ?_
      have hha : handleB a = true := by
        rcases hh with rfl | ⟨rfl, _⟩
        · exact handleB_name hn
        · simp only [Bool.and_eq_true, beq_iff_eq, decide_eq_true_eq] at hcond
          cases n with
          | nil => rfl
          | cons x r =>
            exfalso
            have hl := hcond.2
            rw [List.getLast?_cons_cons] at hl
            have := hn _ (List.mem_of_getLast? hl)
            simp [isAlpha] at this
      simp [lexData, hha, ha2 rfl]
    · wps
      refine wpB_scanTagUri (by omega) (hE.go hg1) ?_
      intro a s2 b2 hg2 _ _
      have := hg2.length
      split
      · rename_i h
        have h : a = [] := by simpa using h
        subst h
        exact hQ _ _ _ (hg1.trans hg2) (by omega) rfl
      · rename_i h
        exact hQ _ _ _ (hg1.trans hg2) (by omega) (by simpa [lexData] using ⟨by simpa using h, rfl⟩)

theorem wpB_scanTag {F : Nat} {Q : Token → SState → Inp → Prop} {t : List Char}
    (ht : b.text = '!' :: t) (hF : b.text.length < F) (hE : GoodE s.mark E s b)
    (hP : PanicsOk P b.text)
    (hQ : ∀ tok s' b', TokOk s b tok s' b' → Q tok s' b') :
    M.wp stepB P E (scanTag F) Q s b := by
  unfold scanTag
  wps
  refine wpB_scanTagBody ht hF hE ?_
  rintro ⟨a1, a2⟩ s1 b1 hg hl hlex
  try dsimp only
  try wps
  refine ⟨⟨by show 0 < max _ _; omega, ?_⟩, (hE.go hg).reader⟩
  split
  · wps
    split
    · exact (hE.go hg).err
    · rename_i h
      simp only [Bool.or_eq_true, not_or, Bool.not_eq_true, bne_eq_false_iff_eq] at h
      refine hP.2.2 (by simp [ht]) ?_
      obtain ⟨p, hp, _⟩ := hg.2
      rw [hp]
      refine List.mem_append_right _ ?_
      exact List.mem_of_getElem? h.2
  · exact hQ _ _ _ ⟨hg, rfl, ⟨b1.text, hg.2, Adv.refl _ _⟩, hlex, hl⟩

/-! ### Block scalars -/

theorem wpB_skipIndent {F : Nat} {Q : Unit → SState → Inp → Prop} {ind : Int}
    (hc : 0 < b.cached) (hF : b.text.length < F) (hE : GoodE sm E s b)
    (hQ : ∀ s' b', Go s b s' b' → 0 < b'.cached → Q () s' b') :
    M.wp stepB P E (skipIndent F ind) Q s b := by
  refine M.wp_loop stepB_mono (I := fun _ s' b' => Go s b s' b' ∧ 0 < b'.cached)
    (μ := fun _ _ b => b.text.length) ?_ F () s b ⟨Go.refl s b, hc⟩ hF
  rintro _ s1 b1 ⟨hg, hc1⟩
  wps
  refine ⟨hc1, ?_⟩
  split
  · rename_i h
    simp only [Bool.and_eq_true] at h
    obtain ⟨c, t, ht, hd⟩ := head_of (p := isSpaceO) rfl h.2
    simp [isSpaceO] at hd; subst hd
    wps
    refine wpB_skipChar ht (by decide) hc1 ?_
    intro s2 b2 hg2 ht2 _ _ _
    have hg2 := hg.trans hg2
    exact ⟨⟨⟨hg2, by show 0 < max _ _; omega⟩, by simp [ht, ht2]⟩, (hE.go hg2).reader⟩
  · exact hQ _ _ hg hc1

/-- `m` is a position between the two given ones. -/
def Mid (s : SState) (b : Inp) (m : Mark) (s' : SState) (b' : Inp) : Prop :=
  ∃ t, Adv s.mark b.text m t ∧ Adv m t s'.mark b'.text

theorem Mid.go {s s' s'' : SState} {b b' b'' : Inp} {m : Mark} (h : Mid s b m s' b') (hg : Go s' b' s'' b'') :
    Mid s b m s'' b'' := by
  obtain ⟨t, h1, h2⟩ := h
  exact ⟨t, h1, h2.trans hg.2⟩

theorem Mid.pre {s s' s'' : SState} {b b' b'' : Inp} {m : Mark} (hg : Go s b s' b') (h : Mid s' b' m s'' b'') :
    Mid s b m s'' b'' := by
  obtain ⟨t, h1, h2⟩ := h
  exact ⟨t, hg.2.trans h1, h2⟩

theorem Mid.here {s s' : SState} {b b' : Inp} (hg : Go s b s' b') : Mid s b s'.mark s' b' :=
  ⟨_, hg.2, Adv.refl _ _⟩

theorem wpB_scanBlockScalarBreaks {F : Nat} {Q : Int × Str × Mark → SState → Inp → Prop} {ind : Int} {br : Str}
    (hF : b.text.length < F) (hE : GoodE sm E s b)
    (hQ : ∀ i br m s' b', Go s b s' b' → 0 < b'.cached → Mid s b m s' b' → Q (i, br, m) s' b') :
    M.wp stepB P E (scanBlockScalarBreaks F ind br sm) Q s b := by
  unfold scanBlockScalarBreaks
  wps
  refine M.wp_cut stepB_mono (fun (r : Int × Str × Mark) s' b' => Go s b s' b' ∧ 0 < b'.cached ∧
      Mid s b r.2.2 s' b') ?_ ?_
  · refine M.wp_loop stepB_mono (I := fun (r : Int × Str × Mark) s' b' => Go s b s' b' ∧ Mid s b r.2.2 s' b')
      (μ := fun _ _ b => b.text.length) ?_ F _ s b ⟨Go.refl s b, Mid.here (Go.refl s b)⟩ hF
    rintro ⟨mi, br, em⟩ s1 b1 ⟨hg, hm⟩
    have hE1 := hE.go hg
    have hl1 := hg.length
    dsimp only at hm ⊢
    wps
    refine ⟨?_, hE1.reader⟩
    refine wpB_skipIndent (sm := sm) (by show 0 < max _ _; omega) (by show b1.text.length < F; omega) hE1 ?_
    intro s2 b2 hg2 hc2
    have hg2 : Go s1 b1 s2 b2 := hg2
    have hl2 := hg2.length
    have hm2 := hm.go hg2
    have hg2 := hg.trans hg2
    refine ⟨hc2, ?_⟩
    generalize (if (↑s2.mark.column : Int) > mi then (↑s2.mark.column : Int) else mi) = mi'
    split
    · exact (hE.go hg2).err
    split
    · exact ⟨hg2, hc2, hm2⟩
    · rename_i h
      obtain ⟨c, t, ht, hb⟩ := head_of (p := isBreakO) rfl (by simpa using h)
      wps
      refine ⟨wpB_readLineBreak (b := { b2 with cached := max b2.cached 2 }) ht hb (by show 1 < max _ _; omega) ?_, (hE.go hg2).reader⟩
      intro str s3 b3 hg3 hl3 _ _
      have hg3 := hg2.trans hg3
      have hl3 : b3.text.length < b2.text.length := hl3
      exact ⟨⟨hg3, Mid.here hg3⟩, by omega⟩
  · rintro ⟨mi, br, em⟩ s1 b1 ⟨hg, hc, hm⟩
    dsimp only at hm ⊢
    split
    · exact hQ _ _ _ _ _ hg hc hm
    · exact hQ _ _ _ _ _ hg hc hm

theorem wpB_blockIndicatorDigit {Q : Nat → SState → Inp → Prop}
    (hd : isDigitO b.text[0]? = true) (hc : 0 < b.cached) (hE : GoodE sm E s b)
    (hQ : ∀ a s' b', Go s b s' b' → Q a s' b') :
    M.wp stepB P E (blockIndicatorDigit sm b.text[0]?) Q s b := by
  unfold blockIndicatorDigit
  split
  · exact hE.err
  · obtain ⟨c, t, ht, hd⟩ := head_of (p := isDigitO) rfl hd
    simp only [ht, List.getElem?_cons_zero, Option.bind_some, toDigit_isDigit hd]
    wps
    exact wpB_skipChar ht (isDigit_not_break hd) hc (fun s1 b1 hg _ _ _ _ => hQ _ _ _ hg)

theorem plusMinus {t : List Char} (h : (t[0]? == some '+' || t[0]? == some '-') = true) :
    ∃ c r, t = c :: r ∧ isBreak c = false := by
  obtain ⟨c, r, ht, hd⟩ := head_of (p := fun c => c == some '+' || c == some '-') rfl h
  refine ⟨c, r, ht, ?_⟩
  simp at hd
  rcases hd with rfl | rfl <;> decide

theorem wpB_blockScalarHeader {Q : Chomping × Nat → SState → Inp → Prop}
    (hE : GoodE sm E s b) (hQ : ∀ a s' b', Go s b s' b' → Q a s' b') :
    M.wp stepB P E (blockScalarHeader sm) Q s b := by
  unfold blockScalarHeader
  wps
  refine ⟨⟨by show 0 < max _ _; omega, ?_⟩, hE.reader⟩
  split
  · rename_i h
    obtain ⟨c, t, ht, hb⟩ := plusMinus h
    wps
    refine wpB_skipChar (b := { b with cached := max b.cached 1 }) ht hb (by show 0 < max _ _; omega) ?_
    intro s1 b1 hg1 _ _ _ _
    have hg1 : Go s b s1 b1 := hg1
    refine ⟨⟨by show 0 < max _ _; omega, ?_⟩, (hE.go hg1).reader⟩
    split
    · rename_i hd
      wps
      exact wpB_blockIndicatorDigit (b := { b1 with cached := max b1.cached 1 }) hd
        (by show 0 < max _ _; omega) (hE.go hg1) (fun a s2 b2 hg2 => hQ _ _ _ (hg1.trans hg2))
    · exact hQ _ _ _ hg1
  split
  · rename_i hd
    wps
    refine wpB_blockIndicatorDigit (b := { b with cached := max b.cached 1 }) hd
        (by show 0 < max _ _; omega) hE ?_
    intro a s1 b1 hg1
    have hg1 : Go s b s1 b1 := hg1
    refine ⟨⟨by show 0 < max _ _; omega, ?_⟩, (hE.go hg1).reader⟩
    split
    · rename_i h
      obtain ⟨c, t, ht, hb⟩ := plusMinus h
      wps
      exact wpB_skipChar (b := { b1 with cached := max b1.cached 1 }) ht hb (by show 0 < max _ _; omega)
        (fun s2 b2 hg2 _ _ _ _ => hQ _ _ _ (hg1.trans hg2))
    · exact hQ _ _ _ hg1
  · exact hQ _ _ _ (Go.refl s b)

theorem wpB_blockContent {F : Nat} {Q : BlockVars → SState → Inp → Prop} {lit : Bool} {v : BlockVars}
    {s0 : SState} {b0 : Inp} (hc : 0 < b.cached) (hm : Mid s0 b0 v.endMark s b)
    (hF : b.text.length < F) (hE : GoodE sm E s b) (hP : PanicsOk P b.text)
    (hQ : ∀ v s' b', Go s b s' b' → Mid s0 b0 v.endMark s' b' → Q v s' b') :
    M.wp stepB P E (blockContent F lit sm v) Q s b := by
  refine M.wp_loop stepB_mono (I := fun v s' b' => Go s b s' b' ∧ 0 < b'.cached ∧ Mid s0 b0 v.endMark s' b')
    (μ := fun _ _ b => b.text.length) ?_ F v s b ⟨Go.refl s b, hc, hm⟩ hF
  rintro v s1 b1 ⟨hg, hc1, hm1⟩
  have hE1 := hE.go hg
  have hl1 := hg.length
  have hP1 := hP.adv hg.2
  wps
  refine ⟨hc1, ?_⟩
  split
  · exact hQ _ _ _ hg hm1
  rename_i hne
  have hne1 : b1.text ≠ [] := by
    intro h; simp [h] at hne
  wps
  refine wpB_readWhile (sm := sm) rfl (fun c => notBreakz_not_break) hc1 (by omega) hE1 ?_
  rintro str s2 b2 hg2 hc2 hn2 _ ⟨r, _, hr, hrp⟩
  have hg12 := hg2
  have hl2 := hg2.length
  have hg2 := hg.trans hg2
  refine ⟨?_, (hE.go hg2).reader⟩
  rcases hb2 : b2.text with _ | ⟨c, t⟩
  · simp only [readLineBreak]
    wps
    refine ⟨by show 0 < max _ _; omega, ?_⟩
    simp only [List.getElem?_nil]
    refine hP1.2.1 ?_
    rw [hb2, List.append_nil] at hr
    rw [hr] at hne1 ⊢
    refine ⟨r.getLast hne1, List.getLast?_eq_some_getLast hne1, ?_⟩
    exact notBreakz_not_break (hrp _ (List.getLast_mem hne1))
  · have hb : isBreak c = true := by simpa [hb2, isBreakzO] using hn2
    refine wpB_readLineBreak (b := ⟨c :: t, max b2.cached 2⟩) rfl hb (by show 1 < max _ _; omega) ?_
    intro str s3 b3 hg3 hl3 _ _
    have hl3 : b3.text.length < b2.text.length := by rw [hb2]; exact hl3
    have hg13 : Go s1 b1 s3 b3 := hg12.trans (by rw [← hb2] at hg3; exact hg3)
    have hg3 := hg.trans hg13
    refine wpB_scanBlockScalarBreaks (by omega) (hE.go hg3) ?_
    intro i br m s4 b4 hg4 hc4 hm4
    have hl4 := hg4.length
    refine ⟨⟨hg3.trans hg4, hc4, ?_⟩, by omega⟩
    obtain ⟨t0, ha, hb⟩ := hm1
    obtain ⟨t4, hc, hd⟩ := hm4
    exact ⟨t4, ((ha.trans hb).trans hg13.2).trans hc, hd⟩

theorem wpB_scanBlockScalar {F : Nat} {Q : Token → SState → Inp → Prop} {lit : Bool} {c : Char} {t : List Char}
    (ht : b.text = c :: t) (hb : isBreak c = false) (hc : 0 < b.cached)
    (hF : b.text.length < F) (hE : GoodE s.mark E s b) (hP : PanicsOk P b.text)
    (hQ : ∀ tok s' b', TokOk s b tok s' b' → Q tok s' b') :
    M.wp stepB P E (scanBlockScalar F lit) Q s b := by
  unfold scanBlockScalar
  wps
  refine wpB_skipChar ht hb hc ?_
  intro s1 b1 hg1 ht1 _ _ _
  have hl1 : b1.text.length < b.text.length := by simp [ht, ht1]
  refine wpB_blockScalarHeader (hE.go hg1) ?_
  rintro ⟨ch, inc⟩ s2 b2 hg2
  have hl2 := hg2.length
  have hg2 := hg1.trans hg2
  try dsimp only
  try wps
  refine wpB_skipBlanksAndComment (by omega) (hE.go hg2) ?_
  intro s3 b3 hg3 hc3
  have hl3 := hg3.length
  have hg3 := hg2.trans hg3
  refine ⟨hc3, ?_⟩
  split
  · exact (hE.go hg3).err
  wps
  refine wpB_optionalBreak (hE.go hg3) hc3 ?_
  intro s4 b4 hg4 _
  have hl4 := hg4.length
  have hg4 := hg3.trans hg4
  refine wpB_scanBlockScalarBreaks (by omega) (hE.go hg4) ?_
  intro i br m s5 b5 hg5 hc5 hm5
  have hl5 := hg5.length
  have hm5 := Mid.pre hg4 hm5
  have hg5 := hg4.trans hg5
  try dsimp only
  try wps
  refine ⟨?_, (hE.go hg5).reader⟩
  refine wpB_blockContent (s0 := s) (b0 := b) (b := { b5 with cached := max b5.cached 1 })
    (by show 0 < max _ _; omega) hm5 (by show b5.text.length < F; omega) (hE.go hg5) (hP.adv hg5.2) ?_
  intro v s6 b6 hg6 hm6
  have hg6 : Go s5 b5 s6 b6 := hg6
  have hl6 := hg6.length
  refine hQ _ _ _ ⟨hg5.trans hg6, rfl, hm6, by cases lit <;> rfl, by omega⟩

/-! ### Flow scalars -/

theorem wpB_hexLoop {Q : Nat → SState → Inp → Prop} {n k v : Nat}
    (hc : k + n ≤ b.cached) (hE : GoodE sm E s b)
    (hQ : ∀ a, (∀ i, i < n → isHexO b.text[k + i]? = true) → Q a s b) :
    M.wp stepB P E (hexLoop sm n k v) Q s b := by
  induction n generalizing k v with
  | zero => exact hQ _ (by simp)
  | succ n ih =>
    unfold hexLoop
    wps
    refine ⟨by omega, ?_⟩
    split
    · exact hE.err
    rename_i h
    have h : isHexO b.text[k]? = true := by simpa using h
    obtain ⟨c, hck⟩ : ∃ c, b.text[k]? = some c := by
      cases hx : b.text[k]? with
      | none => simp [hx, isHexO] at h
      | some c => exact ⟨c, rfl⟩
    obtain ⟨d, hd⟩ : ∃ d, toHex? c = some d := by
      rw [hck] at h; exact Option.isSome_iff_exists.1 h
    simp only [hck, Option.bind_some, hd]
    refine ih (by omega) ?_
    intro a ha
    refine hQ a ?_
    intro i hi
    cases i with
    | zero => exact h
    | succ i =>
      have := ha i (by omega)
      rwa [show k + (i + 1) = k + 1 + i by omega]

theorem wpB_skipChars {Q : Unit → SState → Inp → Prop} {n : Nat}
    (hc : n ≤ b.cached) (hch : ∀ i, i < n → ∃ c, b.text[i]? = some c ∧ isBreak c = false)
    (hQ : ∀ s' b', Go s b s' b' → b'.text = b.text.drop n → s'.simpleKeyAllowed = s.simpleKeyAllowed →
      Q () s' b') :
    M.wp stepB P E (skipChars n) Q s b := by
  induction n generalizing s b with
  | zero => exact hQ _ _ (Go.refl s b) rfl rfl
  | succ n ih =>
    unfold skipChars
    wps
    obtain ⟨c, h0, hb⟩ := hch 0 (by omega)
    obtain ⟨c', t, ht, _⟩ := head_of (p := Option.isSome) (t := b.text) rfl (by rw [h0]; rfl)
    have : c' = c := by rw [ht] at h0; simpa using h0
    subst this
    refine wpB_skipChar ht hb (by omega) ?_
    intro s1 b1 hg ht1 hc1 _ hk
    refine ih (by omega) ?_ ?_
    · intro i hi
      have := hch (i + 1) (by omega)
      rw [ht1]; rw [ht] at this; simpa using this
    · intro s2 b2 hg2 ht2 hk2
      exact hQ _ _ (hg.trans hg2) (by rw [ht2, ht1, ht]; rfl) (hk2.trans hk)

theorem escapeChar_not_break {c d : Char} (h : escapeChar c = some d) : isBreak c = false := by
  cases hb : isBreak c with
  | false => rfl
  | true =>
    simp only [isBreak, Bool.or_eq_true, beq_iff_eq] at hb
    rcases hb with (((rfl | rfl) | rfl) | rfl) | rfl <;> simp [escapeChar] at h

theorem escapeCode_not_break {c : Char} {d : Nat} (h : escapeCodeLength c = some d) : isBreak c = false := by
  cases hb : isBreak c with
  | false => rfl
  | true =>
    simp only [isBreak, Bool.or_eq_true, beq_iff_eq] at hb
    rcases hb with (((rfl | rfl) | rfl) | rfl) | rfl <;> simp [escapeCodeLength] at h

theorem wpB_scanEscape {Q : Str → SState → Inp → Prop} {str : Str} {t : List Char}
    (ht : b.text = '\\' :: t) (hc : 1 < b.cached) (hE : GoodE sm E s b) (hP : PanicsOk P b.text)
    (hQ : ∀ a s' b', Go s b s' b' → b'.text.length < b.text.length → Q a s' b') :
    M.wp stepB P E (scanEscape sm str) Q s b := by
  unfold scanEscape
  wps
  refine ⟨hc, ?_⟩
  cases t with
  | nil =>
    simp only [ht, List.getElem?_cons_succ, List.getElem?_nil]
    exact hP.1 (by simp [ht])
  | cons e t =>
    simp only [ht, List.getElem?_cons_succ, List.getElem?_cons_zero]
    split
    · rename_i ch hch
      wps
      refine wpB_skipChar ht (by decide) (by omega) ?_
      intro s1 b1 hg1 ht1 hc1 _ _
      refine wpB_skipChar ht1 (escapeChar_not_break hch) (by omega) ?_
      intro s2 b2 hg2 ht2 _ _ _
      exact hQ _ _ _ (hg1.trans hg2) (by simp [ht, ht2]; omega)
    · split
      · exact hE.err
      · rename_i n hn
        wps
        refine wpB_skipChar ht (by decide) (by omega) ?_
        intro s1 b1 hg1 ht1 hc1 _ _
        refine wpB_skipChar ht1 (escapeCode_not_break hn) (by omega) ?_
        intro s2 b2 hg2 ht2 _ _ _
        have hg2 := hg1.trans hg2
        have hl2 : b2.text.length < b.text.length := by simp [ht, ht2]; omega
        refine ⟨?_, (hE.go hg2).reader⟩
        refine wpB_hexLoop (by show 0 + n ≤ max _ _; omega) (hE.go hg2) ?_
        intro a ha
        split
        · exact (hE.go hg2).err
        · wps
          refine wpB_skipChars (by show n ≤ max _ _; omega) ?_ ?_
          · intro i hi
            have h := ha i hi
            rw [Nat.zero_add] at h
            dsimp only at h ⊢
            cases hx : b2.text[i]? with
            | none => simp [hx, isHexO] at h
            | some c => exact ⟨c, rfl, toHex_not_break (by rw [hx] at h; exact h)⟩
          · intro s3 b3 hg3 _ _
            have hl3 : b3.text.length ≤ b2.text.length := hg3.length
            exact hQ _ _ _ (hg2.trans hg3) (by omega)

theorem notBlankz_not_break {c : Char} (h : isBlankzO (some c) = false) : isBreak c = false := by
  simp [isBlankzO, isBreakzO] at h; exact h.2

theorem wpB_flowChunk {F : Nat} {Q : Str × Bool → SState → Inp → Prop} {single : Bool} {str : Str}
    (hc : 1 < b.cached) (hF : b.text.length < F) (hE : GoodE sm E s b) (hP : PanicsOk P b.text)
    (hQ : ∀ a s' b', Go s b s' b' →
      (b'.text.length < b.text.length ∨ b'.text = b.text ∧
        (isBlankzO b.text[0]? = true ∨ b.text[0]? = some (quoteChar single))) → Q a s' b') :
    M.wp stepB P E (flowChunk F single sm str) Q s b := by
  refine M.wp_loop stepB_mono (I := fun v s' b' => Go s b s' b' ∧ 1 < b'.cached ∧
      (b'.text.length < b.text.length ∨ b'.text = b.text))
    (μ := fun _ _ b => b.text.length) ?_ F str s b ⟨Go.refl s b, hc, Or.inr rfl⟩ hF
  rintro v s1 b1 ⟨hg, hc1, hor⟩
  have hE1 := hE.go hg
  have hl1 := hg.length
  have hP1 := hP.adv hg.2
  wps
  refine ⟨by omega, hc1, ?_⟩
  split
  · rename_i h
    exact hQ _ _ _ hg (hor.imp id (fun h' => ⟨h', Or.inl (by rw [← h']; exact h)⟩))
  rename_i hnb
  obtain ⟨c, t, ht, hd⟩ := head_of (p := fun c => !isBlankzO c) (t := b1.text) rfl (by simpa using hnb)
  have hcb := notBlankz_not_break (by simpa using hd)
  split
  · rename_i h
    simp only [Bool.and_eq_true, beq_iff_eq] at h
    obtain ⟨⟨_, h0⟩, h1⟩ := h
    cases t with
    | nil => simp [ht] at h1
    | cons c1 t =>
      simp [ht] at h0 h1; subst h0 h1
      wps
      refine wpB_skipChar ht (by decide) (by omega) ?_
      intro s2 b2 hg2 ht2 hc2 _ _
      refine wpB_skipChar ht2 (by decide) (by omega) ?_
      intro s3 b3 hg3 ht3 _ _ _
      have hg3 := hg.trans (hg2.trans hg3)
      have hl3 : b3.text.length < b1.text.length := by simp [ht, ht3]; omega
      exact ⟨⟨⟨hg3, by show 1 < max _ _; omega, Or.inl (by show b3.text.length < _; omega)⟩, hl3⟩, (hE.go hg3).reader⟩
  split
  · rename_i h
    exact hQ _ _ _ hg (hor.imp id (fun h' => ⟨h', Or.inr (by rw [← h']; simpa using h)⟩))
  split
  · rename_i h
    simp only [Bool.and_eq_true, beq_iff_eq] at h
    obtain ⟨⟨_, h0⟩, h1⟩ := h
    cases t with
    | nil => simp [ht, isBreakO] at h1
    | cons c1 t =>
      simp [ht, isBreakO] at h0 h1; subst h0
      wps
      refine ⟨?_, hE1.reader⟩
      refine wpB_skipChar (b := { b1 with cached := max b1.cached 3 }) ht (by decide) (by show 0 < max _ _; omega) ?_
      intro s2 b2 hg2 ht2 hc2 _ _
      have hg2 : Go s1 b1 s2 b2 := hg2
      have hc2 : b2.cached = max b1.cached 3 - 1 := hc2
      refine wpB_skipLineBreak ht2 h1 (by omega) ?_
      intro s3 b3 hg3 hl3 _ _
      have := hg2.length
      exact hQ _ _ _ (hg.trans (hg2.trans hg3)) (Or.inl (by omega))
  split
  · rename_i h
    simp only [Bool.and_eq_true, beq_iff_eq] at h
    have h0 := h.2
    simp [ht] at h0; subst h0
    wps
    refine wpB_scanEscape ht hc1 hE1 hP1 ?_
    intro a s2 b2 hg2 hl2
    have hg2 := hg.trans hg2
    exact ⟨⟨⟨hg2, by show 1 < max _ _; omega, Or.inl (by show b2.text.length < _; omega)⟩, hl2⟩, (hE.go hg2).reader⟩
  · wps
    refine wpB_readChar ht hcb (by omega) ?_
    intro s2 b2 hg2 ht2 _ _ _
    have hg2 := hg.trans hg2
    have hl2 : b2.text.length < b1.text.length := by simp [ht, ht2]
    exact ⟨⟨⟨hg2, by show 1 < max _ _; omega, Or.inl (by show b2.text.length < _; omega)⟩, hl2⟩, (hE.go hg2).reader⟩

theorem wpB_flowBlanks {F : Nat} {Q : BlankVars → SState → Inp → Prop} {v : BlankVars}
    (hc : 0 < b.cached) (hF : b.text.length < F) (hE : GoodE sm E s b)
    (hQ : ∀ a s' b', Go s b s' b' →
      (b'.text.length < b.text.length ∨ b'.text = b.text ∧ isBlankO b.text[0]? = false ∧ isBreakO b.text[0]? = false) →
      Q a s' b') :
    M.wp stepB P E (flowBlanks F v) Q s b := by
  refine M.wp_loop stepB_mono (I := fun v s' b' => Go s b s' b' ∧ 0 < b'.cached ∧
      (b'.text.length < b.text.length ∨ b'.text = b.text))
    (μ := fun _ _ b => b.text.length) ?_ F v s b ⟨Go.refl s b, hc, Or.inr rfl⟩ hF
  rintro v s1 b1 ⟨hg, hc1, hor⟩
  have hE1 := hE.go hg
  have hl1 := hg.length
  wps
  refine ⟨by omega, ?_⟩
  split
  · rename_i h
    obtain ⟨c, t, ht, hd⟩ := head_of (p := isBlankO) rfl h
    split <;> wps
    · refine wpB_skipChar ht (isBlank_not_break hd) hc1 ?_
      intro s2 b2 hg2 ht2 _ _ _
      have hg2 := hg.trans hg2
      have hl2 : b2.text.length < b1.text.length := by simp [ht, ht2]
      exact ⟨⟨⟨hg2, by show 0 < max _ _; omega, Or.inl (by show b2.text.length < _; omega)⟩, hl2⟩, (hE.go hg2).reader⟩
    · refine wpB_readChar ht (isBlank_not_break hd) hc1 ?_
      intro s2 b2 hg2 ht2 _ _ _
      have hg2 := hg.trans hg2
      have hl2 : b2.text.length < b1.text.length := by simp [ht, ht2]
      exact ⟨⟨⟨hg2, by show 0 < max _ _; omega, Or.inl (by show b2.text.length < _; omega)⟩, hl2⟩, (hE.go hg2).reader⟩
  rename_i hnb
  split
  · rename_i h
    obtain ⟨c, t, ht, hd⟩ := head_of (p := isBreakO) rfl h
    wps
    refine ⟨?_, hE1.reader⟩
    split <;> wps
    · refine wpB_readLineBreak (b := { b1 with cached := max b1.cached 2 }) ht hd (by show 1 < max _ _; omega) ?_
      intro str s2 b2 hg2 hl2 _ _
      have hg2 : Go s b s2 b2 := hg.trans hg2
      have hl2 : b2.text.length < b1.text.length := hl2
      exact ⟨⟨⟨hg2, by show 0 < max _ _; omega, Or.inl (by show b2.text.length < _; omega)⟩, hl2⟩, (hE.go hg2).reader⟩
    · refine wpB_readLineBreak (b := { b1 with cached := max b1.cached 2 }) ht hd (by show 1 < max _ _; omega) ?_
      intro str s2 b2 hg2 hl2 _ _
      have hg2 : Go s b s2 b2 := hg.trans hg2
      have hl2 : b2.text.length < b1.text.length := hl2
      exact ⟨⟨⟨hg2, by show 0 < max _ _; omega, Or.inl (by show b2.text.length < _; omega)⟩, hl2⟩, (hE.go hg2).reader⟩
  · rename_i h
    exact hQ _ _ _ hg (hor.imp id (fun h' => ⟨h', by rw [← h']; simpa using hnb, by rw [← h']; simpa using h⟩))

theorem wpB_flowHead {Q : Unit → SState → Inp → Prop} (hE : GoodE sm E s b)
    (hQ : ∀ b', b'.text = b.text → b.text ≠ [] → 1 < b'.cached → Q () s b') :
    M.wp stepB P E (flowHead sm) Q s b := by
  unfold flowHead
  wps
  refine ⟨⟨by show 0 < max _ _; omega, by show 1 < max _ _; omega, by show 2 < max _ _; omega,
    by show 3 < max _ _; omega, ?_⟩, hE.reader⟩
  split
  · exact hE.err
  split
  · exact hE.err
  · rename_i h
    wps
    refine ⟨hQ _ rfl ?_ (by show 1 < max _ _; omega), hE.reader⟩
    intro h'; simp [h'] at h

theorem wpB_flowBody {F : Nat} {Q : Str → SState → Inp → Prop} {single : Bool}
    (hF : b.text.length < F) (hE : GoodE sm E s b) (hP : PanicsOk P b.text)
    (hQ : ∀ a s' b', Go s b s' b' → 0 < b'.cached → b'.text[0]? = some (quoteChar single) → Q a s' b') :
    M.wp stepB P E (flowBody F single sm) Q s b := by
  refine M.wp_loop stepB_mono (I := fun v s' b' => Go s b s' b')
    (μ := fun _ _ b => b.text.length) ?_ F [] s b (Go.refl s b) hF
  rintro v s1 b1 hg
  have hE1 := hE.go hg
  have hl1 := hg.length
  have hP1 := hP.adv hg.2
  wps
  refine wpB_flowHead hE1 ?_
  intro b2 ht2 hne hc2
  have hg2 : Go s1 b1 s1 b2 := ⟨Frame.refl _, by rw [ht2]; exact Adv.refl _ _⟩
  have hg2' := hg.trans hg2
  refine wpB_flowChunk hc2 (by rw [ht2]; omega) (hE.go hg2') (hP.adv hg2'.2) ?_
  rintro ⟨a, lb⟩ s3 b3 hg3 hor
  have hl3 := hg3.length
  have hg3 := hg2'.trans hg3
  try dsimp only
  try wps
  refine ⟨⟨by show 0 < max _ _; omega, ?_⟩, (hE.go hg3).reader⟩
  split
  · rename_i h
    exact hQ _ _ _ hg3 (by show 0 < max _ _; omega) (by simpa using h)
  · rename_i hq
    wps
    refine ⟨?_, (hE.go hg3).reader⟩
    rw [ht2] at hl3 hor
    refine wpB_flowBlanks (sm := sm) (by show 0 < max _ _; omega) (by show b3.text.length < F; omega) (hE.go hg3) ?_
    intro a s4 b4 hg4 hor4
    have hl4 : b4.text.length ≤ b3.text.length := hg4.length
    have hg4 : Go s b s4 b4 := hg3.trans hg4
    refine ⟨hg4, ?_⟩
    rcases hor with h | ⟨h1, h2⟩
    · omega
    rcases hor4 with h | ⟨_, h3, h4⟩
    · have h : b4.text.length < b3.text.length := h
      omega
    exfalso
    dsimp only at h3 h4 hq
    rw [h1] at h3 h4 hq
    rcases h2 with h2 | h2
    · obtain ⟨c, t, ht⟩ := List.exists_cons_of_ne_nil hne
      simp only [ht, List.getElem?_cons_zero, isBlankzO, isBreakzO, isBreakO, h3, h4, Bool.or_false, Bool.false_or] at h2 h3 h4
      rw [h3, h4] at h2; exact absurd h2 (by decide)
    · simp [h2] at hq

theorem wpB_scanFlowScalar {F : Nat} {Q : Token → SState → Inp → Prop} {single : Bool} {c : Char} {t : List Char}
    (ht : b.text = c :: t) (hb : isBreak c = false) (hc : 0 < b.cached)
    (hF : b.text.length < F) (hE : GoodE s.mark E s b) (hP : PanicsOk P b.text)
    (hQ : ∀ tok s' b', TokOk s b tok s' b' → Q tok s' b') :
    M.wp stepB P E (scanFlowScalar F single) Q s b := by
  unfold scanFlowScalar
  wps
  refine wpB_skipChar ht hb hc ?_
  intro s1 b1 hg1 ht1 _ _ _
  have hl1 : b1.text.length < b.text.length := by simp [ht, ht1]
  refine wpB_flowBody (by omega) (hE.go hg1) (hP.adv hg1.2) ?_
  intro a s2 b2 hg2 hc2 hq
  have hl2 := hg2.length
  have hg2 := hg1.trans hg2
  obtain ⟨c, t, ht2, hd⟩ := head_of (p := fun c => c == some (quoteChar single)) rfl (by simpa using hq)
  simp at hd; subst hd
  refine wpB_skipChar ht2 (by cases single <;> decide) hc2 ?_
  intro s3 b3 hg3 ht3 _ _ _
  have hl3 := hg3.length
  have hg3 := hg2.trans hg3
  refine hQ _ _ _ ⟨hg3, rfl, Mid.here hg3, by cases single <;> rfl, by omega⟩

/-! ### Plain scalars -/

theorem wpB_plainChunk {F : Nat} {Q : PlainVars → SState → Inp → Prop} {v : PlainVars}
    {s0 : SState} {b0 : Inp} (hm : Mid s0 b0 v.endMark s b)
    (hc : 1 < b.cached) (hF : b.text.length < F) (hE : GoodE sm E s b)
    (hQ : ∀ v' s' b', Go s b s' b' → 1 < b'.cached → Mid s0 b0 v'.endMark s' b' →
      (b'.text.length < b.text.length ∧ v'.string ≠ [] ∨ b'.text = b.text ∧ v' = v ∧
        (isBlankzO b.text[0]? = true ∨ plainStop s.flowLevel b.text[0]? b.text[1]? = true)) → Q v' s' b') :
    M.wp stepB P E (plainChunk F sm v) Q s b := by
  refine M.wp_loop stepB_mono (I := fun v' s' b' => Go s b s' b' ∧ 1 < b'.cached ∧ Mid s0 b0 v'.endMark s' b' ∧
      (b'.text.length < b.text.length ∧ v'.string ≠ [] ∨ b'.text = b.text ∧ v' = v))
    (μ := fun _ _ b => b.text.length) ?_ F v s b ⟨Go.refl s b, hc, hm, Or.inr ⟨rfl, rfl⟩⟩ hF
  rintro v1 s1 b1 ⟨hg, hc1, hm1, hor⟩
  have hE1 := hE.go hg
  have hl1 := hg.length
  have hfl := hg.1.flowLevel
  wps
  refine ⟨by omega, hc1, ?_⟩
  split
  · rename_i h
    exact hQ _ _ _ hg hc1 hm1 (hor.imp id (fun h' => ⟨h'.1, h'.2, Or.inl (by rw [← h'.1]; exact h)⟩))
  rename_i hnb
  obtain ⟨c, t, ht, hd⟩ := head_of (p := fun c => !isBlankzO c) (t := b1.text) rfl (by simpa using hnb)
  have hcb := notBlankz_not_break (by simpa using hd)
  split
  · exact hE1.err
  split
  · rename_i h
    exact hQ _ _ _ hg hc1 hm1 (hor.imp id (fun h' => ⟨h'.1, h'.2, Or.inr (by rw [← h'.1, ← hfl]; exact h)⟩))
  · wps
    refine wpB_readChar ht hcb (by omega) ?_
    intro s2 b2 hg2 ht2 _ _ _
    have hl2 : b2.text.length < b1.text.length := by simp [ht, ht2]
    have hm2 : Mid s0 b0 s2.mark s2 b2 := by
      obtain ⟨t0, h1, h2⟩ := hm1
      exact ⟨_, h1.trans (h2.trans hg2.2), Adv.refl _ _⟩
    have hg2 := hg.trans hg2
    exact ⟨⟨⟨hg2, by show 1 < max _ _; omega, hm2, Or.inl ⟨by show b2.text.length < _; rcases hor with h | h <;> omega, by simp⟩⟩, hl2⟩, (hE.go hg2).reader⟩

theorem wpB_plainBlanks {F : Nat} {Q : BlankVars → SState → Inp → Prop} {v : BlankVars} {ind : Int}
    (hc : 0 < b.cached) (hF : b.text.length < F) (hE : GoodE sm E s b)
    (hQ : ∀ a s' b', Go s b s' b' →
      (b'.text.length < b.text.length ∨ b'.text = b.text ∧ isBlankO b.text[0]? = false ∧ isBreakO b.text[0]? = false) →
      Q a s' b') :
    M.wp stepB P E (plainBlanks F ind sm v) Q s b := by
  refine M.wp_loop stepB_mono (I := fun v s' b' => Go s b s' b' ∧ 0 < b'.cached ∧
      (b'.text.length < b.text.length ∨ b'.text = b.text))
    (μ := fun _ _ b => b.text.length) ?_ F v s b ⟨Go.refl s b, hc, Or.inr rfl⟩ hF
  rintro v s1 b1 ⟨hg, hc1, hor⟩
  have hE1 := hE.go hg
  have hl1 := hg.length
  wps
  refine ⟨by omega, ?_⟩
  split
  · rename_i h
    obtain ⟨c, t, ht, hd⟩ := head_of (p := isBlankO) rfl h
    split
    · exact hE1.err
    split <;> wps
    · refine wpB_readChar ht (isBlank_not_break hd) hc1 ?_
      intro s2 b2 hg2 ht2 _ _ _
      have hg2 := hg.trans hg2
      have hl2 : b2.text.length < b1.text.length := by simp [ht, ht2]
      exact ⟨⟨⟨hg2, by show 0 < max _ _; omega, Or.inl (by show b2.text.length < _; omega)⟩, hl2⟩, (hE.go hg2).reader⟩
    · refine wpB_skipChar ht (isBlank_not_break hd) hc1 ?_
      intro s2 b2 hg2 ht2 _ _ _
      have hg2 := hg.trans hg2
      have hl2 : b2.text.length < b1.text.length := by simp [ht, ht2]
      exact ⟨⟨⟨hg2, by show 0 < max _ _; omega, Or.inl (by show b2.text.length < _; omega)⟩, hl2⟩, (hE.go hg2).reader⟩
  rename_i hnb
  split
  · rename_i h
    obtain ⟨c, t, ht, hd⟩ := head_of (p := isBreakO) rfl h
    wps
    refine ⟨?_, hE1.reader⟩
    split <;> wps
    · refine wpB_readLineBreak (b := { b1 with cached := max b1.cached 2 }) ht hd (by show 1 < max _ _; omega) ?_
      intro str s2 b2 hg2 hl2 _ _
      have hg2 : Go s b s2 b2 := hg.trans hg2
      have hl2 : b2.text.length < b1.text.length := hl2
      exact ⟨⟨⟨hg2, by show 0 < max _ _; omega, Or.inl (by show b2.text.length < _; omega)⟩, hl2⟩, (hE.go hg2).reader⟩
    · refine wpB_readLineBreak (b := { b1 with cached := max b1.cached 2 }) ht hd (by show 1 < max _ _; omega) ?_
      intro str s2 b2 hg2 hl2 _ _
      have hg2 : Go s b s2 b2 := hg.trans hg2
      have hl2 : b2.text.length < b1.text.length := hl2
      exact ⟨⟨⟨hg2, by show 0 < max _ _; omega, Or.inl (by show b2.text.length < _; omega)⟩, hl2⟩, (hE.go hg2).reader⟩
  · rename_i h
    exact hQ _ _ _ hg (hor.imp id (fun h' => ⟨h', by rw [← h']; simpa using hnb, by rw [← h']; simpa using h⟩))

/-- The look-ahead under which `fetch_next_token` scans a plain scalar. -/
structure PlainStart (s : SState) (t : List Char) : Prop where
  notBlankz : isBlankzO t[0]? = false
  notComment : t[0]? ≠ some '#'
  notStop : plainStop s.flowLevel t[0]? t[1]? = false
  notDoc : isDocIndicator s.mark t[0]? t[1]? t[2]? t[3]? = false
  can : canStartPlain s.flowLevel t[0]? t[1]? = true
  notEntry : (t[0]? == some '-' && isBlankzO t[1]?) = false

theorem wpB_plainBody {F : Nat} {Q : PlainVars → SState → Inp → Prop} {ind : Int}
    (hp : PlainStart s b.text) (hF : b.text.length < F) (hE : GoodE s.mark E s b)
    (hQ : ∀ v s' b', Go s b s' b' → Mid s b v.endMark s' b' → b'.text.length < b.text.length → v.string ≠ [] → Q v s' b') :
    M.wp stepB P E (plainBody F ind s.mark) Q s b := by
  refine M.wp_loop stepB_mono (I := fun v s' b' => Go s b s' b' ∧ Mid s b v.endMark s' b' ∧
      (b'.text.length < b.text.length ∧ v.string ≠ [] ∨ s' = s ∧ b'.text = b.text))
    (μ := fun _ _ b => b.text.length) ?_ F _ s b ⟨Go.refl s b, Mid.here (Go.refl s b), Or.inr ⟨rfl, rfl⟩⟩ hF
  rintro v s1 b1 ⟨hg, hm1, hor⟩
  have hE1 := hE.go hg
  have hl1 := hg.length
  wps
  refine ⟨⟨by show 0 < max _ _; omega, by show 1 < max _ _; omega, by show 2 < max _ _; omega,
    by show 3 < max _ _; omega, ?_⟩, hE1.reader⟩
  split
  · rename_i h
    rcases hor with ⟨h', h0⟩ | ⟨rfl, h'⟩
    · exact hQ _ _ _ hg hm1 h' h0
    · rw [h', hp.notDoc] at h; exact absurd h (by decide)
  split
  · rename_i h
    rcases hor with ⟨h', h0⟩ | ⟨rfl, h'⟩
    · exact hQ _ _ _ hg hm1 h' h0
    · rw [h'] at h; exact absurd (by simpa using h) hp.notComment
  wps
  refine wpB_plainChunk (s0 := s) (b0 := b) (b := { b1 with cached := max b1.cached 4 }) hm1
    (by show 1 < max _ _; omega) (by show b1.text.length < F; omega) hE1 ?_
  intro v2 s2 b2 hg2 hc2 hm2 hor2
  have hg2 : Go s1 b1 s2 b2 := hg2
  have hl2 := hg2.length
  have hg2' := hg.trans hg2
  have hlt : b2.text.length < b.text.length ∧ v2.string ≠ [] := by
    rcases hor with ⟨h, h0⟩ | ⟨rfl, h⟩
    · refine ⟨by omega, ?_⟩
      rcases hor2 with h2 | ⟨_, h2, _⟩
      · exact h2.2
      · rw [h2]; exact h0
    · rcases hor2 with h2 | ⟨_, _, h2⟩
      · have h3 : b2.text.length < b1.text.length := h2.1
        rw [h] at h3; exact ⟨h3, h2.2⟩
      · exfalso
        dsimp only at h2
        rw [h, hp.notBlankz, hp.notStop] at h2
        simp at h2
  obtain ⟨hlt, h0⟩ := hlt
  refine ⟨by omega, ?_⟩
  split
  · exact hQ _ _ _ hg2' hm2 hlt h0
  · rename_i hbl
    wps
    refine ⟨?_, (hE.go hg2').reader⟩
    refine wpB_plainBlanks (by show 0 < max _ _; omega) (by show b2.text.length < F; omega) (hE.go hg2') ?_
    intro bv s3 b3 hg3 hor3
    have hg3 : Go s2 b2 s3 b3 := hg3
    have hl3 : b3.text.length < b2.text.length := by
      rcases hor3 with h | ⟨_, h3, h4⟩
      · exact h
      · exfalso; dsimp only at h3 h4; rw [h3, h4] at hbl; exact hbl rfl
    have hm3 := hm2.go hg3
    have hg3 := hg2'.trans hg3
    split
    · exact hQ _ _ _ hg3 hm3 (by omega) h0
    · exact ⟨⟨hg3, hm3, Or.inl ⟨by omega, h0⟩⟩, by omega⟩

theorem wpB_scanPlainScalar {F : Nat} {Q : Token → SState → Inp → Prop}
    (hp : PlainStart s b.text) (hF : b.text.length < F) (hE : GoodE s.mark E s b)
    (hQ : ∀ tok s' b', TokOk s b tok s' b' → Q tok s' b') :
    M.wp stepB P E (scanPlainScalar F) Q s b := by
  unfold scanPlainScalar
  wps
  refine wpB_plainBody hp hF hE ?_
  intro v s1 b1 hg hm hl h0
  refine M.wp_when_cut stepB_mono (R := fun s2 b2 => Go s1 b1 s2 b2) (fun _ => ?_) (fun _ => Go.refl _ _) ?_
  · exact ⟨Frame.mk' _ _ _, Adv.refl _ _⟩
  · intro s2 b2 hg2
    have := hg2.length
    exact hQ _ _ _ ⟨hg.trans hg2, rfl, hm.go hg2, by simp [lexData, h0], by omega⟩

end
end Yaml
