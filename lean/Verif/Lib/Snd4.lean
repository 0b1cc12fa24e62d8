import Verif.Lib.Snd3
import Verif.Lib.Block

/- Soundness of the lexical functions: block scalars. -/

namespace Yaml
open Scanner
set_option linter.unusedSimpArgs false
set_option linter.unusedVariables false

theorem blankLines_trans {n : Nat} {t bs t1 bs' t2 : Str} (h : Spec.BlankLines n t bs t1) (h' : Spec.BlankLines n t1 bs' t2) : Spec.BlankLines n t (bs ++ bs') t2 := by
  induction h with
  | stop t => exact h'
  | line hk hb h ih => exact .line hk hb (ih h')

theorem blankLines_mono {n m : Nat} {t bs t1 : Str} (h : Spec.BlankLines n t bs t1) (hm : n ≤ m) : Spec.BlankLines m t bs t1 := by
  induction h with
  | stop t => exact .stop t
  | line hk hb h ih => exact .line (by omega) hb ih

theorem lines_trans {n : Nat} {t t1 t2 : Str} {ls ls' : List Spec.Line} (h : Spec.Lines n t ls t1) (h' : Spec.Lines n t1 ls' t2) : Spec.Lines n t (ls ++ ls') t2 := by
  induction h with
  | done t => exact h'
  | line hl hn hb hbl h ih => exact .line hl hn hb hbl (ih h')

theorem runLines_snoc (literal : Bool) (v : BlockVars) (ls : List Spec.Line) (l : Spec.Line) :
    runLines literal v (ls ++ [l]) = ⟨blockFlush literal l.indented (runLines literal v ls) ++ l.text, [l.brk], l.blank, l.indented, (runLines literal v ls).indent, (runLines literal v ls).endMark⟩ := by
  induction ls generalizing v with
  | nil => rfl
  | cons x ls ih => exact ih _

theorem replicate_snoc (k : Nat) (t : Str) : List.replicate (k + 1) ' ' ++ t = List.replicate k ' ' ++ ' ' :: t := by
  rw [List.replicate_succ', List.append_assoc]; rfl

section
variable {s : SState} {t : Str} {sm : Mark}

theorem wpC_skipIndent {F : Nat} {i : Int} {Q : Unit → SState → Str → Prop}
    (hQ : ∀ k s' t', t = List.replicate k ' ' ++ t' → s'.mark.column = s.mark.column + k → ((i = 0 ∨ (s'.mark.column : Int) < i) → t'.head? ≠ some ' ') →
      (i ≠ 0 → (s.mark.column : Int) ≤ i → (s'.mark.column : Int) ≤ i) → Mv s t s' t' → Q () s' t') : wpC (skipIndent F i) Q s t := by
  refine wpC_loop (I := fun _ s' t' => ∃ k, t = List.replicate k ' ' ++ t' ∧ s'.mark.column = s.mark.column + k ∧
    (i ≠ 0 → (s.mark.column : Int) ≤ i → (s'.mark.column : Int) ≤ i) ∧ Mv s t s' t') ?_ F () s t ⟨0, rfl, rfl, fun _ h => h, Mv.refl _ _⟩
  rintro _ s1 t1 ⟨k, hk, hc, hi, hm⟩
  wpc
  split
  · rename_i h
    simp only [Bool.and_eq_true, Bool.or_eq_true, beq_iff_eq, decide_eq_true_eq] at h
    obtain ⟨c, r, rfl, hsp⟩ := head_of (p := isSpaceO) rfl h.2
    simp [isSpaceO] at hsp; subst hsp
    wpc
    refine wpC_skip rfl (by decide) ?_
    intro s2 hm2
    have := hm2.col1 (by decide)
    refine ⟨k + 1, by rw [replicate_snoc]; exact hk, by omega, ?_, hm.trans hm2⟩
    intro h1 h2
    rcases h.1 with h3 | h3
    · exact absurd h3 h1
    · omega
  · rename_i h
    refine hQ k s1 t1 hk hc ?_ hi hm
    intro h1 h2
    apply h
    rw [List.head?_eq_getElem?] at h2
    rw [h2]
    rcases h1 with h1 | h1 <;> simp [h1, isSpaceO]

/-- What stops the blank lines: the text after the indentation `j`. -/
structure BreakStop (n j : Nat) (t : Str) : Prop where
  le : j ≤ n
  low : j < n → Spec.Solid t
  nobrk : isBreakO t[0]? = false

theorem wpC_breaksLoop {F : Nat} {n : Nat} {Q : Int × Str × Mark → SState → Str → Prop} (hn : n ≠ 0) (h0 : s.mark.column = 0)
    (hQ : ∀ bs r j em s' t', Spec.BlankLines n t bs r → r = List.replicate j ' ' ++ t' → s'.mark.column = j → BreakStop n j t' → Adv s.mark t em r → Adv em r s'.mark t' →
      s'.indent = s.indent → Q ((n : Int), bs, em) s' t') : wpC (scanBlockScalarBreaks F n [] sm) Q s t := by
  unfold scanBlockScalarBreaks
  wpc
  refine wpC_loop (I := fun x s' t' => ∃ bs, Spec.BlankLines n t bs t' ∧ x.2 = (bs, s'.mark) ∧ s'.mark.column = 0 ∧ Mv s t s' t') ?_ F _ s t
    ⟨[], .stop _, rfl, h0, Mv.refl _ _⟩
  rintro ⟨mi, br, em⟩ s1 t1 ⟨bs, hbl, hx, hc0, hm⟩
  obtain ⟨rfl, rfl⟩ := Prod.mk.inj hx
  wpc
  refine wpC_skipIndent ?_
  intro k s2 t2 hk hc2 hsp hle hm2
  rw [hc0, Nat.zero_add] at hc2
  have hkn : k ≤ n := by
    have := hle (by omega) (by rw [hc0]; omega)
    omega
  split
  · trivial
  rename_i htab
  split
  · rename_i hb
    wpc
    rw [if_neg (by simpa using hn)]
    refine hQ br t1 k s1.mark s2 t2 hbl hk hc2 ⟨hkn, ?_, by simpa using hb⟩ hm.2 hm2.2 (hm2.indent.trans hm.indent)
    intro hlt
    have h1 := hsp (.inr (by omega))
    refine solid_of ?_ (by simpa using hb)
    cases t2 with
    | nil => rfl
    | cons c r =>
      refine isBlankO_false.2 ?_
      rintro (rfl | rfl)
      · exact h1 rfl
      · apply htab
        simp [isTabO]
        right; omega
  · rename_i hb
    obtain ⟨c, r, rfl, hc⟩ := head_of (p := isBreakO) rfl (by simpa using hb)
    wpc
    refine wpC_readLineBreak rfl hc ?_
    intro d s3 t3 hbr hm3 hcol
    exact ⟨br ++ [d], blankLines_trans hbl (hk ▸ .line hkn hbr (.stop _)), rfl, hcol, hm.trans (hm2.trans hm3)⟩

theorem wpC_breaksDetect {F : Nat} {Q : Int × Str × Mark → SState → Str → Prop} (h0 : s.mark.column = 0)
    (hQ : ∀ (n : Nat) m bs r j em s' t', Spec.Leading t m → (n : Int) = max (max (s.indent + 1) 1) m → Spec.BlankLines n t bs r → r = List.replicate j ' ' ++ t' → s'.mark.column = j →
      BreakStop n j t' → Adv s.mark t em r → Adv em r s'.mark t' → s'.indent = s.indent → Q ((n : Int), bs, em) s' t') : wpC (scanBlockScalarBreaks F 0 [] sm) Q s t := by
  unfold scanBlockScalarBreaks
  wpc
  refine wpC_loop (I := fun x s' t' => ∃ (mx : Nat) (bs : Str), x = ((mx : Int), bs, s'.mark) ∧ Spec.BlankLines mx t bs t' ∧ (∀ m', Spec.Leading t' m' → Spec.Leading t (max mx m')) ∧
      s'.mark.column = 0 ∧ Mv s t s' t') ?_ F _ s t ⟨0, [], rfl, .stop _, fun m' h => by simpa using h, h0, Mv.refl _ _⟩
  rintro _ s1 t1 ⟨mx, bs, rfl, hbl, hld, hc0, hm⟩
  wpc
  refine wpC_skipIndent ?_
  intro k s2 t2 hk hc2 hsp _ hm2
  rw [hc0, Nat.zero_add] at hc2
  have hsp := hsp (.inl rfl)
  have hmx : (if (s2.mark.column : Int) > (mx : Int) then (s2.mark.column : Int) else (mx : Int)) = ((max mx k : Nat) : Int) := by
    split <;> omega
  rw [hmx]
  split
  · trivial
  rename_i htab
  split
  · rename_i hb
    have hb : isBreakO t2[0]? = false := by simpa using hb
    wpc
    rw [if_pos (by rfl)]
    have hsol : Spec.Solid t2 := by
      refine solid_of ?_ hb
      cases t2 with
      | nil => rfl
      | cons c r =>
        refine isBlankO_false.2 ?_
        rintro (rfl | rfl)
        · exact hsp rfl
        · apply htab; simp [isTabO]
    have hlead : Spec.Leading t (max mx k) := by
      refine hld k (hk ▸ .last ?_)
      rintro c r rfl
      exact ⟨fun h => (hsol c r rfl).1 (.inl h), (hsol c r rfl).2⟩
    have hind : s2.indent = s.indent := hm2.indent.trans hm.indent
    obtain ⟨n, hn⟩ : ∃ n : Nat, (n : Int) = max (max (s.indent + 1) 1) ((max mx k : Nat) : Int) := ⟨(max (max (s.indent + 1) 1) ((max mx k : Nat) : Int)).toNat, by omega⟩
    have hi : (let i := if ((max mx k : Nat) : Int) < s2.indent + 1 then s2.indent + 1 else ((max mx k : Nat) : Int)
      if i < 1 then 1 else i) = (n : Int) := by
      simp only [hind]
      rw [hn]
      split <;> split <;> omega
    simp only at hi
    rw [hi]
    exact hQ n (max mx k) bs t1 k s1.mark s2 t2 hlead hn (blankLines_mono hbl (by omega)) hk hc2 ⟨by omega, fun _ => hsol, hb⟩ hm.2 hm2.2 hind
  · rename_i hb
    obtain ⟨c, r, rfl, hc⟩ := head_of (p := isBreakO) rfl (by simpa using hb)
    wpc
    refine wpC_readLineBreak rfl hc ?_
    intro d s3 t3 hbr hm3 hcol
    refine ⟨max mx k, bs ++ [d], rfl, blankLines_trans (blankLines_mono hbl (by omega)) (hk ▸ .line (by omega) hbr (.stop _)), ?_, hcol, hm.trans (hm2.trans hm3)⟩
    intro m' hm'
    have := hld _ (hk ▸ Spec.Leading.blank hbr hm')
    rwa [← Nat.max_assoc] at this

theorem wpC_breaks_nil {F : Nat} {i : Int} {Q : Int × Str × Mark → SState → Str → Prop} (hQ : ∀ i, Q (i, [], s.mark) s []) : wpC (scanBlockScalarBreaks F i [] sm) Q s [] := by
  unfold scanBlockScalarBreaks
  wpc
  refine wpC_loop (I := fun x s' t' => x.2 = ([], s.mark) ∧ s' = s ∧ t' = []) ?_ F _ s [] ⟨rfl, rfl, rfl⟩
  rintro ⟨mi, br, em⟩ s1 t1 ⟨hx, rfl, rfl⟩
  obtain ⟨rfl, rfl⟩ := Prod.mk.inj hx
  wpc
  refine wpC_skipIndent ?_
  intro k s2 t2 hk hc2 hsp _ hm2
  obtain ⟨h1, rfl⟩ := List.append_eq_nil_iff.1 hk.symm
  have hs2 : s2 = s1 := by
    obtain ⟨p, hp, hadv, _⟩ := hm2.2
    obtain ⟨rfl, _⟩ := List.append_eq_nil_iff.1 hp.symm
    rw [hm2.1, hadv]; rfl
  subst hs2
  split
  · trivial
  · split
    · wpc
      split <;> exact hQ _
    · rename_i h; exact absurd rfl h

theorem wpC_readLineBreak_nil {str : Str} {Q : Str → SState → Str → Prop} : wpC (readLineBreak str) Q s [] := by
  unfold readLineBreak
  wpc
  simp

theorem Line.indented_eq {c : Char} {l : Str} {b : Char} {bs : Str} : Spec.Line.indented ⟨c :: l, b, bs⟩ = isBlankO (some c) := by
  rfl

theorem wpC_blockContent {F n : Nat} {lit : Bool} {v0 : BlockVars} {Q : BlockVars → SState → Str → Prop} {m0 : Mark} {T r0 : Str} {j0 : Nat} (hn : n ≠ 0) (hv0 : v0.indent = n)
    (hr0 : r0 = List.replicate j0 ' ' ++ t) (hj0 : s.mark.column = j0) (hst : BreakStop n j0 t) (ha : Adv m0 T v0.endMark r0) (hb : Adv v0.endMark r0 s.mark t)
    (hQ : ∀ ls v r j s' t', Spec.Lines n r0 ls r → SameVars v (runLines lit v0 ls) → r = List.replicate j ' ' ++ t' → (j < n ∧ Spec.Solid t' ∨ j ≤ n ∧ t' = []) →
      Adv m0 T v.endMark r → Adv v.endMark r s'.mark t' → Q v s' t') : wpC (blockContent F lit sm v0) Q s t := by
  refine wpC_loop (I := fun v s' t' => ∃ ls r j, Spec.Lines n r0 ls r ∧ SameVars v (runLines lit v0 ls) ∧ v.indent = n ∧ r = List.replicate j ' ' ++ t' ∧ s'.mark.column = j ∧ BreakStop n j t' ∧
    Adv m0 T v.endMark r ∧ Adv v.endMark r s'.mark t') ?_ F _ s t ⟨[], r0, j0, .done _, ⟨rfl, rfl, rfl, rfl, rfl⟩, hv0, hr0, hj0, hst, ha, hb⟩
  rintro v s1 t1 ⟨ls, r, j, hls, hsv, hvi, hr, hj, hst1, ha1, hb1⟩
  wpc
  split
  · rename_i hend
    refine hQ ls v r j s1 t1 hls hsv hr ?_ ha1 hb1
    simp only [Bool.or_eq_true, bne_iff_ne, ne_eq] at hend
    have := hst1.le
    rcases hend with h | h
    · have : j < n := by omega
      exact .inl ⟨this, hst1.low this⟩
    · cases t1 with
      | nil => exact .inr ⟨this, rfl⟩
      | cons c r => simp at h
  · rename_i hend
    simp only [Bool.or_eq_true, bne_iff_ne, ne_eq, not_or, Classical.not_not] at hend
    obtain ⟨c, r1, rfl⟩ : ∃ c r1, t1 = c :: r1 := by
      cases t1 with
      | nil => simp at hend
      | cons c r => exact ⟨c, r, rfl⟩
    have hjn : j = n := by omega
    subst hjn
    wpc
    refine wpC_readWhile (by simp [isBreakzO]) (fun c hc => notBreakz_not_break hc) ?_
    intro l s2 t2 hl hlp hz hm2
    cases l with
    | nil =>
      rw [List.nil_append] at hl
      rw [← hl] at hz
      have h1 := hst1.nobrk
      simp [isBreakzO] at hz h1
      rw [show isBreak c = false from h1] at hz; cases hz
    | cons d l =>
      obtain ⟨rfl, hl⟩ := List.cons.inj hl
      cases t2 with
      | nil => exact wpC_readLineBreak_nil
      | cons b t2 =>
        have hbb : isBreak b = true := by simpa [isBreakzO] using hz
        refine wpC_readLineBreak rfl hbb ?_
        intro bv s3 t3 hbr hm3 hcol
        rw [hvi]
        refine wpC_breaksLoop hn hcol ?_
        intro bs r' j' em s4 t4 hbl hr' hj' hst' ha' hb' _
        refine ⟨ls ++ [⟨c :: l, bv, bs⟩], r', j', ?_, ?_, rfl, hr', hj', hst', ?_, hb'⟩
        · refine lines_trans hls ?_
          rw [hr, hl]
          have := Spec.Lines.line (n := j) (l := c :: l) (by simp) (fun x hx => by rw [isLineBreak_eq]; exact notBreakz_not_break (hlp x hx)) hbr hbl (.done _)
          simpa using this
        · rw [runLines_snoc]
          refine ⟨?_, by simp, rfl, rfl, ?_⟩
          · show blockFlush lit _ v ++ c :: l = blockFlush lit _ (runLines lit v0 ls) ++ c :: l
            rw [hsv.flush]; rfl
          · exact hvi.symm.trans hsv.2.2.2.2
        · exact ha1.trans (hb1.trans (hm2.2.trans (hm3.2.trans ha')))

theorem wpC_blockContent_nil {F : Nat} {lit : Bool} {v : BlockVars} {Q : BlockVars → SState → Str → Prop} (hQ : Q v s []) : wpC (blockContent F lit sm v) Q s [] := by
  refine wpC_loop (I := fun v' s' t' => v' = v ∧ s' = s ∧ t' = []) ?_ F _ s [] ⟨rfl, rfl, rfl⟩
  rintro _ s1 t1 ⟨rfl, rfl, rfl⟩
  wpc
  rw [if_pos (by simp)]
  exact hQ

theorem wpC_blockIndicatorDigit {Q : Nat → SState → Str → Prop} {d : Char} {r : Str} (ht : t = d :: r) (hd : isDigitO (some d) = true)
    (hQ : ∀ n s', n ≠ 0 ∧ n < 10 → d.toNat = 48 + n → Mv s t s' r → Q n s' r) : wpC (blockIndicatorDigit sm (some d)) Q s t := by
  unfold blockIndicatorDigit
  split
  · trivial
  · rename_i h0
    simp only [Option.bind_some, toDigit_isDigit hd]
    wpc
    subst ht
    refine wpC_skip rfl (isDigit_not_break hd) ?_
    intro s1 hm1
    have h1 := digit_of hd
    unfold Spec.IsDigit at h1
    have e1 : '0'.toNat = 48 := rfl
    have e2 : '9'.toNat = 57 := rfl
    rw [e1, e2] at h1
    refine hQ _ s1 ?_ (by rw [e1]; omega) hm1
    rw [e1]
    refine ⟨?_, by omega⟩
    intro h
    apply h0
    have : d.toNat = '0'.toNat := by rw [e1]; omega
    have : d = '0' := Char.ext (UInt32.toNat_inj.1 this)
    simp [this]

theorem wpC_blockScalarHeader {Q : Chomping × Nat → SState → Str → Prop}
    (hQ : ∀ hd c inc s' t', t = hd ++ t' → Spec.Header hd c inc → Mv s t s' t' → Q (chompOf c, inc) s' t') : wpC (blockScalarHeader sm) Q s t := by
  unfold blockScalarHeader
  wpc
  have sign : ∀ {t : Str}, (t[0]? == some '+' || t[0]? == some '-') = true → (∃ r, t = '+' :: r) ∨ ∃ r, t = '-' :: r := by
    intro t h
    cases t with
    | nil => simp at h
    | cons c r =>
      simp at h
      rcases h with rfl | rfl
      · exact .inl ⟨r, rfl⟩
      · exact .inr ⟨r, rfl⟩
  split
  · rename_i h
    rcases sign h with ⟨r, rfl⟩ | ⟨r, rfl⟩
    all_goals
      wpc
      refine wpC_skip rfl (by decide) ?_
      intro s1 hm1
      split
      · rename_i hd
        obtain ⟨d, r1, rfl, hd⟩ := head_of (p := isDigitO) rfl hd
        wpc
        refine wpC_blockIndicatorDigit rfl hd ?_
        intro n s2 hn hdn hm2
        first
          | exact hQ ['+', d] .keep n s2 r1 rfl (.keepDigit hn hdn) (hm1.trans hm2)
          | exact hQ ['-', d] .strip n s2 r1 rfl (.stripDigit hn hdn) (hm1.trans hm2)
      · first
          | exact hQ ['+'] .keep 0 s1 r rfl .keep hm1
          | exact hQ ['-'] .strip 0 s1 r rfl .strip hm1
  · split
    · rename_i hd
      obtain ⟨d, r, rfl, hd⟩ := head_of (p := isDigitO) rfl hd
      wpc
      refine wpC_blockIndicatorDigit rfl hd ?_
      intro n s1 hn hdn hm1
      split
      · rename_i h
        rcases sign h with ⟨r, rfl⟩ | ⟨r, rfl⟩
        all_goals
          wpc
          refine wpC_skip rfl (by decide) ?_
          intro s2 hm2
          first
            | exact hQ [d, '+'] .keep n s2 r rfl (.digitKeep hn hdn) (hm1.trans hm2)
            | exact hQ [d, '-'] .strip n s2 r rfl (.digitStrip hn hdn) (hm1.trans hm2)
      · exact hQ [d] .clip n s1 r rfl (.digit hn hdn) hm1
    · exact hQ [] .clip 0 s t rfl .none (Mv.refl _ _)

theorem chompOf_facts (c : Spec.Chomp) : (chompOf c = .strip ↔ c = .strip) ∧ (chompOf c = .keep ↔ c = .keep) := by
  cases c <;> simp [chompOf]

theorem wpC_scanBlockScalar {F : Nat} {lit : Bool} {Q : Token → SState → Str → Prop} {r : Str} (ht : t = (if lit then '|' else '>') :: r) (hfl : s.flowLevel = 0)
    (hQ : ∀ tok s' t', Spelled (s.flowLevel != 0) s.indent s.mark t tok s'.mark t' → blockData tok.data = true → Q tok s' t') : wpC (scanBlockScalar F lit) Q s t := by
  unfold scanBlockScalar
  wpc
  refine wpC_skip ht (by cases lit <;> decide) ?_
  intro s1 hm1
  refine wpC_blockScalarHeader ?_
  intro hd chomp inc s2 t2 hhd hheader hm2
  refine wpC_skipBlanksAndComment ?_
  intro com s3 t3 hcom hrest _ hm3
  have hm123 := hm1.trans (hm2.trans hm3)
  rw [← ht] at hm123
  split
  · trivial
  rename_i hz
  have hz : isBreakzO t3[0]? = true := by simpa using hz
  wpc
  -- the rest, from the start of the first line
  have hinc : ∀ s4 : SState, s4.indent = s.indent → (if (inc != 0) = true then if s4.indent ≥ 0 then s4.indent + (inc : Int) else (inc : Int) else 0) = if inc = 0 then 0 else (if 0 ≤ s.indent then s.indent else 0) + (inc : Int) := by
    intro s4 h
    rw [h]
    by_cases hi : inc = 0
    · simp [hi]
    · simp only [bne_iff_ne, ne_eq, hi, not_false_eq_true, if_true, if_false, ge_iff_le]
      split <;> omega
  rw [wpC_when]
  have fin : ∀ (n : Nat) (t1 bs r0 : Str) (j0 : Nat) (s5 : SState) (t5 : Str) (em : Mark), (∃ c, Spec.BreakAt t3 c t1) → n ≠ 0 →
      (inc ≠ 0 → (n : Int) = (if 0 ≤ s.indent then s.indent else 0) + inc) → (inc = 0 → ∃ m, Spec.Leading t1 m ∧ (n : Int) = max (max (s.indent + 1) 1) m) →
      Spec.BlankLines n t1 bs r0 → r0 = List.replicate j0 ' ' ++ t5 → s5.mark.column = j0 → BreakStop n j0 t5 → Adv s.mark t em r0 → Adv em r0 s5.mark t5 →
      wpC (blockContent F lit s.mark { string := [], leadingBreak := [], trailingBreaks := bs, leadingBlank := false, indent := n, endMark := em })
        (fun v s' t' => Q ⟨.scalar (if (chompOf chomp == Chomping.keep) = true then (if (chompOf chomp != Chomping.strip) = true then v.string ++ v.leadingBreak else v.string) ++ v.trailingBreaks
          else if (chompOf chomp != Chomping.strip) = true then v.string ++ v.leadingBreak else v.string) (if lit = true then .literal else .folded), s.mark, v.endMark⟩ s' t') s5 t5 := by
    intro n t1 bs r0 j0 s5 t5 em hbrk hn hi1 hi2 hbl hr0 hj0 hst ha hb
    refine wpC_blockContent (T := t) (m0 := s.mark) (r0 := r0) (j0 := j0) hn rfl hr0 hj0 hst ha hb ?_
    intro ls v rr j s6 t6 hls hsv hrr hend ha6 hb6
    obtain ⟨w, hw, _⟩ := id ha6
    have hval : (if (chompOf chomp == Chomping.keep) = true then (if (chompOf chomp != Chomping.strip) = true then v.string ++ v.leadingBreak else v.string) ++ v.trailingBreaks
          else if (chompOf chomp != Chomping.strip) = true then v.string ++ v.leadingBreak else v.string) = (if ls = [] then [] else bs) ++ Spec.content (!lit) ls ++ Spec.ending chomp bs ls := by
      rw [← runLines_value (literal := lit) bs n em ls (chompOf chomp) chomp (chompOf_facts chomp)]
      obtain ⟨q1, q2, q3, q4, q5⟩ := hsv
      simp only [q1, q2, q3]
    rw [hval]
    have hbt : Spec.BlockText (!lit) s.indent w ((if ls = [] then [] else bs) ++ Spec.content (!lit) ls ++ Spec.ending chomp bs ls) rr := by
      refine ⟨hd, chomp, inc, com, t3, t1, n, bs, r0, ls, j, t6, hheader, ?_, hrest, .inl hbrk, hi1, hi2, hbl, hls, hrr, hend, rfl⟩
      rw [← hw, ht, hhd, hcom]
      cases lit <;> rfl
    have hsp : Sep v.endMark rr t6 := by
      rw [hrr]; exact Sep.blanks _ (fun c hc => .inl (List.eq_of_mem_replicate hc))
    refine hQ _ _ _ ⟨rfl, w, rr, hw, ha6, hb6, hsp, ?_, by cases lit <;> nofun⟩ (by cases lit <;> rfl)
    cases lit
    · exact ⟨by simp [hfl], hbt⟩
    · exact ⟨by simp [hfl], hbt⟩
  split
  · rename_i hb
    obtain ⟨c, r3, rfl, hc⟩ := head_of (p := isBreakO) rfl hb
    wpc
    refine wpC_skipLineBreak rfl hc ?_
    intro bv s4 t4 hbr hm4 hcol
    have hm4' := hm123.trans hm4
    rw [hinc s4 hm4'.indent]
    by_cases hi : inc = 0
    · rw [if_pos hi]
      refine wpC_breaksDetect hcol ?_
      intro n m bs r0 j em s5 t5 hld hn hbl hr0 hj hst ha hb _
      rw [hm4'.indent] at hn
      exact fin n t4 bs r0 j s5 t5 em ⟨bv, hbr⟩ (by omega) (fun h => absurd hi h) (fun _ => ⟨m, hld, hn⟩) hbl hr0 hj hst (hm4'.2.trans ha) hb
    · rw [if_neg hi]
      obtain ⟨n, hn⟩ : ∃ n : Nat, (n : Int) = (if 0 ≤ s.indent then s.indent else 0) + (inc : Int) := by
        split
        · exact ⟨(s.indent + inc).toNat, by omega⟩
        · exact ⟨inc, by omega⟩
      rw [← hn]
      have hn0 : n ≠ 0 := by
        split at hn <;> omega
      refine wpC_breaksLoop hn0 hcol ?_
      intro bs r0 j em s5 t5 hbl hr0 hj hst ha hb _
      exact fin n t4 bs r0 j s5 t5 em ⟨bv, hbr⟩ hn0 (fun _ => hn) (fun h => absurd h hi) hbl hr0 hj hst (hm4'.2.trans ha) hb
  · rename_i hb
    cases t3 with
    | cons c r3 => exact absurd hz (by simpa [isBreakzO, isBreakO] using hb)
    | nil =>
      refine wpC_breaks_nil ?_
      intro i
      refine wpC_blockContent_nil ?_
      have hbt : Spec.BlockText (!lit) s.indent t [] [] := by
        obtain ⟨n, hn1, hn2⟩ : ∃ n : Nat, (inc ≠ 0 → (n : Int) = (if 0 ≤ s.indent then s.indent else 0) + inc) ∧ (inc = 0 → (n : Int) = max (max (s.indent + 1) 1) 0) := by
          by_cases hi : inc = 0
          · exact ⟨(max (max (s.indent + 1) 1) 0).toNat, fun h => absurd hi h, fun _ => by omega⟩
          · refine ⟨((if 0 ≤ s.indent then s.indent else 0) + (inc : Int)).toNat, fun _ => ?_, fun h => absurd h hi⟩
            split <;> omega
        refine ⟨hd, chomp, inc, com, [], [], n, [], [], [], 0, [], hheader, ?_, hrest, .inr ⟨rfl, rfl⟩, hn1, fun h => ⟨0, .last (k := 0) (by simp), hn2 h⟩, .stop _, .done _, rfl, .inr ⟨by omega, rfl⟩, ?_⟩
        · rw [List.append_nil, ht, hhd, hcom]; cases lit <;> simp
        · simp [Spec.content, Spec.ending]
      have hv : (if (chompOf chomp == Chomping.keep) = true then (if (chompOf chomp != Chomping.strip) = true then ([] : Str) ++ [] else []) ++ []
          else if (chompOf chomp != Chomping.strip) = true then [] ++ [] else []) = ([] : Str) := by cases chomp <;> rfl
      refine hQ _ _ _ ⟨rfl, t, [], by simp, hm123.2, Adv.refl _ _, Sep.refl _ _, ?_, by cases lit <;> nofun⟩ (by cases lit <;> rfl)
      rw [hv]
      cases lit
      · exact ⟨by simp [hfl], hbt⟩
      · exact ⟨by simp [hfl], hbt⟩

end
end Yaml
