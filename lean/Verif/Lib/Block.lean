import Verif.Spec.Block
import Verif.Lib.Plain
import Verif.Lib.Directive

/-
`scan_block_scalar` run over a plain text: it reads what `Spec.BlockScalar` describes.
-/

namespace Yaml
open Scanner Emitter
set_option linter.unusedSimpArgs false
set_option linter.unusedVariables false

section
variable {P : PanicSite → Prop} {E : Err → SState → Txt → Prop} {s : SState} {t : Str} {e : Encoding}

theorem _root_.Yaml.Spec.BlankLines.length {n : Nat} {t bs t' : Str} (h : Spec.BlankLines n t bs t') : t'.length ≤ t.length := by
  induction h with
  | stop => exact Nat.le_refl _
  | line hk hb h ih => have := hb.length; simp; omega

theorem _root_.Yaml.Spec.Lines.length {n : Nat} {t t' : Str} {ls : List Spec.Line} (h : Spec.Lines n t ls t') : t'.length ≤ t.length := by
  induction h with
  | done => exact Nat.le_refl _
  | line hl hn hb hbl h ih => have := hb.length; have := hbl.length; simp; omega

/-- Skipping the indentation from column `j`; `n = 0`: all spaces. -/
theorem wpT_skipIndent {F n k : Nat} {Q : Unit → SState → Txt → Prop}
    (hn : n = 0 ∨ s.mark.column + k ≤ n) (hs : (n ≠ 0 ∧ s.mark.column + k = n) ∨ t.head? ≠ some ' ') (hF : k < F)
    (hQ : ∀ s', Mv s (List.replicate k ' ' ++ t) s' t → s'.mark.column = s.mark.column + k → Q () s' ⟨t, e⟩) :
    M.wp stepT P E (skipIndent F n) Q s ⟨List.replicate k ' ' ++ t, e⟩ := by
  unfold skipIndent
  induction k generalizing s F with
  | zero =>
    obtain ⟨F, rfl⟩ : ∃ n, F = n + 1 := ⟨F - 1, by omega⟩
    rw [M.wp_loop_succ]
    simp only [List.replicate_zero, List.nil_append, M.wp_bind, wpT_at, wp_getMark]
    rw [if_neg]
    · exact hQ s (Mv.refl _ _) (by simp)
    · simp only [Bool.and_eq_true, Bool.or_eq_true, beq_iff_eq, decide_eq_true_eq, not_and]
      rintro h1 h2
      rcases hs with h | h
      · rcases h1 with h1 | h1 <;> omega
      · rw [← List.head?_eq_getElem?] at h2
        cases t with
        | nil => simp [isSpaceO] at h2
        | cons c t => simp [isSpaceO] at h2; subst h2; exact h rfl
  | succ k ih =>
    obtain ⟨F, rfl⟩ : ∃ n, F = n + 1 := ⟨F - 1, by omega⟩
    rw [M.wp_loop_succ]
    simp only [List.replicate_succ, List.cons_append, M.wp_bind, wpT_at, wp_getMark, List.getElem?_cons_zero]
    rw [if_pos (by
      simp only [Bool.and_eq_true, Bool.or_eq_true, beq_iff_eq, decide_eq_true_eq]
      refine ⟨?_, by decide⟩
      rcases hn with h | h
      · left; omega
      · right; omega)]
    rw [M.wp_bind]
    refine wpT_skipChar (by decide) fun s' hs' => ?_
    have hcol : s'.mark = _ := hs'.line (p := [' ']) (by simp [isBreak])
    have hcol : s'.mark.column = s.mark.column + 1 := by rw [hcol]; simp
    simp only [wpT_cache, M.wp_bind, M.wp_pure, M.next_inl]
    refine ih (s := s') (F := F) (by rw [hcol]; omega) (by rw [hcol]; rcases hs with h | h; exact Or.inl (by omega); exact Or.inr h) (by omega) fun s'' hs'' hc => ?_
    exact hQ s'' (by have := hs'.trans hs''; simpa [List.replicate_succ] using this) (by omega)

/-- Blank lines and the indentation of the next line. -/
theorem wpT_blockBreaks {F n k : Nat} {m : Mark} {Q : Int × Str × Mark → SState → Txt → Prop} {bs t2 t3 br : Str}
    (h : Spec.BlankLines n t bs t2) (h2 : t2 = List.replicate k ' ' ++ t3) (hk : k ≤ n) (hs : k = n ∨ t3.head? ≠ some ' ')
    (hb : isBreakO t3.head? = false) (ht : k = n ∨ isTabO t3.head? = false) (hn : n ≠ 0) (hc : s.mark.column = 0) (hF : t.length < F)
    (hQ : ∀ s' em, Mv s t s' t3 → s'.mark.column = k → Q ((n : Int), br ++ bs, em) s' ⟨t3, e⟩) :
    M.wp stepT P E (scanBlockScalarBreaks F n br m) Q s ⟨t, e⟩ := by
  unfold scanBlockScalarBreaks
  simp only [M.wp_bind, wp_getMark]
  suffices hmain : ∀ (F' : Nat) (mi : Int) (em : Mark) (br' : Str), t.length < F' →
      M.wp stepT P E (M.loop F' (fun ((maxIndent, breaks, endMark) : Int × Str × Mark) => do
        cache 1
        skipIndent F n
        let m' ← getMark
        let maxIndent := if (m'.column : Int) > maxIndent then (m'.column : Int) else maxIndent
        let c ← at_ 0
        if ((n : Int) == 0 || decide ((m'.column : Int) < n)) && isTabO c then
          scannerError "while scanning a block scalar" m
            "found a tab character where an indentation space is expected"
        else if !isBreakO c then pure (.inr (maxIndent, breaks, endMark))
        else do
          cache 2
          let breaks ← readLineBreak breaks
          let endMark ← getMark
          pure (.inl (maxIndent, breaks, endMark))) (mi, br', em))
        (fun x s' b => x.2.1 = br' ++ bs ∧ Mv s t s' t3 ∧ s'.mark.column = k ∧ b = ⟨t3, e⟩) s ⟨t, e⟩ by
    refine M.wp_mono stepT_mono (hmain F 0 s.mark br hF) ?_ (fun _ _ _ h => h) (fun _ h => h)
    rintro ⟨mi, bb, em⟩ s' b ⟨h3, h4, h5, rfl⟩
    simp only [M.wp_get]
    rw [if_neg (by simp; omega)]
    simp only at h3
    rw [h3]
    exact hQ s' em h4 h5
  intro F' mi em br' hF'
  clear hQ
  induction h generalizing s F' mi em br' with
  | stop t =>
    subst h2
    obtain ⟨F', rfl⟩ : ∃ n, F' = n + 1 := ⟨F' - 1, by omega⟩
    rw [M.wp_loop_succ]
    simp only [M.wp_bind, wpT_cache]
    refine wpT_skipIndent (Or.inr (by omega)) (by rcases hs with h | h; exact Or.inl (by omega); exact Or.inr h) (by simp at hF; omega) fun s' hs' hc' => ?_
    simp only [wp_getMark, wpT_at]
    have hb' : isBreakO t3[0]? = false := by rw [← List.head?_eq_getElem?]; exact hb
    rw [if_neg, if_pos (by rw [hb']; rfl)]
    · exact ⟨by simp, hs', by omega, rfl⟩
    · simp only [Bool.and_eq_true, Bool.or_eq_true, beq_iff_eq, decide_eq_true_eq, not_and]
      rintro h1 h2
      rw [← List.head?_eq_getElem?] at h2
      rcases ht with h | h
      · rcases h1 with h1 | h1 <;> omega
      · rw [h] at h2; cases h2
  | @line k' t t1 bs t' c hk' hbr h ih =>
    obtain ⟨F', rfl⟩ : ∃ n, F' = n + 1 := ⟨F' - 1, by omega⟩
    rw [M.wp_loop_succ]
    simp only [M.wp_bind, wpT_cache]
    obtain ⟨d, r, hd, hdb⟩ := hbr.head
    have hlen := hbr.length
    refine wpT_skipIndent (Or.inr (by omega)) (Or.inr (by rw [hd]; intro h; simp at h; subst h; revert hdb; decide)) (by simp at hF; omega) fun s' hs' hc' => ?_
    simp only [wp_getMark, wpT_at]
    have hdb' : isBreakO t[0]? = true := by rw [hd]; simpa [isBreakO] using hdb
    have htab : isTabO t[0]? = false := by
      rw [hd]; simp only [List.getElem?_cons_zero]
      cases ht : isTabO (some d) with
      | false => rfl
      | true => simp [isTabO] at ht; subst ht; revert hdb; decide
    rw [if_neg (by rw [htab]; simp), if_neg (by rw [hdb']; simp)]
    simp only [M.wp_bind, wpT_cache]
    refine wpT_readLineBreak hbr fun s2 hs2 hc2 _ => ?_
    simp only [wp_getMark, M.wp_pure, M.next_inl]
    refine M.wp_mono stepT_mono (ih h2 hc2 (by simp at hF; omega) F' _ _ _ (by simp at hF'; omega)) ?_ (fun _ _ _ h => h) (fun _ h => h)
    rintro x s3 b ⟨h3, h4, h5, rfl⟩
    exact ⟨by rw [h3]; simp, (hs'.trans hs2).trans h4, h5, rfl⟩

/-- The loop variables after the content lines `ls`. -/
def runLines (literal : Bool) (v : BlockVars) : List Spec.Line → BlockVars
  | [] => v
  | l :: ls => runLines literal ⟨blockFlush literal l.indented v ++ l.text, [l.brk], l.blank, l.indented, v.indent, v.endMark⟩ ls

/-- The same up to the end mark. -/
def SameVars (v w : BlockVars) : Prop :=
  v.string = w.string ∧ v.leadingBreak = w.leadingBreak ∧ v.trailingBreaks = w.trailingBreaks ∧ v.leadingBlank = w.leadingBlank ∧ v.indent = w.indent

theorem SameVars.flush {literal tb : Bool} {v w : BlockVars} (h : SameVars v w) : blockFlush literal tb v = blockFlush literal tb w := by
  obtain ⟨h1, h2, h3, h4, h5⟩ := h
  unfold blockFlush
  rw [h1, h2, h3, h4]

theorem SameVars.run {literal : Bool} {v w : BlockVars} (h : SameVars v w) (ls : List Spec.Line) : SameVars (runLines literal v ls) (runLines literal w ls) := by
  induction ls generalizing v w with
  | nil => exact h
  | cons l ls ih =>
    refine ih ⟨?_, rfl, rfl, rfl, h.2.2.2.2⟩
    show blockFlush literal l.indented v ++ l.text = blockFlush literal l.indented w ++ l.text
    rw [h.flush]

theorem solid_facts {t : Str} (h : Spec.Solid t) : t.head? ≠ some ' ' ∧ isBreakO t.head? = false ∧ isTabO t.head? = false := by
  cases t with
  | nil => exact ⟨by simp, rfl, rfl⟩
  | cons c r =>
    obtain ⟨h1, h2⟩ := h c r rfl
    refine ⟨?_, ?_, ?_⟩
    · intro h; simp at h; exact h1 (Or.inl h)
    · rw [List.head?_cons, breakO_eq]; exact h2
    · cases ht : isTabO (c :: r).head? with
      | false => rfl
      | true => simp [isTabO] at ht; exact absurd (Or.inr ht) h1

/-- The content loop. -/
theorem wpT_blockContent {F n k : Nat} {literal : Bool} {m : Mark} {t2 t3 rest : Str} {ls : List Spec.Line}
    (h : Spec.Lines n t2 ls t3) (h3 : t3 = List.replicate k ' ' ++ rest) (hk : k < n) (hr : Spec.Solid rest) :
    ∀ {F' j : Nat} {s : SState} {tt : Str} {v : BlockVars}, t2 = List.replicate j ' ' ++ tt → s.mark.column = j → (ls = [] → j = k) → (ls ≠ [] → j = n) →
      v.indent = n → tt.length < F' → tt.length < F →
      M.wp stepT P E (M.loop F' (fun (v : BlockVars) => do
        let c ← at_ 0
        let m' ← getMark
        if (m'.column : Int) != v.indent || c.isNone then pure (.inr v)
        else do
          let trailingBlank := isBlankO c
          let string := blockFlush literal trailingBlank v
          let string ← readWhile F (fun c => !isBreakzO c) string
          cache 2
          let leadingBreak ← readLineBreak []
          let (indent, trailingBreaks, endMark) ← scanBlockScalarBreaks F v.indent [] m
          pure (.inl { string := string, leadingBreak := leadingBreak, trailingBreaks := trailingBreaks,
                       leadingBlank := trailingBlank, indent := indent, endMark := endMark })) v)
        (fun x s' b => SameVars x (runLines literal v ls) ∧ Mv s tt s' rest ∧ b = ⟨rest, e⟩) s ⟨tt, e⟩ := by
  induction h with
  | done t =>
    intro F' j s tt v h2 hc h0 _ hv hF' hF
    obtain ⟨F', rfl⟩ : ∃ n, F' = n + 1 := ⟨F' - 1, by omega⟩
    have hj := h0 rfl
    subst hj
    rw [h3] at h2
    have h2 := List.append_cancel_left h2
    subst h2
    rw [M.wp_loop_succ]
    simp only [M.wp_bind, wpT_at, wp_getMark]
    rw [if_pos (by simp [hv, hc]; left; omega)]
    exact ⟨⟨rfl, rfl, rfl, rfl, rfl⟩, Mv.refl _ _, rfl⟩
  | @line l t t1 bs t2 t' c ls hl hn hb hbl h ih =>
    intro F' j s tt v h2 hc _ h0 hv hF' hF
    obtain ⟨F', rfl⟩ : ∃ n, F' = n + 1 := ⟨F' - 1, by omega⟩
    have hj := h0 (by simp)
    subst hj
    have h2 := List.append_cancel_left h2
    subst h2
    obtain ⟨d, r, hd, hdb⟩ := hb.head
    have hlen := hb.length
    have hlen2 := hbl.length
    rw [M.wp_loop_succ]
    simp only [M.wp_bind, wpT_at, wp_getMark]
    have hne : (l ++ t)[0]?.isNone = false := by
      cases l with
      | nil => exact absurd rfl hl
      | cons x l => rfl
    have hblank : isBlankO (l ++ t)[0]? = Spec.Line.indented ⟨l, c, bs⟩ := by
      cases l with
      | nil => exact absurd rfl hl
      | cons x l => rfl
    rw [if_neg (by rw [hne]; simp [hv, hc]), hblank]
    simp only [M.wp_bind]
    refine wpT_readWhile (pre := l) (rest := t) (fun x hx => ?_) (by rw [hd]; simp [isBreakzO, isBreakO] ; simpa [isBreakO] using hdb) (by simp at hF; omega) fun s1 hs1 => ?_
    · have := hn x hx
      rw [isLineBreak_eq] at this
      refine ⟨?_, this⟩
      simp [isBreakzO, isBreakO, this]
    simp only [M.wp_bind, wpT_cache]
    refine wpT_readLineBreak hb fun s2 hs2 hc2 _ => ?_
    rw [hv]
    simp only [List.nil_append]
    -- the indentation of the next line
    have hpos : ∃ j' tt', t2 = List.replicate j' ' ' ++ tt' ∧ j' ≤ j ∧ (j' = j ∨ tt'.head? ≠ some ' ') ∧ isBreakO tt'.head? = false ∧
        (j' = j ∨ isTabO tt'.head? = false) ∧ (ls = [] → j' = k) ∧ (ls ≠ [] → j' = j) := by
      cases h with
      | done t =>
        obtain ⟨f1, f2, f3⟩ := solid_facts hr
        exact ⟨k, rest, h3, by omega, Or.inr f1, f2, Or.inr f3, fun _ => rfl, fun h => absurd rfl h⟩
      | @line l' t' t1' bs' t2' _ c' ls' hl' hn' hb' hbl' h' =>
        refine ⟨j, l' ++ t', rfl, Nat.le_refl _, Or.inl rfl, ?_, Or.inl rfl, fun h => (by cases h), fun _ => rfl⟩
        cases l' with
        | nil => exact absurd rfl hl'
        | cons x l' =>
          have := hn' x List.mem_cons_self
          rw [isLineBreak_eq] at this
          simpa [isBreakO] using this
    obtain ⟨j', tt', p1, p2, p3, p4, p5, p6, p7⟩ := hpos
    refine wpT_blockBreaks hbl p1 p2 p3 p4 p5 (by omega) hc2 (by simp at hF; omega) fun s3 em hs3 hc3 => ?_
    simp only [M.wp_pure, M.next_inl, List.nil_append]
    have hlt : tt'.length ≤ t2.length := by rw [p1]; simp
    refine M.wp_mono stepT_mono (ih h3 p1 hc3 p6 p7 rfl (by simp at hF'; omega) (by simp at hF; omega)) ?_ (fun _ _ _ h => h) (fun _ h => h)
    rintro x s4 b ⟨q1, q2, rfl⟩
    refine ⟨?_, ((hs1.trans hs2).trans hs3).trans q2, rfl⟩
    have hsv : ∀ w : BlockVars, SameVars ⟨blockFlush literal (Spec.Line.indented ⟨l, c, bs⟩) v ++ l, [c], bs, Spec.Line.indented ⟨l, c, bs⟩, (j : Int), em⟩ w →
        SameVars x (runLines literal w ls) := fun w hw => by
      have := hw.run (literal := literal) ls
      obtain ⟨a1, a2, a3, a4, a5⟩ := q1
      obtain ⟨b1, b2, b3, b4, b5⟩ := this
      exact ⟨a1.trans b1, a2.trans b2, a3.trans b3, a4.trans b4, a5.trans b5⟩
    exact hsv _ ⟨rfl, rfl, rfl, rfl, hv.symm⟩

theorem runLines_content {literal : Bool} (ls : List Spec.Line) : ∀ (L : Spec.Line) (pre : Str) (v : BlockVars),
    v.string = pre ++ L.text → v.leadingBreak = [L.brk] → v.trailingBreaks = L.blank → v.leadingBlank = L.indented →
    ∃ M, (L :: ls).getLast? = some M ∧ (runLines literal v ls).string = pre ++ Spec.content (!literal) (L :: ls) ∧
      (runLines literal v ls).leadingBreak = [M.brk] ∧ (runLines literal v ls).trailingBreaks = M.blank := by
  induction ls with
  | nil =>
    intro L pre v h1 h2 h3 h4
    exact ⟨L, rfl, by simpa [runLines, Spec.content] using h1, h2, h3⟩
  | cons l ls ih =>
    intro L pre v h1 h2 h3 h4
    have hfl : blockFlush literal l.indented v = pre ++ (L.text ++ Spec.between (!literal) L l) := by
      unfold blockFlush Spec.between
      rw [h1, h2, h3, h4]
      cases literal with
      | true => simp
      | false =>
        by_cases hc : L.brk = '\n' ∧ L.indented = false ∧ l.indented = false
        · obtain ⟨c1, c2, c3⟩ := hc
          simp only [c1, c2, c3]
          cases hb : L.blank with
          | nil => simp
          | cons x y => simp
        · have : ¬ ((!false && [L.brk].head? == some '\n' && !L.indented && !l.indented) = true) := by
            intro h
            simp at h
            exact hc ⟨h.1.1, h.1.2, h.2⟩
          rw [if_neg this, if_neg (fun h => hc h.2)]
          simp
    obtain ⟨M, h5, h6, h7, h8⟩ := ih l (pre ++ (L.text ++ Spec.between (!literal) L l))
      ⟨blockFlush literal l.indented v ++ l.text, [l.brk], l.blank, l.indented, v.indent, v.endMark⟩ (by rw [hfl]) rfl rfl rfl
    refine ⟨M, by rw [← h5]; simp, ?_, h7, h8⟩
    show (runLines literal _ ls).string = _
    rw [h6]
    simp [Spec.content]

/-- The value of the scalar, from the loop variables. -/
theorem runLines_value {literal : Bool} (bs : Str) (n : Int) (em : Mark) (ls : List Spec.Line) (chomp : Chomping) (c : Spec.Chomp)
    (hc : (chomp = .strip ↔ c = .strip) ∧ (chomp = .keep ↔ c = .keep)) :
    (let v := runLines literal ⟨[], [], bs, false, n, em⟩ ls
     let string := if chomp != Chomping.strip then v.string ++ v.leadingBreak else v.string
     if chomp == Chomping.keep then string ++ v.trailingBreaks else string) =
      (if ls = [] then [] else bs) ++ Spec.content (!literal) ls ++ Spec.ending c bs ls := by
  obtain ⟨hc1, hc2⟩ := hc
  cases ls with
  | nil =>
    simp only [runLines, Spec.content, Spec.ending]
    cases chomp <;> cases c <;> simp_all
  | cons l ls =>
    have hfl : blockFlush literal l.indented ⟨[], [], bs, false, n, em⟩ = bs := by
      unfold blockFlush; simp
    obtain ⟨M, h5, h6, h7, h8⟩ := runLines_content (literal := literal) ls l bs
      ⟨blockFlush literal l.indented ⟨[], [], bs, false, n, em⟩ ++ l.text, [l.brk], l.blank, l.indented, n, em⟩ (by rw [hfl]) rfl rfl rfl
    rw [show runLines literal ⟨[], [], bs, false, n, em⟩ (l :: ls) = runLines literal
      ⟨blockFlush literal l.indented ⟨[], [], bs, false, n, em⟩ ++ l.text, [l.brk], l.blank, l.indented, n, em⟩ ls from rfl]
    simp only [h6, h7, h8, Spec.ending, h5]
    cases chomp <;> cases c <;> simp_all

theorem digit_facts {d : Char} {n : Nat} (hn : n ≠ 0 ∧ n < 10) (hd : d.toNat = 48 + n) :
    isDigitO (some d) = true ∧ toDigit? d = some n ∧ d ≠ '0' ∧ d ≠ '+' ∧ d ≠ '-' ∧ isBreak d = false := by
  have hd' : d = Char.ofNat (48 + n) := by rw [← hd]; simp
  obtain ⟨h1, h2⟩ := hn
  subst hd'
  have : n = 1 ∨ n = 2 ∨ n = 3 ∨ n = 4 ∨ n = 5 ∨ n = 6 ∨ n = 7 ∨ n = 8 ∨ n = 9 := by omega
  rcases this with rfl | rfl | rfl | rfl | rfl | rfl | rfl | rfl | rfl <;> decide

def chompOf : Spec.Chomp → Chomping
  | .strip => .strip
  | .clip => .clip
  | .keep => .keep

theorem wpT_digit {Q : Nat → SState → Txt → Prop} {m : Mark} {d : Char} {n : Nat} (hn : n ≠ 0 ∧ n < 10) (hd : d.toNat = 48 + n)
    (hQ : ∀ s', Mv s (d :: t) s' t → Q n s' ⟨t, e⟩) : M.wp stepT P E (blockIndicatorDigit m (some d)) Q s ⟨d :: t, e⟩ := by
  obtain ⟨h1, h2, h3, h4, h5, h6⟩ := digit_facts hn hd
  unfold blockIndicatorDigit
  rw [if_neg (by simpa using h3)]
  simp only [Option.bind_some, h2, M.wp_bind]
  refine wpT_skipChar h6 fun s' hs' => ?_
  exact hQ s' hs'

theorem wpT_blockHeader {Q : Chomping × Nat → SState → Txt → Prop} {m : Mark} {hd : Str} {c : Spec.Chomp} {inc : Nat} (h : Spec.Header hd c inc)
    (ht : Spec.EndsTag t) (htn : t ≠ []) (hQ : ∀ s', Mv s (hd ++ t) s' t → Q (chompOf c, inc) s' ⟨t, e⟩) :
    M.wp stepT P E (blockScalarHeader m) Q s ⟨hd ++ t, e⟩ := by
  have ht0 : (t[0]? == some '+' || t[0]? == some '-') = false ∧ isDigitO t[0]? = false := by
    rw [← List.head?_eq_getElem?]
    cases t with
    | nil => exact ⟨rfl, rfl⟩
    | cons x t =>
      have ht := ht x t rfl
      rw [isLineBreak_eq] at ht
      simp only [List.head?_cons]
      simp only [isBreak, Bool.or_eq_true, beq_iff_eq] at ht
      rcases ht with (rfl | rfl) | (((rfl | rfl) | rfl) | rfl) | rfl <;> decide
  unfold blockScalarHeader
  simp only [M.wp_bind, wpT_cache, wpT_at]
  cases h with
  | none =>
    simp only [List.nil_append]
    rw [if_neg (by rw [ht0.1]; simp), if_neg (by rw [ht0.2]; simp)]
    exact hQ s (Mv.refl _ _)
  | strip =>
    simp only [List.cons_append, List.nil_append, List.getElem?_cons_zero]
    rw [if_pos (by decide), M.wp_bind]
    refine wpT_skipChar (by decide) fun s1 hs1 => ?_
    simp only [M.wp_bind, wpT_cache, wpT_at]
    rw [if_neg (by rw [ht0.2]; simp)]
    exact hQ s1 hs1
  | keep =>
    simp only [List.cons_append, List.nil_append, List.getElem?_cons_zero]
    rw [if_pos (by decide), M.wp_bind]
    refine wpT_skipChar (by decide) fun s1 hs1 => ?_
    simp only [M.wp_bind, wpT_cache, wpT_at]
    rw [if_neg (by rw [ht0.2]; simp)]
    exact hQ s1 hs1
  | @digit d n hn hd =>
    obtain ⟨h1, h2, h3, h4, h5, h6⟩ := digit_facts hn hd
    simp only [List.cons_append, List.nil_append, List.getElem?_cons_zero]
    rw [if_neg (by simp [h4, h5]), if_pos h1, M.wp_bind]
    refine wpT_digit hn hd fun s1 hs1 => ?_
    simp only [M.wp_bind, wpT_cache, wpT_at]
    rw [if_neg (by rw [ht0.1]; simp)]
    exact hQ s1 hs1
  | @digitStrip d n hn hd =>
    obtain ⟨h1, h2, h3, h4, h5, h6⟩ := digit_facts hn hd
    simp only [List.cons_append, List.nil_append, List.getElem?_cons_zero]
    rw [if_neg (by simp [h4, h5]), if_pos h1, M.wp_bind]
    refine wpT_digit hn hd fun s1 hs1 => ?_
    simp only [M.wp_bind, wpT_cache, wpT_at, List.getElem?_cons_zero]
    rw [if_pos (by decide), M.wp_bind]
    refine wpT_skipChar (by decide) fun s2 hs2 => ?_
    exact hQ s2 (hs1.trans hs2)
  | @digitKeep d n hn hd =>
    obtain ⟨h1, h2, h3, h4, h5, h6⟩ := digit_facts hn hd
    simp only [List.cons_append, List.nil_append, List.getElem?_cons_zero]
    rw [if_neg (by simp [h4, h5]), if_pos h1, M.wp_bind]
    refine wpT_digit hn hd fun s1 hs1 => ?_
    simp only [M.wp_bind, wpT_cache, wpT_at, List.getElem?_cons_zero]
    rw [if_pos (by decide), M.wp_bind]
    refine wpT_skipChar (by decide) fun s2 hs2 => ?_
    exact hQ s2 (hs1.trans hs2)
  | @stripDigit d n hn hd =>
    obtain ⟨h1, h2, h3, h4, h5, h6⟩ := digit_facts hn hd
    simp only [List.cons_append, List.nil_append, List.getElem?_cons_zero]
    rw [if_pos (by decide), M.wp_bind]
    refine wpT_skipChar (by decide) fun s1 hs1 => ?_
    simp only [M.wp_bind, wpT_cache, wpT_at, List.getElem?_cons_zero]
    rw [if_pos h1, M.wp_bind]
    refine wpT_digit hn hd fun s2 hs2 => ?_
    exact hQ s2 (hs1.trans hs2)
  | @keepDigit d n hn hd =>
    obtain ⟨h1, h2, h3, h4, h5, h6⟩ := digit_facts hn hd
    simp only [List.cons_append, List.nil_append, List.getElem?_cons_zero]
    rw [if_pos (by decide), M.wp_bind]
    refine wpT_skipChar (by decide) fun s1 hs1 => ?_
    simp only [M.wp_bind, wpT_cache, wpT_at, List.getElem?_cons_zero]
    rw [if_pos h1, M.wp_bind]
    refine wpT_digit hn hd fun s2 hs2 => ?_
    exact hQ s2 (hs1.trans hs2)

/-- Detecting the indentation. -/
theorem wpT_blockDetect {F n k : Nat} {m : Mark} {Q : Int × Str × Mark → SState → Txt → Prop} {bs t2 t3 : Str}
    (h : Spec.BlankLines n t bs t2) (h2 : t2 = List.replicate k ' ' ++ t3) (hk : k ≤ n) (hs : Spec.Solid t3) (hc : s.mark.column = 0) (hF : t.length < F)
    (hQ : ∀ s' em (i : Int), Mv s t s' t3 → s'.mark.column = k → s.indent < i → 1 ≤ i → (k : Int) ≤ i → (i ≤ n ∨ i = s.indent + 1 ∨ i = 1) → Q (i, bs, em) s' ⟨t3, e⟩) :
    M.wp stepT P E (scanBlockScalarBreaks F 0 [] m) Q s ⟨t, e⟩ := by
  unfold scanBlockScalarBreaks
  simp only [M.wp_bind, wp_getMark]
  obtain ⟨f1, f2, f3⟩ := solid_facts hs
  suffices hmain : ∀ (F' : Nat) (mi : Int) (em : Mark) (br' : Str), t.length < F' → mi ≤ n → 0 ≤ mi →
      M.wp stepT P E (M.loop F' (fun ((maxIndent, breaks, endMark) : Int × Str × Mark) => do
        cache 1
        skipIndent F 0
        let m' ← getMark
        let maxIndent := if (m'.column : Int) > maxIndent then (m'.column : Int) else maxIndent
        let c ← at_ 0
        if ((0 : Int) == 0 || decide ((m'.column : Int) < 0)) && isTabO c then
          scannerError "while scanning a block scalar" m
            "found a tab character where an indentation space is expected"
        else if !isBreakO c then pure (.inr (maxIndent, breaks, endMark))
        else do
          cache 2
          let breaks ← readLineBreak breaks
          let endMark ← getMark
          pure (.inl (maxIndent, breaks, endMark))) (mi, br', em))
        (fun x s' b => x.2.1 = br' ++ bs ∧ Mv s t s' t3 ∧ s'.mark.column = k ∧ b = ⟨t3, e⟩ ∧ x.1 ≤ (n : Int) ∧ (k : Int) ≤ x.1) s ⟨t, e⟩ by
    refine M.wp_mono stepT_mono (hmain F 0 s.mark [] hF (by omega) (by omega)) ?_ (fun _ _ _ h => h) (fun _ h => h)
    rintro ⟨mi, bb, em⟩ s' b ⟨h3, h4, h5, rfl, h6, h7⟩
    simp only [M.wp_get]
    rw [if_pos (by rfl)]
    simp only [List.nil_append] at h3 h6 h7
    rw [h3, h4.indent]
    refine hQ s' em _ h4 h5 ?_ ?_ ?_ ?_ <;> (split <;> split <;> omega)
  intro F' mi em br' hF'
  clear hQ
  induction h generalizing s F' mi em br' with
  | stop t =>
    intro hmi hmi0
    subst h2
    obtain ⟨F', rfl⟩ : ∃ n, F' = n + 1 := ⟨F' - 1, by omega⟩
    rw [M.wp_loop_succ]
    simp only [M.wp_bind, wpT_cache]
    refine wpT_skipIndent (n := 0) (Or.inl rfl) (Or.inr f1) (by simp at hF; omega) fun s' hs' hc' => ?_
    simp only [wp_getMark, wpT_at]
    have hb' : isBreakO t3[0]? = false := by rw [← List.head?_eq_getElem?]; exact f2
    have ht' : isTabO t3[0]? = false := by rw [← List.head?_eq_getElem?]; exact f3
    rw [if_neg (by rw [ht']; simp), if_pos (by rw [hb']; rfl)]
    refine ⟨by simp, hs', by omega, rfl, ?_, ?_⟩ <;> (show _ ≤ _; simp only; split <;> omega)
  | @line k' t t1 bs t' c hk' hbr h ih =>
    intro hmi hmi0
    obtain ⟨F', rfl⟩ : ∃ n, F' = n + 1 := ⟨F' - 1, by omega⟩
    rw [M.wp_loop_succ]
    simp only [M.wp_bind, wpT_cache]
    obtain ⟨d, r, hd, hdb⟩ := hbr.head
    have hlen := hbr.length
    refine wpT_skipIndent (n := 0) (Or.inl rfl) (Or.inr (by rw [hd]; intro h; simp at h; subst h; revert hdb; decide)) (by simp at hF; omega) fun s' hs' hc' => ?_
    simp only [wp_getMark, wpT_at]
    have hdb' : isBreakO t[0]? = true := by rw [hd]; simpa [isBreakO] using hdb
    have htab : isTabO t[0]? = false := by
      rw [hd]; simp only [List.getElem?_cons_zero]
      cases ht : isTabO (some d) with
      | false => rfl
      | true => simp [isTabO] at ht; subst ht; revert hdb; decide
    rw [if_neg (by rw [htab]; simp), if_neg (by rw [hdb']; simp)]
    simp only [M.wp_bind, wpT_cache]
    refine wpT_readLineBreak hbr fun s2 hs2 hc2 _ => ?_
    simp only [wp_getMark, M.wp_pure, M.next_inl]
    refine M.wp_mono stepT_mono (ih h2 hc2 (by simp at hF; omega) F' _ _ _ (by simp at hF'; omega) (by split <;> omega) (by split <;> omega)) ?_ (fun _ _ _ h => h) (fun _ h => h)
    rintro x s3 b ⟨h3, h4, h5, rfl, h6, h7⟩
    exact ⟨by rw [h3]; simp, (hs'.trans hs2).trans h4, h5, rfl, h6, h7⟩

/-- A block scalar is read as the string it denotes. -/
theorem wpT_scanBlockScalar {F : Nat} {literal : Bool} {Q : Token → SState → Txt → Prop} {v rest : Str}
    (h : Spec.BlockScalar (!literal) s.indent t v rest) (hF : t.length < F)
    (hQ : ∀ s' m, Mv s t s' rest → Q ⟨.scalar v (if literal then .literal else .folded), s.mark, m⟩ s' ⟨rest, e⟩) :
    M.wp stepT P E (scanBlockScalar F literal) Q s ⟨t, e⟩ := by
  obtain ⟨hd, chomp, inc, l, t0, c, t1, n, bs, t2, ls, t3, k, hh, rfl, hl, hb, hinc, hdet, hbl, hls, h3, hk, hso, rfl⟩ := h
  unfold scanBlockScalar
  simp only [M.wp_bind, wp_getMark]
  refine wpT_skipChar (by cases literal <;> decide) fun s1 hs1 => ?_
  obtain ⟨d, r, hd0, hdb⟩ := hb.head
  have hlen := hb.length
  have hbl0 := hbl.length
  have hb0 : isBreakO t0.head? = true := by rw [hd0]; exact hdb
  have hbz : isBreakzO t0.head? = true := by rw [hd0]; exact hdb
  refine wpT_blockHeader hh (lineRest_ends hl hbz) (by rw [hd0]; simp) fun s2 hs2 => ?_
  refine wpT_skipBlanksAndComment hl hbz (by simp at hF; omega) fun s3 hs3 => ?_
  simp only [M.wp_bind, wpT_at]
  have hbk : isBreakO t0[0]? = true := by rw [← List.head?_eq_getElem?]; exact hb0
  have hbz : isBreakzO t0[0]? = true := by rw [← List.head?_eq_getElem?]; exact hbz
  rw [if_neg (by rw [hbz]; simp)]
  simp only [M.wp_bind, M.wp_when, hbk, if_true, wpT_cache]
  refine wpT_skipLineBreak hb fun s4 hs4 hc4 _ => ?_
  simp only [M.wp_get]
  have hall : Mv s ((if (!literal) = true then '>' else '|') :: (hd ++ (l ++ t0))) s4 t1 := ((hs1.trans hs2).trans hs3).trans hs4
  have hind : s4.indent = s.indent := hall.indent
  -- the end of the content loop
  have hfin : ∀ (n : Nat) (_ : Spec.Lines n t2 ls t3) (_ : k < n) (s5 : SState) (tt : Str) (j : Nat) (em : Mark), Mv s4 t1 s5 tt → t2 = List.replicate j ' ' ++ tt →
      s5.mark.column = j → (ls = [] → j = k) → (ls ≠ [] → j = n) →
      M.wp stepT P E (blockContent F literal s.mark ⟨[], [], bs, false, n, em⟩)
        (fun v s' b => M.wp stepT P E (pure ⟨.scalar (if chompOf chomp == Chomping.keep then
            (if chompOf chomp != Chomping.strip then v.string ++ v.leadingBreak else v.string) ++ v.trailingBreaks
          else (if chompOf chomp != Chomping.strip then v.string ++ v.leadingBreak else v.string))
            (if literal then .literal else .folded), s.mark, v.endMark⟩) Q s' b) s5 ⟨tt, e⟩ := by
    intro n hls hk s5 tt j em hs5 h2 hc5 hj1 hj2
    have htt : tt.length ≤ t2.length := by rw [h2]; simp
    unfold blockContent
    refine M.wp_mono stepT_mono (wpT_blockContent (literal := literal) (m := s.mark) (e := e) (v := ⟨[], [], bs, false, n, em⟩) hls h3 hk hso h2 hc5 hj1 hj2 rfl
      (by simp at hF; omega) (by simp at hF; omega)) ?_ (fun _ _ _ h => h) (fun _ h => h)
    rintro x s6 b ⟨⟨q1, q2, q3, q4, q5⟩, q6, rfl⟩
    have hval := runLines_value (literal := literal) bs n em ls (chompOf chomp) chomp (by cases chomp <;> simp [chompOf])
    simp only at hval
    rw [M.wp_pure, q1, q2, q3, hval]
    exact hQ s6 x.endMark ((hall.trans hs5).trans q6)
  by_cases hi0 : inc = 0
  · obtain ⟨g1, g2, g3, g4⟩ := hdet hi0
    rw [hi0]
    simp only [bne_self_eq_false, Bool.false_eq_true, if_false]
    have hpos : ∃ j tt, t2 = List.replicate j ' ' ++ tt ∧ j ≤ n ∧ Spec.Solid tt ∧ (ls = [] → j = k) ∧ (ls ≠ [] → j = n) := by
      cases hls with
      | done t => exact ⟨k, rest, h3, by omega, hso, fun _ => rfl, fun h => absurd rfl h⟩
      | @line l' t' t1' bs' t2' _ c' ls' hl' hn' hb' hbl' h' =>
        refine ⟨n, l' ++ t', rfl, Nat.le_refl _, ?_, fun h => (by cases h), fun _ => rfl⟩
        cases l' with
        | nil => exact absurd rfl hl'
        | cons x l' =>
          have hx := g3 _ _ rfl
          simp only [Spec.Line.indented, Bool.or_eq_false_iff, beq_eq_false_iff_ne] at hx
          rintro y r hy
          simp at hy
          obtain ⟨rfl, _⟩ := hy
          exact ⟨fun h => h.elim hx.1 hx.2, hn' _ List.mem_cons_self⟩
    obtain ⟨j, tt, p1, p2, p3, p6, p7⟩ := hpos
    refine wpT_blockDetect hbl p1 p2 p3 hc4 (by simp at hF; omega) fun s5 em i hs5 hc5 q1 q2 q3 q4 => ?_
    simp only [M.wp_bind, wpT_cache]
    obtain ⟨i, rfl⟩ := Int.eq_ofNat_of_zero_le (show 0 ≤ i by omega)
    rw [hind] at q1 q4
    by_cases hl0 : ls = []
    · subst hl0
      refine hfin i (by cases hls; exact .done _) ?_ s5 tt j em hs5 p1 hc5 p6 (fun h => absurd rfl h)
      rcases g4 rfl with h | h <;> omega
    · have hj := p7 hl0
      have : i = n := by omega
      subst this
      exact hfin i hls hk s5 tt j em hs5 p1 hc5 p6 p7
  · have hn := hinc hi0
    have hindent : (if (inc != 0) = true then if s4.indent ≥ 0 then s4.indent + (inc : Int) else (inc : Int) else 0) = (n : Int) := by
      rw [if_pos (by simpa using hi0), hind, hn]
      split <;> omega
    rw [hindent]
    have hpos : ∃ j tt, t2 = List.replicate j ' ' ++ tt ∧ j ≤ n ∧ (j = n ∨ tt.head? ≠ some ' ') ∧ isBreakO tt.head? = false ∧
        (j = n ∨ isTabO tt.head? = false) ∧ (ls = [] → j = k) ∧ (ls ≠ [] → j = n) := by
      cases hls with
      | done t =>
        obtain ⟨f1, f2, f3⟩ := solid_facts hso
        exact ⟨k, rest, h3, by omega, Or.inr f1, f2, Or.inr f3, fun _ => rfl, fun h => absurd rfl h⟩
      | @line l' t' t1' bs' t2' _ c' ls' hl' hn' hb' hbl' h' =>
        refine ⟨n, l' ++ t', rfl, Nat.le_refl _, Or.inl rfl, ?_, Or.inl rfl, fun h => (by cases h), fun _ => rfl⟩
        cases l' with
        | nil => exact absurd rfl hl'
        | cons x l' =>
          have := hn' x List.mem_cons_self
          rw [isLineBreak_eq] at this
          simpa [isBreakO] using this
    obtain ⟨j, tt, p1, p2, p3, p4, p5, p6, p7⟩ := hpos
    refine wpT_blockBreaks hbl p1 p2 p3 p4 p5 (by omega) hc4 (by simp at hF; omega) fun s5 em hs5 hc5 => ?_
    simp only [M.wp_bind, wpT_cache, List.nil_append]
    exact hfin n hls hk s5 tt j em hs5 p1 hc5 p6 p7

end
end Yaml
