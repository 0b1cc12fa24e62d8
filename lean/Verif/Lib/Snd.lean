import Verif.Lib.Part
import Verif.Spec.Lexemes
import Verif.Lib.Lex3
import Verif.Lib.Directive

/- Soundness of the lexical functions: what a successful call has read.  Separators, directives, anchors, tags. -/

namespace Yaml
open Scanner
set_option linter.unusedSimpArgs false
set_option linter.unusedVariables false

theorem separates_append {b : Bool} {g g' rest : Str} (h : Spec.Separates b g (g' ++ rest)) (h' : Spec.Separates (endBol b g) g' rest) :
    Spec.Separates b (g ++ g') rest := by
  generalize hr : g' ++ rest = r at h
  induction h with
  | nil => exact h'
  | blank hc h ih =>
    rename_i bol c g r
    refine .blank hc (ih ?_ hr)
    have : Spec.isLineBreak c = false := by rw [isLineBreak_eq]; exact hc.noBreak
    simpa [endBol, this] using h'
  | brk hc h ih =>
    refine .brk hc (ih ?_ hr)
    simpa [endBol, hc] using h'
  | bom h ih =>
    refine .bom (ih ?_ hr)
    have : Spec.isLineBreak '\uFEFF' = false := by decide
    simpa [endBol, this] using h'
  | comment hc he h ih =>
    rename_i bol com g r
    rw [List.cons_append, List.append_assoc]
    refine .comment hc (by rw [List.append_assoc, hr]; exact he) (ih ?_ hr)
    have hb : Spec.isLineBreak '#' = false := by decide
    have hcom : ∀ (com : Str), (∀ c ∈ com, Spec.isLineBreak c = false) → endBol false com = false := by
      intro com
      induction com with
      | nil => intro _; rfl
      | cons x r ih => intro h; rw [endBol, List.foldl_cons, h x (by simp)]; exact ih (fun c hc => h c (by simp [hc]))
    have h2 : endBol bol ('#' :: (com ++ g)) = endBol false g := by
      simp only [endBol, List.foldl_cons, hb, List.foldl_append]
      have := hcom com hc
      unfold endBol at this
      rw [this]
    rwa [h2] at h'

/-- Only separating text between the two places. -/
def Sep (m : Mark) (t t' : Str) : Prop := ∃ g, t = g ++ t' ∧ Spec.Separates (decide (m.column = 0)) g t'

theorem Sep.refl (m : Mark) (t : Str) : Sep m t t := ⟨[], rfl, .nil _⟩

theorem Sep.trans {m m1 : Mark} {t t1 t2 : Str} (h : Sep m t t1) (ha : Adv m t m1 t1) (h' : Sep m1 t1 t2) : Sep m t t2 := by
  obtain ⟨g, rfl, hg⟩ := h
  obtain ⟨g', rfl, hg'⟩ := h'
  obtain ⟨p, hp, rfl, _⟩ := ha
  have hp := List.append_cancel_right hp
  subst hp
  rw [advance_bol] at hg'
  exact ⟨g ++ g', by simp, separates_append hg hg'⟩

theorem Sep.blanks (m : Mark) {r t : Str} (h : ∀ c ∈ r, Spec.IsBlank c) : Sep m (r ++ t) t := by
  refine ⟨r, rfl, ?_⟩
  generalize decide (m.column = 0) = b
  induction r generalizing b with
  | nil => exact .nil _
  | cons c r ih => exact .blank (h c (by simp)) (ih (fun c hc => h c (by simp [hc])) _)

theorem Sep.brk (m : Mark) {t t' : Str} {v : Char} (h : Spec.BreakAt t v t') : Sep m t t' := by
  cases h with
  | crlf t => exact ⟨['\r', '\n'], rfl, .brk (by decide) (.brk (by decide) (.nil _))⟩
  | one c t hb hc => exact ⟨[c], rfl, .brk hb (.nil _)⟩

theorem Sep.comment (m : Mark) {x t : Str} (h : ∀ c ∈ x, isBreak c = false) (ht : isBreakzO t[0]? = true) : Sep m ('#' :: x ++ t) t := by
  refine ⟨'#' :: x, rfl, ?_⟩
  have := Spec.Separates.comment (bol := decide (m.column = 0)) (com := x) (g := []) (rest := t) (fun c hc => by rw [isLineBreak_eq]; exact h c hc) ?_ (.nil _)
  · simpa using this
  · rintro c r hcr
    rw [List.nil_append] at hcr
    subst hcr
    rw [isLineBreak_eq]
    simpa [isBreakzO] using ht

/-- Moving without other effects, except on `simpleKeyAllowed`. -/
theorem Mv.go {s s' : SState} {t t' : Str} (h : Mv s t s' t') : Frame s s' := by
  rw [Frame, h.1]

section
variable {s : SState} {t : Str} {sm : Mark}

theorem wpC_scanToNextToken {F : Nat} {Q : Unit → SState → Str → Prop}
    (hQ : ∀ s' t', Adv s.mark t s'.mark t' → Sep s.mark t t' → Q () s' t') : wpC (scanToNextToken F) Q s t := by
  refine wpC_loop (I := fun _ s' t' => Adv s.mark t s'.mark t' ∧ Sep s.mark t t') ?_ F () s t ⟨Adv.refl _ _, Sep.refl _ _⟩
  rintro _ s1 t1 ⟨ha, hs⟩
  wpc
  rw [wpC_when]
  have key : ∀ s2 t2, Adv s.mark t s2.mark t2 → Sep s.mark t t2 → wpC (do
      skipWhile F fun c => c == some ' ' || ((s2.flowLevel != 0 || !s2.simpleKeyAllowed) && c == some '\t')
      let c ← at_ 0
      M.when (c == some '#') (skipWhile F fun c => !isBreakzO c)
      let c ← at_ 0
      if !isBreakO c then (pure (.inr ()) : Scan (Unit ⊕ Unit))
      else do
        cache 2
        skipLineBreak
        M.when (s2.flowLevel == 0) (allowSimpleKey true)
        pure (.inl ())) (M.next (fun _ s' t' => Adv s.mark t s'.mark t' ∧ Sep s.mark t t') Q) s2 t2 := by
    intro s2 t2 ha2 hs2
    wpc
    refine wpC_skipWhile (by simp) ?_ ?_
    · intro c hc
      simp only [Option.some.injEq, beq_iff_eq, Bool.or_eq_true, Bool.and_eq_true] at hc
      rcases hc with hc | hc
      · subst hc; decide
      · rw [hc.2]; decide
    intro r s3 t3 hr hrp _ hm3
    have ha3 := ha2.trans hm3.2
    have hs3 : Sep s.mark t t3 := hs2.trans ha2 (hr ▸ Sep.blanks _ (fun c hc => by
      have := hrp c hc
      simp only [Option.some.injEq, beq_iff_eq, Bool.or_eq_true, Bool.and_eq_true] at this
      rcases this with h | h
      · exact Or.inl h
      · exact Or.inr h.2))
    have key2 : ∀ s4 t4, Adv s.mark t s4.mark t4 → Sep s.mark t t4 → wpC (do
      let c ← at_ 0
      if !isBreakO c then (pure (.inr ()) : Scan (Unit ⊕ Unit))
      else do
        cache 2
        skipLineBreak
        M.when (s2.flowLevel == 0) (allowSimpleKey true)
        pure (.inl ())) (M.next (fun _ s' t' => Adv s.mark t s'.mark t' ∧ Sep s.mark t t') Q) s4 t4 := by
      intro s4 t4 ha4 hs4
      wpc
      split
      · exact hQ _ _ ha4 hs4
      · rename_i hb
        obtain ⟨c, r, rfl, hd⟩ := head_of (p := isBreakO) (t := t4) rfl (by simpa using hb)
        wpc
        refine wpC_skipLineBreak rfl hd ?_
        intro v s5 t5 hbr hm5 _
        rw [wpC_when]
        have h1 := ha4.trans hm5.2
        have h2 := hs4.trans ha4 (Sep.brk _ hbr)
        split
        · exact ⟨h1, h2⟩
        · exact ⟨h1, h2⟩
    rw [wpC_when]
    split
    · rename_i h
      obtain ⟨c, r', rfl, hd⟩ := head_of (p := fun c => c == some '#') (t := t3) rfl h
      simp at hd; subst hd
      refine wpC_skipWhile (by simp [isBreakzO]) (fun c hc => notBreakz_not_break hc) ?_
      intro x s4 t4 hx hxp hz hm4
      have hz : isBreakzO t4[0]? = true := by simpa using hz
      cases x with
      | nil => rw [List.nil_append] at hx; rw [← hx] at hz; exact absurd hz (by simp [isBreakzO]; decide)
      | cons d x =>
        obtain ⟨rfl, rfl⟩ := List.cons.inj hx
        exact key2 _ _ (ha3.trans hm4.2) (hs3.trans ha3 (Sep.comment _ (fun c hc => notBreakz_not_break (hxp c (by simp [hc]))) hz))
    · exact key2 _ _ ha3 hs3
  split
  · rename_i h
    simp only [Bool.and_eq_true, beq_iff_eq] at h
    obtain ⟨c, r, rfl, hd⟩ := head_of (p := isBomO) (t := t1) rfl h.2
    simp [isBomO] at hd; subst hd
    refine wpC_skip rfl (by decide) ?_
    intro s2 hm2
    have := key s2 r (ha.trans hm2.2) (hs.trans ha ⟨['\uFEFF'], rfl, by rw [show decide (s1.mark.column = 0) = true by simp [h.1]]; exact .bom (.nil _)⟩)
    simp only [wpC_bind, wpC_at] at this
    exact this
  · have := key _ _ ha hs
    simp only [wpC_bind, wpC_at] at this
    exact this


/-! ### Directives, anchors and tags -/

theorem endsTag_of {t : Str} (h : isBlankzO t[0]? = true) : Spec.EndsTag t := by
  rw [blankz_iff] at h
  rintro c r rfl
  exact h c rfl

theorem nameChar_of {c : Char} (h : isAlphaO (some c) = true) : Spec.NameChar c := (Emitter.isAlpha_iff c).1 h

theorem names_of {r : Str} (h : ∀ c ∈ r, isAlphaO (some c) = true) : ∀ c ∈ r, Spec.NameChar c := fun c hc => nameChar_of (h c hc)

theorem hexDigit_of {c : Char} {n : Nat} (h : toHex? c = some n) : Spec.HexDigit c n := by
  unfold toHex? at h
  have e1 : ∀ a b : Char, a ≤ b ↔ a.toNat ≤ b.toNat := fun a b => Iff.rfl
  simp only [Bool.and_eq_true, decide_eq_true_eq, e1, show '0'.toNat = 48 from rfl, show '9'.toNat = 57 from rfl, show 'a'.toNat = 97 from rfl,
    show 'f'.toNat = 102 from rfl, show 'A'.toNat = 65 from rfl, show 'F'.toNat = 70 from rfl] at h
  unfold Spec.HexDigit
  split at h
  · have := Option.some.inj h; omega
  split at h
  · have := Option.some.inj h; omega
  split at h
  · have := Option.some.inj h; omega
  · cases h

theorem decimal_snoc (ds : Str) (c : Char) : Spec.decimal (ds ++ [c]) = Spec.decimal ds * 10 + (c.toNat - '0'.toNat) := by
  induction ds with
  | nil => simp [Spec.decimal]
  | cons d ds ih =>
    rw [List.cons_append, Spec.decimal, ih, Spec.decimal, List.length_append, List.length_singleton, Nat.pow_succ, Nat.add_mul, Nat.mul_assoc]
    omega

theorem wpC_scanDirectiveName {F : Nat} {Q : Str → SState → Str → Prop}
    (hQ : ∀ n s' t', t = n ++ t' → Spec.NameOk n → isBlankzO t'[0]? = true → Mv s t s' t' → Q n s' t') : wpC (scanDirectiveName F sm) Q s t := by
  unfold scanDirectiveName
  wpc
  refine wpC_readWhile rfl (fun c h => isAlpha_not_break h) ?_
  intro r s1 t1 hr hrp _ hm
  split
  · trivial
  · rename_i hne
    split
    · trivial
    · rename_i hz
      rw [List.nil_append]
      exact hQ r s1 t1 hr ⟨by simpa using hne, names_of hrp⟩ (by simpa using hz) hm

theorem wpC_scanVersionDirectiveNumber {F : Nat} {Q : Int → SState → Str → Prop}
    (hQ : ∀ ds s' t', t = ds ++ t' → (∀ c ∈ ds, Spec.IsDigit c) → 1 ≤ ds.length ∧ ds.length ≤ 9 → Mv s t s' t' → Q (Spec.decimal ds : Int) s' t') :
    wpC (scanVersionDirectiveNumber F sm) Q s t := by
  unfold scanVersionDirectiveNumber
  wpc
  refine wpC_loop (I := fun p s' t' => ∃ ds, t = ds ++ t' ∧ (∀ c ∈ ds, Spec.IsDigit c) ∧ p = ((Spec.decimal ds : Int), ds.length) ∧ ds.length ≤ 9 ∧ Mv s t s' t')
    ?_ F _ s t ⟨[], rfl, by simp, rfl, by simp, Mv.refl _ _⟩
  rintro _ s1 t1 ⟨ds, hds, hdd, rfl, hl, hm⟩
  wpc
  split
  · rename_i hd
    obtain ⟨c, r, rfl, hc⟩ := head_of (p := isDigitO) rfl hd
    split
    · trivial
    · rename_i hl9
      simp only [List.getElem?_cons_zero, Option.bind_some, toDigit_isDigit hc]
      wpc
      refine wpC_skip rfl (isDigit_not_break hc) ?_
      intro s2 hm2
      refine ⟨ds ++ [c], by simp [hds], ?_, ?_, by simp; omega, hm.trans hm2⟩
      · intro x hx
        rcases List.mem_append.1 hx with h | h
        · exact hdd x h
        · simp at h; subst h; exact digit_of hc
      · rw [decimal_snoc]; simp
  · wpc
    split
    · trivial
    · rename_i h0
      exact hQ ds s1 t1 hds hdd ⟨by simp only [beq_iff_eq] at h0; omega, hl⟩ hm

theorem wpC_scanVersionDirectiveValue {F : Nat} {Q : Int × Int → SState → Str → Prop}
    (hQ : ∀ sp maj min s' t', t = sp ++ (maj ++ '.' :: (min ++ t')) → (∀ c ∈ sp, Spec.IsBlank c) → (∀ c ∈ maj, Spec.IsDigit c) → (∀ c ∈ min, Spec.IsDigit c) →
      1 ≤ maj.length ∧ maj.length ≤ 9 → 1 ≤ min.length ∧ min.length ≤ 9 → Mv s t s' t' → Q ((Spec.decimal maj : Int), (Spec.decimal min : Int)) s' t') :
    wpC (scanVersionDirectiveValue F sm) Q s t := by
  unfold scanVersionDirectiveValue
  wpc
  refine wpC_skipWhile rfl (fun c h => isBlank_not_break h) ?_
  intro sp s1 t1 hsp hspp _ hm1
  refine wpC_scanVersionDirectiveNumber ?_
  intro maj s2 t2 hM hMd hMl hm2
  split
  · trivial
  · rename_i hd
    obtain ⟨c, r, rfl, hc⟩ := head_of (p := fun c => c == some '.') (t := t2) rfl (by simpa using hd)
    simp at hc; subst hc
    wpc
    refine wpC_skip rfl (by decide) ?_
    intro s3 hm3
    refine wpC_scanVersionDirectiveNumber ?_
    intro min s4 t4 hn hnd hnl hm4
    refine hQ sp maj min s4 t4 ?_ (fun c hc => isBlankO_iff.1 (hspp c hc)) hMd hnd hMl hnl (hm1.trans (hm2.trans (hm3.trans hm4)))
    rw [hsp, hM, hn]

theorem wpC_scanTagHandle {F : Nat} {dir : Bool} {Q : Str → SState → Str → Prop}
    (hQ : ∀ n h s' t', t = h ++ t' → (∀ c ∈ n, Spec.NameChar c) →
      (h = '!' :: n ++ ['!'] ∨ h = '!' :: n ∧ isAlphaO t'[0]? = false ∧ t'[0]? ≠ some '!' ∧ (dir = true → n = [])) → Mv s t s' t' → Q h s' t') :
    wpC (scanTagHandle F dir sm) Q s t := by
  unfold scanTagHandle
  wpc
  split
  · trivial
  · rename_i hd
    obtain ⟨c, r, rfl, hc⟩ := head_of (p := fun c => c == some '!') (t := t) rfl (by simpa using hd)
    simp at hc; subst hc
    wpc
    refine wpC_read rfl (by decide) ?_
    intro s1 hm1
    refine wpC_readWhile rfl (fun c h => isAlpha_not_break h) ?_
    intro n s2 t2 hn hnp hna hm2
    split
    · rename_i he
      obtain ⟨c, r2, rfl, hc⟩ := head_of (p := fun c => c == some '!') (t := t2) rfl he
      simp at hc; subst hc
      refine wpC_read rfl (by decide) ?_
      intro s3 hm3
      exact hQ n _ s3 r2 (by simp [hn]) (names_of hnp) (.inl rfl) (hm1.trans (hm2.trans hm3))
    · rename_i he
      split
      · trivial
      · rename_i hdir
        refine hQ n _ s2 t2 (by simp [hn]) (names_of hnp) (.inr ⟨rfl, hna, by simpa using he, ?_⟩) (hm1.trans hm2)
        intro hdir'
        simpa [hdir'] using hdir

theorem octetWidth_eq (n : Nat) : octetWidth n = Spec.leadWidth n := by
  unfold octetWidth Spec.leadWidth
  simp only [beq_iff_eq]
  have h1 : n / 32 = 6 ↔ 192 ≤ n ∧ n < 224 := by omega
  have h2 : n / 16 = 14 ↔ 224 ≤ n ∧ n < 240 := by omega
  have h3 : n / 8 = 30 ↔ 240 ≤ n ∧ n < 248 := by omega
  simp only [h1, h2, h3]

theorem wpC_scanUriEscapes {F : Nat} {dir : Bool} {str : Str} {Q : Str → SState → Str → Prop}
    (hQ : ∀ (l : Str × Nat) (ts : List (Str × Nat)) s' t', t = l.1 ++ (ts.flatMap (·.1) ++ t') → Spec.OctetText l.1 l.2 → Spec.leadWidth l.2 = ts.length + 1 →
      (∀ p ∈ ts, Spec.OctetText p.1 p.2 ∧ 128 ≤ p.2 ∧ p.2 < 192) → Mv s t s' t' → Q (str ++ Char.ofNat l.2 :: ts.map (fun p => Char.ofNat p.2)) s' t') :
    wpC (scanUriEscapes F dir sm str) Q s t := by
  unfold scanUriEscapes
  refine wpC_loop (I := fun p s' t' => (p = (0, str) ∧ t' = t ∧ s' = s) ∨ ∃ (l : Str × Nat) (ts : List (Str × Nat)), t = l.1 ++ (ts.flatMap (·.1) ++ t') ∧ Spec.OctetText l.1 l.2 ∧
      0 < p.1 ∧ Spec.leadWidth l.2 = ts.length + 1 + p.1 ∧ (∀ p ∈ ts, Spec.OctetText p.1 p.2 ∧ 128 ≤ p.2 ∧ p.2 < 192) ∧ Mv s t s' t' ∧
      p.2 = str ++ Char.ofNat l.2 :: ts.map (fun p => Char.ofNat p.2))
    ?_ F _ s t (.inl ⟨rfl, rfl, rfl⟩)
  rintro ⟨w, v⟩ s1 t1 hI
  wpc
  split
  · trivial
  · rename_i hh
    simp only [Bool.not_eq_true, Bool.not_eq_false', Bool.and_eq_true, beq_iff_eq] at hh
    obtain ⟨⟨h0, h1⟩, h2⟩ := hh
    obtain ⟨a, b, r, rfl⟩ : ∃ a b r, t1 = '%' :: a :: b :: r := by
      match t1, h0, h1, h2 with
      | [], h0, _, _ => simp at h0
      | [_], _, h1, _ => simp [isHexO] at h1
      | [_, _], _, _, h2 => simp [isHexO] at h2
      | c :: a :: b :: r, h0, _, _ => simp at h0; subst h0; exact ⟨a, b, r, rfl⟩
    simp only [List.getElem?_cons_zero, List.getElem?_cons_succ, isHexO] at h1 h2
    obtain ⟨x, hx⟩ := Option.isSome_iff_exists.1 h1
    obtain ⟨y, hy⟩ := Option.isSome_iff_exists.1 h2
    simp only [List.getElem?_cons_zero, List.getElem?_cons_succ, Option.bind_some, hx, hy]
    have hoct : Spec.OctetText ['%', a, b] (x * 16 + y) := ⟨a, b, x, y, rfl, hexDigit_of hx, hexDigit_of hy, by omega⟩
    split
    · trivial
    rename_i hw0
    split
    · trivial
    rename_i hw1
    wpc
    refine wpC_skip rfl (by decide) ?_
    intro s2 hm2
    refine wpC_skip rfl (hexDigit_of hx).noBreak ?_
    intro s3 hm3
    refine wpC_skip rfl (hexDigit_of hy).noBreak ?_
    intro s4 hm4
    have hm := hm2.trans (hm3.trans hm4)
    rcases hI with ⟨h, rfl, rfl⟩ | ⟨l, ts, ht, hl, hpos, hlw, htr, hmv, hv⟩
    · obtain ⟨rfl, rfl⟩ := Prod.mk.inj h
      have hlw : Spec.leadWidth (x * 16 + y) ≠ 0 := by
        rw [← octetWidth_eq]; simpa using hw0
      simp only [beq_self_eq_true, if_true, octetWidth_eq]
      split
      · rename_i h1
        exact hQ (['%', a, b], x * 16 + y) [] s4 r rfl hoct (by simp at h1 ⊢; omega) (by simp) hm
      · rename_i h1
        refine .inr ⟨(['%', a, b], x * 16 + y), [], rfl, hoct, by simp at h1 ⊢; omega, by simp at h1 ⊢; omega, by simp, hm, by simp⟩
    · have hne : (w == 0) = false := by simp; simp at hpos; omega
      simp only at hpos hlw hv
      have hr : 128 ≤ x * 16 + y ∧ x * 16 + y < 192 := by
        simp only [hne, bne, Bool.not_false, Bool.true_and, beq_iff_eq, Bool.not_eq_true', Bool.not_eq_false, beq_eq_false_iff_ne, ne_eq, Classical.not_not] at hw1
        omega
      have htr' : ∀ p ∈ ts ++ [(['%', a, b], x * 16 + y)], Spec.OctetText p.1 p.2 ∧ 128 ≤ p.2 ∧ p.2 < 192 := by
        intro p hp
        rcases List.mem_append.1 hp with h | h
        · exact htr p h
        · simp at h; subst h; exact ⟨hoct, hr⟩
      have ht' : t = l.1 ++ ((ts ++ [(['%', a, b], x * 16 + y)]).flatMap (·.1) ++ r) := by
        rw [ht]; simp
      simp only [hne, Bool.false_eq_true, if_false]
      split
      · rename_i h1
        have := hQ l (ts ++ [(['%', a, b], x * 16 + y)]) s4 r ht' hl (by simp at h1 ⊢; omega) htr' (hmv.trans hm)
        simpa [hv] using this
      · rename_i h1
        refine .inr ⟨l, ts ++ [(['%', a, b], x * 16 + y)], ht', hl, by simp at h1 ⊢; omega, by simp at h1 ⊢; omega, htr', hmv.trans hm, by simp [hv]⟩

theorem uriChar_of {vb : Bool} {c : Char} (h : isUriChar vb (some c) = true) (hc : c ≠ '%') : Spec.UriChar vb c := by
  unfold Spec.UriChar
  simp only [isUriChar, Bool.or_eq_true, Bool.and_eq_true, beq_iff_eq, Option.some.injEq] at h
  have := @nameChar_of c
  simp only [List.mem_cons, List.not_mem_nil, or_false]
  grind

theorem uriSpelled_append {vb : Bool} {a b v w : Str} (h : Spec.UriSpelled vb a v) (h' : Spec.UriSpelled vb b w) : Spec.UriSpelled vb (a ++ b) (v ++ w) := by
  induction h with
  | nil => exact h'
  | char hc h ih => exact .char hc ih
  | escape hl hw ht h ih =>
    have := Spec.UriSpelled.escape (verbatim := vb) hl hw ht ih
    simpa using this

theorem wpC_scanTagUri {F : Nat} {vb dir : Bool} {head : Str} {Q : Str → SState → Str → Prop}
    (hQ : ∀ u v s' t', t = u ++ t' → Spec.UriSpelled vb u v → (head = [] → v ≠ []) → isUriChar vb t'[0]? = false → Mv s t s' t' → Q (head.tail ++ v) s' t') :
    wpC (scanTagUri F vb dir head sm) Q s t := by
  unfold scanTagUri
  wpc
  refine wpC_loop (I := fun p s' t' => ∃ u v n, t = u ++ t' ∧ Spec.UriSpelled vb u v ∧ p = (head.tail ++ v, strLen head + n) ∧ (n ≠ 0 → v ≠ []) ∧ Mv s t s' t')
    ?_ F _ s t ⟨[], [], 0, rfl, .nil, by simp, by simp, Mv.refl _ _⟩
  rintro _ s1 t1 ⟨u, v, n, hu, huv, rfl, hn, hm⟩
  wpc
  split
  · rename_i h
    obtain ⟨c, r, rfl, hc⟩ := head_of (p := isUriChar vb) (by cases vb <;> rfl) h
    simp only [List.getElem?_cons_zero]
    split
    · wpc
      refine wpC_scanUriEscapes ?_
      intro l ts s2 t2 ht hl hlw htr hm2
      refine ⟨u ++ (l.1 ++ (ts.flatMap (·.1) ++ [])), v ++ (Char.ofNat l.2 :: (ts.map (fun p => Char.ofNat p.2) ++ [])), n + 1, ?_, uriSpelled_append huv (.escape hl hlw htr .nil), ?_, by simp, hm.trans hm2⟩
      · rw [hu, ht]; simp
      · simp; omega
    · rename_i hp
      wpc
      refine wpC_read rfl (isUriChar_not_break hc) ?_
      intro s2 hm2
      refine ⟨u ++ [c], v ++ [c], n + 1, by simp [hu], uriSpelled_append huv (.char (uriChar_of hc (by simpa using hp)) .nil), ?_, by simp, hm.trans hm2⟩
      simp; omega
  · rename_i h
    wpc
    split
    · trivial
    · rename_i h0
      refine hQ u v s1 t1 hu huv ?_ (by simpa using h) hm
      rintro rfl
      exact hn (by simp [strLen] at h0; omega)


theorem wpC_scanTagDirectiveValue {F : Nat} {Q : Str × Str → SState → Str → Prop}
    (hQ : ∀ sp h sp' u v s' t', t = sp ++ (h ++ (sp' ++ (u ++ t'))) → (∀ c ∈ sp, Spec.IsBlank c) → (sp' ≠ [] ∧ ∀ c ∈ sp', Spec.IsBlank c) → Spec.HandleOk h →
      Spec.UriSpelled true u v → v ≠ [] → isBlankzO t'[0]? = true → Mv s t s' t' → Q (h, v) s' t') :
    wpC (scanTagDirectiveValue F sm) Q s t := by
  unfold scanTagDirectiveValue
  wpc
  refine wpC_skipWhile rfl (fun c h => isBlank_not_break h) ?_
  intro sp s1 t1 hsp hspp _ hm1
  refine wpC_scanTagHandle ?_
  intro n h s2 t2 hh hn hform hm2
  wpc
  split
  · trivial
  rename_i hbl
  wpc
  refine wpC_skipWhile rfl (fun c h => isBlank_not_break h) ?_
  intro sp' s3 t3 hsp' hspp' hb3 hm3
  refine wpC_scanTagUri ?_
  intro u v s4 t4 hu huv hne _ hm4
  wpc
  split
  · trivial
  rename_i hz
  refine hQ sp h sp' u v s4 t4 (by rw [hsp, hh, hsp', hu]) (fun c hc => isBlankO_iff.1 (hspp c hc)) ⟨?_, fun c hc => isBlankO_iff.1 (hspp' c hc)⟩ ?_ huv (hne rfl)
    (by simpa using hz) (hm1.trans (hm2.trans (hm3.trans hm4)))
  · rintro rfl
    rw [List.nil_append] at hsp'
    subst hsp'
    simp [hb3] at hbl
  · rcases hform with h' | ⟨h', _, _, hd⟩
    · exact .inr ⟨n, h', hn⟩
    · rw [hd rfl] at h'; exact .inl h'

theorem wpC_scanDirectiveValue {F : Nat} {name : Str} {Q : Token → SState → Str → Prop} (hz : isBlankzO t[0]? = true)
    (hQ : ∀ x d s' t', name ++ t = x ++ t' → (∃ p, t = p ++ t') → Spec.DirectiveSpelled x d →
      ((∃ a b, d = .versionDirective a b) ∨ (∃ a b, d = .tagDirective a b) ∧ Spec.EndsTag t') → Mv s t s' t' → Q ⟨d, sm, s'.mark⟩ s' t') :
    wpC (scanDirectiveValue F sm name) Q s t := by
  unfold scanDirectiveValue
  have hsp0 : ∀ (sp : Str) (c : Char) (r : Str), t = sp ++ c :: r → isBlankzO (some c) = false → sp ≠ [] := by
    rintro sp c r rfl hc rfl
    rw [List.nil_append, List.getElem?_cons_zero, hc] at hz
    cases hz
  split
  · rename_i h
    simp at h; subst h
    wpc
    refine wpC_scanVersionDirectiveValue ?_
    intro sp maj min s1 t1 ht hsp hM hm hMl hml hmv
    wpc
    refine hQ (cs! "YAML" ++ (sp ++ (maj ++ '.' :: min))) _ s1 t1 (by simp [ht]) ⟨sp ++ (maj ++ '.' :: min), by simp [ht]⟩ (.version ⟨?_, hsp⟩ hM hm hMl hml) (.inl ⟨_, _, rfl⟩) hmv
    cases maj with
    | nil => simp at hMl
    | cons c r =>
      refine hsp0 sp c _ (by simpa using ht) ?_
      have := hM c (by simp)
      unfold Spec.IsDigit at this
      cases hb : isBlankzO (some c) with
      | false => rfl
      | true =>
        rcases blankz_iff.1 hb c rfl with hb | hb
        · rcases hb with rfl | rfl <;> revert this <;> decide
        · rw [isLineBreak_eq] at hb
          simp only [isBreak, Bool.or_eq_true, beq_iff_eq] at hb
          rcases hb with (((rfl | rfl) | rfl) | rfl) | rfl <;> revert this <;> decide
  · split
    · rename_i h
      simp at h; subst h
      wpc
      refine wpC_scanTagDirectiveValue ?_
      intro sp h sp' u v s1 t1 ht hsp hsp' hh huv hv hz1 hmv
      wpc
      refine hQ (cs! "TAG" ++ (sp ++ (h ++ (sp' ++ u)))) _ s1 t1 (by simp [ht]) ⟨sp ++ (h ++ (sp' ++ u)), by simp [ht]⟩ (.tag ⟨?_, hsp⟩ hsp' hh huv hv) (.inr ⟨⟨_, _, rfl⟩, endsTag_of hz1⟩) hmv
      obtain ⟨r, hr⟩ : ∃ r, h = '!' :: r := by
        rcases hh with rfl | ⟨n, rfl, _⟩
        · exact ⟨_, rfl⟩
        · exact ⟨_, rfl⟩
      subst hr
      exact hsp0 sp '!' _ (by simpa using ht) (by decide)
    · trivial

theorem wpC_skipBlanksAndComment {F : Nat} {Q : Unit → SState → Str → Prop}
    (hQ : ∀ com s' t', t = com ++ t' → Spec.HeaderRest com → (isBreakzO t'[0]? = true → Sep s.mark t t') → Mv s t s' t' → Q () s' t') :
    wpC (skipBlanksAndComment F) Q s t := by
  unfold skipBlanksAndComment
  wpc
  refine wpC_skipWhile rfl (fun c h => isBlank_not_break h) ?_
  intro sp s1 t1 hsp hspp _ hm1
  have hspb : ∀ c ∈ sp, Spec.IsBlank c := fun c hc => isBlankO_iff.1 (hspp c hc)
  have hs1 : Sep s.mark t t1 := hsp ▸ Sep.blanks _ hspb
  wpc
  rw [wpC_when]
  split
  · rename_i h
    obtain ⟨c, r, rfl, hc⟩ := head_of (p := fun c => c == some '#') (t := t1) rfl h
    simp at hc; subst hc
    refine wpC_skipWhile (by simp [isBreakzO]) (fun c hc => notBreakz_not_break hc) ?_
    intro x s2 t2 hx hxp hz hm2
    cases x with
    | nil => rw [List.nil_append] at hx; rw [← hx] at hz; exact absurd hz (by simp [isBreakzO]; decide)
    | cons d x =>
      obtain ⟨rfl, rfl⟩ := List.cons.inj hx
      have hxb : ∀ c ∈ x, isBreak c = false := fun c hc => notBreakz_not_break (hxp c (by simp [hc]))
      exact hQ (sp ++ '#' :: x) s2 t2 (by simp [hsp]) ⟨sp, '#' :: x, rfl, hspb, .inr ⟨x, rfl, fun c hc => by rw [isLineBreak_eq]; exact hxb c hc⟩⟩
        (fun hz => hs1.trans hm1.2 (Sep.comment _ hxb hz)) (hm1.trans hm2)
  · exact hQ sp s1 t1 hsp ⟨sp, [], by simp, hspb, .inl rfl⟩ (fun _ => hs1) hm1

/-- A call that returned a token has read its text and then only separating text. -/
def Spelled (flow : Bool) (n : Int) (m : Mark) (t : Str) (tok : Token) (m' : Mark) (t' : Str) : Prop :=
  tok.startMark = m ∧ ∃ w r, t = w ++ r ∧ Adv m t tok.endMark r ∧ Adv tok.endMark r m' t' ∧ Sep tok.endMark r t' ∧ Spec.Spells flow n tok w r ∧
    (∀ v, tok.data = .scalar v .plain → m'.line = m.line → ∀ n', Spec.Spells flow n' tok w r)

/-- The data of a directive. -/
def directiveData : TokenData → Bool
  | .versionDirective _ _ => true
  | .tagDirective _ _ => true
  | _ => false

/-- The data of a token that a node may start with, outside of flow collections and block scalars. -/
def nodeData : TokenData → Bool
  | .alias _ => true
  | .anchor _ => true
  | .tag _ _ => true
  | .scalar _ .plain => true
  | .scalar _ .singleQuoted => true
  | .scalar _ .doubleQuoted => true
  | _ => false

/-- The data of a block scalar. -/
def blockData : TokenData → Bool
  | .scalar _ .literal => true
  | .scalar _ .folded => true
  | _ => false

theorem wpC_scanDirective {F : Nat} {Q : Token → SState → Str → Prop} {r : Str} (ht : t = '%' :: r) (hcol : s.mark.column = 0)
    (hQ : ∀ tok s' t', Spelled (s.flowLevel != 0) s.indent s.mark t tok s'.mark t' → directiveData tok.data = true → Q tok s' t') : wpC (scanDirective F) Q s t := by
  unfold scanDirective
  wpc
  refine wpC_skip ht (by decide) ?_
  intro s1 hm1
  refine wpC_scanDirectiveName ?_
  intro n s2 t2 hn hnn hz2 hm2
  refine wpC_scanDirectiveValue hz2 ?_
  intro x d s3 t3 hx _ hd hform hm3
  refine wpC_skipBlanksAndComment ?_
  intro com s4 t4 hcom hrest hsep hm4
  wpc
  split
  · rename_i hz
    wpc
    rw [wpC_when]
    have hw : t = ('%' :: x) ++ t3 := by rw [ht, hn, hx]; rfl
    have ha : Adv s.mark t s3.mark t3 := by
      rw [ht]; exact (hm1.trans (hm2.trans hm3)).2
    have hel : Spec.EndsLine t3 := by
      refine ⟨com, t4, hcom, hrest, ?_⟩
      rintro c r' rfl
      rw [isLineBreak_eq]
      simpa [isBreakzO] using hz
    have hsp : Spec.Spells (s.flowLevel != 0) s.indent ⟨d, s.mark, s3.mark⟩ ('%' :: x) t3 := by
      rcases hform with ⟨a, b, rfl⟩ | ⟨⟨a, b, rfl⟩, he⟩
      · exact ⟨hcol, ⟨x, rfl, hd⟩, hel⟩
      · exact ⟨hcol, ⟨x, rfl, hd⟩, hel, he⟩
    have hk : directiveData d = true := by
      rcases hform with ⟨a, b, rfl⟩ | ⟨⟨a, b, rfl⟩, he⟩ <;> rfl
    have hnp : ∀ v, d = .scalar v .plain → ∀ (P : Prop), P := by
      rintro v rfl; cases hk
    split
    · rename_i hb
      obtain ⟨c, r', rfl, hc⟩ := head_of (p := isBreakO) rfl hb
      wpc
      refine wpC_skipLineBreak rfl hc ?_
      intro v s5 t5 hbr hm5 _
      exact hQ _ _ _ ⟨rfl, '%' :: x, t3, hw, ha, (hm4.trans hm5).2, (hsep hz).trans hm4.2 (Sep.brk _ hbr), hsp, fun v h => hnp v h _⟩ hk
    · exact hQ _ _ _ ⟨rfl, '%' :: x, t3, hw, ha, hm4.2, hsep hz, hsp, fun v h => hnp v h _⟩ hk
  · trivial

theorem wpC_scanAnchor {F : Nat} {al : Bool} {Q : Token → SState → Str → Prop} {r : Str} (ht : t = (if al then '*' else '&') :: r)
    (hQ : ∀ tok s' t', Spelled (s.flowLevel != 0) s.indent s.mark t tok s'.mark t' → nodeData tok.data = true → Q tok s' t') : wpC (scanAnchor F al) Q s t := by
  unfold scanAnchor
  wpc
  refine wpC_skip ht (by cases al <;> decide) ?_
  intro s1 hm1
  refine wpC_readWhile rfl (fun c h => isAlpha_not_break h) ?_
  intro n s2 t2 hn hnp _ hm2
  rw [List.nil_append]
  split
  · trivial
  · rename_i h
    simp only [Bool.or_eq_true, Bool.not_eq_true', not_or, Bool.not_eq_false] at h
    have hok : Spec.NameOk n := ⟨by simpa using h.1, names_of hnp⟩
    have hend : Spec.EndsName t2 := by
      rintro c r' rfl
      have h2 := h.2
      simp only [anchorFollow, List.getElem?_cons_zero, Bool.or_eq_true, beq_iff_eq, Option.some.injEq] at h2
      have hb : isBlankzO (some c) = true → Spec.IsBlank c ∨ Spec.isLineBreak c = true := fun h => blankz_iff.1 h c rfl
      simp only [List.mem_cons, List.not_mem_nil, or_false]
      grind
    refine hQ _ _ _ ⟨rfl, (if al then '*' else '&') :: n, t2, by rw [ht, hn]; rfl, ?_, Adv.refl _ _, Sep.refl _ _, ?_, ?_⟩ ?_
    · rw [ht]; exact (hm1.trans hm2).2
    · cases al
      · exact ⟨rfl, hok, hend⟩
      · exact ⟨rfl, hok, hend⟩
    · cases al <;> nofun
    · cases al <;> rfl

theorem wpC_scanTagBody {F : Nat} {Q : Str × Str → SState → Str → Prop} {r : Str} (ht : t = '!' :: r)
    (hQ : ∀ w h v s' t', t = w ++ t' → Spec.TagSpelled w h v → Mv s t s' t' → Q (h, v) s' t') : wpC (scanTagBody F sm) Q s t := by
  unfold scanTagBody
  wpc
  split
  · rename_i h1
    subst ht
    obtain ⟨r1, rfl⟩ : ∃ r1, r = '<' :: r1 := by
      cases r with
      | nil => simp at h1
      | cons c r => simp at h1; subst h1; exact ⟨r, rfl⟩
    wpc
    refine wpC_skip rfl (by decide) ?_
    intro s1 hm1
    refine wpC_skip rfl (by decide) ?_
    intro s2 hm2
    refine wpC_scanTagUri ?_
    intro u v s3 t3 hu huv hv _ hm3
    wpc
    split
    · trivial
    · rename_i hg
      obtain ⟨c, r3, rfl, hc⟩ := head_of (p := fun c => c == some '>') (t := t3) rfl (by simpa using hg)
      simp at hc; subst hc
      wpc
      refine wpC_skip rfl (by decide) ?_
      intro s4 hm4
      exact hQ (cs! "!<" ++ (u ++ ['>'])) [] v s4 r3 (by simp [hu]) (.verbatim huv (hv rfl)) (hm1.trans (hm2.trans (hm3.trans hm4)))
  · wpc
    refine wpC_scanTagHandle ?_
    intro n h s1 t1 hh hn hform hm1
    have hb : ∀ c ∈ n, c ≠ '!' := by
      rintro c hc rfl
      have := (name_facts (hn _ hc)).1
      revert this; decide
    rcases hform with rfl | ⟨rfl, ha, hex, _⟩
    · have h1 : lenUtf8 '!' = 1 := by decide
      have hsl : ∀ (n : Str), 1 ≤ strLen (n ++ ['!']) := by
        intro n
        induction n with
        | nil => decide
        | cons c n ih => rw [List.cons_append, strLen]; omega
      rw [if_pos (by
        simp only [Bool.and_eq_true, beq_iff_eq, decide_eq_true_eq]
        refine ⟨⟨rfl, ?_⟩, by rw [List.getLast?_append]; rfl⟩
        rw [List.cons_append, strLen, h1]
        have := hsl n
        omega)]
      wpc
      refine wpC_scanTagUri ?_
      intro u v s2 t2 hu huv hv _ hm2
      exact hQ ('!' :: n ++ '!' :: u) _ v s2 t2 (by simp [hh, hu]) (.named hn huv (hv rfl)) (hm1.trans hm2)
    · rw [if_neg (by
        simp only [Bool.and_eq_true, beq_iff_eq, decide_eq_true_eq, not_and]
        intro hx hl
        cases hne : n with
        | nil => rw [hne] at hx; exact absurd hx.2 (by decide)
        | cons c n' =>
          subst hne
          rw [List.getLast?_cons_cons, List.getLast?_eq_some_getLast (by simp)] at hl
          exact hb _ (List.getLast_mem (by simp)) (Option.some.inj hl))]
      wpc
      refine wpC_scanTagUri ?_
      intro u v s2 t2 hu huv hv _ hm2
      rw [List.tail_cons]
      have hu0 : ∀ c r, u = c :: r → ¬ Spec.NameChar c ∧ c ≠ '!' := by
        rintro c r rfl
        subst hu
        refine ⟨fun h => ?_, ?_⟩
        · have := (name_facts h).1
          simp [isAlphaO, this] at ha
        · simpa using hex
      split
      · rename_i he
        simp only [List.isEmpty_iff, List.append_eq_nil_iff] at he
        obtain ⟨rfl, rfl⟩ := he
        cases huv with
        | nil => exact hQ ['!'] [] ['!'] s2 t2 (by simpa [hu] using hh) .bare (hm1.trans hm2)
      · rename_i he
        exact hQ ('!' :: (n ++ u)) ['!'] (n ++ v) s2 t2 (by simp [hh, hu]) (.primary hn hu0 huv (by simpa using he)) (hm1.trans hm2)

theorem wpC_scanTag {F : Nat} {Q : Token → SState → Str → Prop} {r : Str} (ht : t = '!' :: r)
    (hQ : ∀ tok s' t', Spelled (s.flowLevel != 0) s.indent s.mark t tok s'.mark t' → nodeData tok.data = true → Q tok s' t') : wpC (scanTag F) Q s t := by
  unfold scanTag
  wpc
  refine wpC_scanTagBody ht ?_
  intro w h v s1 t1 hw hsp hm
  wpc
  split
  · wpc; split <;> trivial
  · rename_i hz
    exact hQ _ _ _ ⟨rfl, w, t1, hw, hm.2, Adv.refl _ _, Sep.refl _ _, ⟨hsp, endsTag_of (by simpa using hz)⟩, nofun⟩ rfl

end
end Yaml
