import Verif.Lib.Snd2

/- Soundness of the lexical functions: plain scalars. -/

namespace Yaml
open Scanner
set_option linter.unusedSimpArgs false
set_option linter.unusedVariables false

theorem plainRun_trans {fl : Bool} {n : Int} {t v t1 w t2 : Str} (h : Spec.PlainRun fl n t v t1) (h' : Spec.PlainRun fl n t1 w t2) : Spec.PlainRun fl n t (v ++ w) t2 := by
  induction h with
  | done t => exact h'
  | char hc h ih => exact .char hc (ih h')
  | blanks hb hn hc hx h ih => rw [List.append_assoc, List.cons_append]; exact .blanks hb hn hc hx (ih h')
  | fold hf hn hi hc hx h ih => rw [List.append_assoc, List.cons_append]; exact .fold hf hn hi hc hx (ih h')

/-- On one line, the indentation does not matter. -/
theorem plainRun_any {fl : Bool} {n : Int} {v t' p : Str} (h : Spec.PlainRun fl n (p ++ t') v t') (hp : ∀ c ∈ p, Spec.isLineBreak c = false) (n' : Int) :
    Spec.PlainRun fl n' (p ++ t') v t' := by
  have key : ∀ {a v b : Str}, Spec.PlainRun fl n a v b → ∃ q, a = q ++ b ∧ ((∀ c ∈ q, Spec.isLineBreak c = false) → Spec.PlainRun fl n' a v b) := by
    intro a v b h
    induction h with
    | done t => exact ⟨[], rfl, fun _ => .done t⟩
    | @char c t v t' hc h ih =>
      obtain ⟨q, rfl, hq⟩ := ih
      exact ⟨c :: q, rfl, fun hb => .char hc (hq fun x hx => hb x (by simp [hx]))⟩
    | @blanks b c t v t' hb hn hc hx h ih =>
      obtain ⟨q, rfl, hq⟩ := ih
      exact ⟨b ++ c :: q, by simp, fun h' => .blanks hb hn hc hx (hq fun x hx => h' x (by simp [hx]))⟩
    | @fold t0 bs t v t' c hf hn hi hc hx h ih =>
      obtain ⟨q, rfl, hq⟩ := ih
      obtain ⟨p, x, b, e, hxb, _⟩ := hi
      refine ⟨p ++ x :: (b ++ c :: q), by simp [e], fun h' => ?_⟩
      have := h' x (by simp)
      rw [hxb] at this
      cases this
  obtain ⟨q, hq, h'⟩ := key h
  have := List.append_cancel_right hq
  subst this
  exact h' hp

/-- A line break on the way leads to a later line. -/
theorem Adv.line_lt {m m' : Mark} {p t : Str} (h : Adv m (p ++ t) m' t) {c : Char} (hc : c ∈ p) (hb : Spec.isLineBreak c = true) : m.line < m'.line := by
  rw [h.pre]
  clear h
  rw [isLineBreak_eq] at hb
  have key : ∀ (k : Nat) (p : Str) (m : Mark), p.length = k → c ∈ p → m.line < (Spec.advance m p).line := by
    intro k
    induction k using Nat.strongRecOn with
    | _ k ih =>
      intro p m hk hc
      cases p with
      | nil => simp at hc
      | cons d r =>
        have hmono : ∀ (m : Mark) (r : Str), m.line ≤ (Spec.advance m r).line := by
          intro m r
          have := advance_mono m r
          omega
        by_cases hcr : ∃ r', d = '\r' ∧ r = '\n' :: r'
        · obtain ⟨r', rfl, rfl⟩ := hcr
          rw [advance_crlf]
          have := hmono (newlineMark 2 m) r'
          simp only [newlineMark] at this ⊢
          omega
        · rw [advance_cons m d r (by
            rintro ⟨rfl, h⟩
            cases r with
            | nil => simp at h
            | cons e r' => simp at h; exact hcr ⟨r', rfl, by rw [h]⟩)]
          by_cases hdb : isBreak d = true
          · rw [if_pos hdb]
            have := hmono (newlineMark (lenUtf8 d) m) r
            simp only [newlineMark] at this ⊢
            omega
          · rw [if_neg hdb]
            rcases List.mem_cons.1 hc with rfl | hc
            · exact absurd hb hdb
            · have := ih r.length (by simp at hk; omega) r (bumpMark d m) rfl hc
              simpa [bumpMark] using this
  exact key _ p m rfl hc

theorem plainChar_of {fl : Nat} {c : Char} {t : Str} (hz : isBlankzO (some c) = false) (hb : plainBadColon fl (some c) t[0]? = false)
    (hs : plainStop fl (some c) t[0]? = false) : Spec.PlainChar (fl != 0) c t := by
  refine ⟨⟨?_, ?_⟩, ?_, ?_⟩
  · intro h
    rw [blankz_iff.2 (by rintro d hd; cases hd; exact .inl h)] at hz
    cases hz
  · cases h : Spec.isLineBreak c with
    | false => rfl
    | true =>
      rw [blankz_iff.2 (by rintro d hd; cases hd; exact .inr h)] at hz
      cases hz
  · intro h
    have := plainStop_iff.2 h
    rw [List.head?_eq_getElem?, hs] at this
    cases this
  · rintro h1 rfl d r rfl
    simp only [plainBadColon, h1, Bool.true_and, beq_self_eq_true, List.getElem?_cons_zero, Bool.or_eq_false_iff, beq_eq_false_iff_ne, ne_eq, Option.some.injEq] at hb
    refine ⟨?_, hb.1.1.1.1.2⟩
    unfold Spec.isFlowIndicator
    obtain ⟨⟨⟨⟨⟨h1, h2⟩, h3⟩, h4⟩, h5⟩, h6⟩ := hb
    simp only [h1, h3, h4, h5, h6, or_self, not_false_eq_true]

section
variable {s : SState} {t : Str} {sm : Mark}

/-- Where the non-blank loop of a plain scalar stops. -/
def ChunkStop (fl : Bool) (t : Str) : Prop := isBlankzO t[0]? = true ∨ Spec.PlainStop fl t

theorem ChunkStop.plain {fl : Bool} {t : Str} (h : ChunkStop fl t) (h1 : isBlankO t[0]? = false) (h2 : isBreakO t[0]? = false) : Spec.PlainStop fl t := by
  rcases h with h | h
  · cases t with
    | nil => exact .inl rfl
    | cons c r =>
      rcases blankz_iff.1 h c rfl with hb | hb
      · rw [List.getElem?_cons_zero, isBlankO_iff.2 hb] at h1; cases h1
      · rw [List.getElem?_cons_zero, breakO_eq, hb] at h2; cases h2
  · exact h

theorem wpC_plainChunk {F : Nat} {n : Int} {v : PlainVars} {Q : PlainVars → SState → Str → Prop}
    (hstay : ChunkStop (s.flowLevel != 0) t → Q v s t)
    (hQ : ∀ c t2 v2 s' t', t = c :: t2 → Spec.PlainChar (s.flowLevel != 0) c t2 → Spec.PlainRun (s.flowLevel != 0) n t2 v2 t' → ChunkStop (s.flowLevel != 0) t' →
      s.mark.column < s'.mark.column → Mv s t s' t' → Q ⟨v.string ++ joinBlanks v.blanks ++ c :: v2, {}, s'.mark⟩ s' t') :
    wpC (plainChunk F sm v) Q s t := by
  refine wpC_loop (I := fun v' s' t' => (v' = v ∧ s' = s ∧ t' = t) ∨ ∃ c t2 v2, t = c :: t2 ∧ Spec.PlainChar (s.flowLevel != 0) c t2 ∧ Spec.PlainRun (s.flowLevel != 0) n t2 v2 t' ∧
      s.mark.column < s'.mark.column ∧ Mv s t s' t' ∧ v' = ⟨v.string ++ joinBlanks v.blanks ++ c :: v2, {}, s'.mark⟩) ?_ F _ s t (.inl ⟨rfl, rfl, rfl⟩)
  rintro v' s1 t1 hI
  wpc
  have hfl : s1.flowLevel = s.flowLevel := by
    rcases hI with ⟨_, rfl, _⟩ | ⟨_, _, _, _, _, _, _, hm, _⟩
    · rfl
    · exact hm.flowLevel
  have fin : ChunkStop (s.flowLevel != 0) t1 → Q v' s1 t1 := by
    intro h
    rcases hI with ⟨rfl, rfl, rfl⟩ | ⟨c, t2, v2, h1, h2, h3, h4, h5, rfl⟩
    · exact hstay h
    · exact hQ c t2 v2 s1 t1 h1 h2 h3 h h4 h5
  split
  · rename_i hz
    exact fin (.inl hz)
  rename_i hz
  split
  · trivial
  rename_i hbad
  obtain ⟨c, r, rfl⟩ : ∃ c r, t1 = c :: r := by
    cases t1 with
    | nil => exact absurd rfl hz
    | cons c r => exact ⟨c, r, rfl⟩
  simp only [List.getElem?_cons_zero, List.getElem?_cons_succ] at hz hbad ⊢
  split
  · rename_i hstop
    refine fin (.inr ?_)
    rw [← hfl]
    exact plainStop_iff.1 (by rw [List.head?_eq_getElem?]; exact hstop)
  · rename_i hstop
    have hc : Spec.PlainChar (s.flowLevel != 0) c r := by
      rw [← hfl]; exact plainChar_of (by simpa using hz) (by simpa using hbad) (by simpa using hstop)
    have hcb : isBreak c = false := by rw [← isLineBreak_eq]; exact hc.solid.2
    wpc
    refine wpC_read rfl hcb ?_
    intro s2 hm2
    have hcol := hm2.col1 hcb
    rcases hI with ⟨rfl, rfl, rfl⟩ | ⟨d, t2, v2, h1, h2, h3, h4, h5, rfl⟩
    · exact .inr ⟨c, r, [], rfl, hc, .done _, by omega, hm2, rfl⟩
    · refine .inr ⟨d, t2, v2 ++ [c], h1, h2, plainRun_trans h3 (.char hc (.done _)), by omega, h5.trans hm2, ?_⟩
      simp [joinBlanks]

/-- The state of a plain scalar between two passes. -/
structure PlainMid (s : SState) (t : Str) (n : Int) (v : PlainVars) (s1 : SState) (t1 r : Str) : Prop where
  text : ∃ c T1 v1, t = c :: T1 ∧ Spec.PlainChar (s.flowLevel != 0) c T1 ∧ c ≠ '#' ∧ v.string = c :: v1 ∧ Spec.PlainRun (s.flowLevel != 0) n T1 v1 r
  pre : Adv s.mark t v.endMark r
  pos : 0 < v.endMark.column
  col : s.flowLevel = 0 → n ≤ v.endMark.column
  post : Adv v.endMark r s1.mark t1
  flow : s1.flowLevel = s.flowLevel

/-- At the end. -/
structure PlainDone (s : SState) (t : Str) (n : Int) (v : PlainVars) (s1 : SState) (t1 r : Str) : Prop extends PlainMid s t n v s1 t1 r where
  ends : Spec.PlainEnds (s.flowLevel != 0) n r
  any : s1.mark.line = s.mark.line → ∀ n', Spec.PlainEnds (s.flowLevel != 0) n' r
  sep : Sep v.endMark r t1

theorem WspRun.folds {t : Str} {v : BlankVars} {col : Nat} {t' : Str} (h : WspRun t v col t') (hs : Spec.Solid t') :
    ∃ bs, Spec.Folds t bs t' := by
  cases h with
  | line ht hb => exact ⟨_, by subst ht; exact (Fp.blanks .nil hb).folds (.stop _ hs)⟩
  | lines hf hm => exact ⟨_, hf.folds (.stop _ hs)⟩

theorem Adv.col_blanks {m m' : Mark} {b t : Str} (h : Adv m (b ++ t) m' t) (hb : ∀ c ∈ b, Spec.IsBlank c) : m'.column = m.column + b.length := by
  rw [h.pre, advance_plain _ _ (fun c hc => (hb c hc).noBreak)]

theorem wpC_plainBody {F : Nat} {Q : PlainVars → SState → Str → Prop} (hp : PlainStart s t) (hcol : s.flowLevel = 0 → s.indent ≤ s.mark.column)
    (hQ : ∀ v s' t' r, PlainDone s t (s.indent + 1) v s' t' r → Q v s' t') : wpC (plainBody F (s.indent + 1) s.mark) Q s t := by
  generalize hn : s.indent + 1 = n at hQ ⊢
  refine wpC_loop (I := fun v s1 t1 => (v = ⟨[], {}, s.mark⟩ ∧ s1 = s ∧ t1 = t) ∨
    ∃ r, PlainMid s t n v s1 t1 r ∧ WspRun r v.blanks s1.mark.column t1 ∧ Spec.Solid t1 ∧ t1 ≠ r ∧ (s.flowLevel = 0 → n ≤ s1.mark.column)) ?_ F _ s t (.inl ⟨rfl, rfl, rfl⟩)
  rintro v s1 t1 hI
  wpc
  split
  · -- a document marker
    rename_i hdoc
    rcases hI with ⟨rfl, rfl, rfl⟩ | ⟨r, hmid, hbl, hsol, hne, hcol1⟩
    · rw [hp.notDoc] at hdoc; cases hdoc
    · have hc0 : s1.mark.column = 0 ∧ Spec.IsDocMarker t1 := by
        refine Classical.byContradiction fun h => ?_
        rw [docIndicator_text (by
          by_cases h0 : s1.mark.column = 0
          · exact .inr (fun hd => h ⟨h0, hd⟩)
          · exact .inl h0)] at hdoc
        cases hdoc
      obtain ⟨bs, hf⟩ := hbl.folds hsol
      have hdm : ∃ p x, r = p ++ x :: t1 ∧ Spec.isLineBreak x = true := ?_
      · exact hQ v s1 t1 r ⟨hmid, .inr ⟨bs, t1, hf, hne.symm, .inr (.inr (.inr ⟨hc0.2, hdm⟩))⟩,
          fun _ _ => .inr ⟨bs, t1, hf, hne.symm, .inr (.inr (.inr ⟨hc0.2, hdm⟩))⟩, Sep.folds _ hf⟩
      rcases hbv : v.blanks with ⟨lb, tb, ws, ld⟩
      rw [hbv] at hbl
      cases hbl with
      | line ht hb =>
        subst ht
        have := hmid.post.col_blanks hb
        have := hmid.pos
        omega
      | lines hf hm =>
        obtain ⟨p, x, b, h1, h2, h3, h4⟩ := hm
        have : b = [] := List.length_eq_zero_iff.1 (by omega)
        subst this
        exact ⟨p, x, by simpa using h1, h2⟩
  rename_i hdoc
  split
  · -- a comment
    rename_i hx
    rcases hI with ⟨rfl, rfl, rfl⟩ | ⟨r, hmid, hbl, hsol, hne, hcol1⟩
    · exact absurd (by simpa using hx) hp.notComment
    · obtain ⟨bs, hf⟩ := hbl.folds hsol
      have h' : t1.head? = some '#' := by rw [List.head?_eq_getElem?]; simpa using hx
      exact hQ v s1 t1 r ⟨hmid, .inr ⟨bs, t1, hf, hne.symm, .inr (.inl h')⟩, fun _ _ => .inr ⟨bs, t1, hf, hne.symm, .inr (.inl h')⟩, Sep.folds _ hf⟩
  rename_i hx
  wpc
  refine wpC_plainChunk (n := n) ?_ ?_
  · -- nothing read
    intro hstop
    wpc
    rcases hI with ⟨rfl, rfl, rfl⟩ | ⟨r, hmid, hbl, hsol, hne, hcol1⟩
    · exfalso
      rcases hstop with h | h
      · rw [hp.notBlankz] at h; cases h
      · have h2 := hp.notStop
        cases t1 with
        | nil => have := hp.notBlankz; simp [isBlankzO, isBreakzO] at this
        | cons c r =>
          have h3 := plainStop_iff.2 h
          rw [List.head?_eq_getElem?] at h3
          simp only [List.getElem?_cons_zero, List.getElem?_cons_succ] at h2
          rw [h2] at h3; cases h3
    · have hb1 : isBlankO t1[0]? = false := by
        cases t1 with
        | nil => rfl
        | cons c r => exact isBlankO_false.2 (hsol c r rfl).1
      have hb2 : isBreakO t1[0]? = false := by
        cases t1 with
        | nil => rfl
        | cons c r => rw [List.getElem?_cons_zero, breakO_eq]; exact (hsol c r rfl).2
      rw [if_pos (by simp [hb1, hb2])]
      obtain ⟨bs, hf⟩ := hbl.folds hsol
      rw [hmid.flow] at hstop
      exact hQ v s1 t1 r ⟨hmid, .inr ⟨bs, t1, hf, hne.symm, .inl (hstop.plain hb1 hb2)⟩, fun _ _ => .inr ⟨bs, t1, hf, hne.symm, .inl (hstop.plain hb1 hb2)⟩, Sep.folds _ hf⟩
  · intro c t2 v2 s2 t2' ht1 hc hrun hstop hcol2 hm2
    have hx' : c ≠ '#' := by
      rintro rfl
      subst ht1
      simp at hx
    have hmid : PlainMid s t n ⟨v.string ++ joinBlanks v.blanks ++ c :: v2, {}, s2.mark⟩ s2 t2' t2' := by
      rcases hI with ⟨rfl, rfl, rfl⟩ | ⟨r, hmid, hbl, hsol, hne, hcol1⟩
      · refine ⟨⟨c, t2, v2, ht1, hc, hx', by simp [joinBlanks], hrun⟩, hm2.2, by show 0 < s2.mark.column; omega, ?_, Adv.refl _ _, hm2.flowLevel⟩
        intro h0
        have := hcol h0
        show n ≤ (s2.mark.column : Int)
        omega
      · obtain ⟨d, T1, v1, h1, h2, h3, h4, h5⟩ := hmid.text
        refine ⟨⟨d, T1, v1 ++ (joinBlanks v.blanks ++ c :: v2), h1, h2, h3, by simp [h4], plainRun_trans h5 ?_⟩, (hmid.pre.trans hmid.post).trans hm2.2,
          by show 0 < s2.mark.column; omega, ?_, Adv.refl _ _, hm2.flowLevel.trans hmid.flow⟩
        · subst ht1
          rw [hmid.flow] at hc hrun
          rcases hbv : v.blanks with ⟨lb, tb, ws, ld⟩
          rw [hbv] at hbl
          cases hbl with
          | line ht hb =>
            subst ht
            show Spec.PlainRun _ _ _ (ws ++ c :: v2) _
            cases ws with
            | nil => exact .char hc hrun
            | cons x b => exact .blanks hb (by simp) hc hx' hrun
          | lines hf hm =>
            rw [fold_cons]
            have hf := hf.folds (.stop _ hsol)
            rw [List.append_nil] at hf
            obtain ⟨p, x, b, e1, e2, e3, e4⟩ := hm
            refine .fold hf (by simp) ⟨p, x, b, e1, e2, e3, ?_, ?_⟩ hc hx' hrun
            · intro h0
              have := hcol1 (by simpa using h0)
              omega
            · rintro rfl hd
              exact hdoc (docIndicator_true e4 hd)
        · intro h0
          have := hcol1 h0
          show n ≤ (s2.mark.column : Int)
          omega
    have hfl1 : s1.flowLevel = s.flowLevel := hm2.flowLevel.symm.trans hmid.flow
    rw [hfl1] at hstop
    wpc
    split
    · rename_i hnb
      simp only [Bool.not_eq_true', Bool.or_eq_false_iff] at hnb
      exact hQ _ s2 t2' t2' ⟨hmid, .inl (hstop.plain hnb.1 hnb.2), fun _ _ => .inl (hstop.plain hnb.1 hnb.2), Sep.refl _ _⟩
    · rename_i hnb
      wpc
      refine wpC_plainBlanks ?_
      intro bv s3 t3 hbl hsol hm3
      have hne : t3 ≠ t2' := by
        rintro rfl
        apply hnb
        cases t3 with
        | nil => rfl
        | cons c r =>
          have := hsol c r rfl
          simp [isBlankO_false.2 this.1, breakO_eq, this.2]
      have hmid3 : PlainMid s t n ⟨v.string ++ joinBlanks v.blanks ++ c :: v2, bv, s2.mark⟩ s3 t3 t2' :=
        ⟨hmid.text, hmid.pre, hmid.pos, hmid.col, hm3.2, hm3.flowLevel.trans hmid.flow⟩
      split
      · rename_i hlow
        simp only [Bool.and_eq_true, beq_iff_eq, decide_eq_true_eq] at hlow
        have h0 : s.flowLevel = 0 := by rw [← hmid3.flow]; exact hlow.1
        obtain ⟨bs, hf⟩ := hbl.folds hsol
        have hlow' : ∃ p x b, t2' = p ++ x :: (b ++ t3) ∧ Spec.isLineBreak x = true ∧ (∀ y ∈ b, Spec.IsBlank y) ∧ (b.length : Int) < n := ?_
        · refine hQ _ s3 t3 t2' ⟨hmid3, .inr ⟨bs, t3, hf, hne.symm, .inr (.inr (.inl ⟨by simp [h0], hlow'⟩))⟩, fun hl => ?_, Sep.folds _ hf⟩
          exfalso
          obtain ⟨p, x, b, e1, e2, _⟩ := hlow'
          have h1 := hmid.pre.le.2
          have h2 : s2.mark.line < s3.mark.line := by
            have := hm3.2
            rw [e1, show p ++ x :: (b ++ t3) = (p ++ x :: b) ++ t3 by simp] at this
            exact this.line_lt (c := x) (by simp) e2
          unfold lcLe at h1
          simp only at h1 hl
          omega
        cases hbl with
        | line ht hb =>
          subst ht
          have h1 := hm3.2.col_blanks hb
          have h2 := hmid.col h0
          simp only at h2
          omega
        | lines hf hm =>
          obtain ⟨p, x, b, e1, e2, e3, e4⟩ := hm
          exact ⟨p, x, b, e1, e2, e3, by omega⟩
      · rename_i hlow
        refine .inr ⟨t2', hmid3, hbl, hsol, hne, ?_⟩
        intro h0
        rw [hmid3.flow, h0] at hlow
        simpa using hlow

theorem PlainStart.first (hp : PlainStart s t) : Spec.PlainFirst (s.flowLevel != 0) t := by
  have hca := hp.can
  have hne := hp.notEntry
  have hb := hp.notBlankz
  cases t with
  | nil => simp [isBlankzO, isBreakzO] at hb
  | cons c r =>
    refine ⟨c, r, rfl, ?_⟩
    have hends : ∀ {b : Bool}, isBlankzO r[0]? = false → ¬ Spec.EndsTag r := by
      intro _ h1 h2
      cases r with
      | nil => simp [isBlankzO, isBreakzO] at h1
      | cons d r' =>
        have h3 : isBlankzO (d :: r')[0]? = true := by
          rw [blankz_iff]
          intro x hx
          simp at hx; subst hx
          exact h2 d r' rfl
        rw [h3] at h1; cases h1
    unfold canStartPlain at hca
    simp only [Bool.or_eq_true, Bool.and_eq_true, beq_iff_eq, Bool.not_eq_true', Bool.or_eq_false_iff, List.getElem?_cons_zero, List.getElem?_cons_succ,
      Option.some.injEq, beq_eq_false_iff_ne] at hca
    rcases hca with (h | h) | h
    · left
      simp only [ne_eq, Option.some.injEq] at h
      simp only [List.mem_cons, List.not_mem_nil, or_false, not_or]
      simp [h]
    · right
      obtain ⟨rfl, _⟩ := h
      refine ⟨.inl rfl, hends (b := true) ?_⟩
      simpa using hne
    · right
      refine ⟨.inr ⟨by simp [h.1.1], h.1.2⟩, hends (b := true) h.2⟩

theorem PlainStart.noDoc (hp : PlainStart s t) (hc : s.mark.column = 0) : ¬ Spec.IsDocMarker t := by
  have h := hp.notDoc
  unfold isDocIndicator at h
  rintro ⟨r, h1, h2⟩
  have h3 : isBlankzO r[0]? = true := by
    rw [blankz_iff]
    intro x hx
    cases r with
    | nil => simp at hx
    | cons d r' => simp at hx; subst hx; exact h2 _ r' rfl
  rcases h1 with rfl | rfl
  · simp [hc, h3] at h
  · simp [hc, h3] at h

theorem wpC_scanPlainScalar {F : Nat} {Q : Token → SState → Str → Prop} (hp : PlainStart s t) (hcol : s.flowLevel = 0 → s.indent ≤ s.mark.column)
    (hQ : ∀ tok s' t', Spelled (s.flowLevel != 0) s.indent s.mark t tok s'.mark t' → nodeData tok.data = true → Q tok s' t') : wpC (scanPlainScalar F) Q s t := by
  unfold scanPlainScalar
  wpc
  refine wpC_plainBody hp hcol ?_
  intro v s1 t1 r hd
  rw [wpC_when]
  have key : Spelled (s.flowLevel != 0) s.indent s.mark t ⟨.scalar v.string .plain, s.mark, v.endMark⟩ s1.mark t1 := by
    obtain ⟨c, T1, v1, h1, h2, h3, h4, h5⟩ := hd.text
    obtain ⟨p, hpre, _⟩ := id hd.pre
    obtain ⟨w1, hw1⟩ : ∃ w1, p = c :: w1 := by
      have hlen : r.length < t.length := by
        have : ∀ {fl : Bool} {n : Int} {a v b : Str}, Spec.PlainRun fl n a v b → b.length ≤ a.length := by
          intro fl n a v b h
          induction h with
          | done => exact Nat.le_refl _
          | char hc h ih => simp; omega
          | blanks hb hn hc hx h ih => simp; omega
          | fold hf hn hi hc hx h ih => have := hf.length; simp at this; omega
        have := this h5
        subst h1; simp; omega
      cases p with
      | nil => rw [List.nil_append] at hpre; subst hpre; omega
      | cons d p =>
        rw [h1] at hpre
        obtain ⟨rfl, _⟩ := List.cons.inj hpre
        exact ⟨p, rfl⟩
    subst hw1
    have hT1 : T1 = w1 ++ r := by rw [h1] at hpre; exact (List.cons.inj hpre).2
    rw [hT1] at h2 h5
    refine ⟨rfl, c :: w1, r, hpre, hd.pre, hd.post, hd.sep, ⟨⟨c, w1, v1, rfl, h4, h2, h3, h5, hd.ends⟩, by rw [← hpre]; exact hp.first, by rw [← hpre]; exact hp.noDoc⟩, ?_⟩
    intro v' hv' hl n'
    refine ⟨⟨c, w1, v1, rfl, h4, h2, h3, plainRun_any h5 ?_ _, hd.any hl _⟩, by rw [← hpre]; exact hp.first, by rw [← hpre]; exact hp.noDoc⟩
    intro x hx
    cases hxb : Spec.isLineBreak x with
    | false => rfl
    | true =>
      exfalso
      have h6 := hd.pre
      rw [hpre] at h6
      have := h6.line_lt (c := x) (by simp [hx]) hxb
      have h7 := hd.post.le.2
      unfold lcLe at h7
      omega
  split
  · exact hQ _ _ _ key rfl
  · exact hQ _ _ _ key rfl

end
end Yaml
