import Verif.Lib.EmitBlock

/-
What `write_folded_scalar` writes denotes the value, for the values whose lines its look-ahead handles.
-/

namespace Yaml.Emitter
open Yaml Spec
set_option linter.unusedSimpArgs false
set_option linter.unusedVariables false

/-- A line break, the breaks after it and the lines after these, none of them more indented. -/
def fend (c : Char) (bs : Str) (raw : Str) (last : Bool) : Str :=
  if last then c :: bs else (if c = '\n' then (if bs = [] then [' '] else bs) else c :: bs) ++ raw

def fraw : List Line → Str
  | [] => []
  | l :: ls => l.text ++ fend l.brk l.blank (fraw ls) ls.isEmpty

theorem fraw_content : ∀ (ls : List Line) (M : Line), (∀ l ∈ ls, l.indented = false) → ls.getLast? = some M → fraw ls = content true ls ++ M.brk :: M.blank := by
  intro ls
  induction ls with
  | nil => intro M hi h; cases h
  | cons l ls ih =>
    intro M hi h
    cases ls with
    | nil => simp at h; subst h; simp [fraw, content, fend]
    | cons m ls =>
      rw [List.getLast?_cons_cons] at h
      have := ih M (fun x hx => hi x (List.mem_cons_of_mem _ hx)) h
      have h1 := hi l List.mem_cons_self
      have h2 := hi m (by simp)
      rw [fraw, this, show content true (l :: m :: ls) = l.text ++ (between true l m ++ content true (m :: ls)) from rfl]
      unfold fend between
      by_cases hb : l.brk = '\n'
      · simp [h1, h2, hb]
      · simp [hb]

/-- The lines of the value suit the look-ahead. -/
def FoldSuffix (cs : Str) : Prop := ∀ p b x r, cs = p ++ b :: x :: r → isBreak b = true → isBreak x = false → x ≠ ' ' ∧ isBlankzO r.head? = false

theorem FoldSuffix.tail {c : Char} {cs : Str} (h : FoldSuffix (c :: cs)) : FoldSuffix cs :=
  fun p b x r e hb hx => h (c :: p) b x r (by rw [e]; rfl) hb hx

/-- Spaces are not at the end, nor before a line break. -/
def SpaceOk (cs : Str) : Prop := ∀ p r, cs = p ++ ' ' :: r → ∃ d r', r = d :: r' ∧ isBreak d = false

theorem SpaceOk.tail {c : Char} {cs : Str} (h : SpaceOk (c :: cs)) : SpaceOk cs :=
  fun p r e => h (c :: p) r (by rw [e]; rfl)

theorem chain_at {R : Char → Char → Prop} : ∀ (p : Str) (o : Option Char) (a b : Char) (r : Str), chain R o (p ++ a :: b :: r) → R a b := by
  intro p
  induction p with
  | nil =>
    intro o a b r h
    cases o with
    | none => exact h.1
    | some x => exact h.2.1
  | cons y p ih =>
    intro o a b r h
    cases o with
    | none => exact ih (some y) a b r h
    | some x => exact ih (some y) a b r h.2

theorem spaceOk_of {v : Str} (h : BlockOk v) : SpaceOk v := by
  intro p r e
  cases r with
  | nil => exact absurd (by rw [e]; simp) h.trailing
  | cons d r =>
    refine ⟨d, r, rfl, ?_⟩
    have := chain_at p none ' ' d r (e ▸ h.spaceBreak)
    simpa using this

theorem dropWhile_breaks {cs : Str} (h : cs.dropWhile isBreak = []) : ∀ c ∈ cs, isBreak c = true := by
  induction cs with
  | nil => simp
  | cons c cs ih =>
    by_cases hc : isBreak c = true
    · simp only [List.dropWhile_cons, hc, if_true] at h
      intro d hd
      rcases List.mem_cons.1 hd with rfl | hd
      · exact hc
      · exact ih h d hd
    · simp only [List.dropWhile_cons, hc, if_false] at h
      cases h

theorem dropWhile_split (cs : Str) : ∃ p, cs = p ++ cs.dropWhile isBreak ∧ ∀ c ∈ p, isBreak c = true := by
  induction cs with
  | nil => exact ⟨[], rfl, by simp⟩
  | cons c cs ih =>
    by_cases hc : isBreak c = true
    · obtain ⟨p, h1, h2⟩ := ih
      refine ⟨c :: p, ?_, ?_⟩
      · simp only [List.dropWhile_cons, hc, if_true, List.cons_append]; rw [← h1]
      · intro d hd
        rcases List.mem_cons.1 hd with rfl | hd
        · exact hc
        · exact h2 d hd
    · exact ⟨[], by simp only [List.dropWhile_cons, hc, if_false]; rfl, by simp⟩

/-- The look-ahead finds the end exactly if there is nothing but breaks. -/
theorem lookahead_iff {c : Char} {cs : Str} (hc : isBreak c = true) (h : FoldSuffix (c :: cs)) :
    foldedLookahead cs = true ↔ ¬ ∀ d ∈ cs, isBreak d = true := by
  obtain ⟨p, h1, h2⟩ := dropWhile_split cs
  unfold foldedLookahead
  cases hd : cs.dropWhile isBreak with
  | nil =>
    have := dropWhile_breaks hd
    simp [isBlankzO, isBlankO, isBreakzO]
    exact this
  | cons x r =>
    have hx : isBreak x = false := by
      have : (cs.dropWhile isBreak).head?.all (fun x => !isBreak x) = true := by
        have := List.head?_dropWhile_not isBreak cs
        rw [hd] at this ⊢
        simpa using this
      rw [hd] at this; simpa using this
    rw [hd] at h1
    have h3 : isBlankzO r.head? = false := by
      rcases List.eq_nil_or_concat p with h0 | ⟨p', b, h0⟩
      · subst h0; exact (h [] c x r (by rw [h1]; rfl) hc hx).2
      · exact (h (c :: p') b x r (by rw [h1, h0]; simp) (h2 b (by rw [h0]; simp)) hx).2
    simp [h3]
    exact ⟨x, by rw [h1]; simp, hx⟩

theorem endsBrk_all {cs : Str} (h : ∀ d ∈ cs, isBreak d = true) : endsBrk true cs = true := by
  induction cs with
  | nil => rfl
  | cons c cs ih =>
    rw [endsBrk, h c List.mem_cons_self]
    exact ih (fun d hd => h d (List.mem_cons_of_mem _ hd))

theorem fraw_nonbreak {n : Nat} {t T : Str} {ls : List Line} (h : Lines n t ls T) (hne : ls ≠ []) : ∃ d ∈ fraw ls, isBreak d = false := by
  cases h with
  | done => exact absurd rfl hne
  | @line l _ _ _ _ _ _ ls hl hn hb hbl h =>
    cases l with
    | nil => exact absurd rfl hl
    | cons x l => exact ⟨x, by simp [fraw], by rw [← isLineBreak_eq]; exact hn x List.mem_cons_self⟩

theorem writes_foldedLoop : ∀ (cs : Str) (breaks ls0 : Bool) (s : EState), s.lineBreak ≠ .any → 1 ≤ s.indent →
    (∀ c ∈ cs, isPrintable c = true) → (breaks = true → s.column = 0 ∧ s.indention = true) → s.whitespace = true → (breaks = false → s.indention = false) →
    FoldSuffix cs → SpaceOk cs → (breaks = true → cs.head? ≠ some ' ') → (breaks = false → ls0 = false) →
    ∃ s' w, Writes (foldedLoop cs breaks ls0) s () s' w ∧ Wrote s w s' ∧ s'.whitespace = true ∧ s'.indention = endsBrk breaks cs ∧
      (endsBrk breaks cs = true → cs ≠ [] ∨ breaks = true → s'.column = 0) ∧
      ∀ T fin T', Tail s.lineBreak (endsBrk breaks cs) T fin T' →
        (breaks = true → (∃ bs t2 ls, BlankLines s.indent.toNat (w ++ T) bs t2 ∧ Lines s.indent.toNat t2 ls T' ∧ (∀ l ∈ ls, l.indented = false) ∧
          cs ++ fin = bs ++ fraw ls) ∧ (s.lineBreak ≠ .cr ∨ (w ++ T).head? ≠ some '\n') ∧
          (∀ x r, cs = x :: r → isBreak x = false → ∃ r', w ++ T = List.replicate s.indent.toNat ' ' ++ x :: r')) ∧
        (breaks = false → ∃ l t c t1 bs t2 ls, w ++ T = l ++ t ∧ (∀ x ∈ l, isLineBreak x = false) ∧ BreakAt t c t1 ∧
          BlankLines s.indent.toNat t1 bs t2 ∧ Lines s.indent.toNat t2 ls T' ∧ (∀ l ∈ ls, l.indented = false) ∧ cs ++ fin = l ++ fend c bs (fraw ls) ls.isEmpty) := by
  intro cs
  induction cs with
  | nil =>
    intro breaks ls0 s hl hi hp hb hw hnb hf hs hh h0
    refine ⟨s, [], Writes.pure () s, Wrote.refl s, hw, ?_, ?_, ?_⟩
    · cases breaks with
      | true => exact (hb rfl).2
      | false => exact hnb rfl
    · rintro h1 (h | h)
      · exact absurd rfl h
      · exact (hb h).1
    · rintro T fin T' ⟨h1, h2⟩
      refine ⟨fun hbt => ?_, fun hbf => ?_⟩
      · obtain ⟨rfl, rfl, h3⟩ := h1 hbt
        exact ⟨⟨[], _, [], .stop _, .done _, by simp, rfl⟩, h3, by simp⟩
      · obtain ⟨c, rfl, h3⟩ := h2 hbf
        exact ⟨[], T, c, T', [], T', [], rfl, by simp, h3, .stop _, .done _, by simp, rfl⟩
  | cons c cs ih =>
    intro breaks ls0 s hl hi hp hb hw hnb hf hs hh h0
    have hpc := hp c List.mem_cons_self
    have hp' : ∀ d ∈ cs, isPrintable d = true := fun d hd => hp d (List.mem_cons_of_mem _ hd)
    rw [show foldedLoop (c :: cs) breaks ls0 = _ from by unfold foldedLoop; rfl]
    by_cases hk : isBreak c = true
    · rw [if_pos hk]
      have hcc := printable_break hpc hk
      have hhead : cs.head? ≠ some ' ' := by
        cases cs with
        | nil => simp
        | cons x r =>
          simp only [List.head?_cons, ne_eq, Option.some.injEq]
          rintro rfl
          exact (hf [] c ' ' r rfl hk (by decide)).1 rfl
      -- the additional line break
      have hwr : ∃ s0 w0, Writes (M.when (!breaks && !ls0 && c == '\n' && foldedLookahead cs) putBreak) s () s0 w0 ∧ Wrote s w0 s0 ∧ s0.whitespace = true ∧
          w0 = if (!breaks && !ls0 && c == '\n' && foldedLookahead cs) then breakChars s.lineBreak else [] := by
        cases hx : (!breaks && !ls0 && c == '\n' && foldedLookahead cs) with
        | true => exact ⟨_, _, Writes.when_true rfl (writes_putBreak s), wrote_putBreak hl, hw, rfl⟩
        | false => exact ⟨s, [], Writes.when_false rfl, Wrote.refl s, hw, rfl⟩
      obtain ⟨s0, w0, hw0, hwr0, hws0, hw0e⟩ := hwr
      obtain ⟨s', w, i1, i2, i3, i4, i5, i6⟩ := ih true ls0 { s0 with column := 0, line := s0.line + 1, indention := true }
        (by show s0.lineBreak ≠ _; rw [hwr0.lineBreak]; exact hl) (by show 1 ≤ s0.indent; rw [hwr0.indent]; exact hi) hp' (fun _ => ⟨rfl, rfl⟩) hws0 (by simp)
        hf.tail hs.tail (fun _ => hhead) (by simp)
      refine ⟨s', w0 ++ (breakText s.lineBreak c ++ w), ?_, ?_, i3, ?_, ?_, ?_⟩
      · have := writes_writeBreak c s0
        rw [hwr0.lineBreak] at this
        exact hw0.bind ((writes_writeBreak c s0).cast rfl (by rw [hwr0.lineBreak]) |>.bind (Writes.bind_modify (g := fun s => { s with indention := true }) i1))
      · have := (wrote_break (s := s0) (by rw [hwr0.lineBreak]; exact hl) hk).setI true
        exact hwr0.trans (Wrote.trans ⟨this.frame, by rw [this.col, hwr0.lineBreak]⟩ i2)
      · rw [i4]; simp [endsBrk, hk]
      · intro h _; exact i5 (by simpa [endsBrk, hk] using h) (Or.inr rfl)
      · intro T fin T' ht
        have ht' : Tail s0.lineBreak (endsBrk true cs) T fin T' := by rw [hwr0.lineBreak]; simpa [endsBrk, hk] using ht
        obtain ⟨⟨bs, t2, ls, j1, j2, j3, j4⟩, j5, _⟩ := (i6 T fin T' ht').1 rfl
        have j1 : BlankLines s.indent.toNat (w ++ T) bs t2 := by
          have := j1; rw [show ({ s0 with column := 0, line := s0.line + 1, indention := true } : EState).indent = s0.indent from rfl, hwr0.indent] at this; exact this
        have j2 : Lines s.indent.toNat t2 ls T' := by
          have := j2; rw [show ({ s0 with column := 0, line := s0.line + 1, indention := true } : EState).indent = s0.indent from rfl, hwr0.indent] at this; exact this
        have j5 : s.lineBreak ≠ .cr ∨ (w ++ T).head? ≠ some '\n' := by
          have := j5; rw [show ({ s0 with column := 0, line := s0.line + 1, indention := true } : EState).lineBreak = s0.lineBreak from rfl, hwr0.lineBreak] at this; exact this
        have hba : BreakAt (breakText s.lineBreak c ++ (w ++ T)) c (w ++ T) := breakAt_text hl hcc j5
        have hhd := breakText_head hl hcc (w ++ T)
        refine ⟨fun hbt => ?_, fun hbf => ?_⟩
        · rw [hw0e, hbt]
          simp only [Bool.not_true, Bool.false_and, Bool.false_eq_true, if_false, List.nil_append, List.append_assoc]
          refine ⟨⟨c :: bs, t2, ls, .line (k := 0) (Nat.zero_le _) hba j1, j2, j3, ?_⟩, hhd, ?_⟩
          · rw [List.cons_append, j4]; rfl
          · intro x r hx hxb; cases hx; rw [hk] at hxb; cases hxb
        · have h00 := h0 hbf
          rw [hbf, h00] at hw0e
          simp only [Bool.not_false, Bool.true_and] at hw0e
          have hla := lookahead_iff hk hf
          by_cases hcn : c = '\n'
          · subst hcn
            by_cases hx : foldedLookahead cs = true
            · -- a line follows: one more line break
              rw [hx] at hw0e
              simp at hw0e
              have hlne : ls ≠ [] := by
                rintro rfl
                simp [fraw] at j4
                refine hla.1 hx fun d hd => j1.breaks d (by rw [← j4]; exact List.mem_append_left _ hd)
              rw [hw0e]
              refine ⟨[], _, '\n', breakText s.lineBreak '\n' ++ (w ++ T), '\n' :: bs, t2, ls, by simp, by simp, breakAt_chars hl hhd,
                .line (k := 0) (Nat.zero_le _) hba j1, j2, j3, ?_⟩
              cases ls with
              | nil => exact absurd rfl hlne
              | cons m ls => simp [fend, j4]
            · have hall : ∀ d ∈ cs, isBreak d = true := by
                have := mt hla.2 hx
                simpa using this
              have hx' : foldedLookahead cs = false := by simpa using hx
              rw [hx'] at hw0e
              simp at hw0e
              have hfin := (ht'.1 (endsBrk_all hall)).1
              subst hfin
              have hlne : ls = [] := by
                by_cases h : ls = []
                · exact h
                · obtain ⟨d, hd1, hd2⟩ := fraw_nonbreak j2 h
                  rw [List.append_nil] at j4
                  rw [hall d (by rw [j4]; exact List.mem_append_right _ hd1)] at hd2
                  cases hd2
              subst hlne
              rw [hw0e]
              refine ⟨[], _, '\n', w ++ T, bs, t2, [], by simp, by simp, hba, j1, j2, j3, ?_⟩
              simp [fend, fraw] at j4 ⊢
              exact j4
          · have hx : (c == '\n') = false := by simpa using hcn
            rw [hx] at hw0e
            simp at hw0e
            rw [hw0e]
            refine ⟨[], _, c, w ++ T, bs, t2, ls, by simp, by simp, hba, j1, j2, j3, ?_⟩
            unfold fend
            rw [if_neg hcn]
            cases ls with
            | nil => simp [fraw] at j4 ⊢; exact j4
            | cons m ls => simp [j4]
    · rw [if_neg hk]
      have hk' : isBreak c = false := by simpa using hk
      have hlb : isLineBreak c = false := by rw [isLineBreak_eq]; exact hk'
      have hwr : ∃ s0 w0, Writes (M.when breaks writeIndent) s () s0 w0 ∧ Wrote s w0 s0 ∧ s0.whitespace = true ∧ (breaks = false → s0.indention = false) ∧
          w0 = if breaks then List.replicate s.indent.toNat ' ' else [] := by
        cases breaks with
        | true =>
          obtain ⟨h1, h2⟩ := writes_indent_col0 (hb rfl).1 hi (hb rfl).2
          exact ⟨_, _, Writes.when_true rfl h1, h2, rfl, by simp, rfl⟩
        | false => exact ⟨s, [], Writes.when_false rfl, Wrote.refl s, hw, fun _ => hnb rfl, rfl⟩
      obtain ⟨s0, w0, hw0, hwr0, hws0, hin0, hw0e⟩ := hwr
      have hnl : (if breaks then isBlank c else ls0) = false := by
        cases hbr : breaks with
        | true =>
          have hcs : c ≠ ' ' := by have := hh hbr; simpa using this
          have hct : c ≠ '\t' := fun h => printable_noTab hpc h
          simp [isBlank, isSpace, hcs, hct]
        | false => simpa using h0 hbr
      have hl0 : s0.lineBreak ≠ .any := by rw [hwr0.lineBreak]; exact hl
      have hi0 : 1 ≤ s0.indent := by rw [hwr0.indent]; exact hi
      by_cases hwrap : (!breaks && isSpace c && !isSpaceO cs.head? && decide (s0.column > s0.bestWidth)) = true
      · -- a space becomes a line break
        simp only [Bool.and_eq_true, Bool.not_eq_true', decide_eq_true_eq] at hwrap
        obtain ⟨⟨⟨hbf, hcs⟩, hns⟩, hcw⟩ := hwrap
        have hcs' : c = ' ' := by simpa [isSpace] using hcs
        subst hcs'
        obtain ⟨d, r, hd, hdb⟩ := hs [] cs rfl
        have hds : d ≠ ' ' := by rw [hd] at hns; simpa [isSpaceO] using hns
        have hdt : d ≠ '\t' := fun h => printable_noTab (hp' d (by rw [hd]; simp)) h
        have hbl : breaksLine s0 = true := by
          unfold breaksLine
          rw [hin0 hbf]; simp
        have h1 := writes_writeIndent_break hbl
        have h2 := wrote_indent_break (s := s0) hl0
        obtain ⟨s', w, i1, i2, i3, i4, i5, i6⟩ := ih false false
          { s0 with column := (if s0.indent ≥ 0 then s0.indent else 0), line := s0.line + 1, whitespace := true, indention := false }
          hl0 hi0 hp' (by simp) rfl (by simp) hf.tail hs.tail (by simp) (fun _ => rfl)
        refine ⟨s', w0 ++ ((breakChars s0.lineBreak ++ List.replicate s0.indent.toNat ' ') ++ w), ?_, ?_, i3, ?_, ?_, ?_⟩
        · refine hw0.bind (Writes.bind_get ?_)
          rw [hnl]
          rw [if_pos (by simp [hbf, isSpace, hns, hcw])]
          exact h1.bind (Writes.bind_modify (g := fun s => { s with indention := false }) i1)
        · exact hwr0.trans ((h2.setI false).trans i2)
        · rw [i4]; simp [endsBrk, hk']
        · intro h _
          refine i5 (by simpa [endsBrk, hk'] using h) ?_
          rw [hd]; simp
        · intro T fin T' ht
          have ht' : Tail s0.lineBreak (endsBrk false cs) T fin T' := by rw [hwr0.lineBreak]; simpa [endsBrk, hk'] using ht
          obtain ⟨l, t, c', t1, bs, t2, ls, j1, j2, j3, j4, j5, j6, j7⟩ := (i6 T fin T' ht').2 rfl
          have hin : ({ s0 with column := (if s0.indent ≥ 0 then s0.indent else 0), line := s0.line + 1, whitespace := true, indention := false } : EState).indent = s.indent := hwr0.indent
          rw [hin] at j4 j5
          have hlc : ∃ l', l = d :: l' := by
            cases l with
            | nil =>
              exfalso
              rw [hd] at j7
              simp only [List.nil_append, List.cons_append] at j7
              have hcb := breakAt_isBreak j3
              have key : d = c' ∨ d = ' ' ∨ d ∈ bs := by
                have hm : (fend c' bs (fraw ls) ls.isEmpty).head? = some d := by rw [← j7]; rfl
                unfold fend at hm
                split at hm
                · left; simpa using hm.symm
                · split at hm
                  · split at hm
                    · right; left; simpa using hm.symm
                    · right; right
                      cases bs with
                      | nil => contradiction
                      | cons b bs => simp at hm; simp [hm]
                  · left; simpa using hm.symm
              rcases key with h | h | h
              · rw [← h, hdb] at hcb; cases hcb
              · exact hds h
              · rw [j4.breaks d h] at hdb; cases hdb
            | cons x l =>
              rw [hd] at j7
              simp only [List.cons_append, List.cons.injEq] at j7
              exact ⟨l, by rw [j7.1]⟩
          obtain ⟨l', rfl⟩ := hlc
          refine ⟨fun hbt => absurd (hbf.symm.trans hbt) (by simp), fun _ => ?_⟩
          rw [hw0e, hbf, if_neg (by simp)]
          refine ⟨[], _, '\n', List.replicate s.indent.toNat ' ' ++ ((d :: l') ++ t), [], _, ⟨d :: l', c', bs⟩ :: ls, (List.nil_append _).symm, by simp, ?_, .stop _, .line (by simp) j2 j3 j4 j5, ?_, ?_⟩
          · have := breakAt_chars (b := s0.lineBreak) hl0 (t := List.replicate s.indent.toNat ' ' ++ ((d :: l') ++ t)) (Or.inr (by
              obtain ⟨m, hm⟩ : ∃ m, s.indent.toNat = m + 1 := ⟨s.indent.toNat - 1, by omega⟩
              rw [hm, List.replicate_succ]; simp))
            rw [hwr0.indent]
            rw [show ([] : Str) ++ (breakChars s0.lineBreak ++ List.replicate s.indent.toNat ' ' ++ w) ++ T = breakChars s0.lineBreak ++ (List.replicate s.indent.toNat ' ' ++ (w ++ T)) by simp, j1]
            exact this
          · intro m hm
            rcases List.mem_cons.1 hm with rfl | hm
            · simp [Line.indented, hds, hdt]
            · exact j6 m hm
          · simp only [List.isEmpty_cons, fend, Bool.false_eq_true, if_false, if_true, List.nil_append, fraw]
            rw [List.cons_append, j7]; rfl
      · obtain ⟨s', w, i1, i2, i3, i4, i5, i6⟩ := ih false false { s0 with column := s0.column + 1, indention := false }
          hl0 hi0 hp' (by simp) hws0 (by simp) hf.tail hs.tail (by simp) (fun _ => rfl)
        refine ⟨s', w0 ++ c :: w, ?_, ?_, i3, ?_, ?_, ?_⟩
        · refine hw0.bind (Writes.bind_get ?_)
          rw [hnl, if_neg hwrap]
          exact ((writes_writeChar c s0).bind (Writes.bind_modify (g := fun s => { s with indention := false }) i1))
        · exact hwr0.trans (((wrote_char hk' s0).setI false).trans i2)
        · rw [i4]; simp [endsBrk, hk']
        · intro h _
          refine i5 (by simpa [endsBrk, hk'] using h) ?_
          cases cs with
          | nil => simp [endsBrk, hk'] at h
          | cons => simp
        · intro T fin T' ht
          have ht' : Tail s0.lineBreak (endsBrk false cs) T fin T' := by rw [hwr0.lineBreak]; simpa [endsBrk, hk'] using ht
          obtain ⟨l, t, c', t1, bs, t2, ls, j1, j2, j3, j4, j5, j6, j7⟩ := (i6 T fin T' ht').2 rfl
          have hin : ({ s0 with column := s0.column + 1, indention := false } : EState).indent = s.indent := hwr0.indent
          rw [hin] at j4 j5
          have hl' : ∀ x ∈ c :: l, isLineBreak x = false := by
            intro x hx
            rcases List.mem_cons.1 hx with rfl | hx
            · exact hlb
            · exact j2 x hx
          refine ⟨fun hbt => ⟨⟨[], _, ⟨c :: l, c', bs⟩ :: ls, .stop _, ?_, ?_, ?_⟩, ?_, ?_⟩, fun hbf => ⟨c :: l, t, c', t1, bs, t2, ls, ?_, hl', j3, j4, j5, j6, ?_⟩⟩
          · rw [hw0e, hbt, if_pos rfl]
            have := Lines.line (n := s.indent.toNat) (l := c :: l) (by simp) hl' j3 j4 j5
            have e1 : List.replicate s.indent.toNat ' ' ++ c :: w ++ T = List.replicate s.indent.toNat ' ' ++ (c :: l ++ t) := by
              rw [List.append_assoc, List.cons_append, j1, List.cons_append]
            rw [e1]
            exact this
          · intro m hm
            rcases List.mem_cons.1 hm with rfl | hm
            · have hcs : c ≠ ' ' := by have := hh hbt; simpa using this
              simp [Line.indented, hcs, (fun h => printable_noTab hpc h : c ≠ '\t')]
            · exact j6 m hm
          · rw [List.nil_append, fraw, List.cons_append, j7]; rfl
          · right
            rw [hw0e, hbt, if_pos rfl]
            obtain ⟨m, hm⟩ : ∃ m, s.indent.toNat = m + 1 := ⟨s.indent.toNat - 1, by omega⟩
            rw [hm, List.replicate_succ]
            simp
          · intro x r hx _
            cases hx
            rw [hw0e, hbt, if_pos rfl]
            exact ⟨w ++ T, by simp⟩
          · rw [hw0e, hbf, if_neg (by simp)]
            simp only [List.nil_append, List.cons_append]
            rw [j1]
          · rw [List.cons_append, j7]; rfl

/-- The value of the scalar, from its lines. -/
theorem folded_value {v bs fin : Str} {ls : List Line} {n : Nat} {t1 t2 T' : Str} (hne : v ≠ []) (g1 : BlankLines n t1 bs t2) (g2 : Lines n t2 ls T')
    (hi : ∀ l ∈ ls, l.indented = false) (g3 : v ++ fin = bs ++ fraw ls) (hfin : if endsBrk true v then fin = [] else ∃ c, fin = [c] ∧ isBreak c = true) :
    v = (if ls = [] then [] else bs) ++ content true ls ++ ending (chompFor v) bs ls := by
  have hbs := g1.breaks
  have hls := g2.breaks
  rw [endsBrk_last] at hfin
  have hchomp : chompFor v = match v.reverse with | [] => .strip | c :: rest => if !isBreak c then .strip else if isBreakzO rest.head? then .keep else .clip := rfl
  -- chopping one break off
  have hone : ∀ (y y0 : Str) (b d : Char), v ++ fin = y ++ [b] → y = y0 ++ [d] → isBreak d = false →
      ls ≠ [] ∧ bs ++ content true ls = y ∧ ∃ M, ls.getLast? = some M ∧ M.brk = b := by
    intro y y0 b d hy hy0 hd
    subst hy0
    rw [g3] at hy
    cases hM : ls.getLast? with
    | none =>
      rw [List.getLast?_eq_none_iff] at hM
      subst hM
      exfalso
      simp [fraw] at hy
      have := hbs d (by rw [hy]; simp)
      rw [hd] at this; cases this
    | some M =>
      have hne : ls ≠ [] := by rintro rfl; simp at hM
      rw [fraw_content ls M hi hM] at hy
      obtain ⟨hb1, hb2⟩ := hls M (List.mem_of_getLast? hM)
      have hbl : M.blank = [] := by
        rcases List.eq_nil_or_concat M.blank with h0 | ⟨z, x, h0⟩
        · exact h0
        · exfalso
          rw [h0] at hy
          have h' : (bs ++ content true ls ++ M.brk :: z) ++ [x] = (y0 ++ [d]) ++ [b] := by simpa using hy
          have h1 := (List.append_inj' h' rfl).1
          rcases List.eq_nil_or_concat z with h2 | ⟨z', x', h2⟩
          · subst h2
            have h3 := (List.append_inj' (s₁ := bs ++ content true ls) (t₁ := [M.brk]) (s₂ := y0) (t₂ := [d]) (by simpa using h1) rfl).2
            simp at h3
            rw [h3, hd] at hb1; cases hb1
          · subst h2
            have h3 := (List.append_inj' (s₁ := bs ++ content true ls ++ M.brk :: z') (t₁ := [x']) (s₂ := y0) (t₂ := [d]) (by simpa using h1) rfl).2
            simp at h3
            have := hb2 x' (by rw [h0]; simp)
            rw [h3, hd] at this; cases this
      rw [hbl] at hy
      have h' : (bs ++ content true ls) ++ [M.brk] = (y0 ++ [d]) ++ [b] := by simpa using hy
      obtain ⟨h1, h2⟩ := List.append_inj' h' rfl
      simp at h2
      exact ⟨hne, h1, M, rfl, h2⟩
  cases hr : v.reverse with
  | nil => simp at hr; exact absurd hr hne
  | cons c r =>
    rw [hr] at hchomp hfin
    simp only [] at hchomp hfin
    have hvr : v = r.reverse ++ [c] := by
      have := congrArg List.reverse hr
      simpa using this
    by_cases hc : isBreak c = true
    · rw [if_pos hc] at hfin
      subst hfin
      rw [if_neg (by simp [hc])] at hchomp
      rw [List.append_nil] at g3
      by_cases hz : isBreakzO r.head? = true
      · rw [if_pos hz] at hchomp
        rw [hchomp]
        unfold ending
        cases hM : ls.getLast? with
        | none =>
          rw [List.getLast?_eq_none_iff] at hM
          subst hM
          rw [g3]; simp [content, fraw]
        | some M =>
          have hlne : ls ≠ [] := by rintro rfl; simp at hM
          rw [if_neg hlne, g3, fraw_content ls M hi hM]
          simp
      · rw [if_neg hz] at hchomp
        rw [hchomp]
        cases r with
        | nil => simp [isBreakzO] at hz
        | cons d r =>
          have hd' : isBreak d = false := by simpa [isBreakzO, isBreakO] using hz
          obtain ⟨k1, k2, M, k3, k4⟩ := hone (d :: r).reverse r.reverse c d (by rw [List.append_nil]; exact hvr) (by simp) hd'
          unfold ending
          rw [if_neg k1, k3, k2]
          simp only [k4]
          rw [hvr]; simp
    · have hc' : isBreak c = false := by simpa using hc
      rw [if_neg hc] at hfin
      obtain ⟨x, rfl, hbx⟩ := hfin
      rw [if_pos (by simp [hc'])] at hchomp
      rw [hchomp]
      obtain ⟨k1, k2, M, k3, k4⟩ := hone v r.reverse x c rfl hvr hc'
      unfold ending
      rw [if_neg k1, k3, k2]
      simp

/-- The text of a folded scalar denotes the value. -/
theorem writes_writeFolded (v : Str) (s : EState) (hl : s.lineBreak ≠ .any) (hi : 1 ≤ s.indent) (hb : 1 ≤ s.bestIndent ∧ s.bestIndent ≤ 9) (hv : BlockOk v)
    (hf : FoldSuffix v) (hh : v.head? ≠ some ' ') :
    ∃ s' w, Writes (writeFolded v) s () s' (sep s ++ '>' :: w) ∧ Wrote { s with openEnded := if chompFor v = .keep then 2 else 0 } (sep s ++ '>' :: w) s' ∧
      s'.whitespace = true ∧ s'.indention = endsBrk true v ∧ (endsBrk true v = true → s'.column = 0) ∧
      ∀ n0 T fin T' k rest, s.indent = (if 0 ≤ n0 then n0 else 0) + s.bestIndent → Tail s.lineBreak (endsBrk true v) T fin T' →
        T' = List.replicate k ' ' ++ rest → k < s.indent.toNat → Solid rest → BlockScalar true n0 ('>' :: w ++ T) v rest := by
  have hso := spaceOk_of hv
  obtain ⟨hch, hne, htr, hsb⟩ := hv
  obtain ⟨s1, w1, wr1, hw1, hi1⟩ := writes_indicator ['>'] false false s (by simp [isBreak])
  obtain ⟨s2, hd, w2, hhd, wr2, hdb⟩ := writes_blockHints v s1 (by rw [wr1.bestIndent]; exact hb)
  have hl2 : s2.lineBreak = s.lineBreak := by rw [wr2.lineBreak]; exact wr1.lineBreak
  have hin2 : s2.indent = s.indent := by rw [wr2.indent]; exact wr1.indent
  have h3 := (writes_putBreak s2).cast (w' := breakChars s.lineBreak) rfl (by rw [hl2])
  obtain ⟨s4, w4, i1, i2, i3, i4, i5, i6⟩ := writes_foldedLoop v true true { s2 with column := 0, line := s2.line + 1, whitespace := true, indention := true }
    (by show s2.lineBreak ≠ _; rw [hl2]; exact hl) (by show 1 ≤ s2.indent; rw [hin2]; exact hi) hch (fun _ => ⟨rfl, rfl⟩) rfl (by simp) hf hso (fun _ => hh) (by simp)
  refine ⟨s4, hd ++ (breakChars s.lineBreak ++ w4), ?_, ?_, i3, i4, fun h => i5 h (Or.inr rfl), ?_⟩
  · refine (w1.bind (f := fun _ => writeBlockHints v >>= fun _ => putBreak >>= fun _ => setWI true true >>= fun _ => foldedLoop v true true)
      (w2.bind (h3.bind (Writes.bind_modify (g := fun s => { s with whitespace := true, indention := true }) i1)))).cast rfl ?_
    simp
  · have a1 : Wrote { s with openEnded := if chompFor v = .keep then 2 else 0 } (sep s ++ ['>']) { s1 with openEnded := if chompFor v = .keep then 2 else 0 } := by
      refine ⟨?_, wr1.col⟩
      have := wr1.frame
      rw [this]
    have a3 : Wrote s2 (breakChars s.lineBreak) { s2 with column := 0, line := s2.line + 1, whitespace := true, indention := true } := by
      have := (wrote_putBreak (s := s2) (by rw [hl2]; exact hl)).setWI true true
      exact ⟨this.frame, by rw [this.col, hl2]⟩
    have := a1.trans (wr2.trans (a3.trans i2))
    simpa using this
  · intro n0 T fin T' k rest hn0 ht hT' hk hs
    obtain ⟨⟨bs, t2, ls, g1, g2, g2', g3⟩, j2, j3⟩ := (i6 T fin T' (by show Tail s2.lineBreak _ _ _ _; rw [hl2]; exact ht)).1 rfl
    have hin : ({ s2 with column := 0, line := s2.line + 1, whitespace := true, indention := true } : EState).indent = s.indent := hin2
    have hlb : ({ s2 with column := 0, line := s2.line + 1, whitespace := true, indention := true } : EState).lineBreak = s.lineBreak := hl2
    rw [hin] at g1 g2 j3
    rw [hlb] at j2
    refine ⟨hd, chompFor v, (if hinted v then s1.bestIndent.toNat else 0), [], breakChars s.lineBreak ++ (w4 ++ T), '\n', w4 ++ T, s.indent.toNat, bs, t2, ls, T', k, hhd,
      by simp, .blanks (sp := []) (by simp), breakAt_chars hl j2, ?_, ?_, g1, g2, hT', hk, hs, ?_⟩
    · rw [wr1.bestIndent]
      intro h
      cases hh : hinted v with
      | false => rw [hh] at h; simp at h
      | true => simp only [if_true]; omega
    · intro h
      have hnh : hinted v = false := by
        cases hh : hinted v with
        | false => rfl
        | true =>
          rw [hh, wr1.bestIndent] at h
          simp only [if_true] at h
          omega
      refine ⟨by split at hn0 <;> omega, by omega, ?_⟩
      refine (fun ⟨x, r, hr, hx, hxb⟩ => first_line hr hx hxb g1 g2 hT' hk hs) (?_ : ∃ x r, w4 ++ T = List.replicate s.indent.toNat ' ' ++ x :: r ∧ ¬ IsBlank x ∧ isLineBreak x = false)
      unfold hinted at hnh
      simp only [Bool.or_eq_false_iff] at hnh
      cases v with
      | nil => exact absurd rfl hne
      | cons x v =>
        have hpx := hch x List.mem_cons_self
        have hxs : x ≠ ' ' := by rintro rfl; simp [isSpaceO] at hnh
        have hxb : isBreak x = false := by simpa [isBreakO] using hnh.2
        obtain ⟨r', hr'⟩ := j3 x v rfl hxb
        refine ⟨x, r', hr', ?_, by rw [isLineBreak_eq]; exact hxb⟩
        rintro (h | h)
        · exact hxs h
        · exact printable_noTab hpx h
    · refine folded_value hne g1 g2 g2' g3 ?_
      split
      · rename_i h; exact (ht.1 h).1
      · rename_i h
        obtain ⟨c, h1, h2⟩ := ht.2 (by simpa using h)
        exact ⟨c, h1, breakAt_isBreak h2⟩

end Yaml.Emitter
