import Verif.Lib.EmitFolded
import Verif.Spec.Folds

/-
What `write_folded_scalar` writes denotes the value, with lines that start with spaces.
-/

namespace Yaml.Emitter
open Yaml Spec
set_option linter.unusedSimpArgs false
set_option linter.unusedVariables false

/-- The breaks between a line (more indented: `p`) that ends with `c`, the breaks `bs` after it, and the lines `ls`. -/
def btw (p : Bool) (c : Char) (bs : Str) : List Line → Str
  | [] => c :: bs
  | m :: _ => if c = '\n' ∧ p = false ∧ m.indented = false then (if bs = [] then [' '] else bs) else c :: bs

def graw : List Line → Str
  | [] => []
  | l :: ls => l.text ++ (btw l.indented l.brk l.blank ls ++ graw ls)

theorem graw_content : ∀ (ls : List Line) (M : Line), ls.getLast? = some M → graw ls = content true ls ++ M.brk :: M.blank := by
  intro ls
  induction ls with
  | nil => intro M h; cases h
  | cons l ls ih =>
    intro M h
    cases ls with
    | nil => simp at h; subst h; simp [graw, content, btw]
    | cons m ls =>
      rw [List.getLast?_cons_cons] at h
      rw [graw, ih M h, show content true (l :: m :: ls) = l.text ++ (between true l m ++ content true (m :: ls)) from rfl]
      unfold btw between
      simp

theorem graw_nonbreak {n : Nat} {t T : Str} {ls : List Line} (h : Lines n t ls T) (hne : ls ≠ []) : ∃ d ∈ graw ls, isBreak d = false := by
  cases h with
  | done => exact absurd rfl hne
  | @line l _ _ _ _ _ _ ls hl hn hb hbl h =>
    cases l with
    | nil => exact absurd rfl hl
    | cons x l => exact ⟨x, by simp [graw], by rw [← isLineBreak_eq]; exact hn x List.mem_cons_self⟩

/-- At the line feeds that matter the look-ahead tells what the next line needs. -/
def FoldAt : Bool → Bool → Str → Prop
  | _, _, [] => True
  | b, p, c :: cs =>
    if isBreak c then (b = false → p = false → c = '\n' → ∀ x r, cs.dropWhile isBreak = x :: r → (x = ' ' ↔ isBlankzO r.head? = true)) ∧ FoldAt true p cs
    else FoldAt false (if b then isBlank c else p) cs

/-- The value of the scalar, from its lines. -/
theorem folded_value2 {v bs fin : Str} {ls : List Line} {n : Nat} {t1 t2 T' : Str} (hne : v ≠ []) (g1 : BlankLines n t1 bs t2) (g2 : Lines n t2 ls T')
    (g3 : v ++ fin = bs ++ graw ls) (hfin : if endsBrk true v then fin = [] else ∃ c, fin = [c] ∧ isBreak c = true) :
    v = (if ls = [] then [] else bs) ++ content true ls ++ ending (chompFor v) bs ls := by
  have hbs := g1.breaks
  have hls := g2.breaks
  rw [endsBrk_last] at hfin
  have hchomp : chompFor v = match v.reverse with | [] => .strip | c :: rest => if !isBreak c then .strip else if isBreakzO rest.head? then .keep else .clip := rfl
  -- chopping one break off
  have hone : ∀ (y y0 : Str) (b d : Char), v ++ fin = y ++ [b] → y = y0 ++ [d] → isBreak d = false →
      ls ≠ [] ∧ bs ++ content true ls = y ∧ ∃ M, ls.getLast? = some M ∧ M.brk = b := by
    intro y y0 b d hy hy0 hd
    subst hy0
    rw [g3] at hy
    cases hM : ls.getLast? with
    | none =>
      rw [List.getLast?_eq_none_iff] at hM
      subst hM
      exfalso
      simp [graw] at hy
      have := hbs d (by rw [hy]; simp)
      rw [hd] at this; cases this
    | some M =>
      have hne : ls ≠ [] := by rintro rfl; simp at hM
      rw [graw_content ls M hM] at hy
      obtain ⟨hb1, hb2⟩ := hls M (List.mem_of_getLast? hM)
      have hbl : M.blank = [] := by
        rcases List.eq_nil_or_concat M.blank with h0 | ⟨z, x, h0⟩
        · exact h0
        · exfalso
          rw [h0] at hy
          have h' : (bs ++ content true ls ++ M.brk :: z) ++ [x] = (y0 ++ [d]) ++ [b] := by simpa using hy
          have h1 := (List.append_inj' h' rfl).1
          rcases List.eq_nil_or_concat z with h2 | ⟨z', x', h2⟩
          · subst h2
            have h3 := (List.append_inj' (s₁ := bs ++ content true ls) (t₁ := [M.brk]) (s₂ := y0) (t₂ := [d]) (by simpa using h1) rfl).2
            simp at h3
            rw [h3, hd] at hb1; cases hb1
          · subst h2
            have h3 := (List.append_inj' (s₁ := bs ++ content true ls ++ M.brk :: z') (t₁ := [x']) (s₂ := y0) (t₂ := [d]) (by simpa using h1) rfl).2
            simp at h3
            have := hb2 x' (by rw [h0]; simp)
            rw [h3, hd] at this; cases this
      rw [hbl] at hy
      have h' : (bs ++ content true ls) ++ [M.brk] = (y0 ++ [d]) ++ [b] := by simpa using hy
      obtain ⟨h1, h2⟩ := List.append_inj' h' rfl
      simp at h2
      exact ⟨hne, h1, M, rfl, h2⟩
  cases hr : v.reverse with
  | nil => simp at hr; exact absurd hr hne
  | cons c r =>
    rw [hr] at hchomp hfin
    simp only [] at hchomp hfin
    have hvr : v = r.reverse ++ [c] := by
      have := congrArg List.reverse hr
      simpa using this
    by_cases hc : isBreak c = true
    · rw [if_pos hc] at hfin
      subst hfin
      rw [if_neg (by simp [hc])] at hchomp
      rw [List.append_nil] at g3
      by_cases hz : isBreakzO r.head? = true
      · rw [if_pos hz] at hchomp
        rw [hchomp]
        unfold ending
        cases hM : ls.getLast? with
        | none =>
          rw [List.getLast?_eq_none_iff] at hM
          subst hM
          rw [g3]; simp [content, graw]
        | some M =>
          have hlne : ls ≠ [] := by rintro rfl; simp at hM
          rw [if_neg hlne, g3, graw_content ls M hM]
          simp
      · rw [if_neg hz] at hchomp
        rw [hchomp]
        cases r with
        | nil => simp [isBreakzO] at hz
        | cons d r =>
          have hd' : isBreak d = false := by simpa [isBreakzO, isBreakO] using hz
          obtain ⟨k1, k2, M, k3, k4⟩ := hone (d :: r).reverse r.reverse c d (by rw [List.append_nil]; exact hvr) (by simp) hd'
          unfold ending
          rw [if_neg k1, k3, k2]
          simp only [k4]
          rw [hvr]; simp
    · have hc' : isBreak c = false := by simpa using hc
      rw [if_neg hc] at hfin
      obtain ⟨x, rfl, hbx⟩ := hfin
      rw [if_pos (by simp [hc'])] at hchomp
      rw [hchomp]
      obtain ⟨k1, k2, M, k3, k4⟩ := hone v r.reverse x c rfl hvr hc'
      unfold ending
      rw [if_neg k1, k3, k2]
      simp


theorem takeWhile_head_none {r : Str} (h : ∀ c ∈ r, c ≠ '\t') :
    ((firstLine r).head? = none ∨ (firstLine r).head? = some ' ') ↔ isBlankzO r.head? = true := by
  cases r with
  | nil => simp [firstLine, isBlankzO, isBlankO, isBreakzO]
  | cons y r =>
    have hy := h y List.mem_cons_self
    by_cases hb : isLineBreak y = true
    · simp [firstLine, List.takeWhile_cons, hb, isBlankzO, isBreakzO, isBreakO, ← isLineBreak_eq]
    · have hb' : isLineBreak y = false := by simpa using hb
      simp [firstLine, List.takeWhile_cons, hb', isBlankzO, isBreakzO, isBreakO, ← isLineBreak_eq, isBlankO, isSpaceO, isTabO, hy]

/-- What the specification says of the look-ahead. -/
theorem foldAt_iff : ∀ (cs l : Str) (b p : Bool), (b = true ↔ l = []) → (b = false → p = (l.head? == some ' ')) → (∀ c ∈ cs, c ≠ '\t') →
    (FoldAt b p cs ↔ foldsWell l cs = true) := by
  intro cs
  induction cs with
  | nil => intros; simp [FoldAt, foldsWell]
  | cons c cs ih =>
    intro l b p hb hp ht
    have ht' : ∀ d ∈ cs, d ≠ '\t' := fun d hd => ht d (List.mem_cons_of_mem _ hd)
    rw [foldsWell, FoldAt]
    by_cases hc : isLineBreak c = true
    · rw [if_pos hc, if_pos (by rw [← isLineBreak_eq]; exact hc), Bool.and_eq_true, ih [] true p (by simp) (by simp) ht']
      refine and_congr ?_ Iff.rfl
      cases hbr : b with
      | true => rw [hb.1 hbr]; simp
      | false =>
        have hle : l.isEmpty = false := by
          cases l with
          | nil => rw [hb.2 rfl] at hbr; cases hbr
          | cons => rfl
        have hls : (l.head? == some ' ') = p := (hp hbr).symm
        have hfe : isLineBreak = isBreak := funext isLineBreak_eq
        rw [hle, hfe]
        by_cases hcn : c = '\n'
        · cases hd : cs.dropWhile isBreak with
          | nil => simp [firstLine, foldTold]
          | cons x r =>
            have hx : isBreak x = false := by
              have := List.head?_dropWhile_not isBreak cs
              rw [hd] at this
              simpa using this
            have hf : firstLine (x :: r) = x :: firstLine r := by simp [firstLine, List.takeWhile_cons, hfe, hx]
            have hr : ∀ d ∈ r, d ≠ '\t' := fun d hd' => ht' d ((List.dropWhile_sublist isBreak).mem (by rw [hd]; simp [hd']))
            rw [hf]
            have hloc : (∀ x_1 r_1, x :: r = x_1 :: r_1 → (x_1 = ' ' ↔ isBlankzO r_1.head? = true)) ↔ (x = ' ' ↔ isBlankzO r.head? = true) := by
              constructor
              · intro h; exact h x r rfl
              · rintro h _ _ e; cases e; exact h
            rw [hloc, ← takeWhile_head_none hr]
            simp only [foldTold, hls, List.isEmpty_cons, Bool.false_or, hcn, bne_self_eq_false]
            cases p with
            | true => simp
            | false =>
              cases hfr : firstLine r with
              | nil => simp
              | cons y q =>
                simp
                rw [Bool.eq_iff_iff]
                simp
        · simp [hcn]
    · rw [if_neg hc, if_neg (by rw [← isLineBreak_eq]; exact hc)]
      refine ih (l ++ [c]) false _ (by simp) ?_ ht'
      intro _
      cases l with
      | nil => rw [hb.2 rfl]; simp [isBlank, isSpace, ht c List.mem_cons_self]
      | cons y l =>
        have hbf : b = false := by cases b with | false => rfl | true => exact absurd (hb.1 rfl) (by simp)
        rw [hbf, if_neg (by simp), hp hbf]; simp

end Yaml.Emitter
