import Verif.Lib.EmitFolded2

/-
What `write_folded_scalar` writes denotes some value, for every string; which one equal the string written.
-/

namespace Yaml.Emitter
open Yaml Spec
set_option linter.unusedSimpArgs false
set_option linter.unusedVariables false

/-- No space of an indented line is replaced. -/
def KeptAt (w i : Int) : Bool → Bool → Int → Str → Prop
  | _, _, _, [] => True
  | b, p, k, c :: cs =>
    if isBreak c then KeptAt w i true p 0 cs
    else (b = false → p = true → c = ' ' → isSpaceO cs.head? = false → k ≤ w) ∧ KeptAt w i false (if b then isBlank c else p) ((if b then i else k) + 1) cs

/-- The two end alike. -/
def SameEnd (cs u : Str) : Prop :=
  (∃ a b y z, cs = a ++ y :: z ∧ u = b ++ y :: z ∧ isBreak y = false) ∨ ((∀ c ∈ cs, isBreak c = true) ∧ u = cs)

theorem SameEnd.cons {c : Char} {cs u : Str} (h : SameEnd cs u) : SameEnd (c :: cs) (c :: u) := by
  rcases h with ⟨a, b, y, z, rfl, rfl, h⟩ | ⟨h1, rfl⟩
  · exact .inl ⟨c :: a, c :: b, y, z, rfl, rfl, h⟩
  · by_cases hc : isBreak c = true
    · refine .inr ⟨?_, rfl⟩
      intro d hd
      rcases List.mem_cons.1 hd with rfl | hd
      · exact hc
      · exact h1 d hd
    · exact .inl ⟨[], [], c, u, rfl, rfl, by simpa using hc⟩

theorem SameEnd.any {c x : Char} {cs u : Str} (h : SameEnd cs u) (hx : x ∈ cs) (hb : isBreak x = false) (w : Str) : SameEnd (c :: cs) (w ++ u) := by
  rcases h with ⟨a, b, y, z, rfl, rfl, h⟩ | ⟨h1, rfl⟩
  · exact .inl ⟨c :: a, w ++ b, y, z, rfl, by simp, h⟩
  · rw [h1 x hx] at hb; cases hb

theorem SameEnd.nonbreak {x : Char} {cs u : Str} (h : SameEnd cs u) (hx : x ∈ cs) (hb : isBreak x = false) : ∃ y ∈ u, isBreak y = false := by
  rcases h with ⟨a, b, y, z, rfl, rfl, h⟩ | ⟨h1, rfl⟩
  · exact ⟨y, by simp, h⟩
  · rw [h1 x hx] at hb; cases hb

theorem SameEnd.breaks {cs u : Str} (h : SameEnd cs u) (hb : ∀ c ∈ cs, isBreak c = true) : u = cs := by
  rcases h with ⟨a, b, y, z, rfl, rfl, h⟩ | ⟨h1, rfl⟩
  · rw [hb y (by simp)] at h; cases h
  · rfl

theorem endsBrk_append (q : Bool) (a : Str) (y : Char) (z : Str) : endsBrk q (a ++ y :: z) = endsBrk (isBreak y) z := by
  induction a generalizing q with
  | nil => rfl
  | cons c a ih => exact ih _

theorem SameEnd.endsBrk {cs u : Str} (h : SameEnd cs u) (q : Bool) : endsBrk q u = Yaml.Emitter.endsBrk q cs := by
  rcases h with ⟨a, b, y, z, rfl, rfl, h⟩ | ⟨h1, rfl⟩
  · rw [endsBrk_append, endsBrk_append]
  · rfl

theorem SameEnd.chomp {cs u : Str} (h : SameEnd cs u) : chompFor u = chompFor cs := by
  rcases h with ⟨a, b, y, z, rfl, rfl, h⟩ | ⟨h1, rfl⟩
  · unfold chompFor
    simp only [List.reverse_append, List.reverse_cons, List.append_assoc]
    cases hz : z.reverse with
    | nil => simp [h]
    | cons d r =>
      cases r with
      | nil => simp; rfl
      | cons e r => simp; rfl
  · rfl

/-- Breaks before the first other character are not mixed up. -/
theorem breaks_unique : ∀ {a b : Str} {x y : Char} {r q : Str}, (∀ c ∈ a, isBreak c = true) → (∀ c ∈ b, isBreak c = true) → isBreak x = false → isBreak y = false →
    a ++ x :: r = b ++ y :: q → a = b := by
  intro a
  induction a with
  | nil =>
    intro b x y r q ha hb hx hy e
    cases b with
    | nil => rfl
    | cons d b => simp at e; rw [e.1, hb d (by simp)] at hx; cases hx
  | cons c a ih =>
    intro b x y r q ha hb hx hy e
    cases b with
    | nil => simp at e; rw [← e.1, ha c (by simp)] at hy; cases hy
    | cons d b =>
      simp at e
      rw [e.1, ih (fun c hc => ha c (List.mem_cons_of_mem _ hc)) (fun c hc => hb c (List.mem_cons_of_mem _ hc)) hx hy e.2]

theorem writes_foldedLoop3 (W i : Int) : ∀ (cs : Str) (breaks ls0 : Bool) (col : Int) (s : EState), s.bestWidth = W → s.indent = i → s.lineBreak ≠ .any → 1 ≤ s.indent →
    (∀ c ∈ cs, isPrintable c = true) → (breaks = true → s.column = 0 ∧ s.indention = true) → s.whitespace = true → (breaks = false → s.indention = false) →
    SpaceOk cs →
    ∃ s' w, Writes (foldedLoop cs breaks ls0) s () s' w ∧ Wrote s w s' ∧ s'.whitespace = true ∧ s'.indention = endsBrk breaks cs ∧
      (endsBrk breaks cs = true → cs ≠ [] ∨ breaks = true → s'.column = 0) ∧
      ∀ T fin T' p, Tail s.lineBreak (endsBrk breaks cs) T fin T' → ∃ u, SameEnd cs u ∧
        (breaks = true → ∀ b0 x r, (∀ c ∈ b0, isBreak c = true) → isBreak x = false → cs = b0 ++ x :: r → ∃ r', u = b0 ++ x :: r') ∧
        (breaks = false → ∀ d r, cs = d :: r → isBreak d = false → d ≠ ' ' → ∃ r', u = d :: r') ∧
        ((breaks = false → p = ls0) → (breaks = false → ls0 = true → s.column = col) → (u = cs ↔ FoldAt breaks ls0 cs ∧ KeptAt W i breaks ls0 col cs)) ∧
        (breaks = true → (∃ bs t2 ls, BlankLines s.indent.toNat (w ++ T) bs t2 ∧ Lines s.indent.toNat t2 ls T' ∧
          u ++ fin = bs ++ graw ls) ∧ (s.lineBreak ≠ .cr ∨ (w ++ T).head? ≠ some '\n') ∧
          (∀ x r, cs = x :: r → isBreak x = false → ∃ r', w ++ T = List.replicate s.indent.toNat ' ' ++ x :: r')) ∧
        (breaks = false → ∃ l t c t1 bs t2 ls, w ++ T = l ++ t ∧ (∀ x ∈ l, isLineBreak x = false) ∧ BreakAt t c t1 ∧
          BlankLines s.indent.toNat t1 bs t2 ∧ Lines s.indent.toNat t2 ls T' ∧ u ++ fin = l ++ (btw p c bs ls ++ graw ls)) := by
  intro cs
  induction cs with
  | nil =>
    intro breaks ls0 col s hW hI hl hi hp hb hw hnb hs
    refine ⟨s, [], Writes.pure () s, Wrote.refl s, hw, ?_, ?_, ?_⟩
    · cases breaks with
      | true => exact (hb rfl).2
      | false => exact hnb rfl
    · rintro h1 (h | h)
      · exact absurd rfl h
      · exact (hb h).1
    · rintro T fin T' p ⟨h1, h2⟩
      refine ⟨[], .inr ⟨by simp, rfl⟩, by simp, by simp, fun _ _ => by simp [FoldAt, KeptAt], fun hbt => ?_, fun hbf => ?_⟩
      · obtain ⟨rfl, rfl, h3⟩ := h1 hbt
        exact ⟨⟨[], _, [], .stop _, .done _, rfl⟩, h3, by simp⟩
      · obtain ⟨c, rfl, h3⟩ := h2 hbf
        exact ⟨[], T, c, T', [], T', [], rfl, by simp, h3, .stop _, .done _, rfl⟩
  | cons c cs ih =>
    intro breaks ls0 col s hW hI hl hi hp hb hw hnb hs
    have hpc := hp c List.mem_cons_self
    have hp' : ∀ d ∈ cs, isPrintable d = true := fun d hd => hp d (List.mem_cons_of_mem _ hd)
    rw [show foldedLoop (c :: cs) breaks ls0 = _ from by unfold foldedLoop; rfl]
    by_cases hk : isBreak c = true
    · rw [if_pos hk]
      have hcc := printable_break hpc hk
      -- the additional line break
      have hwr : ∃ s0 w0, Writes (M.when (!breaks && !ls0 && c == '\n' && foldedLookahead cs) putBreak) s () s0 w0 ∧ Wrote s w0 s0 ∧ s0.whitespace = true ∧
          w0 = if (!breaks && !ls0 && c == '\n' && foldedLookahead cs) then breakChars s.lineBreak else [] := by
        cases hx : (!breaks && !ls0 && c == '\n' && foldedLookahead cs) with
        | true => exact ⟨_, _, Writes.when_true rfl (writes_putBreak s), wrote_putBreak hl, hw, rfl⟩
        | false => exact ⟨s, [], Writes.when_false rfl, Wrote.refl s, hw, rfl⟩
      obtain ⟨s0, w0, hw0, hwr0, hws0, hw0e⟩ := hwr
      obtain ⟨s', w, i1, i2, i3, i4, i5, i6⟩ := ih true ls0 0 { s0 with column := 0, line := s0.line + 1, indention := true } (by show s0.bestWidth = _; rw [hwr0.frame]; exact hW) (by show s0.indent = _; rw [hwr0.indent]; exact hI)
        (by show s0.lineBreak ≠ _; rw [hwr0.lineBreak]; exact hl) (by show 1 ≤ s0.indent; rw [hwr0.indent]; exact hi) hp' (fun _ => ⟨rfl, rfl⟩) hws0 (by simp)
        hs.tail
      refine ⟨s', w0 ++ (breakText s.lineBreak c ++ w), ?_, ?_, i3, ?_, ?_, ?_⟩
      · have := writes_writeBreak c s0
        rw [hwr0.lineBreak] at this
        exact hw0.bind ((writes_writeBreak c s0).cast rfl (by rw [hwr0.lineBreak]) |>.bind (Writes.bind_modify (g := fun s => { s with indention := true }) i1))
      · have := (wrote_break (s := s0) (by rw [hwr0.lineBreak]; exact hl) hk).setI true
        exact hwr0.trans (Wrote.trans ⟨this.frame, by rw [this.col, hwr0.lineBreak]⟩ i2)
      · rw [i4]; simp [endsBrk, hk]
      · intro h _; exact i5 (by simpa [endsBrk, hk] using h) (Or.inr rfl)
      · intro T fin T' p ht
        have ht' : Tail s0.lineBreak (endsBrk true cs) T fin T' := by rw [hwr0.lineBreak]; simpa [endsBrk, hk] using ht
        obtain ⟨u, u1, u2, _, u3, u4, _⟩ := i6 T fin T' false ht'
        have u2 := u2 rfl
        have u3 := u3 (by simp) (by simp)
        obtain ⟨⟨bs, t2, ls, j1, j2, j4⟩, j5, _⟩ := u4 rfl
        have j1 : BlankLines s.indent.toNat (w ++ T) bs t2 := by
          have := j1; rw [show ({ s0 with column := 0, line := s0.line + 1, indention := true } : EState).indent = s0.indent from rfl, hwr0.indent] at this; exact this
        have j2 : Lines s.indent.toNat t2 ls T' := by
          have := j2; rw [show ({ s0 with column := 0, line := s0.line + 1, indention := true } : EState).indent = s0.indent from rfl, hwr0.indent] at this; exact this
        have j5 : s.lineBreak ≠ .cr ∨ (w ++ T).head? ≠ some '\n' := by
          have := j5; rw [show ({ s0 with column := 0, line := s0.line + 1, indention := true } : EState).lineBreak = s0.lineBreak from rfl, hwr0.lineBreak] at this; exact this
        have hba : BreakAt (breakText s.lineBreak c ++ (w ++ T)) c (w ++ T) := breakAt_text hl hcc j5
        have hhd := breakText_head hl hcc (w ++ T)
        have hFA : ∀ q, FoldAt q ls0 (c :: cs) ↔ ((q = false → ls0 = false → c = '\n' → ∀ x r, cs.dropWhile isBreak = x :: r → (x = ' ' ↔ isBlankzO r.head? = true)) ∧ FoldAt true ls0 cs) := by
          intro q; rw [FoldAt, if_pos hk]
        have hKA : ∀ q, KeptAt W i q ls0 col (c :: cs) ↔ KeptAt W i true ls0 0 cs := by
          intro q; rw [KeptAt, if_pos hk]
        cases hbr : breaks with
        | true =>
          refine ⟨c :: u, u1.cons, ?_, by simp, ?_, fun _ => ?_, by simp⟩
          · intro _ b0 x r hb0 hx e
            cases b0 with
            | nil => simp at e; rw [← e.1, hk] at hx; cases hx
            | cons y b0 =>
              simp at e
              obtain ⟨r', hr'⟩ := u2 b0 x r (fun d hd => hb0 d (List.mem_cons_of_mem _ hd)) hx e.2
              exact ⟨r', by rw [e.1, hr']; rfl⟩
          · intro _ _
            rw [hFA, hKA, List.cons.injEq, u3]
            simp
          · rw [hw0e, hbr]
            simp only [Bool.not_true, Bool.false_and, Bool.false_eq_true, if_false, List.nil_append, List.append_assoc]
            refine ⟨⟨c :: bs, t2, ls, .line (k := 0) (Nat.zero_le _) hba j1, j2, ?_⟩, hhd, ?_⟩
            · rw [List.cons_append, j4]; rfl
            · intro x r hx hxb; cases hx; rw [hk] at hxb; cases hxb
        | false =>
          rw [hbr] at hw0e
          simp only [Bool.not_false, Bool.true_and] at hw0e
          have hj := j1.breaks
          -- the values that are possible
          have mk : ∀ (v bs' : Str) (T1 : Str), v ++ fin = btw p c bs' ls ++ graw ls → SameEnd (c :: cs) v →
              ((p = ls0) → (v = c :: cs ↔ FoldAt false ls0 (c :: cs) ∧ KeptAt W i false ls0 col (c :: cs))) →
              w0 ++ (breakText s.lineBreak c ++ w) ++ T = T1 → (∃ t1, BreakAt T1 c t1 ∧ BlankLines s.indent.toNat t1 bs' t2) → _ :=
            fun v bs' T1 hv he hq hT1 ⟨t1, hB, hL⟩ => (⟨v, he, by simp, (by
                intro _ d r e hd; simp at e; rw [← e.1, hk] at hd; cases hd), fun h _ => hq (h rfl), by simp, fun _ =>
                ⟨[], T1, c, t1, bs', t2, ls, by rw [hT1]; rfl, by simp, hB, hL, j2, by rw [List.nil_append]; exact hv⟩⟩ :
              ∃ u, SameEnd (c :: cs) u ∧
                (false = true → ∀ b0 x r, (∀ c ∈ b0, isBreak c = true) → isBreak x = false → c :: cs = b0 ++ x :: r → ∃ r', u = b0 ++ x :: r') ∧
                (false = false → ∀ d r, c :: cs = d :: r → isBreak d = false → d ≠ ' ' → ∃ r', u = d :: r') ∧
                ((false = false → p = ls0) → (false = false → ls0 = true → s.column = col) → (u = c :: cs ↔ FoldAt false ls0 (c :: cs) ∧ KeptAt W i false ls0 col (c :: cs))) ∧
                (false = true → (∃ bs t2 ls, BlankLines s.indent.toNat (w0 ++ (breakText s.lineBreak c ++ w) ++ T) bs t2 ∧ Lines s.indent.toNat t2 ls T' ∧
                  u ++ fin = bs ++ graw ls) ∧ (s.lineBreak ≠ Break.cr ∨ (w0 ++ (breakText s.lineBreak c ++ w) ++ T).head? ≠ some '\n') ∧
                  (∀ x r, c :: cs = x :: r → isBreak x = false → ∃ r', w0 ++ (breakText s.lineBreak c ++ w) ++ T = List.replicate s.indent.toNat ' ' ++ x :: r')) ∧
                (false = false → ∃ l t c1 t1 bs t2 ls, w0 ++ (breakText s.lineBreak c ++ w) ++ T = l ++ t ∧ (∀ x ∈ l, isLineBreak x = false) ∧ BreakAt t c1 t1 ∧
                  BlankLines s.indent.toNat t1 bs t2 ∧ Lines s.indent.toNat t2 ls T' ∧ u ++ fin = l ++ (btw p c1 bs ls ++ graw ls)))
          cases hd : cs.dropWhile isBreak with
          | nil =>
            have hall := dropWhile_breaks hd
            have hx' : foldedLookahead cs = false := by simp [foldedLookahead, hd, isBlankzO, isBlankO, isBreakzO]
            rw [hx', Bool.and_false] at hw0e
            simp at hw0e
            have hfin := (ht'.1 (endsBrk_all hall)).1
            have hu := u1.breaks hall
            have hlne : ls = [] := by
              by_cases h : ls = []
              · exact h
              · obtain ⟨d, hd1, hd2⟩ := graw_nonbreak j2 h
                rw [hfin, List.append_nil, hu] at j4
                rw [hall d (by rw [j4]; exact List.mem_append_right _ hd1)] at hd2
                cases hd2
            refine mk (c :: u) bs _ ?_ u1.cons ?_ rfl ⟨w ++ T, by rw [hw0e]; simpa using hba, j1⟩
            · rw [hlne] at j4 ⊢
              simp [btw, graw] at j4 ⊢
              exact j4
            · intro _
              rw [hFA, hKA, List.cons.injEq, u3]
              simp [hd]
          | cons x r =>
            have hx : isBreak x = false := by
              have := List.head?_dropWhile_not isBreak cs
              rw [hd] at this
              simpa using this
            obtain ⟨b0, hb1, hb2⟩ := dropWhile_split cs
            rw [hd] at hb1
            obtain ⟨r', hu⟩ := u2 b0 x r hb2 hx hb1
            have hxm : x ∈ cs := by rw [hb1]; simp
            obtain ⟨m, ls', hlse, hm⟩ : ∃ m ls', ls = m :: ls' ∧ m.indented = isBlank x := by
              have e : (u ++ fin).dropWhile isBreak = x :: (r' ++ fin) := by
                rw [hu, List.append_assoc, List.dropWhile_append_of_pos hb2, List.cons_append, List.dropWhile_cons, hx]; simp
              rw [j4, List.dropWhile_append_of_pos hj] at e
              cases j2 with
              | done => simp [graw] at e
              | @line l _ _ _ _ _ _ ls hl hn hb hbl h =>
                cases l with
                | nil => exact absurd rfl hl
                | cons y l =>
                  have hy : isBreak y = false := by rw [← isLineBreak_eq]; exact hn y List.mem_cons_self
                  simp [graw, List.dropWhile_cons, hy] at e
                  exact ⟨_, _, rfl, by rw [e.1]; simp [Line.indented, isBlank, isSpace]⟩
            have hxp : x ≠ '\t' := fun h => printable_noTab (hp' x hxm) h
            have hbx : isBlank x = true ↔ x = ' ' := by simp [isBlank, isSpace, hxp]
            have hlk : foldedLookahead cs = !isBlankzO r.head? := by simp [foldedLookahead, hd]
            have hloc : (∀ x_1 r_1, x :: r = x_1 :: r_1 → (x_1 = ' ' ↔ isBlankzO r_1.head? = true)) ↔ (x = ' ' ↔ isBlankzO r.head? = true) := by
              constructor
              · intro h; exact h x r rfl
              · rintro h _ _ e; cases e; exact h
            have hgood : ((false = false → ls0 = false → c = '\n' → ∀ x_1 r_1, x :: r = x_1 :: r_1 → (x_1 = ' ' ↔ isBlankzO r_1.head? = true))) ↔
                (ls0 = false → c = '\n' → (x = ' ' ↔ isBlankzO r.head? = true)) := by
              rw [hloc]; simp
            rw [hd] at hFA
            by_cases hX : (!ls0 && (c == '\n' && foldedLookahead cs)) = true
            · have hw0' : w0 = breakChars s.lineBreak := by rw [hw0e, if_pos (by simpa [Bool.and_assoc] using hX)]
              simp only [Bool.and_eq_true, Bool.not_eq_true', beq_iff_eq] at hX
              obtain ⟨e1, e2, e3⟩ := hX
              rw [hlk] at e3
              have hz : isBlankzO r.head? = false := by simpa using e3
              have hbrk : ∃ t1, BreakAt (w0 ++ (breakText s.lineBreak c ++ w) ++ T) c t1 ∧ BlankLines s.indent.toNat t1 (c :: bs) t2 := by
                refine ⟨breakText s.lineBreak c ++ (w ++ T), ?_, .line (k := 0) (Nat.zero_le _) hba j1⟩
                rw [hw0']
                have := breakAt_chars hl hhd
                rw [e2] at this ⊢
                simpa using this
              by_cases hFo : c = '\n' ∧ p = false ∧ m.indented = false
              · refine mk (c :: u) (c :: bs) _ ?_ u1.cons ?_ rfl hbrk
                · rw [hlse, btw, if_pos hFo, ← hlse]; simp [j4]
                · intro _
                  have hxs : ¬ x = ' ' := by
                    intro h; rw [hbx.2 h] at hm; rw [hm] at hFo; simp at hFo
                  rw [hFA, hKA, hgood, List.cons.injEq, u3]
                  simp [hxs, hz]
              · refine mk (c :: c :: u) (c :: bs) _ ?_ (u1.any hxm hx [c, c]) ?_ rfl hbrk
                · rw [hlse, btw, if_neg hFo, ← hlse]; simp [j4]
                · intro hpl
                  have hmi : m.indented = true := by
                    by_cases h : m.indented = true
                    · exact h
                    · exact absurd ⟨e2, by rw [hpl]; exact e1, by simpa using h⟩ hFo
                  have hxs : x = ' ' := by rw [hm] at hmi; exact hbx.1 hmi
                  rw [hFA, hKA, hgood]
                  constructor
                  · intro e
                    exfalso
                    simp only [List.cons.injEq, true_and] at e
                    rw [hu, hb1] at e
                    have := breaks_unique (a := c :: b0) (b := b0) (by
                      intro d hd
                      rcases List.mem_cons.1 hd with rfl | hd
                      · exact hk
                      · exact hb2 d hd) hb2 hx hx (by simpa using e)
                    have := congrArg List.length this
                    simp at this
                  · rintro ⟨⟨h, _⟩, _⟩
                    have := (h e1 e2).1 hxs
                    rw [hz] at this; cases this
            · have hw0' : w0 = [] := by rw [hw0e, if_neg (by simpa [Bool.and_assoc] using hX)]
              have hbrk : ∃ t1, BreakAt (w0 ++ (breakText s.lineBreak c ++ w) ++ T) c t1 ∧ BlankLines s.indent.toNat t1 bs t2 :=
                ⟨w ++ T, by rw [hw0']; simpa using hba, j1⟩
              by_cases hFo : c = '\n' ∧ p = false ∧ m.indented = false
              · have hxs : ¬ x = ' ' := by
                  intro h; rw [hbx.2 h] at hm; rw [hm] at hFo; simp at hFo
                have hbad : p = ls0 → ¬ (ls0 = false → c = '\n' → (x = ' ' ↔ isBlankzO r.head? = true)) := by
                  intro hpl h
                  have h1 := h (by rw [← hpl]; exact hFo.2.1) hFo.1
                  have h2 : isBlankzO r.head? = false := by
                    have := mt h1.2 hxs; simpa using this
                  refine hX ?_
                  rw [hlk, h2, ← hpl, hFo.2.1, hFo.1]; rfl
                by_cases hbs : bs = []
                · refine mk (' ' :: u) bs _ ?_ (u1.any hxm hx [' ']) ?_ rfl hbrk
                  · rw [hlse, btw, if_pos hFo, if_pos hbs, ← hlse]; simp [j4, hbs]
                  · intro hpl
                    rw [hFA, hKA, hgood]
                    constructor
                    · intro e
                      simp only [List.cons.injEq] at e
                      rw [hFo.1] at e
                      exact absurd e.1 (by decide)
                    · rintro ⟨⟨h, _⟩, _⟩
                      exact absurd h (hbad hpl)
                · refine mk u bs _ ?_ (u1.any hxm hx []) ?_ rfl hbrk
                  · rw [hlse, btw, if_pos hFo, if_neg hbs, ← hlse]; exact j4
                  · intro hpl
                    rw [hFA, hKA, hgood]
                    constructor
                    · intro e
                      exfalso
                      rw [hu, hb1] at e
                      have := breaks_unique (a := b0) (b := c :: b0) hb2 (by
                        intro d hd
                        rcases List.mem_cons.1 hd with rfl | hd
                        · exact hk
                        · exact hb2 d hd) hx hx (by simpa using e)
                      have := congrArg List.length this
                      simp at this
                    · rintro ⟨⟨h, _⟩, _⟩
                      exact absurd h (hbad hpl)
              · refine mk (c :: u) bs _ ?_ u1.cons ?_ rfl hbrk
                · rw [hlse, btw, if_neg hFo, ← hlse]; simp [j4]
                · intro hpl
                  rw [hFA, hKA, hgood, List.cons.injEq, u3]
                  have : ls0 = false → c = '\n' → (x = ' ' ↔ isBlankzO r.head? = true) := by
                    intro e1 e2
                    have hmi : m.indented = true := by
                      by_cases h : m.indented = true
                      · exact h
                      · exact absurd ⟨e2, by rw [hpl]; exact e1, by simpa using h⟩ hFo
                    have hxs : x = ' ' := by rw [hm] at hmi; exact hbx.1 hmi
                    have hz : isBlankzO r.head? = true := by
                      by_cases h : isBlankzO r.head? = true
                      · exact h
                      · exact absurd (by rw [hlk, e1, e2]; simpa using h) hX
                    simp [hxs, hz]
                  exact ⟨fun ⟨_, h1, h2⟩ => ⟨⟨this, h1⟩, h2⟩, fun ⟨⟨_, h1⟩, h2⟩ => ⟨rfl, h1, h2⟩⟩
    · rw [if_neg hk]
      have hk' : isBreak c = false := by simpa using hk
      have hlb : isLineBreak c = false := by rw [isLineBreak_eq]; exact hk'
      have hwr : ∃ s0 w0, Writes (M.when breaks writeIndent) s () s0 w0 ∧ Wrote s w0 s0 ∧ s0.whitespace = true ∧ (breaks = false → s0.indention = false) ∧
          s0.column = (if breaks then s.indent else s.column) ∧ w0 = if breaks then List.replicate s.indent.toNat ' ' else [] := by
        cases breaks with
        | true =>
          obtain ⟨h1, h2⟩ := writes_indent_col0 (hb rfl).1 hi (hb rfl).2
          exact ⟨_, _, Writes.when_true rfl h1, h2, rfl, by simp, rfl, rfl⟩
        | false => exact ⟨s, [], Writes.when_false rfl, Wrote.refl s, hw, fun _ => hnb rfl, rfl, rfl⟩
      obtain ⟨s0, w0, hw0, hwr0, hws0, hin0, hcol0, hw0e⟩ := hwr
      have hl0 : s0.lineBreak ≠ .any := by rw [hwr0.lineBreak]; exact hl
      have hi0 : 1 ≤ s0.indent := by rw [hwr0.indent]; exact hi
      by_cases hwrap : (!breaks && isSpace c && !isSpaceO cs.head? && decide (s0.column > s0.bestWidth)) = true
      · -- a space becomes a line break
        simp only [Bool.and_eq_true, Bool.not_eq_true', decide_eq_true_eq] at hwrap
        obtain ⟨⟨⟨hbf, hcs⟩, hns⟩, hcw⟩ := hwrap
        have hcs' : c = ' ' := by simpa [isSpace] using hcs
        subst hcs'
        have hnl : (if breaks then isBlank ' ' else ls0) = ls0 := by rw [hbf, if_neg (by simp)]
        obtain ⟨d, r, hd, hdb⟩ := hs [] cs rfl
        have hds : d ≠ ' ' := by rw [hd] at hns; simpa [isSpaceO] using hns
        have hdt : d ≠ '\t' := fun h => printable_noTab (hp' d (by rw [hd]; simp)) h
        have hbl : breaksLine s0 = true := by
          unfold breaksLine
          rw [hin0 hbf]; simp
        have h1 := writes_writeIndent_break hbl
        have h2 := wrote_indent_break (s := s0) hl0
        obtain ⟨s', w, i1, i2, i3, i4, i5, i6⟩ := ih false ls0 (col + 1)
          { s0 with column := (if s0.indent ≥ 0 then s0.indent else 0), line := s0.line + 1, whitespace := true, indention := false }
          (by show s0.bestWidth = _; rw [hwr0.frame]; exact hW) (by show s0.indent = _; rw [hwr0.indent]; exact hI)
          hl0 hi0 hp' (by simp) rfl (by simp) hs.tail
        refine ⟨s', w0 ++ ((breakChars s0.lineBreak ++ List.replicate s0.indent.toNat ' ') ++ w), ?_, ?_, i3, ?_, ?_, ?_⟩
        · refine hw0.bind (Writes.bind_get ?_)
          rw [hnl]
          rw [if_pos (by simp [hbf, isSpace, hns, hcw])]
          exact h1.bind (Writes.bind_modify (g := fun s => { s with indention := false }) i1)
        · exact hwr0.trans ((h2.setI false).trans i2)
        · rw [i4]; simp [endsBrk, hk']
        · intro h _
          refine i5 (by simpa [endsBrk, hk'] using h) ?_
          rw [hd]; simp
        · intro T fin T' p ht
          have ht' : Tail s0.lineBreak (endsBrk false cs) T fin T' := by rw [hwr0.lineBreak]; simpa [endsBrk, hk'] using ht
          obtain ⟨u, u1, _, u2, u3, _, u4⟩ := i6 T fin T' false ht'
          have u2 := u2 rfl
          obtain ⟨l, t, c', t1, bs, t2, ls, j1, j2, j3, j4, j5, j7⟩ := u4 rfl
          obtain ⟨r', hu⟩ := u2 d r hd hdb hds
          have hin : ({ s0 with column := (if s0.indent ≥ 0 then s0.indent else 0), line := s0.line + 1, whitespace := true, indention := false } : EState).indent = s.indent := hwr0.indent
          rw [hin] at j4 j5
          have hlc : ∃ l', l = d :: l' := by
            cases l with
            | nil =>
              exfalso
              rw [hu] at j7
              simp only [List.nil_append, List.cons_append] at j7
              have hcb := breakAt_isBreak j3
              have key : d = c' ∨ d = ' ' ∨ d ∈ bs := by
                have hm : (btw false c' bs ls ++ graw ls).head? = some d := by rw [← j7]; rfl
                cases ls with
                | nil => left; simp [btw, graw] at hm; exact hm.symm
                | cons m ls =>
                  simp only [btw] at hm
                  split at hm
                  · split at hm
                    · right; left; simpa using hm.symm
                    · right; right
                      cases bs with
                      | nil => contradiction
                      | cons b bs => simp at hm; simp [hm]
                  · left; simpa using hm.symm
              rcases key with h | h | h
              · rw [← h, hdb] at hcb; cases hcb
              · exact hds h
              · rw [j4.breaks d h] at hdb; cases hdb
            | cons x l =>
              rw [hu] at j7
              simp only [List.cons_append, List.cons.injEq] at j7
              exact ⟨l, by rw [j7.1]⟩
          obtain ⟨l', rfl⟩ := hlc
          have hdm : d ∈ cs := by rw [hd]; simp
          refine ⟨(if p = false then ' ' else '\n') :: u, u1.any hdm hdb [_], fun h => absurd (hbf.symm.trans h) (by simp), ?_, ?_,
            fun hbt => absurd (hbf.symm.trans hbt) (by simp), fun _ => ?_⟩
          · intro _ d' r1 e hd' hds'
            simp at e; exact absurd e.1.symm hds'
          · intro hpl hcl
            have hpl := hpl hbf
            have hcl := hcl hbf
            rw [FoldAt, if_neg hk, KeptAt, if_neg hk, hnl]
            cases hls : ls0 with
            | false =>
              rw [hpl, hls]
              rw [hls] at u3
              have := u3 (by simp) (by simp)
              simp only [if_true, List.cons.injEq, true_and, hbf, Bool.false_eq_true, if_false, false_implies, implies_true]
              exact this
            | true =>
              rw [hpl, hls]
              constructor
              · intro e; simp at e
              · rintro ⟨_, h, _⟩
                exfalso
                have h1 := h hbf rfl rfl hns
                have h2 := hcl hls
                rw [hcol0, hwr0.frame] at hcw
                simp only [hbf, Bool.false_eq_true, if_false] at hcw
                rw [hW, h2] at hcw
                omega
          rw [hw0e, hbf, if_neg (by simp)]
          refine ⟨[], _, '\n', List.replicate s.indent.toNat ' ' ++ ((d :: l') ++ t), [], _, ⟨d :: l', c', bs⟩ :: ls, (List.nil_append _).symm, by simp, ?_, .stop _, .line (by simp) j2 j3 j4 j5, ?_⟩
          · have := breakAt_chars (b := s0.lineBreak) hl0 (t := List.replicate s.indent.toNat ' ' ++ ((d :: l') ++ t)) (Or.inr (by
              obtain ⟨m, hm⟩ : ∃ m, s.indent.toNat = m + 1 := ⟨s.indent.toNat - 1, by omega⟩
              rw [hm, List.replicate_succ]; simp))
            rw [hwr0.indent]
            rw [show ([] : Str) ++ (breakChars s0.lineBreak ++ List.replicate s.indent.toNat ' ' ++ w) ++ T = breakChars s0.lineBreak ++ (List.replicate s.indent.toNat ' ' ++ (w ++ T)) by simp, j1]
            exact this
          · have hnd : (⟨d :: l', c', bs⟩ : Line).indented = false := by simp [Line.indented, hds, hdt]
            rw [List.cons_append, j7, graw, hnd]
            cases p <;> simp [btw, hnd]
      · obtain ⟨s', w, i1, i2, i3, i4, i5, i6⟩ := ih false (if breaks then isBlank c else ls0) ((if breaks then i else col) + 1) { s0 with column := s0.column + 1, indention := false }
          (by show s0.bestWidth = _; rw [hwr0.frame]; exact hW) (by show s0.indent = _; rw [hwr0.indent]; exact hI)
          hl0 hi0 hp' (by simp) hws0 (by simp) hs.tail
        refine ⟨s', w0 ++ c :: w, ?_, ?_, i3, ?_, ?_, ?_⟩
        · refine hw0.bind (Writes.bind_get ?_)
          rw [if_neg hwrap]
          exact ((writes_writeChar c s0).bind (Writes.bind_modify (g := fun s => { s with indention := false }) i1))
        · exact hwr0.trans (((wrote_char hk' s0).setI false).trans i2)
        · rw [i4]; simp [endsBrk, hk']
        · intro h _
          refine i5 (by simpa [endsBrk, hk'] using h) ?_
          cases cs with
          | nil => simp [endsBrk, hk'] at h
          | cons => simp
        · intro T fin T' p ht
          have ht' : Tail s0.lineBreak (endsBrk false cs) T fin T' := by rw [hwr0.lineBreak]; simpa [endsBrk, hk'] using ht
          obtain ⟨u, u1, _, u2, u3, _, u4⟩ := i6 T fin T' (if breaks then isBlank c else p) ht'
          have u2 := u2 rfl
          obtain ⟨l, t, c', t1, bs, t2, ls, j1, j2, j3, j4, j5, j7⟩ := u4 rfl
          have hin : ({ s0 with column := s0.column + 1, indention := false } : EState).indent = s.indent := hwr0.indent
          rw [hin] at j4 j5
          have hl' : ∀ x ∈ c :: l, isLineBreak x = false := by
            intro x hx
            rcases List.mem_cons.1 hx with rfl | hx
            · exact hlb
            · exact j2 x hx
          refine ⟨c :: u, u1.cons, ?_, ?_, ?_, fun hbt => ⟨⟨[], _, ⟨c :: l, c', bs⟩ :: ls, .stop _, ?_, ?_⟩, ?_, ?_⟩, fun hbf => ⟨c :: l, t, c', t1, bs, t2, ls, ?_, hl', j3, j4, j5, ?_⟩⟩
          · intro _ b0 x r hb0 hx e
            cases b0 with
            | nil => simp at e; exact ⟨u, by rw [e.1]; rfl⟩
            | cons y b0 =>
              simp at e
              have := hb0 y (by simp)
              rw [← e.1, hk'] at this; cases this
          · intro _ d r e _ _
            simp at e; exact ⟨u, by rw [e.1]⟩
          · intro hpl hcl
            rw [FoldAt, if_neg hk, KeptAt, if_neg hk, List.cons.injEq, u3 (by
              intro _
              cases hbr : breaks with
              | true => simp
              | false => simpa using hpl hbr) (by
              intro _ hx
              show s0.column + 1 = _
              rw [hcol0]
              cases hbr : breaks with
              | true => simp [hI]
              | false => rw [hbr] at hx; simp; exact hcl hbr hx)]
            have : breaks = false → ls0 = true → c = ' ' → isSpaceO cs.head? = false → col ≤ W := by
              intro h1 h2 h3 h4
              have h5 := hcl h1 h2
              by_cases h : col ≤ W
              · exact h
              · refine absurd ?_ hwrap
                rw [h1, h3, h4]
                rw [h1] at hcol0
                simp only [Bool.false_eq_true, if_false] at hcol0
                rw [hcol0, hwr0.frame]
                simp [isSpace]
                rw [hW, h5]; omega
            constructor
            · rintro ⟨_, h1, h2⟩; exact ⟨h1, this, h2⟩
            · rintro ⟨h1, _, h2⟩; exact ⟨rfl, h1, h2⟩
          · rw [hw0e, hbt, if_pos rfl]
            have := Lines.line (n := s.indent.toNat) (l := c :: l) (by simp) hl' j3 j4 j5
            have e1 : List.replicate s.indent.toNat ' ' ++ c :: w ++ T = List.replicate s.indent.toNat ' ' ++ (c :: l ++ t) := by
              rw [List.append_assoc, List.cons_append, j1, List.cons_append]
            rw [e1]
            exact this
          · have : (⟨c :: l, c', bs⟩ : Line).indented = isBlank c := by simp [Line.indented, isBlank, isSpace]
            rw [hbt, if_pos rfl] at j7
            rw [List.nil_append, graw, List.cons_append, j7, this]; rfl
          · right
            rw [hw0e, hbt, if_pos rfl]
            obtain ⟨m, hm⟩ : ∃ m, s.indent.toNat = m + 1 := ⟨s.indent.toNat - 1, by omega⟩
            rw [hm, List.replicate_succ]
            simp
          · intro x r hx _
            cases hx
            rw [hw0e, hbt, if_pos rfl]
            exact ⟨w ++ T, by simp⟩
          · rw [hw0e, hbf, if_neg (by simp)]
            simp only [List.nil_append, List.cons_append]
            rw [j1]
          · rw [hbf, if_neg (by simp)] at j7
            rw [List.cons_append, j7]; rfl


/-- What the specification says of the width. -/
theorem keptAt_iff {W i : Int} : ∀ (cs l : Str) (b p : Bool) (k : Int), (b = true ↔ l = []) → (b = false → p = (l.head? == some ' ')) → (b = false → k = i + l.length) →
    (∀ c ∈ cs, c ≠ '\t') → (KeptAt W i b p k cs ↔ indentedKept (W - i) l cs = true) := by
  intro cs
  induction cs with
  | nil => intros; simp [KeptAt, indentedKept]
  | cons c cs ih =>
    intro l b p k hb hp hk ht
    have ht' : ∀ d ∈ cs, d ≠ '\t' := fun d hd => ht d (List.mem_cons_of_mem _ hd)
    rw [KeptAt, indentedKept]
    by_cases hc : isLineBreak c = true
    · rw [if_pos hc, if_pos (by rw [← isLineBreak_eq]; exact hc)]
      exact ih [] true p 0 (by simp) (by simp) (by simp) ht'
    · rw [if_neg hc, if_neg (by rw [← isLineBreak_eq]; exact hc), Bool.and_eq_true]
      refine and_congr ?_ (ih (l ++ [c]) false _ _ (by simp) ?_ ?_ ht')
      · cases hbr : b with
        | true => rw [hb.1 hbr]; simp
        | false =>
          have e1 := hp hbr
          have e2 := hk hbr
          have e3 : isSpaceO cs.head? = false ↔ (cs.head? == some ' ') = false := by cases cs <;> simp [isSpaceO]
          rw [e1, e3]
          by_cases h1 : l.head? = some ' '
          · by_cases h2 : c = ' '
            · by_cases h3 : cs.head? = some ' '
              · simp [h1, h2, h3]
              · simp [h1, h2, h3]; omega
            · simp [h2]
          · simp [h1]
      · intro _
        cases l with
        | nil => rw [hb.2 rfl]; simp [isBlank, isSpace, ht c List.mem_cons_self]
        | cons y l =>
          have hbf : b = false := by cases b with | false => rfl | true => exact absurd (hb.1 rfl) (by simp)
          rw [hbf, if_neg (by simp), hp hbf]; simp
      · intro _
        cases b with
        | true => rw [hb.1 rfl]; simp
        | false => simp [hk rfl]; omega

/-- The text of a folded scalar denotes a value, which is the one written if and only if the specification says so. -/
theorem writes_writeFolded3 (v : Str) (s : EState) (hl : s.lineBreak ≠ .any) (hi : 1 ≤ s.indent) (hb : 1 ≤ s.bestIndent ∧ s.bestIndent ≤ 9) (hv : BlockOk v) :
    ∃ s' w, Writes (writeFolded v) s () s' (sep s ++ '>' :: w) ∧ Wrote { s with openEnded := if chompFor v = .keep then 2 else 0 } (sep s ++ '>' :: w) s' ∧
      s'.whitespace = true ∧ s'.indention = endsBrk true v ∧ (endsBrk true v = true → s'.column = 0) ∧
      ∀ n0 T fin T' k rest, s.indent = (if 0 ≤ n0 then n0 else 0) + s.bestIndent → Tail s.lineBreak (endsBrk true v) T fin T' →
        T' = List.replicate k ' ' ++ rest → k < s.indent.toNat → Solid rest →
        ∃ u, BlockScalar true n0 ('>' :: w ++ T) u rest ∧ (u = v ↔ foldsWell [] v = true ∧ indentedKept (s.bestWidth - s.indent) [] v = true) := by
  have hso := spaceOk_of hv
  obtain ⟨hch, hne, htr, hsb⟩ := hv
  obtain ⟨s1, w1, wr1, hw1, hi1⟩ := writes_indicator ['>'] false false s (by simp [isBreak])
  obtain ⟨s2, hd, w2, hhd, wr2, hdb⟩ := writes_blockHints v s1 (by rw [wr1.bestIndent]; exact hb)
  have hl2 : s2.lineBreak = s.lineBreak := by rw [wr2.lineBreak]; exact wr1.lineBreak
  have hin2 : s2.indent = s.indent := by rw [wr2.indent]; exact wr1.indent
  have h3 := (writes_putBreak s2).cast (w' := breakChars s.lineBreak) rfl (by rw [hl2])
  obtain ⟨s4, w4, i1, i2, i3, i4, i5, i6⟩ := writes_foldedLoop3 s.bestWidth s.indent v true true 0 { s2 with column := 0, line := s2.line + 1, whitespace := true, indention := true }
    (by show s2.bestWidth = _; rw [wr2.frame]; show s1.bestWidth = _; rw [wr1.frame]) hin2 (by show s2.lineBreak ≠ _; rw [hl2]; exact hl) (by show 1 ≤ s2.indent; rw [hin2]; exact hi) hch (fun _ => ⟨rfl, rfl⟩) rfl (by simp) hso
  refine ⟨s4, hd ++ (breakChars s.lineBreak ++ w4), ?_, ?_, i3, i4, fun h => i5 h (Or.inr rfl), ?_⟩
  · refine (w1.bind (f := fun _ => writeBlockHints v >>= fun _ => putBreak >>= fun _ => setWI true true >>= fun _ => foldedLoop v true true)
      (w2.bind (h3.bind (Writes.bind_modify (g := fun s => { s with whitespace := true, indention := true }) i1)))).cast rfl ?_
    simp
  · have a1 : Wrote { s with openEnded := if chompFor v = .keep then 2 else 0 } (sep s ++ ['>']) { s1 with openEnded := if chompFor v = .keep then 2 else 0 } := by
      refine ⟨?_, wr1.col⟩
      have := wr1.frame
      rw [this]
    have a3 : Wrote s2 (breakChars s.lineBreak) { s2 with column := 0, line := s2.line + 1, whitespace := true, indention := true } := by
      have := (wrote_putBreak (s := s2) (by rw [hl2]; exact hl)).setWI true true
      exact ⟨this.frame, by rw [this.col, hl2]⟩
    have := a1.trans (wr2.trans (a3.trans i2))
    simpa using this
  · intro n0 T fin T' k rest hn0 ht hT' hk hs
    obtain ⟨u, u1, _, _, u2, u3, _⟩ := i6 T fin T' true (by show Tail s2.lineBreak _ _ _ _; rw [hl2]; exact ht)
    obtain ⟨⟨bs, t2, ls, g1, g2, g3⟩, j2, j3⟩ := u3 rfl
    have htab : ∀ c ∈ v, c ≠ '\t' := fun c hc h => printable_noTab (hch c hc) h
    refine ⟨u, ?_, by rw [u2 (by simp) (by simp), foldAt_iff v [] true true (by simp) (by simp) htab, keptAt_iff v [] true true 0 (by simp) (by simp) (by simp) htab]⟩
    have hune : u ≠ [] := by
      rintro rfl
      rcases u1 with ⟨a, b, y, z, _, h, _⟩ | ⟨_, h⟩
      · simp at h
      · exact hne h.symm
    have hin : ({ s2 with column := 0, line := s2.line + 1, whitespace := true, indention := true } : EState).indent = s.indent := hin2
    have hlb : ({ s2 with column := 0, line := s2.line + 1, whitespace := true, indention := true } : EState).lineBreak = s.lineBreak := hl2
    rw [hin] at g1 g2 j3
    rw [hlb] at j2
    refine ⟨hd, chompFor v, (if hinted v then s1.bestIndent.toNat else 0), [], breakChars s.lineBreak ++ (w4 ++ T), '\n', w4 ++ T, s.indent.toNat, bs, t2, ls, T', k, hhd,
      by simp, .blanks (sp := []) (by simp), breakAt_chars hl j2, ?_, ?_, g1, g2, hT', hk, hs, ?_⟩
    · rw [wr1.bestIndent]
      intro h
      cases hh : hinted v with
      | false => rw [hh] at h; simp at h
      | true => simp only [if_true]; omega
    · intro h
      have hnh : hinted v = false := by
        cases hh : hinted v with
        | false => rfl
        | true =>
          rw [hh, wr1.bestIndent] at h
          simp only [if_true] at h
          omega
      refine ⟨by split at hn0 <;> omega, by omega, ?_⟩
      refine (fun ⟨x, r, hr, hx, hxb⟩ => first_line hr hx hxb g1 g2 hT' hk hs) (?_ : ∃ x r, w4 ++ T = List.replicate s.indent.toNat ' ' ++ x :: r ∧ ¬ IsBlank x ∧ isLineBreak x = false)
      unfold hinted at hnh
      simp only [Bool.or_eq_false_iff] at hnh
      cases v with
      | nil => exact absurd rfl hne
      | cons x v =>
        have hpx := hch x List.mem_cons_self
        have hxs : x ≠ ' ' := by rintro rfl; simp [isSpaceO] at hnh
        have hxb : isBreak x = false := by simpa [isBreakO] using hnh.2
        obtain ⟨r', hr'⟩ := j3 x v rfl hxb
        refine ⟨x, r', hr', ?_, by rw [isLineBreak_eq]; exact hxb⟩
        rintro (h | h)
        · exact hxs h
        · exact printable_noTab hpx h
    · rw [← u1.chomp]
      refine folded_value2 hune g1 g2 g3 ?_
      rw [u1.endsBrk]
      split
      · rename_i h; exact (ht.1 h).1
      · rename_i h
        obtain ⟨c, h1, h2⟩ := ht.2 (by simpa using h)
        exact ⟨c, h1, breakAt_isBreak h2⟩

end Yaml.Emitter
