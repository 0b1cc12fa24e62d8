import Verif.Lib.Plain
import Verif.Lib.EmitQuoted

/-
What `write_plain_scalar` writes denotes the value, in the sense of `Spec.PlainScalar`.
-/

namespace Yaml.Emitter
open Yaml Spec
set_option linter.unusedSimpArgs false
set_option linter.unusedVariables false

/-- Pending white space `b` that denotes `pv` when another character of the scalar follows. -/
def Pend (fl : Bool) (n : Int) (b pv : Str) (spaces : Bool) : Prop :=
  ∀ c t v t', PlainChar fl c t → (spaces = true → c ≠ '#') → PlainBody fl n t v t' → PlainBody fl n (b ++ c :: t) (pv ++ c :: v) t'

theorem pend_nil (fl : Bool) (n : Int) (sp : Bool) : Pend fl n [] [] sp := fun c t v t' hc _ h => .char hc h

theorem pend_spaces (fl : Bool) (n : Int) (k : Nat) (hk : k ≠ 0) : Pend fl n (List.replicate k ' ') (List.replicate k ' ') true :=
  fun c t v t' hc hx h => .blanks (by simpa using hk) (fun x hx => Or.inl (List.eq_of_mem_replicate hx)) hc (hx rfl) h

theorem gap_spaces {k : Nat} {t : Str} (h : Solid t) : Gap (List.replicate k ' ' ++ t) [] t := by
  induction k with
  | zero => exact .stop _ h
  | succ k ih => rw [List.replicate_succ]; exact .space ih

theorem breakChars_last {b : Break} (hb : b ≠ .any) : ∃ p x, breakChars b = p ++ [x] ∧ isLineBreak x = true := by
  cases b with
  | any => exact absurd rfl hb
  | cr => exact ⟨[], '\r', rfl, by decide⟩
  | ln => exact ⟨[], '\n', rfl, by decide⟩
  | crln => exact ⟨['\r'], '\n', rfl, by decide⟩

theorem pend_fold (fl : Bool) {n : Int} {b : Break} {k : Nat} (hb : b ≠ .any) (hk : k ≠ 0) (hn : fl = false → n ≤ k) :
    Pend fl n (breakChars b ++ List.replicate k ' ') [' '] true := by
  intro c t v t' hc hx h
  have hs : Solid (c :: t) := solid_cons hc.solid.1 hc.solid.2
  have hg : Gap (breakChars b ++ (List.replicate k ' ' ++ c :: t)) ['\n'] (c :: t) :=
    .brk (breakAt_chars hb (Or.inr (by rw [head_spaces hk]; simp))) (gap_spaces hs)
  have := PlainBody.fold (b := []) (by simp) hg (by simp) (by
    obtain ⟨p, x, hp, hx⟩ := breakChars_last hb
    exact ⟨p, x, k, by rw [hp]; simp, hx, hn, fun h => absurd h hk⟩) hc (hx rfl) h
  simpa [Spec.fold] using this

/-- The characters of the value after the first, in the context of `prev`. -/
def plainOk (fl : Bool) (prev : Option Char) (cs : Str) : Prop := if fl then flowOk prev cs else blockOk prev cs

theorem plainOk_step {fl : Bool} {a c : Char} {r : Str} (h : plainOk fl (some a) (c :: r)) :
    (fl = true → ¬ isFlowIndicator c ∧ c ≠ ':') ∧ (c = ':' → isBlankzO r.head? = false) ∧ (c = '#' → isBlankzO (some a) = false) ∧ plainOk fl (some c) r := by
  unfold plainOk at *
  cases fl with
  | true =>
    obtain ⟨h1, h2, h3, h4⟩ := h
    refine ⟨fun _ => ⟨?_, h2⟩, fun h => absurd h h2, h3, h4⟩
    rintro (rfl | rfl | rfl | rfl | rfl) <;> simp at h1
  | false =>
    obtain ⟨h1, h2, h3⟩ := h
    exact ⟨by simp, h1, h2, h3⟩

/-- A character that is allowed can be part of the scalar, given the next written character. -/
theorem plainChar_of {fl : Bool} {c : Char} {r t : Str} (hp : isPrintable c = true) (hs : c ≠ ' ') (hb : isBreak c = false)
    (h1 : fl = true → ¬ isFlowIndicator c ∧ c ≠ ':') (h2 : c = ':' → isBlankzO r.head? = false)
    (h3 : ∀ d r', r = d :: r' → d ≠ ' ' → ∃ t', t = d :: t') : PlainChar fl c t := by
  refine ⟨⟨?_, by rw [isLineBreak_eq]; exact hb⟩, ?_, fun h h' => absurd h' (h1 h).2⟩
  · rintro (h | h)
    · exact hs h
    · exact printable_noTab hp h
  · rintro (h | ⟨x, h, hx⟩ | ⟨h, d, x, hd, hx⟩)
    · cases h
    · cases h
      have hz := h2 rfl
      cases r with
      | nil => simp [isBlankzO, isBreakzO] at hz
      | cons d r =>
        have hd : d ≠ ' ' := by rintro rfl; rw [List.head?_cons] at hz; revert hz; decide
        obtain ⟨t', rfl⟩ := h3 d r rfl hd
        have := hx d t' rfl
        have hz' : isBlankzO (some d) = true := by
          rw [blankz_iff]
          rintro x ⟨⟩; exact this
        rw [show isBlankzO (d :: r).head? = isBlankzO (some d) from rfl] at hz
        rw [hz'] at hz; cases hz
    · cases hd; exact (h1 h).1 hx

theorem writes_plainLoop (ab fl : Bool) (n : Int) : ∀ (cs : Str) (spaces : Bool) (a : Char) (s : EState) (b pv : Str),
    s.lineBreak ≠ .any → 1 ≤ s.indent → (fl = false → n ≤ s.indent) → (∀ c ∈ cs, isPrintable c = true ∧ isBreak c = false) →
    plainOk fl (some a) cs → (spaces = true ↔ a = ' ') → (spaces = false → s.indention = false) →
    Pend fl n b pv spaces → ((a :: cs).getLast? ≠ some ' ') →
    (cs.head? = some ' ' → ∃ k, b = List.replicate k ' ' ∧ pv = b) → (spaces = false → b = [] ∧ pv = []) →
    ∃ s' w, Writes (plainLoop ab cs spaces false) s () s' w ∧ Wrote s w s' ∧
      (ab = false → (∀ c ∈ w, isBreak c = false) ∧ strLen w = strLen cs) ∧
      (∀ d r, cs = d :: r → d ≠ ' ' → ∃ w', w = d :: w') ∧
      (∀ p w', (∀ x ∈ p, x ≠ ' ' ∧ isBreak x = false) → w = p ++ w' → ∃ r, cs = p ++ r) ∧
      ∀ rest, PlainBody fl n (b ++ (w ++ rest)) (pv ++ cs) rest := by
  intro cs
  induction cs with
  | nil =>
    intro spaces a s b pv hl hi hn hp hok hsp hind hpend hlast hhead hbf
    have hsf : spaces = false := by
      cases hsx : spaces with
      | false => rfl
      | true => rw [hsp.1 hsx] at hlast; exact absurd rfl hlast
    obtain ⟨rfl, rfl⟩ := hbf hsf
    refine ⟨s, [], Writes.pure () s, Wrote.refl s, fun _ => ⟨by simp, rfl⟩, by simp, ?_, fun rest => .done _⟩
    intro p w' hp h
    cases p with
    | nil => exact ⟨[], rfl⟩
    | cons x p => cases h
  | cons c cs ih =>
    intro spaces a s b pv hl hi hn hp hok hsp hind hpend hlast hhead hbf
    obtain ⟨hpc, hbc⟩ := hp c List.mem_cons_self
    have hp' : ∀ d ∈ cs, isPrintable d = true ∧ isBreak d = false := fun d hd => hp d (List.mem_cons_of_mem _ hd)
    obtain ⟨h1, h2, h3, hok'⟩ := plainOk_step hok
    have hlast' : (c :: cs).getLast? ≠ some ' ' := by rw [List.getLast?_cons_cons] at hlast; exact hlast
    rw [show plainLoop ab (c :: cs) spaces false = _ from by unfold plainLoop; rfl]
    by_cases hs : c = ' '
    · subst hs
      rw [if_pos (by rfl)]
      obtain ⟨k, hbk, hpv⟩ := hhead rfl
      by_cases hf : (ab && !spaces && decide (s.column > s.bestWidth) && !isSpaceO cs.head?) = true
      · have hf' := hf
        simp only [Bool.and_eq_true, Bool.not_eq_true', decide_eq_true_eq] at hf
        obtain ⟨⟨⟨hab, hsf⟩, hw⟩, hns⟩ := hf
        obtain ⟨rfl, rfl⟩ := hbf hsf
        have hbl : breaksLine s = true := by unfold breaksLine; simp [hind hsf]
        have hwi := writes_writeIndent_break hbl
        rw [if_pos (show s.indent ≥ 0 by omega)] at hwi
        have hwr := wrote_indent_break (s := s) hl
        rw [if_pos (show s.indent ≥ 0 by omega)] at hwr
        obtain ⟨s', w, i1, i2, i3, i4, i5, i6⟩ := ih true ' '
          { s with column := s.indent, line := s.line + 1, whitespace := true, indention := true }
          (breakChars s.lineBreak ++ List.replicate s.indent.toNat ' ') [' '] hl hi hn hp' hok' (by simp) (by simp)
          (pend_fold fl hl (by omega) (fun h => by have := hn h; omega)) hlast'
          (by intro h; rw [h] at hns; simp [isSpaceO] at hns) (by simp)
        refine ⟨s', breakChars s.lineBreak ++ List.replicate s.indent.toNat ' ' ++ w, ?_, ?_, ?_, ?_, ?_, ?_⟩
        · refine Writes.bind_get ?_
          rw [if_pos hf']
          exact hwi.bind i1
        · simpa using hwr.trans i2
        · intro h; rw [hab] at h; cases h
        · intro d r h hd; cases h; exact absurd rfl hd
        · intro p w' hpp h
          cases p with
          | nil => exact ⟨_, rfl⟩
          | cons x p =>
            exfalso
            have := (hpp x List.mem_cons_self).2
            have hx : (breakChars s.lineBreak ++ List.replicate s.indent.toNat ' ' ++ w).head? = some x := by rw [h]; rfl
            cases hlb : s.lineBreak with
            | any => exact hl hlb
            | cr => rw [hlb] at hx; simp [breakChars] at hx; subst hx; revert this; decide
            | ln => rw [hlb] at hx; simp [breakChars] at hx; subst hx; revert this; decide
            | crln => rw [hlb] at hx; simp [breakChars] at hx; subst hx; revert this; decide
        · intro rest
          have := i6 rest
          simpa using this
      · have hpe : Pend fl n (b ++ [' ']) (pv ++ [' ']) true := by
          rw [hpv, hbk, ← List.replicate_succ']
          exact pend_spaces fl n _ (by omega)
        obtain ⟨s', w, i1, i2, i3, i4, i5, i6⟩ := ih true ' '
          { s with column := s.column + 1 } (b ++ [' ']) (pv ++ [' ']) hl hi hn hp' hok' (by simp) (by simp)
          hpe hlast' (fun _ => ⟨k + 1, by rw [hbk, ← List.replicate_succ'], by rw [hpv]⟩) (by simp)
        refine ⟨s', ' ' :: w, ?_, ?_, ?_, ?_, ?_, ?_⟩
        · refine Writes.bind_get ?_
          rw [if_neg hf]
          exact (writes_writeChar ' ' s).bind i1
        · exact (wrote_char (c := ' ') (by decide) s).trans i2
        · intro hab
          obtain ⟨h6, h7⟩ := i3 hab
          refine ⟨fun d hd => ?_, ?_⟩
          · rcases List.mem_cons.1 hd with rfl | hd
            · decide
            · exact h6 d hd
          · simp only [strLen]; omega
        · intro d r h hd; cases h; exact absurd rfl hd
        · intro p w' hpp h
          cases p with
          | nil => exact ⟨_, rfl⟩
          | cons x p => cases h; exact absurd rfl (hpp ' ' List.mem_cons_self).1
        · intro rest
          have := i6 rest
          simpa using this
    · rw [if_neg (by simpa [isSpace] using hs), if_neg (by simp [hbc])]
      obtain ⟨s', w, i1, i2, i3, i4, i5, i6⟩ := ih false c
        { s with column := s.column + 1, indention := false } [] [] hl hi hn hp' hok' (by simp [hs]) (by simp)
        (pend_nil fl n false) hlast' (fun _ => ⟨0, rfl, rfl⟩) (by simp)
      refine ⟨s', c :: w, ?_, ?_, ?_, ?_, ?_, ?_⟩
      · have := (Writes.when_false (m := writeIndent) (s := s) (c := false) rfl).bind0 (f := fun _ => writeChar c >>= fun _ => setIndention false >>= fun _ => plainLoop ab cs false false)
          ((writes_writeChar c s).bind (Writes.bind_modify (g := fun s => { s with indention := false }) i1))
        exact this
      · exact ((wrote_char hbc s).setI false).trans i2
      · intro hab
        obtain ⟨h6, h7⟩ := i3 hab
        refine ⟨fun d hd => ?_, ?_⟩
        · rcases List.mem_cons.1 hd with rfl | hd
          · exact hbc
          · exact h6 d hd
        · simp only [strLen]; omega
      · intro d r h hd; cases h; exact ⟨w, rfl⟩
      · intro p w' hpp h
        cases p with
        | nil => exact ⟨_, rfl⟩
        | cons x p =>
          cases h
          obtain ⟨r, rfl⟩ := i5 p w' (fun y hy => hpp y (List.mem_cons_of_mem _ hy)) rfl
          exact ⟨r, rfl⟩
      · intro rest
        refine hpend c (w ++ rest) cs rest ?_ ?_ (i6 rest)
        · refine plainChar_of hpc hs hbc h1 h2 fun d r' h hd => ?_
          obtain ⟨w', rfl⟩ := i4 d r' h hd
          exact ⟨_, rfl⟩
        · rintro hsx rfl
          have := h3 rfl
          rw [hsp.1 hsx] at this
          revert this; decide

theorem plainEnd_head {fl : Bool} {n : Int} {t t' : Str} {brk : Bool} (h : PlainEnd fl n t brk t') : t.head? ≠ some '-' ∧ t.head? ≠ some '.' := by
  cases h with
  | here h =>
    rcases h with rfl | ⟨r, rfl, _⟩ | ⟨_, d, r, rfl, rfl | rfl | rfl | rfl | rfl⟩ <;> simp
  | @gap b _ _ _ hb0 hg hne h =>
    cases b with
    | cons x b =>
      rcases hb0 x List.mem_cons_self with rfl | rfl <;> simp
    | nil =>
      cases hg with
      | stop => exact absurd rfl hne
      | space h => simp
      | brk hb h =>
        obtain ⟨d, r, rfl, hb'⟩ := hb.head
        constructor <;> (intro h; simp at h; subst h; revert hb'; decide)

theorem prefix_split {p w rest r : Str} (h : w ++ rest = p ++ r) : (∃ w', w = p ++ w') ∨ ∃ q x q', p = w ++ x :: q ∧ rest = x :: q' := by
  induction p generalizing w with
  | nil => exact Or.inl ⟨w, rfl⟩
  | cons y p ih =>
    cases w with
    | nil => exact Or.inr ⟨p, y, _, rfl, h⟩
    | cons z w =>
      simp only [List.cons_append, List.cons.injEq] at h
      obtain ⟨rfl, h⟩ := h
      rcases ih h with ⟨w', rfl⟩ | ⟨q, x, q', rfl, rfl⟩
      · exact Or.inl ⟨w', rfl⟩
      · exact Or.inr ⟨q, x, q', rfl, rfl⟩

theorem startsWith_of (p r : Str) : startsWith (p ++ r) p = true := by
  unfold startsWith
  induction p with
  | nil => simp
  | cons x p ih => simp

/-- The text of a plain scalar denotes the value. -/
theorem writes_writePlain (v : Str) (ab : Bool) (s : EState) (hl : s.lineBreak ≠ .any) (hi : 1 ≤ s.indent) {fl : Bool} (hv : PlainOk fl v) :
    ∃ s' w, Writes (writePlain v ab) s () s' (sep s ++ w) ∧ Wrote s (sep s ++ w) s' ∧ s'.whitespace = false ∧ s'.indention = false ∧
      (ab = false → (∀ c ∈ w, isBreak c = false) ∧ strLen w = strLen v) ∧ w.head? = v.head? ∧
      (∀ c r, v = c :: r → isBlankzO r.head? = false → ∃ w', w = c :: w' ∧ w'.head? = r.head?) ∧
      ∀ n rest brk rest', (fl = false → n ≤ s.indent) → PlainEnd fl n rest brk rest' →
        PlainScalar fl n (w ++ rest) v brk rest' ∧ ¬ IsDocMarker (w ++ rest) := by
  obtain ⟨hch, hne, hnb, hlead, htrail, hmark, hblk, hflw⟩ := hv
  cases v with
  | nil => exact absurd rfl hne
  | cons c cs =>
    have hpc := hch c List.mem_cons_self
    have hbc := hnb c List.mem_cons_self
    have hs : c ≠ ' ' := by rintro rfl; exact hlead rfl
    have hfirst : (fl = true → ¬ isFlowIndicator c ∧ c ≠ ':') ∧ (c = ':' → isBlankzO cs.head? = false) ∧ c ≠ '#' ∧ plainOk fl (some c) cs := by
      unfold plainOk
      cases fl with
      | true =>
        obtain ⟨h1, h2, h3, h4, h5⟩ := hflw rfl
        refine ⟨fun _ => ⟨?_, h3⟩, fun h => absurd h h3, ?_, h5⟩
        · rintro (rfl | rfl | rfl | rfl | rfl) <;> simp at h1
        · rintro rfl; simp at h1
      | false =>
        obtain ⟨h1, h2, h3⟩ := hblk rfl
        refine ⟨by simp, fun h => h2 (by simp [h]), ?_, h3⟩
        rintro rfl; simp at h1
    obtain ⟨f1, f2, f3, f4⟩ := hfirst
    -- the state after the separating space
    obtain ⟨s0, wr0, hs0, hi0⟩ : ∃ s0, Writes (M.when (!s.whitespace && (!(c :: cs).isEmpty || s.flowLevel != 0)) (put ' ')) s () s0 (sep s) ∧
        Wrote s (sep s) s0 ∧ s0.indention = s.indention := by
      cases hw : s.whitespace with
      | true =>
        refine ⟨s, (Writes.when_false (by simp [hw])).cast rfl (by simp [sep, hw]), ?_, rfl⟩
        rw [show sep s = [] by simp [sep, hw]]; exact Wrote.refl s
      | false =>
        refine ⟨_, (Writes.when_true (by simp [hw]) (writes_put ' ' s)).cast rfl (by simp [sep, hw]), ?_, rfl⟩
        rw [show sep s = [' '] by simp [sep, hw]]; exact wrote_char (by decide) s
    have hl0 : s0.lineBreak ≠ .any := by rw [hs0.lineBreak]; exact hl
    have hin0 : s0.indent = s.indent := hs0.indent
    -- the loop
    have hloop : ∀ n, (fl = false → n ≤ s.indent) → ∃ s' w, Writes (plainLoop ab (c :: cs) false false) s0 () s' (c :: w) ∧ Wrote s0 (c :: w) s' ∧
        (ab = false → (∀ d ∈ w, isBreak d = false) ∧ strLen w = strLen cs) ∧
        (∀ d r, cs = d :: r → d ≠ ' ' → ∃ w', w = d :: w') ∧
        (∀ p w', (∀ x ∈ p, x ≠ ' ' ∧ isBreak x = false) → w = p ++ w' → ∃ r, cs = p ++ r) ∧
        ∀ rest, PlainBody fl n (w ++ rest) cs rest := by
      intro n hn
      obtain ⟨s', w, i1, i2, i3, i4, i5, i6⟩ := writes_plainLoop ab fl n cs false c
        { s0 with column := s0.column + 1, indention := false } [] [] hl0 (by show 1 ≤ s0.indent; omega) (fun h => by have := hn h; show n ≤ s0.indent; omega)
        (fun d hd => ⟨hch d (List.mem_cons_of_mem _ hd), hnb d (List.mem_cons_of_mem _ hd)⟩) f4 (by simp [hs]) (by simp)
        (pend_nil fl n false) htrail (fun _ => ⟨0, rfl, rfl⟩) (by simp)
      refine ⟨s', w, ?_, ((wrote_char hbc s0).setI false).trans i2, i3, i4, i5, fun rest => by simpa using i6 rest⟩
      rw [show plainLoop ab (c :: cs) false false = _ from by unfold plainLoop; rfl]
      rw [if_neg (by simpa [isSpace] using hs), if_neg (by simp [hbc])]
      have := (Writes.when_false (m := writeIndent) (s := s0) (c := false) rfl).bind0 (f := fun _ => writeChar c >>= fun _ => setIndention false >>= fun _ => plainLoop ab cs false false)
          ((writes_writeChar c s0).bind (Writes.bind_modify (g := fun s => { s with indention := false }) i1))
      exact this
    obtain ⟨s', w, i1, i2, i3, i4, i5, i6⟩ := hloop s.indent (fun _ => Int.le_refl _)
    have hdoc : ∀ n rest brk rest', PlainEnd fl n rest brk rest' → ¬ IsDocMarker (c :: w ++ rest) := by
      rintro n rest brk rest' he ⟨r, hr, hz⟩
      have hh := plainEnd_head he
      have main : ∀ y : Char, (y = '-' ∨ y = '.') → c :: w ++ rest = [y, y, y] ++ r → startsWith (c :: cs) [y, y, y] = true := by
        intro y hy h
        have hyb : y ≠ ' ' ∧ isBreak y = false := by rcases hy with rfl | rfl <;> exact ⟨by decide, by decide⟩
        rcases prefix_split h with ⟨w', hw⟩ | ⟨q, x, q', hq, rfl⟩
        · simp only [List.cons_append, List.nil_append, List.cons.injEq] at hw
          obtain ⟨rfl, hw⟩ := hw
          obtain ⟨r', hr'⟩ := i5 [c, c] w' (by simpa using hyb) (by simp [hw])
          rw [hr']
          exact startsWith_of [c, c, c] r'
        · exfalso
          have hx : x ∈ [y, y, y] := by rw [hq]; simp
          have hx : x = y := by simpa using hx
          subst hx
          rcases hy with rfl | rfl
          · exact hh.1 rfl
          · exact hh.2 rfl
      rcases hr with h | h
      · have := main '-' (Or.inl rfl) h; rw [hmark.1] at this; cases this
      · have := main '.' (Or.inr rfl) h; rw [hmark.2] at this; cases this
    refine ⟨{ s' with whitespace := false, indention := false }, c :: w, ?_, ?_, rfl, rfl, ?_, rfl, ?_, ?_⟩
    · have := wr0.bind (f := fun _ => plainLoop ab (c :: cs) false false >>= fun _ => setWI false false)
        (i1.bind (f := fun _ => setWI false false) (Writes.modify _ _))
      refine Writes.bind_get (this.cast rfl (by simp))
    · exact (hs0.trans i2).setWI false false
    · intro hab
      obtain ⟨h6, h7⟩ := i3 hab
      refine ⟨fun d hd => ?_, by simp only [strLen]; omega⟩
      rcases List.mem_cons.1 hd with rfl | hd
      · exact hbc
      · exact h6 d hd
    · rintro d r ⟨⟩ hz
      refine ⟨w, rfl, ?_⟩
      cases cs with
      | nil => simp [isBlankzO, isBreakzO] at hz
      | cons d r =>
        obtain ⟨w', rfl⟩ := i4 d r rfl (by rintro rfl; rw [List.head?_cons] at hz; revert hz; decide)
        rfl
    · intro n rest brk rest' hn he
      refine ⟨?_, hdoc n rest brk rest' he⟩
      obtain ⟨s'', w', j1, j2, j3, j4, j5, j6⟩ := hloop n hn
      obtain ⟨_, _, h⟩ := i1.det j1
      cases h
      exact ⟨c, w ++ rest, cs, rest, rfl, rfl, plainChar_of hpc hs hbc f1 f2 (fun d r' h hd => by
        obtain ⟨w', rfl⟩ := i4 d r' h hd; exact ⟨_, rfl⟩), f3, j6 rest, he⟩

/-- The scanner takes what starts with a plain-allowed value for a plain scalar. -/
theorem dispatch_plain {fl : Nat} {c : Char} {r t : Str} (F : Nat) (m : Mark) (hv : PlainOk (fl != 0) (c :: r))
    (hw : isBlankzO r.head? = false → t.head? = r.head?) (hd : m.column ≠ 0 ∨ ¬ IsDocMarker (c :: t)) :
    Scanner.dispatch F m fl (some c) t[0]? t[1]? t[2]? = Scanner.fetchPlainScalar F := by
  have hp := hv.chars c List.mem_cons_self
  have hb := hv.noBreak c List.mem_cons_self
  have hs : c ≠ ' ' := by rintro rfl; exact hv.leading rfl
  have ht := printable_noTab hp
  have hz : isBlankzO (some c) = false := blankz_false (by rintro (h | h); exact hs h; exact ht h) (by rw [isLineBreak_eq]; exact hb)
  have h1 : (cs! "#,[]{}&*!|>'\"%@`").contains c = false := by
    cases hfl : fl != 0 with
    | true => exact (hv.flow hfl).1
    | false => exact (hv.block hfl).1
  have hnext : isBlankzO r.head? = false → isBlankzO t[0]? = false := by
    intro h; rw [← List.head?_eq_getElem?, hw h]; exact h
  have hdash : c = '-' → isBlankzO t[0]? = false := by
    rintro rfl
    cases hfl : fl != 0 with
    | true => exact hnext ((hv.flow hfl).2.2.2.1 rfl)
    | false => exact hnext ((hv.block hfl).2.1 (by simp))
  have hqc : c = '?' ∨ c = ':' → fl = 0 ∧ isBlankzO t[0]? = false := by
    intro h
    cases hfl : fl != 0 with
    | true =>
      obtain ⟨_, h2, h3, _⟩ := hv.flow hfl
      rcases h with h | h
      · exact absurd h h2
      · exact absurd h h3
    | false => exact ⟨by simpa using hfl, hnext ((hv.block hfl).2.1 (by rcases h with h | h <;> simp [h]))⟩
  have hdoc := docIndicator_text (m := m) hd
  simp only [Scanner.isDocIndicator, List.getElem?_cons_zero, List.getElem?_cons_succ] at hdoc
  simp only [List.contains_cons, List.contains_nil, Bool.or_false, Bool.or_eq_false_iff, beq_eq_false_iff_ne, ne_eq] at h1
  have hd1 : (m.column == 0 && some c == some '-' && t[0]? == some '-' && t[1]? == some '-' && isBlankzO t[2]?) = false ∧
      (m.column == 0 && some c == some '.' && t[0]? == some '.' && t[1]? == some '.' && isBlankzO t[2]?) = false := by
    constructor
    · rw [Bool.eq_false_iff]
      intro h
      simp only [Bool.and_eq_true] at h
      obtain ⟨⟨⟨⟨a1, a2⟩, a3⟩, a4⟩, a5⟩ := h
      rw [a1, a2, a3, a4, a5] at hdoc
      simp at hdoc
    · rw [Bool.eq_false_iff]
      intro h
      simp only [Bool.and_eq_true] at h
      obtain ⟨⟨⟨⟨a1, a2⟩, a3⟩, a4⟩, a5⟩ := h
      rw [a1, a2, a3, a4, a5] at hdoc
      simp at hdoc
  have hstart : Scanner.canStartPlain fl (some c) t[0]? = true := by
    unfold Scanner.canStartPlain
    rw [hz]
    by_cases c1 : c = '-'
    · have := hdash c1
      have : isBlankO t[0]? = false := by
        rw [isBlankzO] at this; simp only [Bool.or_eq_false_iff] at this; exact this.1
      simp [c1, this]
    · by_cases c2 : c = '?' ∨ c = ':'
      · obtain ⟨h2, h3⟩ := hqc c2
        rcases c2 with c2 | c2 <;> simp [c2, h2, h3]
      · have c3 : ¬ c = '?' := fun h => c2 (Or.inl h)
        have c4 : ¬ c = ':' := fun h => c2 (Or.inr h)
        simp [c1, c3, c4, h1]
  unfold Scanner.dispatch
  rw [if_neg (by simp), if_neg (by simp [h1]), if_neg (by rw [hd1.1]; simp), if_neg (by rw [hd1.2]; simp)]
  rw [if_neg (by simp [h1]), if_neg (by simp [h1]), if_neg (by simp [h1]), if_neg (by simp [h1]), if_neg (by simp [h1])]
  rw [if_neg (by simp only [Bool.and_eq_true, beq_iff_eq, Option.some.injEq]; rintro ⟨a, b⟩; rw [hdash a] at b; cases b)]
  rw [if_neg (by
    simp only [Bool.and_eq_true, beq_iff_eq, Option.some.injEq, Bool.or_eq_true]; rintro ⟨a, b⟩
    obtain ⟨h2, h3⟩ := hqc (Or.inl a); rw [h2, h3] at b; simp at b)]
  rw [if_neg (by
    simp only [Bool.and_eq_true, beq_iff_eq, Option.some.injEq, Bool.or_eq_true]; rintro ⟨a, b⟩
    obtain ⟨h2, h3⟩ := hqc (Or.inr a); rw [h2, h3] at b; simp at b)]
  rw [if_neg (by simp [h1]), if_neg (by simp [h1]), if_neg (by simp [h1]), if_neg (by simp [h1]), if_neg (by simp [h1]), if_neg (by simp [h1]), if_neg (by simp [h1]),
    if_pos hstart]

end Yaml.Emitter
