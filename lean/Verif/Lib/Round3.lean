import Verif.Lib.Round2

/-
Reading back, scanner side: which texts are atoms, and runs of atoms.
-/

namespace Yaml.Lx
open Yaml Scanner Spec
set_option linter.unusedSimpArgs false
set_option linter.unusedVariables false

theorem atom_anchor {F fl : Nat} {m : Int} {n rest : Str} (al : Bool) (hn : NameOk n) (hr : EndsName rest) :
    Atom F fl m ((if al then '*' else '&') :: n) (if al then .alias n else .anchor n) false rest := by
  refine ⟨by simp, ?_, ?_, ?_⟩
  · cases al
    · exact starts_cons (by decide) (by decide) (by decide) (by decide) (by decide)
    · exact starts_cons (by decide) (by decide) (by decide) (by decide) (by decide)
  · intro m'
    cases al
    · exact notBound (by decide) (by decide) (by decide)
    · exact notBound (by decide) (by decide) (by decide)
  · intro A _ _ _ hh
    exact lex_anchor hn hr hh

theorem tagText_head {w h s : Str} (ht : TagText w h s) : ∃ w', w = '!' :: w' := by
  cases ht <;> exact ⟨_, rfl⟩

theorem atom_tag {F fl : Nat} {m : Int} {w h s rest : Str} (ht : TagText w h s) (hr : EndsTag rest) :
    Atom F fl m w (.tag h s) false rest := by
  obtain ⟨w', rfl⟩ := tagText_head ht
  refine ⟨by simp, ?_, ?_, ?_⟩
  · exact starts_cons (by decide) (by decide) (by decide) (by decide) (by decide)
  · intro m'; exact notBound (by decide) (by decide) (by decide)
  · intro A _ _ _ hh
    exact lex_tag ht hr hh

theorem atom_quoted {F fl : Nat} {m : Int} {single : Bool} {w v rest : Str} (h : Quoted single (w ++ rest) v rest) (hw : w ≠ []) :
    Atom F fl m w (.scalar v (if single then .singleQuoted else .doubleQuoted)) false rest := by
  have hq := h
  obtain ⟨b, hb, _⟩ := hq
  refine ⟨hw, ?_, ?_, ?_⟩
  · rw [hb]
    cases single
    · exact starts_cons (by decide) (by decide) (by decide) (by decide) (by decide)
    · exact starts_cons (by decide) (by decide) (by decide) (by decide) (by decide)
  · intro m'
    rw [hb]
    cases single
    · exact notBound (by decide) (by decide) (by decide)
    · exact notBound (by decide) (by decide) (by decide)
  · intro A _ _ _ hh
    exact lex_quoted h hh

theorem atom_plain0 {F fl : Nat} {m : Int} {w v t rest : Str} {brk : Bool} (hv : PlainFirst (fl != 0) (w ++ t)) (hw : w ≠ [])
    (hp : PlainScalar (fl != 0) (m + 1) (w ++ t) v brk rest) (he : PlainEnd (fl != 0) (m + 1) t brk rest) (hcr : w.getLast? ≠ some '\r')
    (hbom : w.head? ≠ some '\uFEFF') (hdoc : ¬ IsDocMarker (w ++ t)) :
    Atom F fl m w (.scalar v .plain) (fl != 0 && brk) t := by
  obtain ⟨c, w', rfl⟩ := List.exists_cons_of_ne_nil hw
  have hsolid : ¬ IsBlank c ∧ isLineBreak c = false := by
    obtain ⟨c', t1, v1, t', h1, h2, h3, _⟩ := hp
    cases h1
    exact h3.solid
  have hc : c ≠ '#' ∧ c ≠ '%' := by
    obtain ⟨c', r, h, h'⟩ := hv
    cases h
    rcases h' with h' | ⟨rfl | ⟨_, rfl | rfl⟩, _⟩
    · constructor <;> (rintro rfl; exact h' (by decide))
    all_goals decide
  refine ⟨by simp, ?_, ?_, ?_⟩
  · exact starts_cons (fun h => hsolid.1 (Or.inl h)) (fun h => hsolid.1 (Or.inr h)) (by rw [← isLineBreak_eq]; exact hsolid.2) hc.1 (by simpa using hbom)
  · intro m'
    rintro (h | ⟨h | h, _⟩)
    · cases h
    · exact hdoc h
    · simp at h; exact hc.2 h
  · intro A hf hn hcl hh
    have := lex_plain (F := F) (A := A) (w := c :: w') (v := v) (t := t) (rest := rest) (brk := brk) (by rw [hf]; exact hv) (by simp)
      (by rw [hf, hn]; exact hp) (by rw [hf, hn]; exact he) hcr hcl (Or.inr hdoc) hh
    rw [hf] at this
    exact this

theorem plainFirst_ok {fl : Bool} {c : Char} {r t : Str} (hv : Emitter.PlainOk fl (c :: r)) (hw : isBlankzO r.head? = false → t.head? = r.head?) :
    PlainFirst fl (c :: t) := by
  have h1 : (cs! "#,[]{}&*!|>'\"%@`").contains c = false := by
    cases hfl : fl with
    | true => exact (hv.flow hfl).1
    | false => exact (hv.block hfl).1
  have hnext : isBlankzO r.head? = false → ¬ EndsTag t := by
    intro h he
    have h' := hw h
    have : isBlankzO t.head? = true := by
      rw [blankz_iff]
      intro d hd
      cases t with
      | nil => cases hd
      | cons x t => cases hd; exact he _ _ rfl
    rw [h', h] at this; cases this
  refine ⟨c, t, rfl, ?_⟩
  by_cases c1 : c = '-'
  · refine Or.inr ⟨Or.inl c1, hnext ?_⟩
    cases hfl : fl with
    | true => exact (hv.flow hfl).2.2.2.1 c1
    | false => exact (hv.block hfl).2.1 (by simp [c1])
  · by_cases c2 : c = '?' ∨ c = ':'
    · cases hfl : fl with
      | true =>
        obtain ⟨_, h2, h3, _⟩ := hv.flow hfl
        rcases c2 with h | h
        · exact absurd h h2
        · exact absurd h h3
      | false => exact Or.inr ⟨Or.inr ⟨rfl, c2⟩, hnext ((hv.block hfl).2.1 (by rcases c2 with h | h <;> simp [h]))⟩
    · left
      intro hm
      have c3 : ¬ c = '?' := fun h => c2 (Or.inl h)
      have c4 : ¬ c = ':' := fun h => c2 (Or.inr h)
      simp only [List.contains_cons, List.contains_nil, Bool.or_false, Bool.or_eq_false_iff, beq_eq_false_iff_ne, ne_eq] at h1
      simp [h1, c1, c3, c4] at hm

theorem atom_plain {F fl : Nat} {m : Int} {w v t rest : Str} {brk : Bool} (hv : Emitter.PlainOk (fl != 0) v)
    (hp : PlainScalar (fl != 0) (m + 1) (w ++ t) v brk rest) (he : PlainEnd (fl != 0) (m + 1) t brk rest) (h1 : w.head? = v.head?)
    (h2 : ∀ c r, v = c :: r → isBlankzO r.head? = false → ∃ w', w = c :: w' ∧ w'.head? = r.head?) (hcr : w.getLast? ≠ some '\r')
    (hdoc : ¬ IsDocMarker (w ++ t)) :
    Atom F fl m w (.scalar v .plain) (fl != 0 && brk) t := by
  obtain ⟨c, r, rfl⟩ : ∃ c r, v = c :: r := by
    cases v with
    | nil => exact absurd rfl hv.nonempty
    | cons c r => exact ⟨c, r, rfl⟩
  obtain ⟨w', rfl⟩ : ∃ w', w = c :: w' := by
    cases w with
    | nil => simp at h1
    | cons d w' => simp at h1; exact ⟨w', by rw [h1]⟩
  have hpc := hv.chars c List.mem_cons_self
  refine atom_plain0 (plainFirst_ok hv fun hz => ?_) (by simp) hp he hcr ?_ hdoc
  · obtain ⟨w2, e2, e3⟩ := h2 c r rfl hz
    simp only [List.cons.injEq, true_and] at e2
    subst e2
    cases w' with
    | nil => rw [← e3] at hz; simp [isBlankzO, isBreakzO] at hz
    | cons x w' => exact e3
  · simp only [List.head?_cons, ne_eq, Option.some.injEq]
    rintro rfl; revert hpc; decide

/-! ### Runs of atoms -/

/-- Several atoms, with spaces before them. -/
inductive Atoms (F fl : Nat) (n : Int) : List TokenData → Str → Str → Prop
  | nil (rest : Str) : Atoms F fl n [] [] rest
  | cons {g w w' rest : Str} {d : TokenData} {ds : List TokenData} (hg : ∀ c ∈ g, c = ' ') (h : Atom F fl n w d false (w' ++ rest))
      (h' : Atoms F fl n ds w' rest) : Atoms F fl n (d :: ds) (g ++ (w ++ w')) rest

theorem Atoms.one {F fl : Nat} {n : Int} {g w rest : Str} {d : TokenData} (hg : ∀ c ∈ g, c = ' ') (h : Atom F fl n w d false rest) :
    Atoms F fl n [d] (g ++ w) rest := by
  have := Atoms.cons (ds := []) hg (w' := []) (rest := rest) h (.nil rest)
  simpa using this

theorem Atoms.append {F fl : Nat} {n : Int} {ds es : List TokenData} {w w' rest : Str} (h : Atoms F fl n ds w (w' ++ rest)) (h' : Atoms F fl n es w' rest) :
    Atoms F fl n (ds ++ es) (w ++ w') rest := by
  generalize hr : w' ++ rest = r at h
  induction h with
  | nil => exact h'
  | @cons g u u' _ d ds hg h1 h2 ih =>
    subst hr
    have := Atoms.cons hg (w := u) (w' := u' ++ w') (rest := rest) (by simpa using h1) (ih rfl)
    simpa using this

theorem spaces_blanks {g : Str} (hg : ∀ c ∈ g, c = ' ') : Blanks g := fun c hc => Or.inl (hg c hc)
theorem spaces_flat {g : Str} (hg : ∀ c ∈ g, c = ' ') : ∀ c ∈ g, isBreak c = false := fun c hc => by rw [hg c hc]; decide

theorem Starts.head {c : Char} {r : Str} (h : Starts (c :: r)) : c ≠ '\n' := by
  have := (h.solid c r rfl).2
  rintro rfl; exact absurd this (by decide)

theorem advance3 (m : Mark) {g w w' : Str} (hg : ∀ c ∈ g, c = ' ') (hw : ∀ c ∈ w, isBreak c = false) :
    advance m (g ++ (w ++ w')) = advance (advance (advance m g) w) w' := by
  rw [advance_append m g _ (by
    rintro ⟨h, _⟩
    have := hg _ (List.mem_of_getLast? h)
    revert this; decide), advance_append _ w w' (by
    rintro ⟨h, _⟩
    have := hw _ (List.mem_of_getLast? h)
    revert this; decide)]

theorem Keep.trans {A B C : Cfg} (h : Keep A B) (h' : Keep B C) (hb : A.allowed = false → B.allowed = false) : Keep A C :=
  fun ha => (h' (hb ha)).trans (h ha)

/-- Reading atoms. -/
theorem Atoms.cool {F fl : Nat} {n : Int} {ds : List TokenData} {w rest : Str} (h : Atoms F fl n ds w rest) (hw : ∀ c ∈ w, isBreak c = false) :
    ∀ {A : Cfg}, Cool A → A.flow = fl → A.indent = n → (A.flow = 0 → A.indent < A.mark.column) →
    ∃ B, Reach F A (w ++ rest) B rest ∧ Moved A B ds ∧ (ds ≠ [] → B.allowed = false) ∧ (ds = [] → B = A) ∧ B.mark = advance A.mark w ∧
      Keep A B := by
  induction h with
  | nil => intro A hA _ _ _; exact ⟨A, .refl _ _, Moved.refl hA, by simp, fun _ => rfl, rfl, fun _ => KeySub.refl _⟩
  | @cons g w w' rest d ds hg h1 h2 ih =>
    intro A hA hf hn hc
    have hwb : ∀ c ∈ w, isBreak c = false := fun c hc => hw c (by simp [hc])
    have hgf := advance_flat A.mark g (spaces_flat hg)
    obtain ⟨B, b1, b2, b3, b4, b5⟩ := h1.cool hA hf hn (spaces_blanks hg) (fun h => by have := hc h; rw [hgf.2.1]; omega)
    have hwf := advance_flat (advance A.mark g) w hwb
    obtain ⟨C, c1, c2, c3, c4, c5, c6⟩ := ih (fun c hc => hw c (by simp [hc])) b2.cool (b2.flow.trans hf) (b2.indent.trans hn) (fun h => by
      rw [b2.indent, b4, hwf.2.1, hgf.2.1]
      have := hc (b2.flow ▸ h); omega)
    refine ⟨C, ?_, ?_, fun _ => ?_, by simp, ?_, ?_⟩
    · have := b1.trans c1; simpa using this
    · have := b2.trans c2; simpa using this
    · by_cases hd : ds = []
      · rw [c4 hd]; exact b3
      · exact c3 hd
    · rw [c5, b4, advance3 _ hg hwb]
    · exact (b5 (Or.inr (hasBrk_false (spaces_flat hg)))).trans c6 (fun _ => b3)

theorem strLen_cons (c : Char) (t : Str) : strLen (c :: t) = lenUtf8 c + strLen t := rfl

theorem Atoms.next {F fl : Nat} {n : Int} {ds : List TokenData} {w rest : Str} (h : Atoms F fl n ds w rest) (hw : ∀ c ∈ w, isBreak c = false)
    {A : Cfg} {k : SimpleKey} (hf : A.flow = fl) (hn : A.indent = n) :
    ∀ {B : Cfg} {ts : List TokenData}, Warm A k B ts → B.allowed = false → B.mark.index + strLen w ≤ k.mark.index + 1024 →
    (A.flow = 0 → A.indent ≤ B.mark.column) →
    ∃ C, Reach F B (w ++ rest) C rest ∧ Warm A k C (ts ++ ds) ∧ C.allowed = false ∧ C.mark = advance B.mark w := by
  induction h with
  | nil => intro B ts hB ha hi hc; exact ⟨B, .refl _ _, by simpa using hB, ha, rfl⟩
  | @cons g w w' rest d ds hg h1 h2 ih =>
    intro B ts hB ha hi hc
    have hwb : ∀ c ∈ w, isBreak c = false := fun c hc => hw c (by simp [hc])
    have hgf := advance_flat B.mark g (spaces_flat hg)
    have hwf := advance_flat (advance B.mark g) w hwb
    rw [Emitter.strLen_append, Emitter.strLen_append] at hi
    obtain ⟨C, c1, c2, c3, c4⟩ := h1.next hB hf hn ha (spaces_blanks hg) (spaces_flat hg) hwb (by omega) (fun h => by have := hc h; rw [hgf.2.1]; omega)
    obtain ⟨E, e1, e2, e3, e4⟩ := ih (fun c hc => hw c (by simp [hc])) c2 c3 (by rw [c4]; omega) (fun h => by
      have := hc h; rw [c4, hwf.2.1, hgf.2.1]; omega)
    refine ⟨E, by have := c1.trans e1; simpa using this, by simpa using e2, e3, ?_⟩
    rw [e4, c4, advance3 _ hg hwb]

theorem Atoms.head {F fl : Nat} {n : Int} {d : TokenData} {ds : List TokenData} {g w rest : Str} (h : Atoms F fl n (d :: ds) (g ++ w) rest)
    (hw : ∀ c ∈ w, isBreak c = false) (hg : ∀ c ∈ g, c = ' ') (hw0 : w.head? ≠ some ' ') : Starts (w ++ rest) := by
  generalize hW : g ++ w = W at h
  generalize hD : d :: ds = D at h
  cases h with
  | nil => cases hD
  | @cons g1 w1 w2 _ d' ds' hg1 h1 h2 =>
    cases hD
    have hsol : Solid (w1 ++ (w2 ++ rest)) := h1.starts.solid
    have hsol' : Solid (w ++ rest) := by
      cases hw' : w with
      | nil =>
        exfalso
        rw [hw', List.append_nil] at hW
        cases hw1 : w1 with
        | nil => exact h1.ne hw1
        | cons c r =>
          rw [hw1] at hsol hW
          have : c ∈ g := by rw [hW]; simp
          have h3 := hg c this
          exact (hsol c _ rfl).1 (Or.inl h3)
      | cons c r =>
        intro x r' hx
        simp at hx
        obtain ⟨rfl, _⟩ := hx
        have hcw : c ∈ w := by rw [hw']; simp
        refine ⟨?_, by rw [isLineBreak_eq]; exact hw c hcw⟩
        rintro (h3 | h3)
        · rw [hw'] at hw0; simp at hw0; exact hw0 h3
        · subst h3
          have : '\t' ∈ g1 ++ (w1 ++ w2) := by rw [← hW]; simp [hw']
          -- the first character after the spaces is the first of `w1`
          have e : g ++ (('\t' :: r) ++ rest) = g1 ++ (w1 ++ (w2 ++ rest)) := by
            rw [← hw']; have := congrArg (· ++ rest) hW; simpa using this
          obtain ⟨g', hg', hu⟩ := blanks_suffix (g := g1) (t := w1 ++ (w2 ++ rest)) (p := g) (u := ('\t' :: r) ++ rest) e.symm (spaces_blanks hg) hsol
          cases g' with
          | nil =>
            simp only [List.nil_append] at hu
            exact (hsol '\t' (r ++ rest) (by rw [← hu]; rfl)).1 (Or.inr rfl)
          | cons y g' =>
            have := hg1 y (by rw [hg']; simp)
            subst this
            simp at hu
    have e : g ++ (w ++ rest) = g1 ++ (w1 ++ (w2 ++ rest)) := by have := congrArg (· ++ rest) hW; simpa using this
    obtain ⟨rfl, e2⟩ := blanks_unique e (spaces_blanks hg) (spaces_blanks hg1) hsol' hsol
    obtain rfl : w = w1 ++ w2 := by
      have := List.append_cancel_left hW; exact this
    rw [e2]; exact h1.starts

/-- Reading atoms as a simple key.  `g` is the space before the first. -/
theorem Atoms.warm {F fl : Nat} {n : Int} {d : TokenData} {ds : List TokenData} {g w rest : Str} (h : Atoms F fl n (d :: ds) (g ++ w) rest)
    (hw : ∀ c ∈ w, isBreak c = false) (hg : ∀ c ∈ g, c = ' ') (hw0 : w.head? ≠ some ' ') {A : Cfg} (hA : Cool A) (hf : A.flow = fl) (hn : A.indent = n)
    (ha : A.allowed = true) (hl : strLen w ≤ 1024) (hc : A.flow = 0 → A.indent ≤ (advance A.mark g).column) :
    ∃ B, Reach F A (g ++ (w ++ rest)) B rest ∧ Warm A (A.to g).key B (d :: ds) ∧ B.allowed = false ∧ B.mark = advance (advance A.mark g) w := by
  generalize hW : g ++ w = W at h
  generalize hD : d :: ds = D at h
  cases h with
  | nil => cases hD
  | @cons g1 w1 w2 _ d' ds' hg1 h1 h2 =>
    cases hD
    have hsol : Solid (w1 ++ (w2 ++ rest)) := h1.starts.solid
    have hsol' : Solid (w ++ rest) := by
      cases hw' : w with
      | nil =>
        exfalso
        rw [hw', List.append_nil] at hW
        cases hw1 : w1 with
        | nil => exact h1.ne hw1
        | cons c r =>
          rw [hw1] at hsol hW
          have : c ∈ g := by rw [hW]; simp
          have h3 := hg c this
          exact (hsol c _ rfl).1 (Or.inl h3)
      | cons c r =>
        intro x r' hx
        simp at hx
        obtain ⟨rfl, _⟩ := hx
        have hcw : c ∈ w := by rw [hw']; simp
        refine ⟨?_, by rw [isLineBreak_eq]; exact hw c hcw⟩
        rintro (h3 | h3)
        · rw [hw'] at hw0; simp at hw0; exact hw0 h3
        · subst h3
          have : '\t' ∈ g1 ++ (w1 ++ w2) := by rw [← hW]; simp [hw']
          -- the first character after the spaces is the first of `w1`
          have e : g ++ (('\t' :: r) ++ rest) = g1 ++ (w1 ++ (w2 ++ rest)) := by
            rw [← hw']; have := congrArg (· ++ rest) hW; simpa using this
          obtain ⟨g', hg', hu⟩ := blanks_suffix (g := g1) (t := w1 ++ (w2 ++ rest)) (p := g) (u := ('\t' :: r) ++ rest) e.symm (spaces_blanks hg) hsol
          cases g' with
          | nil =>
            simp only [List.nil_append] at hu
            exact (hsol '\t' (r ++ rest) (by rw [← hu]; rfl)).1 (Or.inr rfl)
          | cons y g' =>
            have := hg1 y (by rw [hg']; simp)
            subst this
            simp at hu
    have e : g ++ (w ++ rest) = g1 ++ (w1 ++ (w2 ++ rest)) := by have := congrArg (· ++ rest) hW; simpa using this
    obtain ⟨rfl, e2⟩ := blanks_unique e (spaces_blanks hg) (spaces_blanks hg1) hsol' hsol
    obtain rfl : w = w1 ++ w2 := by
      have := List.append_cancel_left hW; exact this
    have hwb : ∀ c ∈ w1, isBreak c = false := fun c hc => hw c (by simp [hc])
    have hwf := advance_flat (advance A.mark g) w1 hwb
    obtain ⟨B, b1, b2, b3, b4⟩ := h1.first hA hf hn ha (spaces_blanks hg) (hasBrk_false (spaces_flat hg)) hwb hc
    rw [Emitter.strLen_append] at hl
    obtain ⟨C, c1, c2, c3, c4⟩ := h2.next (fun c hc => hw c (by simp [hc])) hf hn b2 b3 (by
        rw [b4]
        show _ ≤ (advance A.mark g).index + 1024
        omega) (fun h => by
      have := hc h; rw [b4, hwf.2.1]; omega)
    refine ⟨C, by have := b1.trans c1; simpa using this, c2, c3, ?_⟩
    rw [c4, b4, advance_append _ w1 w2 (by
      rintro ⟨h, _⟩
      have := hwb _ (List.mem_of_getLast? h)
      revert this; decide)]

end Yaml.Lx
