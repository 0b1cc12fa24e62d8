import Verif.Spec.Yaml
import Verif.Lib.Round12
import Verif.Lib.JsonRead2

/-
Reading YAML texts, scanner side: white space, places, scalars, properties and simple keys.
-/

namespace Yaml.Lx
open Yaml Scanner Spec Rt
set_option linter.unusedSimpArgs false
set_option linter.unusedVariables false

/-! ### White space -/

theorem space_ws {fl : Bool} {f : Nat} (hf : (f != 0) = fl) {tabs : Bool} {g : Str} (h : Space fl tabs g) :
    ∀ {al : Bool}, (tabs = true → f ≠ 0 ∨ al = false) → Ws f al g := by
  have key : ∀ (al : Bool), fl = true → f ≠ 0 ∨ al = false := fun al h => Or.inl (by rw [← hf] at h; simpa using h)
  induction h with
  | nil => intro al _; exact .nil
  | space _ ih => intro al ht; exact .space (ih ht)
  | tab _ ih => intro al ht; exact .tab (ht rfl) (ih ht)
  | brk hc _ ih => intro al ht; exact .brk (by rw [← isLineBreak_eq]; exact hc) (ih (key _))
  | comment hn hc _ ih =>
    intro al ht
    exact .comment (fun x hx => by rw [← isLineBreak_eq]; exact hn x hx) (by rw [← isLineBreak_eq]; exact hc) (ih (key _))

theorem space_flow {f : Nat} (hf : f ≠ 0) {g : Str} (h : Space true true g) {al : Bool} : Ws f al g :=
  space_ws (by simpa using hf) h (fun _ => Or.inl hf)

theorem space_block {p : Place} {g : Str} (h : Space false p.isNone g) : Ws 0 p.isSome g :=
  space_ws (by simp) h (fun hp => Or.inr (by cases p <;> simp_all))

theorem spaceEnd_ws {p : Place} {g : Str} (h : SpaceEnd p.isNone g) : WsT 0 p.isSome g [] := by
  obtain ⟨g1, com, rfl, h1, h2⟩ := h
  refine ⟨g1, com, rfl, space_block h1, ?_⟩
  rcases h2 with h2 | ⟨x, rfl, hx⟩
  · exact Or.inl h2
  · exact Or.inr ⟨rfl, x, rfl, fun c hc => by rw [← isLineBreak_eq]; exact hx c hc⟩

theorem oneLine_flat {w : Str} (h : OneLine w) : ∀ c ∈ w, isBreak c = false := fun c hc => by rw [← isLineBreak_eq]; exact h c hc

theorem allBlank_flat {b : Str} (h : AllBlank b) : ∀ c ∈ b, isBreak c = false := by
  intro c hc
  rcases h c hc with rfl | rfl <;> decide

theorem allBlank_ws {b : Str} (h : AllBlank b) {f : Nat} {al : Bool} (ha : al = false) : Ws f al b := by
  subst ha
  induction b with
  | nil => exact .nil
  | cons c b ih =>
    have := ih (fun x hx => h x (List.mem_cons_of_mem _ hx))
    rcases h c List.mem_cons_self with rfl | rfl
    · exact .space this
    · exact .tab (Or.inr rfl) this

/-! ### Places -/

theorem advance_col_brk (m m' : Mark) (g : Str) (h : hasBrk g = true) : (advance m g).column = (advance m' g).column := by
  have key : ∀ (n : Nat) (g : Str), g.length = n → ∀ m m' : Mark, (hasBrk g = true ∨ m.column = m'.column) → (advance m g).column = (advance m' g).column := by
    intro n
    induction n using Nat.strongRecOn with
    | _ n ih =>
      intro g hn m m' h
      cases g with
      | nil => rcases h with h | h
               · cases h
               · exact h
      | cons c r =>
        by_cases hc : c = '\r' ∧ r.head? = some '\n'
        · obtain ⟨rfl, h'⟩ := hc
          cases r with
          | nil => cases h'
          | cons d r =>
            cases h'
            exact ih r.length (by simp at hn; omega) r rfl _ _ (Or.inr rfl)
        · rw [advance_cons _ _ _ hc, advance_cons _ _ _ hc]
          cases hb : isBreak c with
          | true => exact ih r.length (by simp at hn; omega) r rfl _ _ (Or.inr rfl)
          | false =>
            refine ih r.length (by simp at hn; omega) r rfl _ _ ?_
            rcases h with h | h
            · left; rw [hasBrk_cons, hb] at h; simpa using h
            · right
              show m.column + 1 = m'.column + 1
              rw [h]
  exact key _ g rfl m m' (Or.inl h)

theorem any_hasBrk (g : Str) : g.any isLineBreak = hasBrk g := by
  unfold hasBrk
  congr 1
  funext c
  exact isLineBreak_eq c

/-- The scanner is at this place. -/
structure AtPlace (p : Place) (A : Cfg) : Prop where
  allowed : A.allowed = p.isSome
  col : ∀ k, p = some k → A.mark.column = k

theorem AtPlace.skip {p : Place} {A : Cfg} (h : AtPlace p A) (hf : A.flow = 0) (g : Str) : AtPlace (p.after g) (A.skip g) := by
  unfold Place.after
  rw [any_hasBrk]
  cases hb : hasBrk g with
  | true =>
    simp only [if_true]
    refine ⟨?_, ?_⟩
    · show (A.allowed || (A.flow == 0 && hasBrk g)) = true
      rw [hf, hb]; simp
    · intro k hk
      cases hk
      exact advance_col_brk _ _ _ hb
  | false =>
    have hflat : ∀ c ∈ g, isBreak c = false := by
      intro c hc
      cases hx : isBreak c with
      | false => rfl
      | true => unfold hasBrk at hb; rw [List.any_eq_false] at hb; exact absurd hx (by simpa using hb c hc)
    simp only [Bool.false_eq_true, if_false]
    refine ⟨?_, ?_⟩
    · show (A.allowed || (A.flow == 0 && hasBrk g)) = _
      rw [hb, h.allowed]; cases p <;> simp
    · intro k hk
      cases p with
      | none => cases hk
      | some j =>
        simp at hk
        have := (advance_flat A.mark g hflat).2.1
        have h2 := h.col j rfl
        show (advance A.mark g).column = k
        omega

theorem right_skip {p : Place} {A : Cfg} {n : Int} (h : AtPlace p A) (hf : A.flow = 0) {g : Str} (hr : p = none → n < A.mark.column)
    (hd : (p.after g).deeper n) : n < (A.skip g).mark.column := by
  have hs := h.skip hf g
  cases hq : p.after g with
  | some k => rw [hs.col k hq]; exact hd k hq
  | none =>
    have hp : p = none := by
      unfold Place.after at hq
      split at hq
      · cases hq
      · cases p with
        | none => rfl
        | some k => cases hq
    have hb : hasBrk g = false := by
      rw [← any_hasBrk]
      unfold Place.after at hq
      split at hq
      · cases hq
      · rename_i h; simpa using h
    have hflat : ∀ c ∈ g, isBreak c = false := by
      intro c hc
      cases hx : isBreak c with
      | false => rfl
      | true => unfold hasBrk at hb; rw [List.any_eq_false] at hb; exact absurd hx (by simpa using hb c hc)
    have := (advance_flat A.mark g hflat).2.1
    have := hr hp
    show n < (advance A.mark g).column
    omega

/-! ### Runs of atoms -/

/-- Atoms with blanks between them. -/
inductive Bits (F fl : Nat) (n : Int) : List TokenData → Str → Bool → Str → Prop
  | one {d : TokenData} {w rest : Str} {b : Bool} (h : Atom F fl n w d b rest) : Bits F fl n [d] w b rest
  | more {d : TokenData} {ds : List TokenData} {w g w' rest : Str} {b : Bool} (h : Atom F fl n w d false (g ++ (w' ++ rest))) (hw : OneLine w) (hg : AllBlank g)
      (hs : Bits F fl n ds w' b rest) : Bits F fl n (d :: ds) (w ++ (g ++ w')) b rest

section
variable {F fl : Nat} {n : Int}

theorem Bits.starts {ds : List TokenData} {w rest : Str} {b : Bool} (h : Bits F fl n ds w b rest) : Starts (w ++ rest) := by
  cases h with
  | one h => exact h.starts
  | more h _ _ _ => have := h.starts; simpa using this

theorem Bits.ne {ds : List TokenData} {w rest : Str} {b : Bool} (h : Bits F fl n ds w b rest) : w ≠ [] ∧ ds ≠ [] := by
  cases h with
  | one h => exact ⟨h.ne, by simp⟩
  | more h _ _ _ => exact ⟨by simp [h.ne], by simp⟩

theorem noSplit_starts {g t : Str} (h : Starts t) : NoSplit g t := NoSplit.solid h.solid

theorem oneLine_noCr {w : Str} (h : OneLine w) : w.getLast? ≠ some '\r' := by
  intro h'
  have := h _ (List.mem_of_getLast? h')
  revert this; decide

theorem allBlank_noCr {w : Str} (h : AllBlank w) : w.getLast? ≠ some '\r' := by
  intro h'
  rcases h _ (List.mem_of_getLast? h') with h | h <;> revert h <;> decide

theorem advance_three (m : Mark) {w g w' : Str} (hw : OneLine w) (hg : AllBlank g) : advance m (w ++ (g ++ w')) = advance (advance (advance m w) g) w' := by
  rw [advance_append m w _ (fun h => oneLine_noCr hw h.1), advance_append _ g _ (fun h => allBlank_noCr hg h.1)]

/-- Reading them. -/
theorem Bits.cool {ds : List TokenData} {w rest : Str} {b : Bool} (h : Bits F fl n ds w b rest) : ∀ {A : Cfg}, Cool A → A.flow = fl → A.indent = n →
    (A.flow = 0 → A.indent < A.mark.column) →
    ∃ B, Reach F A (w ++ rest) B rest ∧ Moved A B ds ∧ B.allowed = b ∧ B.mark = advance A.mark w ∧ Keep A B := by
  induction h with
  | @one d w rest b h =>
    intro A hA hf hn hc
    obtain ⟨B, b1, b2, b3, b4, b5⟩ := h.cool hA hf hn (g := []) Blanks.nil hc
    exact ⟨B, by simpa using b1, b2, b3, b4, b5 (Or.inr rfl)⟩
  | @more d ds w g w' rest b h hw hg hs ih =>
    intro A hA hf hn hc
    obtain ⟨B, b1, b2, b3, b4, b5⟩ := h.cool hA hf hn (g := []) Blanks.nil hc
    have hsk := skip_moved b2.cool g
    have hws : Ws B.flow B.allowed g := allBlank_ws hg b3
    have hal : (B.skip g).allowed = false := by
      show (B.allowed || (B.flow == 0 && hasBrk g)) = false
      rw [b3, hasBrk_flat (allBlank_flat hg)]; simp
    have hwl : ∀ c ∈ w, isBreak c = false := oneLine_flat hw
    have hc2 : (B.skip g).flow = 0 → (B.skip g).indent < (B.skip g).mark.column := by
      intro h0
      have h1 := (advance_flat A.mark w hwl).2.1
      have h2 := (advance_flat B.mark g (allBlank_flat hg)).2.1
      have h3 := hc (b2.flow ▸ h0)
      have e : B.indent = A.indent := b2.indent
      have b4 : B.mark = advance A.mark w := b4
      show B.indent < (advance B.mark g).column
      rw [e, h2, b4, h1]; omega
    obtain ⟨C, c1, c2, c3, c4, c5⟩ := ih hsk.cool (hsk.flow.trans (b2.flow.trans hf)) (hsk.indent.trans (b2.indent.trans hn)) hc2
    refine ⟨C, ?_, ?_, c3, ?_, ?_⟩
    · have := b1.trans (.skip hws (noSplit_starts hs.starts) c1)
      simpa using this
    · have := (b2.trans hsk).trans c2
      simpa using this
    · rw [c4, advance_three _ hw hg]
      show advance (advance B.mark g) w' = _
      rw [b4]; rfl
    · exact (b5 (Or.inr rfl)).trans (fun h => c5 hal) (fun _ => b3)

theorem Warm.skip {A B : Cfg} {k : SimpleKey} {ts : List TokenData} (h : Warm A k B ts) {g : Str} (hg : ∀ c ∈ g, isBreak c = false) : Warm A k (B.skip g) ts := by
  have hl := (advance_flat B.mark g hg).1
  exact ⟨h.flow, h.indent, h.indents, h.toks, h.keys, fun x hx hp => by
    obtain ⟨h1, h2⟩ := h.cool x hx hp
    exact ⟨h1, by show _ ≤ (advance B.mark g).line; omega⟩, h.len, by show _ = (advance B.mark g).line; rw [hl]; exact h.line, h.possible, h.number⟩

/-- Reading them as a simple key, after its first token. -/
theorem Bits.next {ds : List TokenData} {w rest : Str} {b : Bool} (h : Bits F fl n ds w b rest) : ∀ {A B : Cfg} {k : SimpleKey} {ts : List TokenData}, Warm A k B ts →
    A.flow = fl → A.indent = n → B.allowed = false → OneLine w → (advance B.mark w).index ≤ k.mark.index + 1024 → (A.flow = 0 → A.indent ≤ B.mark.column) →
    ∃ C, Reach F B (w ++ rest) C rest ∧ Warm A k C (ts ++ ds) ∧ C.allowed = b ∧ C.mark = advance B.mark w := by
  induction h with
  | @one d w rest b h =>
    intro A B k ts hB hf hn ha hw hi hc
    have := advance_index B.mark w
    obtain ⟨C, c1, c2, c3, c4⟩ := h.next hB hf hn ha (g := []) Blanks.nil (by simp) (oneLine_flat hw) (by show B.mark.index ≤ _; omega) hc
    exact ⟨C, by simpa using c1, c2, c3, c4⟩
  | @more d ds w g w' rest b h hw hg hs ih =>
    intro A B k ts hB hf hn ha hw1 hi hc
    rw [advance_three _ hw hg] at hi ⊢
    have i1 := advance_index B.mark w
    have i2 := advance_index (advance B.mark w) g
    have i3 := advance_index (advance (advance B.mark w) g) w'
    obtain ⟨C, c1, c2, c3, c4⟩ := h.next hB hf hn ha (g := []) Blanks.nil (by simp) (oneLine_flat hw) (by show B.mark.index ≤ _; omega) hc
    have c4 : C.mark = advance B.mark w := c4
    have hws : Ws C.flow C.allowed g := allBlank_ws hg c3
    have hal : (C.skip g).allowed = false := by
      show (C.allowed || (C.flow == 0 && hasBrk g)) = false
      rw [c3, hasBrk_flat (allBlank_flat hg)]; simp
    have hcol : A.flow = 0 → A.indent ≤ (C.skip g).mark.column := by
      intro h0
      have h1 := (advance_flat B.mark w (oneLine_flat hw)).2.1
      have h2 := (advance_flat C.mark g (allBlank_flat hg)).2.1
      have h3 := hc h0
      show A.indent ≤ (advance C.mark g).column
      rw [h2, c4, h1]; omega
    obtain ⟨E, e1, e2, e3, e4⟩ := ih (c2.skip (allBlank_flat hg)) hf hn hal (fun c hc => hw1 c (by simp [hc]))
      (by show (advance (advance C.mark g) w').index ≤ _; rw [c4]; exact hi) hcol
    refine ⟨E, ?_, by simpa using e2, e3, ?_⟩
    · have := c1.trans (.skip hws (noSplit_starts hs.starts) e1)
      simpa using this
    · rw [e4]; show advance (advance C.mark g) w' = _; rw [c4]

/-- ... from the beginning. -/
theorem Bits.warm {ds : List TokenData} {w rest : Str} {b : Bool} (h : Bits F fl n ds w b rest) {A : Cfg} (hA : Cool A) (hf : A.flow = fl) (hn : A.indent = n)
    (ha : A.allowed = true) (hw : OneLine w) (hi : (position w).index ≤ 1024) (hc : A.flow = 0 → A.indent ≤ A.mark.column) :
    ∃ B, Reach F A (w ++ rest) B rest ∧ Warm A (A.to []).key B ds ∧ B.allowed = b ∧ B.mark = advance A.mark w := by
  cases h with
  | one h =>
    obtain ⟨B, b1, b2, b3, b4⟩ := h.first hA hf hn ha (g := []) Blanks.nil rfl (oneLine_flat hw) hc
    exact ⟨B, by simpa using b1, b2, b3, b4⟩
  | @more d ds w g w' _ _ h hw0 hg hs =>
    obtain ⟨C, c1, c2, c3, c4⟩ := h.first hA hf hn ha (g := []) Blanks.nil rfl (oneLine_flat hw0) hc
    have c4 : C.mark = advance A.mark w := c4
    have hws : Ws C.flow C.allowed g := allBlank_ws hg c3
    have hal : (C.skip g).allowed = false := by
      show (C.allowed || (C.flow == 0 && hasBrk g)) = false
      rw [c3, hasBrk_flat (allBlank_flat hg)]; simp
    have hcol : A.flow = 0 → A.indent ≤ (C.skip g).mark.column := by
      intro h0
      have h1 := (advance_flat A.mark w (oneLine_flat hw0)).2.1
      have h2 := (advance_flat C.mark g (allBlank_flat hg)).2.1
      have h3 := hc h0
      show A.indent ≤ (advance C.mark g).column
      rw [h2, c4, h1]; omega
    have hidx : (advance (C.skip g).mark w').index ≤ (A.to []).key.mark.index + 1024 := by
      show (advance (advance C.mark g) w').index ≤ A.mark.index + 1024
      rw [c4, ← advance_three _ hw0 hg, advance_index_add]
      omega
    obtain ⟨E, e1, e2, e3, e4⟩ := hs.next (c2.skip (allBlank_flat hg)) hf hn hal (fun c hc => hw c (by simp [hc])) hidx hcol
    refine ⟨E, ?_, by simpa using e2, e3, ?_⟩
    · have := c1.trans (.skip hws (noSplit_starts hs.starts) e1)
      simpa using this
    · rw [e4, advance_three _ hw0 hg]; show advance (advance C.mark g) w' = _; rw [c4]

theorem Bits.append {ds es : List TokenData} {w g w' rest : Str} {b : Bool} (h : Bits F fl n ds w false (g ++ (w' ++ rest))) (hw : OneLine w) (hg : AllBlank g)
    (h' : Bits F fl n es w' b rest) : Bits F fl n (ds ++ es) (w ++ (g ++ w')) b rest := by
  generalize hr : g ++ (w' ++ rest) = r at h
  generalize hb : false = b0 at h
  induction h with
  | @one d w r b0 h => subst hr; subst hb; exact .more h hw hg h'
  | @more d ds w g1 w1 r b0 h hw0 hg1 hs ih =>
    have := ih (fun c hc => hw c (by simp [hc])) hr hb
    have e : w ++ (g1 ++ w1) ++ (g ++ w') = w ++ (g1 ++ (w1 ++ (g ++ w'))) := by simp
    rw [e]
    refine .more ?_ hw0 hg1 this
    subst hr
    simpa using h

end

end Yaml.Lx
