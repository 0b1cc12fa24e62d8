import Verif.Lib.Round4

/-
Reading back, emitter side: the content of scalars.
-/

namespace Yaml.Rt
open Yaml Emitter Lx Spec
set_option linter.unusedSimpArgs false
set_option linter.unusedVariables false

/-- Plain and quoted scalars. -/
theorem writes_flowScalar (style : ScalarStyle) (v : Str) (s : EState) (fl : Nat) (n : Int) (hst : style = .plain ∨ style = .singleQuoted ∨ style = .doubleQuoted)
    (hl : s.lineBreak ≠ .any) (hi : 1 ≤ s.indent) (hp : style = .plain → PlainOk (fl != 0) v ∧ (fl = 0 → n + 1 ≤ s.indent))
    (hs : style = .singleQuoted → SingleOk v) :
    ∃ s' w, Writes (processScalar style v) s () s' (sep s ++ w) ∧ Wrote s (sep s ++ w) s' ∧ s'.whitespace = false ∧ s'.indention = false ∧
      w ≠ [] ∧ w.head? ≠ some ' ' ∧
      (s.simpleKeyContext = true → (∀ c ∈ v, isBreak c = false) → (∀ c ∈ w, isBreak c = false) ∧ strLen w ≤ 4 * strLen v + 2) ∧
      ∀ F rest brk rest', PlainEnd (fl != 0) (n + 1) rest brk rest' → rest.head? ≠ some '\'' →
        ∃ b, (fl = 0 ∨ brk = false → b = false) ∧ Atom F fl n w (.scalar v style) b rest := by
  rcases hst with rfl | rfl | rfl
  · obtain ⟨hv, hn⟩ := hp rfl
    obtain ⟨s', w, h1, h2, h3, h4, h5, h6, h7, h8⟩ := writes_writePlain v (!s.simpleKeyContext) s hl hi hv
    have hne : w ≠ [] := by
      rintro rfl
      cases v with
      | nil => exact hv.nonempty rfl
      | cons => cases h6
    refine ⟨s', w, Writes.bind_get h1, h2, h3, h4, hne, ?_, ?_, ?_⟩
    · rw [h6]; exact hv.leading
    · intro hk hb
      obtain ⟨g1, g2⟩ := h5 (by rw [hk]; rfl)
      exact ⟨g1, by omega⟩
    · intro F rest brk rest' he hq
      have hn' : (fl != 0) = false → n + 1 ≤ s.indent := fun h => hn (by simpa using h)
      obtain ⟨k1, k2⟩ := h8 (n + 1) rest brk rest' hn' he
      have k3 := (h8 (n + 1) [] false [] hn' (.here (Or.inl rfl))).1
      rw [List.append_nil] at k3
      refine ⟨fl != 0 && brk, ?_, atom_plain hv k1 he h6 h7 (plain_last k3) k2⟩
      rintro (rfl | rfl) <;> simp
  · obtain ⟨s', w, h1, h2, h3, h4, h5, h6⟩ := writes_writeSingleQuoted v (!s.simpleKeyContext) s hl hi (hs rfl)
    have hq := h6 [] (by simp)
    rw [List.append_nil] at hq
    obtain ⟨b, hb, _⟩ := hq
    refine ⟨s', w, Writes.bind_get h1, h2, h3, h4, by rw [hb]; simp, by rw [hb]; simp [Spec.quote], ?_, ?_⟩
    · intro hk hvb
      obtain ⟨g1, g2⟩ := h5 (by rw [hk]; rfl) hvb
      exact ⟨g1, by omega⟩
    · intro F rest brk rest' _ hq
      exact ⟨false, fun _ => rfl, atom_quoted (single := true) (h6 rest hq) (by rw [hb]; simp)⟩
  · obtain ⟨s', w, h1, h2, h3, h4, h5, h6⟩ := writes_writeDoubleQuoted v (!s.simpleKeyContext) s hl hi
    have hq := h6 []
    rw [List.append_nil] at hq
    obtain ⟨b, hb, _⟩ := hq
    refine ⟨s', w, Writes.bind_get h1, h2, h3, h4, by rw [hb]; simp, by rw [hb]; simp [Spec.quote], ?_, ?_⟩
    · intro hk hvb
      exact h5 (by rw [hk]; rfl)
    · intro F rest brk rest' _ hq
      exact ⟨false, fun _ => rfl, atom_quoted (single := false) (h6 rest) (by rw [hb]; simp)⟩

/-- An empty plain scalar in block context. -/
theorem writes_emptyPlain (s : EState) (hf : s.flowLevel = 0) :
    Writes (processScalar .plain []) s () { s with whitespace := false, indention := false } [] := by
  refine Writes.bind_get ?_
  show Writes (writePlain [] (!s.simpleKeyContext)) _ _ _ _
  unfold writePlain
  refine Writes.bind_get ((Writes.when_false (by simp [hf])).bind0 ?_)
  exact (Writes.pure () s).bind0 (Writes.modify _ s)

/-! ### No carriage return where the line break is LF -/

/-- `m` succeeds and writes no CR. -/
def Clr (m : Emit Unit) (s : EState) : Prop := ∃ s' w, Writes m s () s' w ∧ '\r' ∉ w ∧ s'.lineBreak = .ln

theorem Clr.bind {m : Emit Unit} {f : Unit → Emit Unit} {s : EState} (h : Clr m s) (h' : ∀ s', s'.lineBreak = .ln → Clr (f ()) s') : Clr (m >>= f) s := by
  obtain ⟨s1, w1, a1, a2, a3⟩ := h
  obtain ⟨s2, w2, b1, b2, b3⟩ := h' s1 a3
  refine ⟨s2, _, a1.bind b1, ?_, b3⟩
  simp [a2, b2]

theorem Clr.get {f : EState → Emit Unit} {s : EState} (h : Clr (f s) s) : Clr (M.get >>= f) s := by
  obtain ⟨s1, w1, a1, a2, a3⟩ := h
  exact ⟨s1, w1, Writes.bind_get a1, a2, a3⟩

theorem Clr.pure {s : EState} (hs : s.lineBreak = .ln) : Clr (Pure.pure ()) s := ⟨s, [], Writes.pure () s, by simp, hs⟩

theorem Clr.modify {g : EState → EState} {s : EState} (hs : (g s).lineBreak = .ln) : Clr (M.modify g) s := ⟨_, [], Writes.modify g s, by simp, hs⟩

theorem Clr.when {b : Bool} {m : Emit Unit} {s : EState} (hs : s.lineBreak = .ln) (h : Clr m s) : Clr (M.when b m) s := by
  cases b with
  | true => exact h
  | false => exact Clr.pure hs

theorem clr_writeChar {c : Char} (hc : c ≠ '\r') {s : EState} (hs : s.lineBreak = .ln) : Clr (writeChar c) s :=
  ⟨_, _, writes_writeChar c s, by simpa using hc.symm, hs⟩

theorem clr_putBreak {s : EState} (hs : s.lineBreak = .ln) : Clr putBreak s :=
  ⟨_, _, writes_putBreak s, by rw [hs]; decide, hs⟩

theorem clr_writeBreak {c : Char} (hc : c ≠ '\r') {s : EState} (hs : s.lineBreak = .ln) : Clr (writeBreak c) s := by
  refine ⟨_, _, writes_writeBreak c s, ?_, hs⟩
  unfold breakText
  split
  · rw [hs]; decide
  · simpa using hc.symm

theorem clr_writeIndent {s : EState} (hs : s.lineBreak = .ln) : Clr writeIndent s := by
  cases hb : breaksLine s with
  | true =>
    refine ⟨_, _, writes_writeIndent_break hb, ?_, hs⟩
    rw [hs]; simp [breakChars]
  | false => exact ⟨_, _, writes_writeIndent_stay hb, by simp, hs⟩

theorem clr_indicator {t : Str} (ht : '\r' ∉ t) (a b c : Bool) {s : EState} (hs : s.lineBreak = .ln) : Clr (writeIndicator t a b c) s := by
  refine ⟨_, _, writes_writeIndicator t a b c s, ?_, hs⟩
  split <;> simp [ht]

theorem clr_literalLoop : ∀ (v : Str) (b : Bool) (s : EState), '\r' ∉ v → s.lineBreak = .ln → Clr (literalLoop v b) s
  | [], _, s, _, hs => Clr.pure hs
  | c :: cs, b, s, hv, hs => by
    have hc : c ≠ '\r' := by rintro rfl; simp at hv
    have hcs : '\r' ∉ cs := by intro h; exact hv (List.mem_cons_of_mem _ h)
    rw [literalLoop]
    split
    · refine (clr_writeBreak hc hs).bind fun s1 h1 => (Clr.modify h1).bind fun s2 h2 => clr_literalLoop cs true s2 hcs h2
    · refine (Clr.when hs (clr_writeIndent hs)).bind fun s1 h1 => (clr_writeChar hc h1).bind fun s2 h2 => (Clr.modify h2).bind fun s3 h3 => clr_literalLoop cs false s3 hcs h3

theorem clr_foldedLoop : ∀ (v : Str) (b l : Bool) (s : EState), '\r' ∉ v → s.lineBreak = .ln → Clr (foldedLoop v b l) s
  | [], _, _, s, _, hs => Clr.pure hs
  | c :: cs, b, l, s, hv, hs => by
    have hc : c ≠ '\r' := by rintro rfl; simp at hv
    have hcs : '\r' ∉ cs := by intro h; exact hv (List.mem_cons_of_mem _ h)
    rw [foldedLoop]
    split
    · refine (Clr.when hs (clr_putBreak hs)).bind fun s1 h1 => (clr_writeBreak hc h1).bind fun s2 h2 => (Clr.modify h2).bind fun s3 h3 => clr_foldedLoop cs true l s3 hcs h3
    · refine (Clr.when hs (clr_writeIndent hs)).bind fun s1 h1 => Clr.get ?_
      generalize (if b = true then isBlank c else l) = l'
      split
      · exact Clr.bind (f := fun _ => setIndention false >>= fun _ => foldedLoop cs false l') (clr_writeIndent h1)
          fun s2 h2 => (Clr.modify h2).bind fun s3 h3 => clr_foldedLoop cs false _ s3 hcs h3
      · exact Clr.bind (f := fun _ => setIndention false >>= fun _ => foldedLoop cs false l') (clr_writeChar hc h1)
          fun s2 h2 => (Clr.modify h2).bind fun s3 h3 => clr_foldedLoop cs false _ s3 hcs h3

theorem clr_hints (v : Str) (s : EState) (hb : 1 ≤ s.bestIndent ∧ s.bestIndent ≤ 9) (hs : s.lineBreak = .ln) : Clr (writeBlockHints v) s := by
  unfold writeBlockHints
  refine Clr.get ((Clr.when hs ?_).bind fun s1 h1 => (Clr.modify h1).bind fun s2 h2 => ?_)
  · rw [if_pos (by omega)]
    refine clr_indicator ?_ _ _ _ hs
    have h : ∀ k : Fin 10, '\r' ∉ [Char.ofNat (48 + k.val)] := by decide
    exact h ⟨s.bestIndent.toNat, by omega⟩
  · split
    · exact clr_indicator (by decide) _ _ _ h2
    · split
      · exact clr_indicator (by decide) _ _ _ h2
      · split
        · exact (Clr.modify h2).bind fun s3 h3 => clr_indicator (by decide) _ _ _ h3
        · exact Clr.pure h2

theorem clr_block (lit : Bool) (v : Str) (s : EState) (hb : 1 ≤ s.bestIndent ∧ s.bestIndent ≤ 9) (hv : '\r' ∉ v) (hs : s.lineBreak = .ln) :
    Clr (if lit then writeLiteral v else writeFolded v) s := by
  have hi : ∀ t : Str, '\r' ∉ t → ∃ s', Writes (writeIndicator t true false false) s () s' ((if true && !s.whitespace then [' '] else []) ++ t) ∧ s'.lineBreak = .ln ∧ s'.bestIndent = s.bestIndent :=
    fun t _ => ⟨_, writes_writeIndicator t true false false s, hs, rfl⟩
  cases lit with
  | true =>
    obtain ⟨s1, a1, a2, a3⟩ := hi ['|'] (by decide)
    obtain ⟨s2, w2, b1, b2, b3⟩ := (clr_hints v s1 (by rw [a3]; exact hb) a2).bind (f := fun _ => putBreak >>= fun _ => setWI true true >>= fun _ => literalLoop v true)
      fun s2 h2 => (clr_putBreak h2).bind fun s3 h3 => (Clr.modify h3).bind fun s4 h4 => clr_literalLoop v true s4 hv h4
    exact ⟨s2, _, a1.bind b1, by split <;> simp [b2], b3⟩
  | false =>
    obtain ⟨s1, a1, a2, a3⟩ := hi ['>'] (by decide)
    obtain ⟨s2, w2, b1, b2, b3⟩ := (clr_hints v s1 (by rw [a3]; exact hb) a2).bind (f := fun _ => putBreak >>= fun _ => setWI true true >>= fun _ => foldedLoop v true true)
      fun s2 h2 => (clr_putBreak h2).bind fun s3 h3 => (Clr.modify h3).bind fun s4 h4 => clr_foldedLoop v true true s4 hv h4
    exact ⟨s2, _, a1.bind b1, by split <;> simp [b2], b3⟩

end Yaml.Rt
