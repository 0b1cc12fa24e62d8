import Verif.Lib.Round6

/-
Reading back, emitter side: scalar nodes.
-/

namespace Yaml.Rt
open Yaml Emitter Lx Spec
set_option linter.unusedSimpArgs false
set_option linter.unusedVariables false

/-- What may follow a node in block context at indentation `n`: a new line (unless one has just been started) indented by at most `n`, or a document marker, or the end. -/
def Fol (n : Int) (lb : Break) (fresh : Bool) (rest : Str) : Prop :=
  ∃ (j : Nat) (t : Str), rest = (if fresh then [] else breakChars lb) ++ (List.replicate j ' ' ++ t) ∧ Starts t ∧
    ((j : Int) ≤ n ∨ (j = 0 ∧ (t = [] ∨ IsDocMarker t)))

theorem Fol.mono {n n' : Int} {lb : Break} {fresh : Bool} {rest : Str} (h : Fol n lb fresh rest) (hn : n ≤ n') : Fol n' lb fresh rest := by
  obtain ⟨j, t, h1, h2, h3⟩ := h
  exact ⟨j, t, h1, h2, h3.imp (fun h => Int.le_trans h hn) id⟩

theorem breakChars_head {lb : Break} (hl : lb ≠ .any) : ∃ c r, breakChars lb = c :: r ∧ isBreak c = true ∧ (c = '\n' → lb = .ln) := by
  cases lb with
  | any => exact absurd rfl hl
  | cr => exact ⟨'\r', [], rfl, by decide, by decide⟩
  | ln => exact ⟨'\n', [], rfl, by decide, fun _ => rfl⟩
  | crln => exact ⟨'\r', ['\n'], rfl, by decide, by decide⟩

theorem spaces_head {j : Nat} {t : Str} (ht : Starts t) : (List.replicate j ' ' ++ t).head? ≠ some '\n' := by
  cases j with
  | zero =>
    simp only [List.replicate_zero, List.nil_append]
    intro h
    cases t with
    | nil => cases h
    | cons c r => simp at h; exact ht.head h
  | succ j => simp [List.replicate_succ]

theorem gap_spaces {j : Nat} {t : Str} (ht : Solid t) : Gap (List.replicate j ' ' ++ t) [] t := by
  induction j with
  | zero => exact .stop t ht
  | succ j ih => exact .space ih

theorem Fol.plainEnd {n : Int} {lb : Break} {rest : Str} (h : Fol n lb false rest) (hl : lb ≠ .any) : ∃ rest', PlainEnd false (n + 1) rest true rest' := by
  obtain ⟨j, t, rfl, h2, h3⟩ := h
  simp only [Bool.false_eq_true, if_false]
  have hb : BreakAt (breakChars lb ++ (List.replicate j ' ' ++ t)) '\n' (List.replicate j ' ' ++ t) := breakAt_chars hl (Or.inr (spaces_head h2))
  obtain ⟨p, c, hp, hpc⟩ : ∃ p c, breakChars lb = p ++ [c] ∧ isLineBreak c = true := by
    cases lb with
    | any => exact absurd rfl hl
    | cr => exact ⟨[], '\r', rfl, by decide⟩
    | ln => exact ⟨[], '\n', rfl, by decide⟩
    | crln => exact ⟨['\r'], '\n', rfl, by decide⟩
  refine ⟨t, ?_⟩
  have := PlainEnd.gap (flow := false) (n := n + 1) (b := []) (t := breakChars lb ++ (List.replicate j ' ' ++ t)) (bs := ['\n']) (t' := t) (by simp) (.brk hb (gap_spaces h2.solid)) ?_ ?_
  · simpa using this
  · intro he
    have := congrArg List.length he
    rw [hp] at this
    simp at this
    omega
  · rcases h3 with h3 | ⟨rfl, rfl | h3⟩
    · right; right; left
      refine ⟨by simp, rfl, p, c, j, ?_, hpc, by omega⟩
      rw [hp]; simp
    · exact Or.inl (Or.inl rfl)
    · right; right; right
      refine ⟨by simp, h3, p, c, ?_, hpc⟩
      rw [hp]; simp

theorem Fol.endsTag {n : Int} {lb : Break} {rest : Str} (h : Fol n lb false rest) (hl : lb ≠ .any) : EndsTag rest ∧ rest.head? ≠ some '\'' := by
  obtain ⟨j, t, rfl, h2, h3⟩ := h
  obtain ⟨c, r, hc, hb, _⟩ := breakChars_head hl
  simp only [Bool.false_eq_true, if_false, hc]
  refine ⟨?_, ?_⟩
  · intro d r' hd
    simp at hd
    obtain ⟨rfl, _⟩ := hd
    right; rw [isLineBreak_eq]; exact hb
  · simp only [List.cons_append, List.head?_cons]
    intro h
    simp at h
    subst h
    revert hb; decide

/-! ### Block scalars -/

theorem foldSuffix_of {v : Str} (hok : BlockOk v) (hf : Props.FoldOk v) : FoldSuffix v := by
  intro p b x r e hb hx
  rw [← isLineBreak_eq] at hb hx
  obtain ⟨h1, y, r', h2, h3, h4⟩ := hf.2 p b x r e hb hx
  refine ⟨h1, ?_⟩
  rw [isLineBreak_eq] at h4
  have hy : y ≠ '\t' := fun h => Emitter.printable_noTab (hok.chars y (by rw [e, h2]; simp)) h
  rw [h2]
  simp [isBlankzO, isBlankO, isSpaceO, isTabO, isBreakzO, isBreakO, h3, h4, hy]

/-- Literal and folded scalars. -/
theorem writes_blockScalar (lit : Bool) (v : Str) (s : EState) (n : Int) (hl : s.lineBreak ≠ .any) (hb : 2 ≤ s.bestIndent ∧ s.bestIndent ≤ 9)
    (hn : -1 ≤ n) (hi : s.indent = (if n < 0 then s.bestIndent else n + s.bestIndent)) (hv : BlockOk v) (hf : lit = false → Props.FoldOk v) :
    ∃ s' w, Writes (if lit then writeLiteral v else writeFolded v) s () s' (sep s ++ w) ∧
      Wrote { s with openEnded := if chompFor v = .keep then 2 else 0 } (sep s ++ w) s' ∧ s'.whitespace = true ∧ s'.indention = endsBrk true v ∧
      (endsBrk true v = true → s'.column = 0) ∧ (w.head? = some (if lit then '|' else '>')) ∧
      ∀ T, Fol n s.lineBreak (endsBrk true v) T → ∃ g rest, T = g ++ rest ∧ Blanks g ∧ BlockScalar (!lit) n (w ++ (g ++ rest)) v rest ∧ NoSplit w (g ++ rest) := by
  have hi1 : 1 ≤ s.indent := by rw [hi]; split <;> omega
  have hind : s.indent = (if 0 ≤ n then n else 0) + s.bestIndent := by rw [hi]; split <;> split <;> omega
  have hb1 : 1 ≤ s.bestIndent ∧ s.bestIndent ≤ 9 := ⟨by omega, hb.2⟩
  have key : ∃ s' w, Writes (if lit then writeLiteral v else writeFolded v) s () s' (sep s ++ (if lit then '|' else '>') :: w) ∧
      Wrote { s with openEnded := if chompFor v = .keep then 2 else 0 } (sep s ++ (if lit then '|' else '>') :: w) s' ∧
      s'.whitespace = true ∧ s'.indention = endsBrk true v ∧ (endsBrk true v = true → s'.column = 0) ∧
      ∀ n0 T fin T' k rest, s.indent = (if 0 ≤ n0 then n0 else 0) + s.bestIndent → Tail s.lineBreak (endsBrk true v) T fin T' →
        T' = List.replicate k ' ' ++ rest → k < s.indent.toNat → Solid rest → BlockScalar (!lit) n0 ((if lit then '|' else '>') :: w ++ T) v rest := by
    cases lit with
    | true => exact writes_writeLiteral v s hl hi1 hb1 hv
    | false => exact writes_writeFolded v s hl hi1 hb1 hv (foldSuffix_of hv (hf rfl)) (hf rfl).1
  obtain ⟨s', w, k1, k2, k3, k4, k5, k6⟩ := key
  refine ⟨s', _, k1, k2, k3, k4, k5, rfl, ?_⟩
  rintro T ⟨j, t, rfl, h2, h3⟩
  have hlt : j < s.indent.toNat := by
    rcases h3 with h3 | ⟨rfl, _⟩
    · split at hind <;> omega
    · omega
  have hbl : Blanks (List.replicate j ' ') := fun c hc => Or.inl (List.eq_of_mem_replicate hc)
  cases he : endsBrk true v with
  | true =>
    rw [he] at k6
    simp only [if_true, List.nil_append]
    refine ⟨_, t, rfl, hbl, k6 n _ [] _ j t hind ⟨fun _ => ⟨rfl, rfl, Or.inr (spaces_head h2)⟩, by simp⟩ rfl hlt h2.solid, ?_⟩
    rintro ⟨_, h⟩
    exact spaces_head h2 h
  | false =>
    rw [he] at k6
    simp only [Bool.false_eq_true, if_false]
    have hT := breakAt_chars hl (t := List.replicate j ' ' ++ t) (Or.inr (spaces_head h2))
    refine ⟨breakChars s.lineBreak ++ List.replicate j ' ', t, by simp, ?_, ?_, ?_⟩
    · intro c hc
      rcases List.mem_append.1 hc with hc | hc
      · right
        revert hc
        cases s.lineBreak <;> simp [breakChars, isBreak]
        · rintro rfl; decide
        · rintro rfl; decide
        · rintro (rfl | rfl) <;> decide
      · exact hbl c hc
    · rw [List.append_assoc]
      exact k6 n _ ['\n'] _ j t hind ⟨by simp, fun _ => ⟨'\n', rfl, hT⟩⟩ rfl hlt h2.solid
    · rintro ⟨h4, h5⟩
      obtain ⟨c, r, hc, _, hcl⟩ := breakChars_head hl
      rw [hc] at h5
      simp at h5
      have hln := hcl h5
      have hcr : '\r' ∉ v := by
        intro h
        have := hv.chars _ h
        revert this; decide
      obtain ⟨s2, w2, c1, c2, _⟩ := clr_block lit v s hb1 hcr hln
      obtain ⟨_, _, rfl⟩ := c1.det k1
      have hm := List.mem_of_getLast? h4
      exact c2 (List.mem_append_right _ hm)

/-! ### The style -/

def c1 (st : ScalarStyle) : ScalarStyle := if st = .any then .plain else st
def c2 (s : EState) (st : ScalarStyle) : ScalarStyle := if s.canonical then .doubleQuoted else st
def c3 (s : EState) (sc : ScalarAnalysis) (st : ScalarStyle) : ScalarStyle := if s.simpleKeyContext && sc.multiline then .doubleQuoted else st
def c4 (s : EState) (sc : ScalarAnalysis) (noTag p : Bool) (st : ScalarStyle) : ScalarStyle :=
  if st = .plain then
    if (s.flowLevel != 0 && !sc.flowPlainAllowed) || (s.flowLevel == 0 && !sc.blockPlainAllowed)
        || (sc.value.isEmpty && (s.flowLevel != 0 || s.simpleKeyContext))
        || (noTag && !p) then .singleQuoted
    else .plain
  else st
def c5 (sc : ScalarAnalysis) (st : ScalarStyle) : ScalarStyle := if st = .singleQuoted && !sc.singleQuotedAllowed then .doubleQuoted else st
def c6 (s : EState) (sc : ScalarAnalysis) (st : ScalarStyle) : ScalarStyle :=
  if (st = .literal ∨ st = .folded) ∧ (!sc.blockAllowed || s.flowLevel != 0 || s.simpleKeyContext) then .doubleQuoted else st

theorem chooseStyle_eq (s : EState) (sc : ScalarAnalysis) (noTag p : Bool) (st : ScalarStyle) :
    chooseStyle s sc noTag p st = c6 s sc (c5 sc (c4 s sc noTag p (c3 s sc (c2 s (c1 st))))) := rfl

theorem analyzeScalar_value (u : Bool) (v : Str) : (analyzeScalar u v).value = v := by
  unfold analyzeScalar
  split
  · rename_i h; simp at h; simp [h]
  · rfl

theorem chooseStyle_facts {s : EState} {v : Str} {noTag p : Bool} {st r : ScalarStyle}
    (h : chooseStyle s (analyzeScalar s.unicode v) noTag p st = r) :
    r ≠ .any ∧
    (r = .plain → (noTag = true → p = true) ∧ ((s.flowLevel = 0 ∧ s.simpleKeyContext = false ∧ v = []) ∨ PlainOk (s.flowLevel != 0) v)) ∧
    (r = .singleQuoted → SingleOk v) ∧
    ((r = .literal ∨ r = .folded) → s.flowLevel = 0 ∧ s.simpleKeyContext = false ∧ BlockOk v) ∧ (r = .folded → st = .folded) := by
  have hval := analyzeScalar_value s.unicode v
  rw [chooseStyle_eq] at h
  have n1 : c1 st ≠ .any ∧ (c1 st = .folded → st = .folded) := by
    unfold c1; split
    · exact ⟨by simp, by simp⟩
    · rename_i h; exact ⟨h, id⟩
  generalize c1 st = x1 at h n1
  have n2 : c2 s x1 ≠ .any ∧ (c2 s x1 = .folded → st = .folded) := by
    unfold c2; split
    · exact ⟨by simp, by simp⟩
    · exact n1
  generalize c2 s x1 = x2 at h n2
  have n3 : c3 s (analyzeScalar s.unicode v) x2 ≠ .any ∧ (c3 s (analyzeScalar s.unicode v) x2 = .folded → st = .folded) := by
    unfold c3; split
    · exact ⟨by simp, by simp⟩
    · exact n2
  generalize c3 s (analyzeScalar s.unicode v) x2 = x3 at h n3
  have n4 : c4 s (analyzeScalar s.unicode v) noTag p x3 ≠ .any ∧ (c4 s (analyzeScalar s.unicode v) noTag p x3 = .folded → st = .folded) ∧
      (c4 s (analyzeScalar s.unicode v) noTag p x3 = .plain →
        (noTag = true → p = true) ∧ ((s.flowLevel = 0 ∧ s.simpleKeyContext = false ∧ v = []) ∨ PlainOk (s.flowLevel != 0) v)) := by
    unfold c4; split
    · split
      · exact ⟨by simp, by simp, by simp⟩
      · rename_i h1 h2
        refine ⟨by simp, by simp, fun _ => ?_⟩
        rw [hval] at h2
        simp only [Bool.or_eq_true, not_or, Bool.and_eq_true, not_and, Bool.not_eq_true', Bool.not_eq_false', bne_iff_ne, beq_iff_eq] at h2
        obtain ⟨⟨⟨h3, h4⟩, h5⟩, h6⟩ := h2
        refine ⟨fun h => by simpa using h6 h, ?_⟩
        by_cases hv : v = []
        · left
          have := h5 (by simp [hv])
          refine ⟨?_, ?_, hv⟩
          · by_cases hf : s.flowLevel = 0
            · exact hf
            · simp [hf] at this
          · simpa using this.2
        · right
          refine plainOk_of (u := s.unicode) hv ?_
          by_cases hf : s.flowLevel = 0
          · simp only [hf, bne_self_eq_false, Bool.false_eq_true, if_false]
            simpa using h4 hf
          · rw [if_pos (by simpa using hf)]
            simpa using h3 hf
    · rename_i h1
      exact ⟨n3.1, n3.2, fun h => absurd h h1⟩
  generalize c4 s (analyzeScalar s.unicode v) noTag p x3 = x4 at h n4
  have n5 : c5 (analyzeScalar s.unicode v) x4 ≠ .any ∧ (c5 (analyzeScalar s.unicode v) x4 = .folded → st = .folded) ∧
      (c5 (analyzeScalar s.unicode v) x4 = .plain →
        (noTag = true → p = true) ∧ ((s.flowLevel = 0 ∧ s.simpleKeyContext = false ∧ v = []) ∨ PlainOk (s.flowLevel != 0) v)) ∧
      (c5 (analyzeScalar s.unicode v) x4 = .singleQuoted → SingleOk v) := by
    unfold c5; split
    · exact ⟨by simp, by simp, by simp, by simp⟩
    · rename_i h1
      refine ⟨n4.1, n4.2.1, n4.2.2, fun h => ?_⟩
      refine singleOk_of (u := s.unicode) ?_
      simpa [h] using h1
  generalize c5 (analyzeScalar s.unicode v) x4 = x5 at h n5
  rw [← h]
  unfold c6
  split
  · exact ⟨by simp, by simp, by simp, by simp, by simp⟩
  · rename_i h1
    refine ⟨n5.1, n5.2.2.1, n5.2.2.2, fun hr => ?_, n5.2.1⟩
    have : ¬ ((!(analyzeScalar s.unicode v).blockAllowed || s.flowLevel != 0 || s.simpleKeyContext) = true) := fun h2 => h1 ⟨hr, h2⟩
    simp at this
    exact ⟨this.1.2, this.2, blockOk_of this.1.1⟩

/-- A plain scalar was meant to be plain. -/
theorem chooseStyle_plain {s : EState} {sc : ScalarAnalysis} {noTag p : Bool} {st : ScalarStyle} (h : chooseStyle s sc noTag p st = .plain) :
    st = .plain ∨ st = .any := by
  rw [chooseStyle_eq] at h
  have k6 : ∀ x, c6 s sc x = .plain → x = .plain := by
    intro x hx; unfold c6 at hx; split at hx
    · cases hx
    · exact hx
  have k5 : ∀ x, c5 sc x = .plain → x = .plain := by
    intro x hx; unfold c5 at hx; split at hx
    · cases hx
    · exact hx
  have k4 : ∀ x, c4 s sc noTag p x = .plain → x = .plain := by
    intro x hx; unfold c4 at hx; split at hx
    · assumption
    · exact hx
  have k3 : ∀ x, c3 s sc x = .plain → x = .plain := by
    intro x hx; unfold c3 at hx; split at hx
    · cases hx
    · exact hx
  have k2 : ∀ x, c2 s x = .plain → x = .plain := by
    intro x hx; unfold c2 at hx; split at hx
    · cases hx
    · exact hx
  have := k2 _ (k3 _ (k4 _ (k5 _ (k6 _ h))))
  unfold c1 at this
  split at this
  · right; assumption
  · left; exact this

end Yaml.Rt
