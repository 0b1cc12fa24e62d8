import Verif.Lib.Tile2

/-
The tokens cover the text: keys put in front of tokens, and the dispatch.
-/

namespace Yaml
open Scanner Spec
set_option linter.unusedSimpArgs false
set_option linter.unusedVariables false

theorem getElem?_head {α : Type} {a : α} {as : List α} {i : Nat} {x : α} (h : (a :: as)[i]? = some x) :
    (i = 0 ∧ x = a) ∨ ∃ j, i = j + 1 ∧ as[j]? = some x := by
  cases i with
  | zero => simp at h; exact .inl ⟨rfl, h.symm⟩
  | succ j => simp at h; exact .inr ⟨j, rfl, h⟩

/-- A `Key` token put in front of the token the candidate points to, inside a flow collection: the candidates
further out can still be used. -/
theorem KOk.insert {T : Str} {A B : List Token} {t : Token} {q : Str} {fl i : Nat} {k k' : SimpleKey} (h : KOk T (A ++ t :: B) q fl i k')
    (hA : A.length = k.tokenNumber) (ht : t.startMark = k.mark) (hd : depthOf 0 A = fl) (hi : i ≠ 0) (hle : k'.tokenNumber ≤ k.tokenNumber) :
    KOk T (A ++ ⟨.key, k.mark, k.mark⟩ :: t :: B) q fl i k' := by
  obtain ⟨A', t', B', qk, h1, h2, h3, h4, h5, h6, h7, h8⟩ := h
  rcases List.append_eq_append_iff.1 h1 with ⟨C, hC, hC'⟩ | ⟨C, hC, hC'⟩
  · have : C = [] := by
      have := congrArg List.length hC
      simp at this
      exact List.length_eq_zero_iff.1 (by omega)
    subst this
    simp at hC
    subst hC
    omega
  · subst hC
    cases C with
    | nil => simp at hd hA; omega
    | cons c C =>
      simp at hC'
      obtain ⟨rfl, rfl⟩ := hC'
      have hpl : Plainly ⟨.key, k.mark, k.mark⟩ := ⟨rfl, rfl⟩
      refine ⟨A', t', C ++ ⟨.key, k.mark, k.mark⟩ :: t :: B, qk, by simp, h2, h3, h4, ?_, h6, h7, ?_⟩
      · intro u hu
        rw [List.mem_cons, List.mem_append, List.mem_cons] at hu
        rcases hu with rfl | hu | rfl | hu
        · exact h5 _ (by simp)
        · exact h5 u (by simp [hu])
        · exact hpl
        · exact h5 u (by rw [List.mem_cons, List.mem_append]; exact .inr (.inr hu))
      · intro st' hst'
        have h9 := h8 st' hst'
        rw [← List.cons_append] at h9 ⊢
        refine Tiles.insert h9 ?_ ht.symm ht.symm rfl hpl (fun _ _ _ => .inl rfl) ?_
        · intro u hu
          refine h5 u ?_
          rw [← List.cons_append]
          exact List.mem_append_left _ hu
        · refine laid_flow ?_ hpl _
          rw [← depthOf_append, hd]
          omega

/-- The candidate becomes a key. -/
theorem TMid.insertKey {T : Str} {hist : List Token} {q g t : Str} {s : SState} (h : TMid T (hist ++ s.tokens) q g s t)
    (hlen : hist.length = s.tokensParsed) (hcol : s.flowLevel = 0 → s.indent ≤ s.mark.column)
    {k : SimpleKey} {ks : List SimpleKey} (hk : s.simpleKeys = k :: ks) (hp : k.possible = true)
    (hnum : s.tokensParsed ≤ k.tokenNumber ∧ k.tokenNumber ≤ s.tokensParsed + s.tokens.length)
    (hord : ∀ k' ∈ ks, k'.possible = true → k'.tokenNumber ≤ k.tokenNumber) :
    TMid T (hist ++ (rollS k.mark.column (some k.tokenNumber) .blockMappingStart k.mark
            { s with tokens := s.tokens.insertIdx (k.tokenNumber - s.tokensParsed) ⟨.key, k.mark, k.mark⟩,
                     simpleKeys := { k with possible := false } :: ks }).tokens) q g
      (rollS k.mark.column (some k.tokenNumber) .blockMappingStart k.mark
            { s with tokens := s.tokens.insertIdx (k.tokenNumber - s.tokensParsed) ⟨.key, k.mark, k.mark⟩,
                     simpleKeys := { k with possible := false } :: ks }) t ∧
    (s.flowLevel = 0 → (rollS k.mark.column (some k.tokenNumber) .blockMappingStart k.mark
            { s with tokens := s.tokens.insertIdx (k.tokenNumber - s.tokensParsed) ⟨.key, k.mark, k.mark⟩,
                     simpleKeys := { k with possible := false } :: ks }).indent ≤ s.mark.column) := by
  obtain ⟨⟨A, u, B, qk, h1, h2, h3, h4, h5, h6, h7, h8⟩, hline, hcl⟩ := h.keys 0 k (by rw [hk]; rfl) hp
  have hle : k.tokenNumber - s.tokensParsed ≤ s.tokens.length := by omega
  have hstk := h.stk
  have hsa : stackAfter [] (hist ++ s.tokens) = stackAfter [] A := by rw [h1, stackAfter_append, stackAfter_plain h5]
  have htok : hist ++ s.tokens.insertIdx (k.tokenNumber - s.tokensParsed) ⟨.key, k.mark, k.mark⟩ = A ++ ⟨.key, k.mark, k.mark⟩ :: u :: B := by
    rw [insertIdx_hist hlen hnum.1 hnum.2, h1, ← h2]
    simp
  have hpl : Plainly ⟨.key, k.mark, k.mark⟩ := ⟨rfl, rfl⟩
  have hkeyw : ∀ f n rest, Spells f n ⟨.key, k.mark, k.mark⟩ [] rest := fun _ _ _ => .inl rfl
  unfold rollS
  split
  · -- a new mapping
    rename_i hc
    obtain ⟨hf, hi⟩ := hc
    have hf : s.flowLevel = 0 := hf
    have hi : s.indent < (k.mark.column : Int) := hi
    have hdA : depthOf 0 A = 0 := by omega
    have htok2 : hist ++ (s.tokens.insertIdx (k.tokenNumber - s.tokensParsed) ⟨.key, k.mark, k.mark⟩).insertIdx (k.tokenNumber - s.tokensParsed)
        ⟨.blockMappingStart, k.mark, k.mark⟩ = A ++ ⟨.blockMappingStart, k.mark, k.mark⟩ :: ⟨.key, k.mark, k.mark⟩ :: u :: B := by
      rw [insertIdx_hist hlen hnum.1 (by rw [List.length_insertIdx_of_le_length hle]; omega), htok, ← h2]
      simp
    have hreg : Tiles T 0 (k.mark.column :: stackAfter [] A) qk (u :: B) q := by
      have := h8 _ (.inr rfl)
      rwa [hdA] at this
    have hkey : Tiles T 0 (k.mark.column :: stackAfter [] A) qk (⟨.key, k.mark, k.mark⟩ :: u :: B) q :=
      Tiles.front hreg h3.symm h3.symm rfl rfl (hkeyw _ _) rfl
    have hmap : Tiles T 0 (stackAfter [] A) qk (⟨.blockMappingStart, k.mark, k.mark⟩ :: ⟨.key, k.mark, k.mark⟩ :: u :: B) q := by
      refine Tiles.front hkey rfl rfl rfl rfl (fun _ => rfl) ?_
      refine ⟨?_, _, rfl, .inl rfl, rfl⟩
      rw [← hsa, hstk.ind]; exact hi
    refine ⟨⟨?_, h.text, h.sep, h.adv, ?_, ?_, ?_⟩, ?_⟩
    · show Tiles T 0 [] [] (hist ++ (s.tokens.insertIdx _ _).insertIdx _ _) q
      rw [htok2]
      exact Tiles.append h7 (by rw [hdA]; exact hmap)
    · show BStk (stackAfter [] (hist ++ (s.tokens.insertIdx _ _).insertIdx _ _)) k.mark.column (s.indent :: s.indents)
      rw [htok2, stackAfter_append]
      show BStk (stackAfter (k.mark.column :: stackAfter [] A) (⟨.key, k.mark, k.mark⟩ :: u :: B)) _ _
      rw [stackAfter_plain (by
        intro v hv
        rcases List.mem_cons.1 hv with rfl | hv
        · exact hpl
        · exact h5 v hv), ← hsa]
      exact hstk.push _
    · show depthOf 0 (hist ++ (s.tokens.insertIdx _ _).insertIdx _ _) = s.flowLevel
      rw [htok2, ← h.depth, h1, depthOf_append, depthOf_append]
      rfl
    · intro i k' hk' hp'
      have hk' : ({ k with possible := false } :: ks)[i]? = some k' := hk'
      exfalso
      rcases getElem?_head hk' with ⟨rfl, rfl⟩ | ⟨j, rfl, hj⟩
      · simp at hp'
      · obtain ⟨⟨_, _, _, _, _, _, _, g4, _⟩, _⟩ := h.keys (j + 1) k' (by rw [hk]; simpa using hj) hp'
        omega
    · intro _
      show (k.mark.column : Int) ≤ _
      omega
  · rename_i hc
    have hc : ¬ (s.flowLevel = 0 ∧ s.indent < (k.mark.column : Int)) := hc
    have hkey : Tiles T (depthOf 0 A) (stackAfter [] A) qk (⟨.key, k.mark, k.mark⟩ :: u :: B) q := by
      refine Tiles.front (h8 _ (.inl rfl)) h3.symm h3.symm rfl rfl (hkeyw _ _) ?_
      by_cases hf : s.flowLevel = 0
      · have hdA : depthOf 0 A = 0 := by omega
        rw [hdA]
        show indentation (stackAfter [] A) = (k.mark.column : Int)
        have := h6 hdA
        rw [← hsa, hstk.ind] at this ⊢
        have : ¬ s.indent < (k.mark.column : Int) := fun h => hc ⟨hf, h⟩
        omega
      · exact laid_flow (by omega) hpl _
    refine ⟨⟨?_, h.text, h.sep, h.adv, ?_, ?_, ?_⟩, hcol⟩
    · show Tiles T 0 [] [] (hist ++ s.tokens.insertIdx _ _) q
      rw [htok]
      exact Tiles.append h7 hkey
    · show BStk (stackAfter [] (hist ++ s.tokens.insertIdx _ _)) s.indent s.indents
      rw [htok, stackAfter_append]
      rw [stackAfter_plain (by
        intro v hv
        rcases List.mem_cons.1 hv with rfl | hv
        · exact hpl
        · exact h5 v hv), ← hsa]
      exact hstk
    · show depthOf 0 (hist ++ s.tokens.insertIdx _ _) = s.flowLevel
      rw [htok, ← h.depth, h1, depthOf_append, depthOf_append]
      rfl
    · intro i k' hk' hp'
      have hk' : ({ k with possible := false } :: ks)[i]? = some k' := hk'
      rcases getElem?_head hk' with ⟨rfl, rfl⟩ | ⟨j, rfl, hj⟩
      · simp at hp'
      · obtain ⟨g1, g2⟩ := h.keys (j + 1) k' (by rw [hk]; simpa using hj) hp'
        refine ⟨?_, g2⟩
        show KOk T (hist ++ s.tokens.insertIdx _ _) q s.flowLevel (j + 1) k'
        rw [htok]
        rw [h1] at g1
        exact g1.insert h2 h3 (by omega) (by omega) (hord k' (List.mem_of_getElem? hj) hp')

end Yaml
