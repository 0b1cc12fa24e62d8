import Verif.Lib.Tile

/-
The tokens cover the text: the invariant is kept by every step of the scanner.
-/

namespace Yaml
open Scanner Spec
set_option linter.unusedSimpArgs false
set_option linter.unusedVariables false

/-- Between two tokens: the tokens `L` cover the text up to `q`, what follows up to here separates. -/
def TOpen (T : Str) (L : List Token) (s : SState) (b : Inp) : Prop :=
  ∃ q g, Tiles T 0 [] [] L q ∧ T = q ++ (g ++ b.text) ∧ Separates (decide ((position q).column = 0)) g b.text ∧
    Adv (position q) (g ++ b.text) s.mark b.text ∧ BStk (stackAfter [] L) s.indent s.indents ∧
    ∀ i k, s.simpleKeys[i]? = some k → k.possible = true → k.mark.line = s.mark.line → KOk T L q s.flowLevel i k

/-- The same at the start of a token, where all candidates for keys are on the current line. -/
structure TMid (T : Str) (L : List Token) (q g : Str) (s : SState) (t : Str) : Prop where
  tiles : Tiles T 0 [] [] L q
  text : T = q ++ (g ++ t)
  sep : Separates (decide ((position q).column = 0)) g t
  adv : Adv Mark.zero T s.mark t
  stk : BStk (stackAfter [] L) s.indent s.indents
  depth : depthOf 0 L = s.flowLevel
  keys : ∀ i k, s.simpleKeys[i]? = some k → k.possible = true →
    KOk T L q s.flowLevel i k ∧ k.mark.line = s.mark.line ∧ k.mark.column ≤ s.mark.column

theorem TMid.unroll {T : Str} {hist : List Token} {q g t : Str} {s s' : SState} (h : TMid T (hist ++ s.tokens) q g s t)
    (hu : Unroll (s.mark.column : Int) s s') :
    (∃ q' g', TMid T (hist ++ s'.tokens) q' g' s' t) ∧ (s'.flowLevel = 0 → s'.indent ≤ s'.mark.column) := by
  obtain ⟨n, i, is, rfl, hio, hl, hc, hd, hx, hf⟩ := hu
  refine ⟨?_, hc⟩
  cases n with
  | zero =>
    simp at hd
    obtain ⟨rfl, rfl⟩ := hd
    refine ⟨q, g, ?_, h.text, h.sep, h.adv, ?_, ?_, ?_⟩
    all_goals simp only [List.replicate_zero, List.append_nil]
    · exact h.tiles
    · exact h.stk
    · exact h.depth
    · exact h.keys
  | succ n =>
    have hf0 : s.flowLevel = 0 := by
      rcases Nat.eq_zero_or_pos s.flowLevel with h0 | h0
      · exact h0
      · exact absurd (hf (by omega)) (by omega)
    have hst := h.stk
    have hlen := hst.length
    have hnk : ∀ (i : Nat) (k : SimpleKey), s.simpleKeys[i]? = some k → k.possible = true → False := by
      intro i k hk hp
      obtain ⟨h1, h2, h3⟩ := h.keys i k hk hp
      have h4 := h1.stack hf0
      rw [hst.ind] at h4
      have h5 := hx s.indent (by simp)
      omega
    have ht := tiles_ends h.adv n (st := stackAfter [] (hist ++ s.tokens)) h.text h.sep (by omega)
      (fun x hx' => by have := hx _ (hst.take hx'); omega)
    have hsa : ∀ (n : Nat) (st : List Nat), stackAfter st (List.replicate n (⟨.blockEnd, s.mark, s.mark⟩ : Token)) = st.drop n := by
      intro n
      induction n with
      | zero => intro st; rfl
      | succ n ih =>
        intro st
        rw [List.replicate_succ]
        show stackAfter st.tail _ = _
        rw [ih]
        cases st <;> simp
    have hda : ∀ (n : Nat) (d : Nat), depthOf d (List.replicate n (⟨.blockEnd, s.mark, s.mark⟩ : Token)) = d := by
      intro n
      induction n with
      | zero => intro d; rfl
      | succ n ih => intro d; rw [List.replicate_succ]; exact ih d
    have hd0 := h.depth
    refine ⟨q ++ g, [], ?_, ?_, .nil _, h.adv, ?_, ?_, ?_⟩
    · show Tiles T 0 [] [] (hist ++ (s.tokens ++ _)) _
      rw [← List.append_assoc]
      refine Tiles.append h.tiles ?_
      rw [hd0, hf0]
      exact ht
    · rw [h.text]; simp
    · show BStk (stackAfter [] (hist ++ (s.tokens ++ _))) i is
      rw [← List.append_assoc, stackAfter_append, hsa]
      exact hst.drop hl hd
    · show depthOf 0 (hist ++ (s.tokens ++ _)) = _
      rw [← List.append_assoc, depthOf_append, hda]
      exact hd0
    · intro i k hk hp
      exact absurd hp (fun hp => hnk i k hk hp)

/-- One token, as it was read. -/
theorem TMid.tile {T : Str} {L : List Token} {q g t t' : Str} {s : SState} {tok : Token} {m' : Mark} {n : Int} (h : TMid T L q g s t)
    (hsp : Spelled (s.flowLevel != 0) n s.mark t tok m' t') :
    ∃ q' g', T = q' ++ (g' ++ t') ∧ Separates (decide ((position q').column = 0)) g' t' ∧ Adv (position q') (g' ++ t') m' t' ∧
      (∀ st, indentation st = n → Laid s.flowLevel st tok [] → Tiles T s.flowLevel st q [tok] q') ∧
      (s.flowLevel ≠ 0 ∨ nodeData tok.data = true ∨ isFlowStart tok = true → m'.line = s.mark.line → ∀ st, Laid s.flowLevel st tok [] →
        Tiles T s.flowLevel st q [tok] q') := by
  obtain ⟨h1, w, r, rfl, h3, h4, ⟨g', rfl, h5⟩, h6, h7⟩ := hsp
  have hT : T = (q ++ g ++ w) ++ (g' ++ t') := by rw [h.text]; simp
  have hq : position (q ++ g ++ w) = tok.endMark := ((by rw [← hT]; exact h.adv.trans h3 : Adv Mark.zero ((q ++ g ++ w) ++ (g' ++ t')) tok.endMark (g' ++ t')).pre).symm
  refine ⟨q ++ g ++ w, g', hT, ?_, by rw [hq]; exact h4, ?_, ?_⟩
  · rw [column_adv hT (h.adv.trans h3)]; exact h5
  · intro st hst hl
    exact tiles_one h.text h.sep h.adv h1 rfl h3 (by rw [hst]; exact h6) hl
  · intro hn hline st hl
    refine tiles_one h.text h.sep h.adv h1 rfl h3 ?_ hl
    by_cases hf : s.flowLevel = 0
    · have hn := hn.resolve_left (fun h => h hf)
      by_cases hpl : ∃ v, tok.data = .scalar v .plain
      · obtain ⟨v, hv⟩ := hpl
        exact h7 v hv hline _
      · refine spells_node h6 (fun v hv => hpl ⟨v, hv⟩) ?_
        rcases hn with hn | hn
        · revert hn
          cases tok.data with
          | scalar v st => cases st <;> simp [nodeData, blockData]
          | _ => simp [nodeData, blockData]
        · unfold isFlowStart at hn; unfold blockData
          simp at hn
          rcases hn with hn | hn <;> simp [hn]
    · have : (s.flowLevel != 0) = true := by simpa using hf
      rw [this] at h6 ⊢
      exact spells_flow h6

/-- The layout of a token that is nothing special. -/
theorem laid_node {st : List Nat} {tok : Token} (hn : nodeData tok.data = true ∨ isFlowStart tok = true) (hi : indentation st ≤ tok.startMark.column)
    (ts : List Token) : Laid 0 st tok ts := by
  unfold Laid
  rw [if_pos rfl]
  rcases hn with hn | hn
  · unfold nodeData at hn
    split at hn <;> first | cases hn | skip
    all_goals
      rename_i hd
      simp only [hd, isBoundary]
      exact hi
  · unfold isFlowStart at hn
    simp at hn
    rcases hn with hd | hd
    all_goals
      simp only [hd, isBoundary]
      exact hi

theorem laid_flow {d : Nat} {st : List Nat} {tok : Token} (hd : d ≠ 0) (hp : Plainly tok) (ts : List Token) : Laid d st tok ts := by
  unfold Laid
  rw [if_neg hd]
  exact hp

/-- A token without anything inferred in front of it. -/
theorem TMid.push {T : Str} {L : List Token} {q g t : Str} {s s' : SState} {tok : Token} {b' : Inp} (h : TMid T L q g s t)
    (hsp : Spelled (s.flowLevel != 0) s.indent s.mark t tok s'.mark b'.text) (hp : Plainly tok)
    (hl : Laid s.flowLevel (stackAfter [] L) tok []) (hcol : s.flowLevel = 0 → s.indent ≤ s.mark.column)
    (hi : s'.indent = s.indent) (his : s'.indents = s.indents)
    (hk : ∀ i' k, s'.simpleKeys[i']? = some k → k.possible = true →
      (s.flowLevel ≠ 0 ∨ nodeData tok.data = true ∨ isFlowStart tok = true) ∧
      ((∃ i, s.simpleKeys[i]? = some k ∧ s.flowLevel + i' = s'.flowLevel + i) ∨
        (k.mark = s.mark ∧ k.tokenNumber = L.length ∧ s.flowLevel + i' = s'.flowLevel))) :
    TOpen T (L ++ [tok]) s' b' := by
  obtain ⟨q', g', h1, h2, h0, h3, h4⟩ := h.tile hsp
  have hstart : tok.startMark = s.mark := hsp.1
  have hind := h.stk.ind
  have htile := h3 _ hind hl
  refine ⟨q', g', Tiles.append h.tiles (by rw [h.depth]; exact htile), h1, h2, h0, ?_, ?_⟩
  · rw [stackAfter_append, stackAfter_plain (ts := [tok]) (by simpa using hp), hi, his]
    exact h.stk
  · intro i' k hk' hpos hline
    obtain ⟨hnode, hk⟩ := hk i' k hk' hpos
    have laid : ∀ c : Nat, c ≤ s.mark.column → ∀ st', (s.flowLevel = 0 → st' = stackAfter [] L ∨ st' = c :: stackAfter [] L) → Laid s.flowLevel st' tok [] := by
      intro c hc st' hst'
      by_cases hf : s.flowLevel = 0
      · rw [hf]
        refine laid_node (hnode.resolve_left (fun h => h hf)) ?_ _
        rw [hstart]
        rcases hst' hf with rfl | rfl
        · rw [hind]; exact hcol hf
        · exact Int.ofNat_le.2 hc
      · exact laid_flow hf hp _
    rcases hk with ⟨i, hk, hii⟩ | ⟨hk, hn, hii⟩
    · obtain ⟨k1, k2, k3⟩ := h.keys i k hk hpos
      exact k1.push h.depth hp hii fun st' hst' => h4 hnode (by rw [← hline, k2]) st' (laid _ k3 st' hst')
    · refine KOk.new hn.symm (by rw [hstart, hk]) (by rw [h.depth]; exact hii) hp ?_ h.tiles ?_
      · rw [h.depth, hind, hk]; exact hcol
      · rw [h.depth]
        intro st' hst'
        exact h4 hnode (by rw [← hline, hk]) st' (laid _ (by rw [hk]; exact Nat.le_refl _) st' fun _ => hst')

/-- A token with inferred tokens in front of it.  No key may be pending. -/
theorem TMid.pushFront {T : Str} {L pre : List Token} {q g t : Str} {s s' : SState} {tok : Token} {b' : Inp} {n : Int} {st : List Nat} (h : TMid T L q g s t)
    (hsp : Spelled (s.flowLevel != 0) n s.mark t tok s'.mark b'.text) (hn : indentation st = n)
    (hl : Laid s.flowLevel st tok [])
    (hf : ∀ q', Tiles T s.flowLevel st q [tok] q' → Tiles T s.flowLevel (stackAfter [] L) q (pre ++ [tok]) q')
    (hstk : BStk (stackAfter [] (L ++ (pre ++ [tok]))) s'.indent s'.indents)
    (hk : ∀ k ∈ s'.simpleKeys, k.possible = false) : TOpen T (L ++ (pre ++ [tok])) s' b' := by
  obtain ⟨q', g', h1, h2, h0, h3, h4⟩ := h.tile hsp
  refine ⟨q', g', Tiles.append h.tiles (by rw [h.depth]; exact hf _ (h3 _ hn hl)), h1, h2, h0, hstk, ?_⟩
  intro i k hk' hp
  rw [hk k (List.mem_of_getElem? hk')] at hp
  cases hp

end Yaml
