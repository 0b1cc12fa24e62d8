import Verif.Lib.Tile3

/-
The tokens cover the text: the dispatch and the invariant.
-/

namespace Yaml
open Scanner Spec
set_option linter.unusedSimpArgs false
set_option linter.unusedVariables false

theorem laid_gen {d : Nat} {st : List Nat} {tok : Token} (hp : Plainly tok) (h1 : tok.data ≠ .blockEntry) (h2 : tok.data ≠ .key) (h3 : isBoundary tok = false)
    (hi : d = 0 → indentation st ≤ tok.startMark.column) (ts : List Token) : Laid d st tok ts := by
  by_cases hd : d = 0
  · unfold Laid
    rw [if_pos hd]
    obtain ⟨hp1, hp2⟩ := hp
    split <;> rename_i hdat
    · simp [isBlockStart, hdat] at hp1
    · simp [isBlockStart, hdat] at hp1
    · simp [isBlockEnd, hdat] at hp2
    · exact absurd hdat h1
    · exact absurd hdat h2
    · rw [h3]; exact hi hd
  · exact laid_flow hd hp _

theorem clearS_get {s : SState} (hs : SOpen s) {i : Nat} {k : SimpleKey} (h : (clearS s).simpleKeys[i]? = some k) (hp : k.possible = true) :
    s.simpleKeys[i]? = some k ∧ s.flowLevel ≠ 0 := by
  obtain ⟨k0, ks, hks⟩ := List.exists_cons_of_ne_nil hs.keys_ne
  have hl := hs.keysLen
  rw [hks] at hl
  have e : (clearS s).simpleKeys = { k0 with possible := false } :: ks := by simp [clearS, hks]
  rw [e] at h
  rcases getElem?_head h with ⟨rfl, rfl⟩ | ⟨j, rfl, hj⟩
  · simp at hp
  · refine ⟨by rw [hks]; simpa using hj, ?_⟩
    have := (List.getElem?_eq_some_iff.1 hj).1
    simp at hl
    omega

theorem TMid.token {T : Str} {hist : List Token} {q g : Str} {s s1 s2 : SState} {b b' : Inp} {D : TokenData → Prop} {tok : Token}
    (h : TMid T (hist ++ s.tokens) q g s b.text) (hcol : s.flowLevel = 0 → s.indent ≤ s.mark.column)
    (hlen : hist.length = s.tokensParsed) (hs : SOpen s) (hh : Hist T (hist ++ s.tokens) s)
    (hp : Prep s D s1) (ht : TokG s1 b tok s2 b') (hd : D tok.data)
    (hsp : Spelled (s.flowLevel != 0) s1.indent s.mark b.text tok s2.mark b'.text) :
    TOpen T (hist ++ (pushS tok s2).tokens) (pushS tok s2) b' := by
  have hdata := hp.data hd
  have hpl : Plainly tok := ⟨by unfold isBlockStart; simp [hdata.2.2.1, hdata.2.2.2.1], by unfold isBlockEnd; simp [hdata.2.2.2.2]⟩
  have hfr := ht.go.1
  have hst : tok.startMark = s.mark := hsp.1
  have hind := h.stk.ind
  have hi0 : s.flowLevel = 0 → indentation (stackAfter [] (hist ++ s.tokens)) ≤ tok.startMark.column := by
    intro hf; rw [hind, hst]; exact hcol hf
  have etok : (pushS tok s2).tokens = s1.tokens ++ [tok] := by show s2.tokens ++ [tok] = _; rw [hfr.tokens]
  have ei : (pushS tok s2).indent = s1.indent := by show s2.indent = _; rw [hfr]
  have eis : (pushS tok s2).indents = s1.indents := by show s2.indents = _; rw [hfr]
  have ek : (pushS tok s2).simpleKeys = s1.simpleKeys := by show s2.simpleKeys = _; rw [hfr]
  have ef : (pushS tok s2).flowLevel = s1.flowLevel := by show s2.flowLevel = _; rw [hfr]
  have em : (pushS tok s2).mark = s2.mark := rfl
  rw [etok]
  -- pushing without anything inferred
  have simple : s1.tokens = s.tokens → s1.indent = s.indent → s1.indents = s.indents → Laid s.flowLevel (stackAfter [] (hist ++ s.tokens)) tok [] →
      (∀ i' k, s1.simpleKeys[i']? = some k → k.possible = true →
        (s.flowLevel ≠ 0 ∨ nodeData tok.data = true ∨ isFlowStart tok = true) ∧
        ((∃ i, s.simpleKeys[i]? = some k ∧ s.flowLevel + i' = s1.flowLevel + i) ∨
          (k.mark = s.mark ∧ k.tokenNumber = (hist ++ s.tokens).length ∧ s.flowLevel + i' = s1.flowLevel))) →
      TOpen T (hist ++ (s1.tokens ++ [tok])) (pushS tok s2) b' := by
    intro e1 e2 e3 hl hk
    rw [e1, ← List.append_assoc]
    refine h.push (s' := pushS tok s2) (by rw [e2] at hsp; exact hsp) hpl hl hcol (ei.trans e2) (eis.trans e3) ?_
    rw [ek, ef]
    exact hk
  -- a block collection starts
  have rolled : ∀ d, d = .blockSequenceStart ∨ d = .blockMappingStart → s.flowLevel = 0 → s.indent < (s.mark.column : Int) →
      s1.tokens = s.tokens ++ [⟨d, s.mark, s.mark⟩] → s1.indent = s.mark.column → s1.indents = s.indent :: s.indents →
      (d = .blockSequenceStart → tok.data = .blockEntry) → (d = .blockMappingStart → tok.data = .key ∨ tok.data = .value) →
      (∀ (i : Nat) (k : SimpleKey), s1.simpleKeys[i]? = some k → k.possible = false) →
      TOpen T (hist ++ (s1.tokens ++ [tok])) (pushS tok s2) b' := by
    intro d hdd hf hi e1 e2 e3 hd1 hd2 hk
    rw [e1, List.append_assoc, ← List.append_assoc]
    have hbs : ∀ st, blocksAfter st ⟨d, s.mark, s.mark⟩ = s.mark.column :: st := by
      intro st; rcases hdd with rfl | rfl <;> rfl
    have hda : depthAfter 0 (⟨d, s.mark, s.mark⟩ : Token) = 0 := by rcases hdd with rfl | rfl <;> rfl
    refine h.pushFront (s' := pushS tok s2) (st := s.mark.column :: stackAfter [] (hist ++ s.tokens)) hsp ?_ ?_ ?_ ?_ ?_
    · rw [e2]; rfl
    · rw [hf]
      show Laid 0 _ _ _
      rcases hdd with rfl | rfl
      · have := hd1 rfl
        simp only [Laid, this, if_true]
        rw [hst]; rfl
      · rcases hd2 rfl with h' | h'
        · simp only [Laid, h', if_true]
          rw [hst]; rfl
        · refine laid_gen hpl (by simp [h']) (by simp [h']) (by simp [isBoundary, h']) (fun _ => ?_) _
          rw [hst]; exact Int.le_refl _
    · intro q' ht'
      rw [hf] at ht' ⊢
      refine Tiles.front ht' hst.symm hst.symm hda (hbs _) ?_ ?_
      · intro rest; rcases hdd with rfl | rfl <;> rfl
      · rw [← hind] at hi
        rcases hdd with rfl | rfl
        · exact ⟨hi, tok, rfl, hd1 rfl, hst⟩
        · exact ⟨hi, tok, rfl, hd2 rfl, hst⟩
    · rw [ei, eis, e2, e3, stackAfter_append]
      show BStk (stackAfter (blocksAfter _ _) [tok]) _ _
      rw [hbs, stackAfter_plain (ts := [tok]) (by simpa using hpl)]
      exact h.stk.push _
    · rw [ek]
      intro k hk'
      obtain ⟨i, hi', hk''⟩ := List.getElem_of_mem hk'
      exact hk i k (by rw [← hk'']; simp [hi'])
  cases hp with
  | @doc s5 hu hr =>
    have hkeys := hu.keys
    have hs5 : SOpen s5 := hs.unroll hu
    obtain ⟨n, i, is, rfl, hio, hl, hc, hdr, hx, hf⟩ := hu
    have hbd : isBoundary tok = true := by
      unfold isBoundary
      rcases hd with hd | hd | hd
      · have := hd.2
        revert this
        cases tok.data <;> simp [directiveData]
      · simp [hd]
      · simp [hd]
    by_cases hf0 : s.flowLevel = 0
    · have his := hio.bottom (hc hf0)
      subst his
      have hi1 : i = -1 := hio
      subst hi1
      have hn : n = (stackAfter [] (hist ++ s.tokens)).length := by
        have := h.stk.length
        simp at hl; omega
      subst hn
      show TOpen T (hist ++ ((s.tokens ++ _) ++ [tok])) _ _
      rw [List.append_assoc, ← List.append_assoc]
      refine h.pushFront (s' := pushS tok s2) (st := []) hsp rfl ?_ ?_ ?_ ?_
      · rw [hf0]
        unfold Laid
        rw [if_pos rfl]
        split <;> rename_i hdat
        · simp [isBoundary, hdat] at hbd
        · simp [isBoundary, hdat] at hbd
        · simp [isBoundary, hdat] at hbd
        · simp [isBoundary, hdat] at hbd
        · simp [isBoundary, hdat] at hbd
        · rw [hbd]; rfl
      · intro q' ht'
        rw [hf0] at ht' ⊢
        have := tiles_bounds hbd (stackAfter [] (hist ++ s.tokens)) ht'
        rw [hst] at this
        exact this
      · rw [ei, eis]
        show BStk _ (-1) []
        rw [stackAfter_append, stackAfter_append]
        have hsa : ∀ (n : Nat) (st : List Nat), stackAfter st (List.replicate n (⟨.blockEnd, s.mark, s.mark⟩ : Token)) = st.drop n := by
          intro n
          induction n with
          | zero => intro st; rfl
          | succ n ih =>
            intro st
            rw [List.replicate_succ]
            show stackAfter st.tail _ = _
            rw [ih]
            cases st <;> simp
        rw [hsa, List.drop_length, stackAfter_plain (ts := [tok]) (by simpa using hpl)]
        rfl
      · rw [ek]
        intro k hk
        obtain ⟨i, hi', hk''⟩ := List.getElem_of_mem hk
        cases hpo : k.possible with
        | false => rfl
        | true =>
          have := (clearS_get hs5 (i := i) (k := k) (by rw [← hk'']; simp [hi']) hpo).2
          exact absurd hf0 this
    · have hn := hf hf0
      subst hn
      simp at hdr
      obtain ⟨rfl, rfl⟩ := hdr
      refine simple (by simp [clearS]) rfl rfl (laid_flow hf0 hpl _) ?_
      intro i' k hk hpo
      have := clearS_get hs5 (i := i') (k := k) hk hpo
      exact ⟨.inl hf0, .inl ⟨i', this.1, rfl⟩⟩
  | flowStart hr =>
    have hfs : isFlowStart tok = true := by unfold isFlowStart; simpa using hd
    have htok := (saveS_count s).1
    have hinds := (saveS_count s).2
    have hin : (saveS s).indent = s.indent := by unfold saveS; split <;> rfl
    refine simple htok hin hinds (laid_gen hpl ?_ ?_ ?_ hi0 _) ?_
    · rcases hd with hd | hd <;> simp [hd]
    · rcases hd with hd | hd <;> simp [hd]
    · rcases hd with hd | hd <;> simp [isBoundary, hd]
    · intro i' k hk hpo
      refine ⟨.inr (.inr hfs), ?_⟩
      have hk : (emptyKey :: (saveS s).simpleKeys)[i']? = some k := hk
      rcases getElem?_head hk with ⟨rfl, rfl⟩ | ⟨j, rfl, hj⟩
      · simp [emptyKey] at hpo
      · unfold saveS at hj
        split at hj
        · rcases getElem?_head hj with ⟨rfl, rfl⟩ | ⟨j', rfl, hj'⟩
          · refine .inr ⟨rfl, ?_, ?_⟩
            · show s.tokensParsed + s.tokens.length = _; rw [List.length_append, hlen]
            · rfl
          · refine .inl ⟨j' + 1, by rw [List.getElem?_tail] at hj'; exact hj', ?_⟩
            show s.flowLevel + _ = s.flowLevel + 1 + _
            omega
        · refine .inl ⟨j, hj, ?_⟩
          show s.flowLevel + _ = s.flowLevel + 1 + _
          omega
  | flowEnd hr =>
    have hl : Laid s.flowLevel (stackAfter [] (hist ++ s.tokens)) tok [] := by
      refine laid_gen hpl ?_ ?_ ?_ hi0 _
      · rcases hd with hd | hd <;> simp [hd]
      · rcases hd with hd | hd <;> simp [hd]
      · rcases hd with hd | hd <;> simp [isBoundary, hd]
    by_cases hf0 : s.flowLevel = 0
    · simp only [hf0, if_true] at simple ⊢
      refine simple rfl rfl rfl (by rw [hf0] at hl; exact hl) ?_
      intro i' k hk hpo
      exact absurd hf0 (clearS_get hs (i := i') (k := k) hk hpo).2
    · simp only [hf0, if_false] at simple ⊢
      refine simple rfl rfl rfl hl ?_
      intro i' k hk hpo
      refine ⟨.inl hf0, .inl ⟨i' + 1, ?_, ?_⟩⟩
      · have hk : s.simpleKeys.tail[i']? = some k := hk
        rw [List.getElem?_tail] at hk; exact hk
      · show _ = s.flowLevel - 1 + (i' + 1)
        omega
  | flowEntry hr =>
    refine simple rfl rfl rfl (laid_gen hpl (by simp [hd]) (by simp [hd]) (by simp [isBoundary, hd]) hi0 _) ?_
    intro i' k hk hpo
    have := clearS_get hs (i := i') (k := k) hk hpo
    exact ⟨.inl this.2, .inl ⟨i', this.1, rfl⟩⟩
  | blockEntry hs' hr =>
    subst hs'
    have hkk : ∀ (i : Nat) (k : SimpleKey), (clearS (rollS s.mark.column none .blockSequenceStart s.mark s)).simpleKeys[i]? = some k → k.possible = true →
        s.simpleKeys[i]? = some k ∧ s.flowLevel ≠ 0 := by
      intro i k hk hpo
      have e : (clearS (rollS s.mark.column none .blockSequenceStart s.mark s)).simpleKeys = (clearS s).simpleKeys := by
        unfold clearS; rw [rollS_keys]
      exact clearS_get hs (e ▸ hk) hpo
    by_cases hc : s.flowLevel = 0 ∧ s.indent < (s.mark.column : Int)
    · refine rolled .blockSequenceStart (.inl rfl) hc.1 hc.2 ?_ ?_ ?_ (fun _ => hd) (by simp) ?_
      · simp [clearS, rollS, if_pos hc]
      · simp [clearS, rollS, if_pos hc]
      · simp [clearS, rollS, if_pos hc]
      · intro i k hk
        cases hpo : k.possible with
        | false => rfl
        | true => exact absurd hc.1 (hkk i k hk hpo).2
    · refine simple (by simp [clearS, rollS, if_neg hc]) (by simp [clearS, rollS, if_neg hc]) (by simp [clearS, rollS, if_neg hc]) ?_ ?_
      · by_cases hf0 : s.flowLevel = 0
        · rw [hf0]
          simp only [Laid, hd, if_true]
          rw [hind, hst]
          have := hcol hf0
          have : ¬ s.indent < (s.mark.column : Int) := fun h => hc ⟨hf0, h⟩
          omega
        · exact laid_flow hf0 hpl _
      · intro i' k hk hpo
        have := hkk i' k hk hpo
        refine ⟨.inl this.2, .inl ⟨i', this.1, ?_⟩⟩
        show _ = (rollS _ _ _ _ _).flowLevel + _
        rw [rollS_flow]
  | key hs' hr x =>
    subst hs'
    have hkk : ∀ (i : Nat) (k : SimpleKey), (clearS (rollS s.mark.column none .blockMappingStart s.mark s)).simpleKeys[i]? = some k → k.possible = true →
        s.simpleKeys[i]? = some k ∧ s.flowLevel ≠ 0 := by
      intro i k hk hpo
      have e : (clearS (rollS s.mark.column none .blockMappingStart s.mark s)).simpleKeys = (clearS s).simpleKeys := by
        unfold clearS; rw [rollS_keys]
      exact clearS_get hs (e ▸ hk) hpo
    by_cases hc : s.flowLevel = 0 ∧ s.indent < (s.mark.column : Int)
    · refine rolled .blockMappingStart (.inr rfl) hc.1 hc.2 ?_ ?_ ?_ (by simp) (fun _ => .inl hd) ?_
      · simp [clearS, rollS, if_pos hc]
      · simp [clearS, rollS, if_pos hc]
      · simp [clearS, rollS, if_pos hc]
      · intro i k hk
        cases hpo : k.possible with
        | false => rfl
        | true => exact absurd hc.1 (hkk i k hk hpo).2
    · refine simple (by simp [clearS, rollS, if_neg hc]) (by simp [clearS, rollS, if_neg hc]) (by simp [clearS, rollS, if_neg hc]) ?_ ?_
      · by_cases hf0 : s.flowLevel = 0
        · rw [hf0]
          simp only [Laid, hd, if_true]
          rw [hind, hst]
          have := hcol hf0
          have : ¬ s.indent < (s.mark.column : Int) := fun h => hc ⟨hf0, h⟩
          omega
        · exact laid_flow hf0 hpl _
      · intro i' k hk hpo
        have := hkk i' k hk hpo
        refine ⟨.inl this.2, .inl ⟨i', this.1, ?_⟩⟩
        show _ = (rollS _ _ _ _ _).flowLevel + _
        rw [rollS_flow]
  | @valueKey k ks hk hpo =>
    have hord : ∀ k' ∈ ks, k'.possible = true → k'.tokenNumber ≤ k.tokenNumber := by
      have := hh.keyOrd
      rw [hk, List.pairwise_cons] at this
      exact fun k' hk' hp' => (this.1 k' hk' hpo hp').1
    obtain ⟨hm, hc⟩ := h.insertKey hlen hcol hk hpo (hs.keyNum k (by simp [hk]) hpo) hord
    show TOpen T (hist ++ ((rollS _ _ _ _ _).tokens ++ [tok])) _ _
    rw [← List.append_assoc]
    refine hm.push (s' := pushS tok s2) ?_ hpl ?_ ?_ ei eis ?_
    · rw [rollS_flow, rollS_mark]; exact hsp
    · refine laid_gen hpl (by simp [hd]) (by simp [hd]) (by simp [isBoundary, hd]) ?_ _
      intro hf
      rw [rollS_flow] at hf
      rw [hm.stk.ind, hst]
      exact hc hf
    · intro hf
      rw [rollS_flow] at hf
      rw [rollS_mark]
      exact hc hf
    · rw [ek, ef]
      intro i' k' hk' hp'
      refine ⟨.inl ?_, .inl ⟨i', hk', rfl⟩⟩
      have hk' : (rollS _ _ _ _ _).simpleKeys[i']? = some k' := hk'
      rw [rollS_keys] at hk'
      rw [rollS_flow]
      rcases getElem?_head hk' with ⟨rfl, rfl⟩ | ⟨j, rfl, hj⟩
      · simp at hp'
      · have := (List.getElem?_eq_some_iff.1 hj).1
        have hl := hs.keysLen
        rw [hk] at hl
        simp at hl
        show s.flowLevel ≠ 0
        omega
  | @value k ks hk hpo x =>
    have hkk : ∀ (i : Nat) (k : SimpleKey), s.simpleKeys[i]? = some k → k.possible = true → s.flowLevel ≠ 0 := by
      intro i k' hk' hpo'
      rw [hk] at hk'
      rcases getElem?_head hk' with ⟨rfl, rfl⟩ | ⟨j, rfl, hj⟩
      · simp [hpo] at hpo'
      · have := (List.getElem?_eq_some_iff.1 hj).1
        have hl := hs.keysLen
        rw [hk] at hl
        simp at hl
        omega
    by_cases hc : s.flowLevel = 0 ∧ s.indent < (s.mark.column : Int)
    · refine rolled .blockMappingStart (.inr rfl) hc.1 hc.2 ?_ ?_ ?_ (by simp) (fun _ => .inr hd) ?_
      · simp [rollS, if_pos hc]
      · simp [rollS, if_pos hc]
      · simp [rollS, if_pos hc]
      · intro i k hk
        have hk : (rollS _ _ _ _ _).simpleKeys[i]? = some k := hk
        rw [rollS_keys] at hk
        cases hpo : k.possible with
        | false => rfl
        | true => exact absurd hc.1 (hkk i k hk hpo)
    · refine simple (by simp [rollS, if_neg hc]) (by simp [rollS, if_neg hc]) (by simp [rollS, if_neg hc])
        (laid_gen hpl (by simp [hd]) (by simp [hd]) (by simp [isBoundary, hd]) hi0 _) ?_
      · intro i' k hk hpo
        have hk : (rollS _ _ _ _ _).simpleKeys[i']? = some k := hk
        rw [rollS_keys] at hk
        refine ⟨.inl (hkk i' k hk hpo), .inl ⟨i', hk, ?_⟩⟩
        show _ = (rollS _ _ _ _ _).flowLevel + _
        rw [rollS_flow]
  | node hr =>
    have htok := (saveS_count s).1
    have hinds := (saveS_count s).2
    have hin : (saveS s).indent = s.indent := by unfold saveS; split <;> rfl
    have hn := hd.2
    refine simple htok hin hinds (laid_gen hpl ?_ ?_ ?_ hi0 _) ?_
    · intro h'; rw [h'] at hn; cases hn
    · intro h'; rw [h'] at hn; cases hn
    · unfold isBoundary; split <;> rename_i hdat <;> first | rfl | (rw [hdat] at hn; cases hn)
    · intro i' k hk hpo
      refine ⟨.inr (.inl hn), ?_⟩
      have hk : (saveS s).simpleKeys[i']? = some k := hk
      have hfl : (saveS s).flowLevel = s.flowLevel := saveS_flow
      show _ ∨ (_ ∧ _ ∧ _ = (saveS s).flowLevel)
      rw [show ({ saveS s with simpleKeyAllowed := false } : SState).flowLevel = s.flowLevel from hfl]
      unfold saveS at hk
      split at hk
      · rcases getElem?_head hk with ⟨rfl, rfl⟩ | ⟨j', rfl, hj'⟩
        · exact .inr ⟨rfl, by show s.tokensParsed + s.tokens.length = _; rw [List.length_append, hlen], rfl⟩
        · exact .inl ⟨j' + 1, by rw [List.getElem?_tail] at hj'; exact hj', rfl⟩
      · exact .inl ⟨i', hk, rfl⟩
  | blockScalar hr =>
    have hn := hd.2
    refine simple rfl rfl rfl (laid_gen hpl ?_ ?_ ?_ hi0 _) ?_
    · intro h'; rw [h'] at hn; cases hn
    · intro h'; rw [h'] at hn; cases hn
    · unfold isBoundary; split <;> rename_i hdat <;> first | rfl | (rw [hdat] at hn; cases hn)
    · intro i' k hk hpo
      have := clearS_get hs (i := i') (k := k) hk hpo
      exact ⟨.inl this.2, .inl ⟨i', this.1, rfl⟩⟩

end Yaml
