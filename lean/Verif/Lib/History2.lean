import Verif.Lib.History

/-
The invariant of the token stream is kept by every step of the scanner.
-/

namespace Yaml
open Scanner Spec
set_option linter.unusedSimpArgs false
set_option linter.unusedVariables false

/-- The invariant: `hist` are the tokens already taken, `T` the text. -/
def HInv (T : List Char) (hist : List Token) (s : SState) (b : Inp) : Prop :=
  ({ s with tokenAvailable := false } = SState.new ∧ hist = [] ∧ b.text = T) ∨
  (hist.length = s.tokensParsed ∧ hist ++ s.tokens ≠ [] ∧ Hist T (hist ++ s.tokens) s ∧
    ((SOpen { s with tokenAvailable := false } ∧ Adv Mark.zero T s.mark b.text) ∨
     (SEnd { s with tokenAvailable := false } ∧ IsMark T s.mark ∧ b.text = [] ∧ (s.flowLevel = 0 → s.indents = []))))

theorem IsPosition.of_adv {T t : List Char} {m : Mark} (h : Adv Mark.zero T m t) : IsPosition T m := by
  obtain ⟨p, h1, h2, h3⟩ := h
  exact ⟨p, t, h1, h3, h2⟩

theorem isMark_end {T : List Char} {m : Mark} (h : Adv Mark.zero T m []) : IsMark T (endMarkOf m) := by
  have hp := IsPosition.of_adv h
  obtain ⟨p, h1, h2, h3⟩ := h
  simp at h1; subst h1
  unfold endMarkOf
  split
  · exact Or.inr (by rw [h2]; rfl)
  · exact Or.inl hp

theorem le_endMarkOf (m : Mark) : Spec.le m (endMarkOf m) := by
  unfold endMarkOf
  split
  · exact ⟨Nat.le_refl _, Or.inl (Nat.lt_succ_self _)⟩
  · exact Spec.le_refl _

namespace Hist
variable {T : List Char} {L : List Token} {s s' : SState}

/-- Fields other than these do not matter. -/
theorem cast (h : Hist T L s) (hm : s'.mark = s.mark) (hk : s'.simpleKeys = s.simpleKeys)
    (hi : s'.indents = s.indents) (hf : s'.flowLevel = s.flowLevel) : Hist T L s' :=
  h.congr (hm ▸ Spec.le_refl _) (hk ▸ KeySub.refl _) (by rw [hi]) hf

theorem unroll {hist : List Token} (h : Hist T (hist ++ s.tokens) s) (hne : hist ++ s.tokens ≠ []) {col : Int}
    (hm : IsMark T s.mark)
    (hkn : ∀ k ∈ s.simpleKeys, k.possible = true → k.tokenNumber ≤ (hist ++ s.tokens).length)
    (hu : Unroll col s s') : Hist T (hist ++ s'.tokens) s' := by
  obtain ⟨n, i, is, rfl, hu1, hl, hu2⟩ := hu
  rw [show hist ++ ({ s with indent := i, indents := is, tokens := s.tokens ++ List.replicate n ⟨.blockEnd, s.mark, s.mark⟩ } : SState).tokens
    = (hist ++ s.tokens) ++ List.replicate n ⟨.blockEnd, s.mark, s.mark⟩ from (List.append_assoc _ _ _).symm]
  generalize hist ++ s.tokens = L at *
  suffices h' : ∀ (n : Nat) (L : List Token) (s : SState) (is : List Int), Hist T L s → L ≠ [] → IsMark T s.mark →
      (∀ k ∈ s.simpleKeys, k.possible = true → k.tokenNumber ≤ L.length) → s.indents.length = n + is.length →
      Hist T (L ++ List.replicate n ⟨.blockEnd, s.mark, s.mark⟩) { s with indents := is } from
    (h' n L s is h hne hm hkn hl).cast rfl rfl rfl rfl
  clear h hne hm hkn hl hu1 hu2 L n is i
  intro n
  induction n with
  | zero =>
    intro L s is h _ _ _ hl
    simp
    exact h.congr (Spec.le_refl _) (KeySub.refl _) (by simp at hl; exact hl.symm) rfl
  | succ n ih =>
    intro L s is h hne hm hkn hl
    have h1 : Hist T (L ++ [⟨.blockEnd, s.mark, s.mark⟩]) { s with indents := s.indents.tail } :=
      h.push hne rfl hm hm (Spec.le_refl _) rfl (by simp) hkn rfl rfl
        (Or.inr (Or.inl ⟨rfl, by show _ = s.indents.tail.length + 1; rw [List.length_tail]; omega⟩)) rfl (Or.inr rfl)
    have := ih _ _ is h1 (by simp) hm (fun k hk hp => by have := hkn k hk hp; simp; omega)
      (by show s.indents.tail.length = _; rw [List.length_tail]; omega)
    rw [List.replicate_succ]
    simpa [List.append_assoc] using this

theorem roll {hist : List Token} (h : Hist T (hist ++ s.tokens) s) (hne : hist ++ s.tokens ≠ []) {col : Nat} {d : TokenData}
    (hd : d = .blockSequenceStart ∨ d = .blockMappingStart) (hm : IsMark T s.mark)
    (hkn : ∀ k ∈ s.simpleKeys, k.possible = true → k.tokenNumber ≤ (hist ++ s.tokens).length) :
    Hist T (hist ++ (rollS col none d s.mark s).tokens) (rollS col none d s.mark s) := by
  unfold rollS
  split
  · show Hist T (hist ++ (s.tokens ++ [_])) _
    rw [← List.append_assoc]
    refine h.push hne rfl hm hm (Spec.le_refl _) ?_ ?_ hkn rfl rfl (Or.inl ⟨?_, rfl⟩) ?_ (Or.inr rfl)
    all_goals rcases hd with rfl | rfl <;> simp [isStreamStart, isBlockStart, isFlowStart, isFlowEnd]
  · exact h

end Hist

theorem insertIdx_hist {hist q : List Token} {n p : Nat} {x : Token} (hp : hist.length = p) (h1 : p ≤ n)
    (h2 : n ≤ p + q.length) :
    hist ++ q.insertIdx (n - p) x = (hist ++ q).take n ++ x :: (hist ++ q).drop n := by
  subst hp
  induction hist generalizing n with
  | nil =>
    simp at h1 h2 ⊢
    clear h1
    induction q generalizing n with
    | nil => have : n = 0 := by simpa using h2
             subst this; simp
    | cons a q ih =>
      cases n with
      | zero => simp
      | succ n => simp at h2 ⊢; exact ih h2
  | cons a h ih =>
    cases n with
    | zero => simp at h1
    | succ n =>
      simp at h1 h2 ⊢
      have := ih (n := n) h1 (by omega)
      simpa using this

/-- The number of open flow collections after a token. -/
def flowAfter (t : Token) (n : Nat) : Nat :=
  if isFlowStart t then n + 1 else if isFlowEnd t then n - 1 else n

/-- The conclusion about a dispatched token. -/
theorem HInv.token {T : List Char} {hist : List Token} {s s1 s2 : SState} {b b' : Inp} {D : TokenData → Prop} {tok : Token}
    (hlen : hist.length = s.tokensParsed) (hne : hist ++ s.tokens ≠ []) (h : Hist T (hist ++ s.tokens) s)
    (hs : SOpen s) (hadv : Adv Mark.zero T s.mark b.text)
    (hst : ∀ k ∈ s.simpleKeys, k.possible = true → s.mark.line ≤ k.mark.line ∧ s.mark.index ≤ k.mark.index + 1024)
    (hp : Prep s D s1) (ht : TokG s1 b tok s2 b') (hd : D tok.data) :
    hist.length = (pushS tok s2).tokensParsed ∧ hist ++ (pushS tok s2).tokens ≠ [] ∧
      Hist T (hist ++ (pushS tok s2).tokens) (pushS tok s2) := by
  have hpos : IsPosition T s.mark := IsPosition.of_adv hadv
  have hkn : ∀ k ∈ s.simpleKeys, k.possible = true → k.tokenNumber ≤ (hist ++ s.tokens).length := by
    intro k hk hp'
    have := (hs.keyNum k hk hp').2
    rw [List.length_append]; omega
  have hm1 : s1.mark = s.mark := hp.mark
  have hstart : tok.startMark = s.mark := by rw [ht.start, hm1]
  obtain ⟨t, ha1, ha2⟩ := ht.mid
  rw [hm1] at ha1
  have hend : IsPosition T tok.endMark := IsPosition.of_adv (hadv.trans ha1)
  have hle : Spec.le tok.startMark tok.endMark := by rw [hstart]; exact ha1.le
  have hgo := ht.go
  have hle2 : Spec.le s1.mark s2.mark := hgo.2.le
  have hdata := hp.data hd
  have hss : isStreamStart tok = false := by
    unfold isStreamStart
    cases htd : tok.data <;> simp [htd] at hdata ⊢
  have hbs : isBlockStart tok = false := by
    unfold isBlockStart; simp [hdata.2.2.1, hdata.2.2.2.1]
  have hbe : isBlockEnd tok = false := by
    unfold isBlockEnd; simp [hdata.2.2.2.2]
  have hnk : ¬ (tok.data = .key ∧ tok.startMark = tok.endMark) := by
    rintro ⟨h1, h2⟩
    have := (ht.wide (by rw [h1]; rfl)).1
    rw [ht.start] at h2
    rw [← h2] at this
    have hlt := Adv.lt hgo.2 ht.progress
    rw [this] at hlt
    unfold lcLt at hlt; omega
  -- pushing the token
  have hpush : ∀ (q : SState), Hist T (hist ++ q.tokens) q → hist ++ q.tokens ≠ [] → q.mark = s.mark →
      (∀ k ∈ q.simpleKeys, k.possible = true → k.tokenNumber ≤ (hist ++ q.tokens).length) →
      Hist T (hist ++ q.tokens ++ [tok]) { q with flowLevel := flowAfter tok q.flowLevel } := by
    intro q hq hqne hqm hqk
    exact hq.push hqne (by rw [hstart, hqm]) (by rw [hstart]; exact Or.inl hpos) (Or.inl hend) hle hss hnk hqk rfl rfl
      (Or.inr (Or.inr ⟨hbs, hbe, rfl⟩)) rfl (Or.inl hend)
  have hfin : ∀ (q : SState), Hist T (hist ++ s1.tokens ++ [tok]) q → q.mark = s1.mark → q.indents.length = s1.indents.length →
      q.flowLevel = s1.flowLevel → KeySub s1.simpleKeys q.simpleKeys → s1.tokensParsed = s.tokensParsed →
      hist.length = (pushS tok s2).tokensParsed ∧ hist ++ (pushS tok s2).tokens ≠ [] ∧
      Hist T (hist ++ (pushS tok s2).tokens) (pushS tok s2) := by
    intro q hq h1 h2 h3 h4 h5
    have hf := hgo.1
    refine ⟨?_, by simp [pushS], ?_⟩
    · show _ = s2.tokensParsed
      rw [hf]; rw [hlen]; exact h5.symm
    · show Hist T (hist ++ (s2.tokens ++ [tok])) _
      rw [← List.append_assoc, hf.tokens]
      refine hq.congr ?_ ?_ ?_ ?_
      · rw [h1]; exact hle2
      · show KeySub s2.simpleKeys _
        rw [hf]; exact h4
      · show s2.indents.length = _
        rw [hf]; exact h2.symm
      · show s2.flowLevel = _
        rw [hf]; exact h3.symm
  cases hp with
  | @doc s3 hu hr =>
    have h3 := h.unroll hne (Or.inl hpos) hkn hu
    have hk3 := hu.keys
    have hm3 := hu.mark
    have hfl : isFlowStart tok = false ∧ isFlowEnd tok = false := by
      unfold isFlowStart isFlowEnd
      rcases hd with hd | hd | hd
      · cases htd : tok.data <;> simp [htd, lexData] at hd ⊢
      · simp [hd]
      · simp [hd]
    obtain ⟨n, i, is, rfl, hi, hl, _⟩ := hu
    have := hpush _ h3 (by simp at hne ⊢; intro h1 h2; exact absurd h2 (hne h1)) rfl (fun k hk hp => by
      have := hkn k hk hp
      simp only [List.length_append] at this ⊢; omega)
    refine hfin _ this rfl rfl ?_ (clearS_sub _) rfl
    simp [flowAfter, hfl.1, hfl.2]; rfl
  | flowStart hr =>
    have h3 := h.save hne (by rw [List.length_append]; omega) hpos hkn
    have htok : (saveS s).tokens = s.tokens := by unfold saveS; split <;> rfl
    have hind : (saveS s).indents = s.indents := by unfold saveS; split <;> rfl
    have hpar : (saveS s).tokensParsed = s.tokensParsed := by unfold saveS; split <;> rfl
    rw [← htok] at h3
    have hfs : isFlowStart tok = true := by
      unfold isFlowStart; simpa using hd
    have := hpush _ h3 (by rw [htok]; exact hne) saveS_mark (fun k hk hp => by
      have := hs.save.keyNum k hk hp
      rw [List.length_append]; rw [hpar] at this; omega)
    have h4 : Hist T (hist ++ (saveS s).tokens ++ [tok]) { saveS s with simpleKeys := emptyKey :: (saveS s).simpleKeys, flowLevel := s.flowLevel + 1 } := by
      have e : s.flowLevel + 1 = flowAfter tok (saveS s).flowLevel := by
        unfold flowAfter; rw [if_pos hfs, saveS_flow]
      rw [e]
      exact { this with
        keyMark := fun k hk hp => by
          rcases List.mem_cons.1 hk with rfl | hk
          · simp [emptyKey] at hp
          · exact this.keyMark k hk hp
        keySplit := fun k hk hp => by
          rcases List.mem_cons.1 hk with rfl | hk
          · simp [emptyKey] at hp
          · exact this.keySplit k hk hp
        keyOrd := List.pairwise_cons.2 ⟨fun _ _ hp => by simp [emptyKey] at hp, this.keyOrd⟩ }
    exact hfin _ h4 rfl rfl rfl (KeySub.refl _) hpar
  | flowEnd hr =>
    have hfe : isFlowEnd tok = true := by unfold isFlowEnd; simpa using hd
    have hfs : isFlowStart tok = false := by
      unfold isFlowStart; rcases hd with hd | hd <;> simp [hd]
    have := hpush s h hne rfl hkn
    by_cases h0 : s.flowLevel = 0
    · simp only [h0, if_true] at hfin ht hgo hle2 ⊢
      refine hfin _ this rfl rfl ?_ (clearS_sub _) rfl
      simp [flowAfter, hfs, hfe, h0]
      exact h0.symm
    · simp only [h0, if_false] at hfin ht hgo hle2 ⊢
      have h4 : Hist T (hist ++ s.tokens ++ [tok]) { s with simpleKeys := s.simpleKeys.tail, flowLevel := s.flowLevel - 1 } := by
        have e : s.flowLevel - 1 = flowAfter tok s.flowLevel := by
          simp [flowAfter]; simp [hfs, hfe]
        rw [e]
        exact { this with
          keyMark := fun k hk hp => this.keyMark k (List.mem_of_mem_tail hk) hp
          keySplit := fun k hk hp => this.keySplit k (List.mem_of_mem_tail hk) hp
          keyOrd := by
            have := h.keyOrd
            show List.Pairwise _ s.simpleKeys.tail
            cases hks : s.simpleKeys with
            | nil => simp
            | cons a as => rw [hks] at this; exact (List.pairwise_cons.1 this).2 }
      exact hfin _ h4 rfl rfl rfl (KeySub.refl _) rfl
  | flowEntry hr =>
    have hfl : isFlowStart tok = false ∧ isFlowEnd tok = false := by
      unfold isFlowStart isFlowEnd; simp [hd]
    refine hfin _ (hpush s h hne rfl hkn) rfl rfl ?_ (clearS_sub _) rfl
    simp [flowAfter, hfl.1, hfl.2]; rfl
  | blockEntry hs' hr =>
    subst hs'
    have hfl : isFlowStart tok = false ∧ isFlowEnd tok = false := by
      unfold isFlowStart isFlowEnd; simp [hd]
    have h3 := h.roll (col := s.mark.column) hne (Or.inl rfl) (Or.inl hpos) hkn
    have h3' := (hs.roll (col := s.mark.column) (num := none) (d := .blockSequenceStart) (m := s.mark) (by simp) (by simp)).keyNum
    have hpar : (rollS s.mark.column none .blockSequenceStart s.mark s).tokensParsed = s.tokensParsed := by unfold rollS; split <;> rfl
    have hne' : hist ++ (rollS s.mark.column none .blockSequenceStart s.mark s).tokens ≠ [] := by
      unfold rollS; split
      · simp
      · exact hne
    have := hpush _ h3 hne' rollS_mark (fun k hk hp => by
      have := h3' k hk hp
      rw [List.length_append]; omega)
    refine hfin _ this rfl rfl ?_ (clearS_sub _) hpar
    simp [flowAfter, hfl.1, hfl.2]; rfl
  | key hs' hr x =>
    subst hs'
    have hfl : isFlowStart tok = false ∧ isFlowEnd tok = false := by
      unfold isFlowStart isFlowEnd; simp [hd]
    have h3 := h.roll (col := s.mark.column) hne (Or.inr rfl) (Or.inl hpos) hkn
    have h3' := (hs.roll (col := s.mark.column) (num := none) (d := .blockMappingStart) (m := s.mark) (by simp) (by simp)).keyNum
    have hpar : (rollS s.mark.column none .blockMappingStart s.mark s).tokensParsed = s.tokensParsed := by unfold rollS; split <;> rfl
    have hne' : hist ++ (rollS s.mark.column none .blockMappingStart s.mark s).tokens ≠ [] := by
      unfold rollS; split
      · simp
      · exact hne
    have := hpush _ h3 hne' rollS_mark (fun k hk hp => by
      have := h3' k hk hp
      rw [List.length_append]; omega)
    refine hfin _ this rfl rfl ?_ (clearS_sub _) hpar
    simp [flowAfter, hfl.1, hfl.2]; rfl
  | value hk hp' x =>
    have hfl : isFlowStart tok = false ∧ isFlowEnd tok = false := by
      unfold isFlowStart isFlowEnd; simp [hd]
    have h3 := h.roll (col := s.mark.column) hne (Or.inr rfl) (Or.inl hpos) hkn
    have h3' := (hs.roll (col := s.mark.column) (num := none) (d := .blockMappingStart) (m := s.mark) (by simp) (by simp)).keyNum
    have hpar : (rollS s.mark.column none .blockMappingStart s.mark s).tokensParsed = s.tokensParsed := by unfold rollS; split <;> rfl
    have hne' : hist ++ (rollS s.mark.column none .blockMappingStart s.mark s).tokens ≠ [] := by
      unfold rollS; split
      · simp
      · exact hne
    have := hpush _ h3 hne' rollS_mark (fun k hk hp => by
      have := h3' k hk hp
      rw [List.length_append]; omega)
    refine hfin _ this rfl rfl ?_ (KeySub.refl _) hpar
    simp [flowAfter, hfl.1, hfl.2]
  | node hr =>
    have hfl : isFlowStart tok = false ∧ isFlowEnd tok = false := by
      unfold isFlowStart isFlowEnd
      cases htd : tok.data <;> simp [htd, lexData] at hd ⊢
    have h3 := h.save hne (by rw [List.length_append]; omega) hpos hkn
    have htok : (saveS s).tokens = s.tokens := by unfold saveS; split <;> rfl
    have hpar : (saveS s).tokensParsed = s.tokensParsed := by unfold saveS; split <;> rfl
    rw [← htok] at h3
    have := hpush _ h3 (by rw [htok]; exact hne) saveS_mark (fun k hk hp => by
      have := hs.save.keyNum k hk hp
      rw [List.length_append]; rw [hpar] at this; omega)
    refine hfin _ this rfl rfl ?_ (KeySub.refl _) hpar
    simp [flowAfter, hfl.1, hfl.2]
  | blockScalar hr =>
    have hfl : isFlowStart tok = false ∧ isFlowEnd tok = false := by
      unfold isFlowStart isFlowEnd
      cases htd : tok.data <;> simp [htd, lexData] at hd ⊢
    refine hfin _ (hpush s h hne rfl hkn) rfl rfl ?_ (clearS_sub _) rfl
    simp [flowAfter, hfl.1, hfl.2]; rfl
  | @valueKey k ks hk hkp =>
    have hfl : isFlowStart tok = false ∧ isFlowEnd tok = false := by
      unfold isFlowStart isFlowEnd; simp [hd]
    have hkin : k ∈ s.simpleKeys := by simp [hk]
    obtain ⟨hn1, hn2⟩ := hs.keyNum k hkin hkp
    obtain ⟨hkm, hkle, hk1⟩ := h.keyMark k hkin hkp
    have hsp := h.keySplit k hkin hkp
    have hord : ∀ k' ∈ ks, k'.possible = true → k'.tokenNumber ≤ k.tokenNumber ∧ Spec.le k'.mark k.mark := by
      have := h.keyOrd
      rw [hk, List.pairwise_cons] at this
      exact fun k' hk' hp' => this.1 k' hk' hkp hp'
    have h3 := hpush s h hne rfl hkn
    have htake : ((hist ++ s.tokens).take k.tokenNumber).length = k.tokenNumber := by
      rw [List.length_take, List.length_append]; omega
    rw [← List.take_append_drop k.tokenNumber (hist ++ s.tokens), List.append_assoc] at h3
    have hline : tok.startMark.line = k.mark.line ∧ tok.startMark.index ≤ k.mark.index + 1024 := by
      have h1 := hst k hkin hkp
      rw [hstart]
      unfold Spec.le at hkle
      omega
    -- the split of the extended stream
    have hsplit : ∀ i t, ((hist ++ s.tokens).take k.tokenNumber ++ ((hist ++ s.tokens).drop k.tokenNumber ++ [tok]))[i]? = some t →
        (i < k.tokenNumber → Spec.le t.startMark k.mark) ∧ (k.tokenNumber ≤ i → Spec.le k.mark t.startMark) :=
      h3.keySplit k hkin hkp
    let s' : SState := { s with simpleKeys := { k with possible := false } :: ks, flowLevel := flowAfter tok s.flowLevel }
    have h4 : Hist T ((hist ++ s.tokens).take k.tokenNumber ++ ⟨.key, k.mark, k.mark⟩ ::
        ((hist ++ s.tokens).drop k.tokenNumber ++ [tok])) s' := by
      refine h3.insert (s' := s') hk (Or.inl hkp) hkm hkle hk1 hsplit hord htake rfl rfl rfl rfl rfl rfl rfl rfl ?_ rfl ?_
      · simp [s', isBlockStart]
      · intro _
        exact ⟨tok, by simp, hd, hline⟩
    by_cases hroll : s.flowLevel = 0 ∧ s.indent < (k.mark.column : Int)
    · let s'' : SState := { s' with indents := s.indent :: s.indents }
      have hsplit2 : ∀ i t, ((hist ++ s.tokens).take k.tokenNumber ++ ⟨.key, k.mark, k.mark⟩ :: ((hist ++ s.tokens).drop k.tokenNumber ++ [tok]))[i]? = some t →
          (i < k.tokenNumber → Spec.le t.startMark k.mark) ∧ (k.tokenNumber ≤ i → Spec.le k.mark t.startMark) := by
        intro i t hi
        rcases Nat.lt_trichotomy i k.tokenNumber with hlt | rfl | hgt
        · rw [List.getElem?_append_left (by omega)] at hi
          exact hsplit i t (by rw [List.getElem?_append_left (by omega)]; exact hi)
        · rw [List.getElem?_append_right (by omega), htake] at hi
          simp at hi; subst hi
          exact ⟨fun _ => Spec.le_refl _, fun _ => Spec.le_refl _⟩
        · rw [List.getElem?_append_right (by omega), htake] at hi
          have e : i - k.tokenNumber = (i - 1 - k.tokenNumber) + 1 := by omega
          rw [e, List.getElem?_cons_succ] at hi
          have := hsplit (i - 1) t (by rw [List.getElem?_append_right (by omega), htake]; exact hi)
          exact ⟨fun h' => by omega, fun _ => this.2 (by omega)⟩
      have h5 : Hist T ((hist ++ s.tokens).take k.tokenNumber ++ ⟨.blockMappingStart, k.mark, k.mark⟩ ::
          ⟨.key, k.mark, k.mark⟩ :: ((hist ++ s.tokens).drop k.tokenNumber ++ [tok])) s'' := by
        refine h4.insert (s' := s'') (k := { k with possible := false }) (ks := ks) rfl (Or.inr trivial) hkm hkle hk1 hsplit2
          (fun k' hk' hp' => hord k' hk' hp') htake rfl rfl rfl rfl rfl rfl rfl rfl ?_ rfl ?_
        · simp [s'', s', isBlockStart]
        · simp
      have etok : hist ++ (rollS k.mark.column (some k.tokenNumber) TokenData.blockMappingStart k.mark
            { s with tokens := s.tokens.insertIdx (k.tokenNumber - s.tokensParsed) ⟨.key, k.mark, k.mark⟩,
                     simpleKeys := { k with possible := false } :: ks }).tokens ++ [tok]
          = (hist ++ s.tokens).take k.tokenNumber ++ ⟨.blockMappingStart, k.mark, k.mark⟩ ::
            ⟨.key, k.mark, k.mark⟩ :: ((hist ++ s.tokens).drop k.tokenNumber ++ [tok]) := by
        unfold rollS
        rw [if_pos hroll]
        show hist ++ ((s.tokens.insertIdx (k.tokenNumber - s.tokensParsed) ⟨.key, k.mark, k.mark⟩).insertIdx (k.tokenNumber - s.tokensParsed) ⟨.blockMappingStart, k.mark, k.mark⟩) ++ [tok] = _
        rw [insertIdx_hist hlen hn1 (by rw [List.length_insertIdx_of_le_length (by omega)]; omega),
          insertIdx_hist hlen hn1 hn2, List.take_left' htake, List.drop_left' htake]
        simp
      refine hfin s'' ?_ (by show s.mark = (rollS _ _ _ _ _).mark; rw [rollS_mark]) ?_ ?_ ?_ ?_
      · rw [show hist ++ ({ rollS k.mark.column (some k.tokenNumber) TokenData.blockMappingStart k.mark
            { s with tokens := s.tokens.insertIdx (k.tokenNumber - s.tokensParsed) ⟨.key, k.mark, k.mark⟩,
                     simpleKeys := { k with possible := false } :: ks } with simpleKeyAllowed := false } : SState).tokens ++ [tok] = _ from etok]
        exact h5
      · unfold rollS; rw [if_pos hroll]
      · show _ = (rollS _ _ _ _ _).flowLevel
        rw [rollS_flow]; simp [flowAfter, s'', s', hfl.1, hfl.2]
      · show KeySub (rollS _ _ _ _ _).simpleKeys _
        rw [rollS_keys]; exact KeySub.refl _
      · unfold rollS; rw [if_pos hroll]
    · have etok : hist ++ (rollS k.mark.column (some k.tokenNumber) TokenData.blockMappingStart k.mark
            { s with tokens := s.tokens.insertIdx (k.tokenNumber - s.tokensParsed) ⟨.key, k.mark, k.mark⟩,
                     simpleKeys := { k with possible := false } :: ks }).tokens ++ [tok]
          = (hist ++ s.tokens).take k.tokenNumber ++
            ⟨.key, k.mark, k.mark⟩ :: ((hist ++ s.tokens).drop k.tokenNumber ++ [tok]) := by
        unfold rollS
        rw [if_neg hroll]
        show hist ++ (s.tokens.insertIdx (k.tokenNumber - s.tokensParsed) ⟨.key, k.mark, k.mark⟩) ++ [tok] = _
        rw [insertIdx_hist hlen hn1 hn2]
        simp
      refine hfin s' ?_ (by show s.mark = (rollS _ _ _ _ _).mark; rw [rollS_mark]) ?_ ?_ ?_ ?_
      · rw [show hist ++ ({ rollS k.mark.column (some k.tokenNumber) TokenData.blockMappingStart k.mark
            { s with tokens := s.tokens.insertIdx (k.tokenNumber - s.tokensParsed) ⟨.key, k.mark, k.mark⟩,
                     simpleKeys := { k with possible := false } :: ks } with simpleKeyAllowed := false } : SState).tokens ++ [tok] = _ from etok]
        exact h4
      · unfold rollS; rw [if_neg hroll]
      · show _ = (rollS _ _ _ _ _).flowLevel
        rw [rollS_flow]; simp [flowAfter, s', hfl.1, hfl.2]
      · show KeySub (rollS _ _ _ _ _).simpleKeys _
        rw [rollS_keys]; exact KeySub.refl _
      · unfold rollS; rw [if_neg hroll]

theorem IndOk.bottom {i : Int} {is : List Int} (h : IndOk i is) (hi : i ≤ -1) : is = [] := by
  cases is with
  | nil => rfl
  | cons j js =>
    exfalso
    have aux : ∀ (js : List Int) (j : Int), IndOk j js → -1 ≤ j := by
      intro js
      induction js with
      | nil => intro j h; have h : j = -1 := h; omega
      | cons a as ih => intro j h; have := ih a h.2; have := h.1; omega
    have := aux js j h.2
    have := h.1
    omega

theorem HInv.start {T : List Char} (e : Encoding) {b : Inp} (hb : b.text = T) : HInv T [] (startS e) b := by
  have hz : IsPosition T Mark.zero := ⟨[], T, rfl, by simp, by simp [position, advance, Mark.zero]⟩
  refine Or.inr ⟨rfl, by simp [startS], ?_, Or.inl ⟨startS_open e, ?_⟩⟩
  · have hm : (startS e).mark = Mark.zero := rfl
    constructor
    · intro t ht
      simp [startS] at ht; subst ht
      exact ⟨Or.inl hz, Or.inl hz, Spec.le_refl _, Spec.le_refl _⟩
    · simp [startS]
    · intro k hk hp; simp [startS] at hk; subst hk; simp [emptyKey] at hp
    · intro k hk hp; simp [startS] at hk; subst hk; simp [emptyKey] at hp
    · simp [startS]
    · simp [startS, isBlockStart, isBlockEnd, SState.new]
    · intro pre post hpp
      rcases List.eq_nil_or_concat pre with rfl | ⟨p, x, rfl⟩
      · simp
      · have : p = [] ∧ x = ⟨.streamStart e, Mark.zero, Mark.zero⟩ := by
          have := congrArg List.length hpp
          simp [startS] at this hpp
          have hp : p = [] := List.length_eq_zero_iff.1 (by omega)
          subst hp; simp at hpp; exact ⟨rfl, hpp.1.symm⟩
        obtain ⟨rfl, rfl⟩ := this
        simp [isBlockStart, isBlockEnd]
    · simp [startS, flowDepth, isFlowStart, isFlowEnd, SState.new]
    · intro pre t post hpp
      cases pre with
      | nil =>
        simp [startS] at hpp
        obtain ⟨rfl, _⟩ := hpp
        simp [isStreamStart]
      | cons a as =>
        have := congrArg List.length hpp
        simp [startS] at this
    · intro pre k post hpp hk
      cases pre with
      | nil =>
        simp [startS] at hpp
        obtain ⟨rfl, _⟩ := hpp
        simp at hk
      | cons a as =>
        have := congrArg List.length hpp
        simp [startS] at this
    · intro t ht
      simp [startS] at ht; subst ht
      exact Or.inr rfl
  · rw [hb]; exact Adv.refl _ _

/-- Fetching keeps the invariant. -/
theorem HInv.fetch {T : List Char} {hist : List Token} {s s' : SState} {b b' : Inp} (h : HInv T hist s b)
    (hf : Fetched s b s' b') : HInv T hist s' b' := by
  cases hf with
  | start hs e hb =>
    rcases h with ⟨_, rfl, ht⟩ | ⟨_, hne, hh, hph⟩
    · exact HInv.start e (by rw [hb, ht])
    · subst hs
      exfalso
      rcases hph with h' | h'
      · have := h'.1.started; simp [SState.new] at this
      · have := h'.1.started; simp [SState.new] at this
  | @next s1 s3 _ b1 _ hs hg hst hu hd hsep =>
    rcases h with ⟨h0, _, _⟩ | ⟨hlen, hne, hh, hph⟩
    · have := hs.started
      have h1 := congrArg SState.streamStartProduced h0
      simp [SState.new, this] at h1
    · have hadv : Adv Mark.zero T s.mark b.text := by
        rcases hph with h' | h'
        · exact h'.2
        · exfalso
          obtain ⟨ts, t, h1, h2, _⟩ := h'.1.queue
          exact hs.notEnded t (by have h1 : s.tokens = _ := h1; rw [h1]; simp) h2
      have hadv1 : Adv Mark.zero T s1.mark b1.text := hadv.trans hg.2
      have hs1 : SOpen s1 := hs.frame hg.1 hg.2.le
      have htok1 : s1.tokens = s.tokens := hg.1.tokens
      have hh1 : Hist T (hist ++ (staleS s1).tokens) (staleS s1) := by
        show Hist T (hist ++ s1.tokens) _
        rw [htok1]
        refine hh.congr hg.2.le ?_ ?_ ?_
        · have := staleS_sub s1
          have e : s1.simpleKeys = s.simpleKeys := by rw [hg.1]
          rw [e] at this; exact this
        · show s1.indents.length = _; rw [hg.1]
        · exact hg.1.flowLevel
      have hne1 : hist ++ (staleS s1).tokens ≠ [] := by
        show hist ++ s1.tokens ≠ []; rw [htok1]; exact hne
      have hpar1 : hist.length = (staleS s1).tokensParsed := by
        show _ = s1.tokensParsed; rw [hg.1]; exact hlen
      have hkn1 : ∀ k ∈ (staleS s1).simpleKeys, k.possible = true → k.tokenNumber ≤ (hist ++ (staleS s1).tokens).length := by
        intro k hk hp
        have := (hs1.stale.keyNum k hk hp).2
        rw [List.length_append]; omega
      have hpos1 : IsPosition T s1.mark := IsPosition.of_adv hadv1
      have hs3 : SOpen s3 := hs1.stale.unroll hu
      have hh3 := hh1.unroll hne1 (Or.inl hpos1) hkn1 hu
      have hm3 : s3.mark = s1.mark := hu.mark
      have hk3 : s3.simpleKeys = (staleS s1).simpleKeys := hu.keys
      have hpar3 : hist.length = s3.tokensParsed := by
        obtain ⟨_, _, _, rfl, _⟩ := hu; exact hpar1
      have hne3 : hist ++ s3.tokens ≠ [] := by
        obtain ⟨_, _, _, rfl, _⟩ := hu
        simp at hne1 ⊢
        intro h1 h2; exact absurd h2 (hne1 h1)
      cases hd with
      | @token D s4 s2 tok _ hp ht hd =>
        have hlt := Adv.lt ht.go.2 ht.progress
        have hsk := staleErr_none hst
        have := HInv.token hpar3 hne3 hh3 hs3 (b := b1) (by rw [hm3]; exact hadv1)
          (fun k hk hp => by rw [hm3]; rw [hk3] at hk; exact hsk k hk hp) hp ht hd
        obtain ⟨g1, g2, g3⟩ := this
        have hopen := (hp.open hs3 ht.go.1 ht.go.2.le hlt).push (hp.data hd).1
        refine Or.inr ⟨g1, g2, g3, Or.inl ⟨?_, ?_⟩⟩
        · exact { hopen with notAvail := rfl }
        · show Adv Mark.zero T s2.mark b'.text
          have := ht.go.2
          rw [hp.mark, hm3] at this
          exact hadv1.trans this
      | @streamEnd s4 _ hb hb' hu2 hr =>
        have hphase := Fetched.phase (.next hs hg hst hu (.streamEnd (b' := b') hb hb' hu2 hr) hsep)
        have hend : SEnd (pushS ⟨.streamEnd, s4.mark, s4.mark⟩ { clearS s4 with simpleKeyAllowed := false }) := by
          rcases hphase with h' | h'
          · exfalso
            exact h'.1.notEnded ⟨.streamEnd, s4.mark, s4.mark⟩ (by simp [pushS]) rfl
          · exact h'.1
        have hadv3 : Adv Mark.zero T s3.mark [] := by rw [hm3, ← hb]; exact hadv1
        have hmk : IsMark T (endMarkOf s3.mark) := isMark_end hadv3
        have hh4 : Hist T (hist ++ s4.tokens) s4 := by
          have h0 : Hist T (hist ++ ({ s3 with mark := endMarkOf s3.mark } : SState).tokens) { s3 with mark := endMarkOf s3.mark } :=
            hh3.congr (le_endMarkOf _) (KeySub.refl _) rfl rfl
          refine h0.unroll hne3 hmk ?_ hu2
          intro k hk hp
          have := (hs3.keyNum k hk hp).2
          show _ ≤ (hist ++ s3.tokens).length
          rw [List.length_append]; omega
        have hm4 : s4.mark = endMarkOf s3.mark := hu2.mark
        have hs0 : SOpen { s3 with mark := endMarkOf s3.mark } := hs3.frame (Frame.mk' _ _ _) (le_endMarkOf _)
        have hs4 : SOpen s4 := hs0.unroll hu2
        have hpar4 : hist.length = s4.tokensParsed := by
          obtain ⟨_, _, _, rfl, _⟩ := hu2; exact hpar3
        have hne4 : hist ++ s4.tokens ≠ [] := by
          obtain ⟨_, _, _, rfl, _⟩ := hu2
          simp at hne3 ⊢
          intro h1 h2; exact absurd h2 (hne3 h1)
        refine Or.inr ⟨hpar4, by simp [pushS], ?_, Or.inr ⟨{ hend with notAvail := rfl }, ?_, hb', ?_⟩⟩
        · show Hist T (hist ++ (s4.tokens ++ [_])) _
          rw [← List.append_assoc]
          have := hh4.push (s' := s4) (t := ⟨.streamEnd, s4.mark, s4.mark⟩) hne4 rfl (by rw [hm4]; exact hmk) (by rw [hm4]; exact hmk)
            (Spec.le_refl _) rfl (by simp) (by
              intro k hk hp
              have := (hs4.keyNum k hk hp).2
              rw [List.length_append]; omega) rfl rfl (Or.inr (Or.inr ⟨rfl, rfl, rfl⟩)) rfl (Or.inr rfl)
          exact this.congr (Spec.le_refl _) (clearS_sub s4) rfl rfl
        · show IsMark T s4.mark
          rw [hm4]; exact hmk
        · obtain ⟨n, i, is, rfl, hi, _, hcol, _⟩ := hu2
          intro h0
          exact hi.bottom (hcol h0)

theorem HInv.stale {T : List Char} {hist : List Token} {s : SState} {b : Inp} (h : HInv T hist s b) :
    HInv T hist (staleS s) b := by
  rcases h with ⟨h0, h1, h2⟩ | ⟨h1, h2, h3, h4⟩
  · have h3 : s.simpleKeys = [] := congrArg SState.simpleKeys h0
    refine Or.inl ⟨?_, h1, h2⟩
    rw [← h0]; unfold staleS; rw [h3]; rfl
  · refine Or.inr ⟨h1, h2, h3.congr (Spec.le_refl _) (staleS_sub s) rfl rfl, ?_⟩
    rcases h4 with h4 | h4
    · exact Or.inl ⟨h4.1.stale, h4.2⟩
    · exact Or.inr ⟨h4.1.stale, h4.2⟩

theorem HInv.avail {T : List Char} {hist : List Token} {s : SState} {b : Inp} (h : HInv T hist s b)
    (x : Bool) : HInv T hist { s with tokenAvailable := x } b := by
  rcases h with h | ⟨h1, h2, h3, h4⟩
  · exact Or.inl h
  · exact Or.inr ⟨h1, h2, h3.cast rfl rfl rfl rfl, h4⟩

end Yaml
