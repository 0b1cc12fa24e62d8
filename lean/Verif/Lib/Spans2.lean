import Verif.Lib.Spans

/-
The marks of the events and errors of one call of `parse`, continued.
-/

namespace Yaml
open Spec Parser
set_option linter.unusedSimpArgs false
set_option linter.unusedVariables false

section
variable {p : PState} {fin : Out Token} {st pk : Bool} {toks ts0 c0 : List Token} {M0 : List Mark} {D : List TagDirective}

theorem ind_snoc {t : Token} (h : ∀ u ∈ c0, IsIndicator u) (ht : IsIndicator t) : ∀ u ∈ c0 ++ [t], IsIndicator u := by
  intro u hu
  rcases List.mem_append.1 hu with hu | hu
  · exact h u hu
  · simp at hu; subst hu; exact ht

theorem wpM_pushed {b i : Bool} {x : PSt} (h0 : ts0 = c0 ++ toks) (hi0 : ∀ u ∈ c0, IsIndicator u) (hM : MarksFrom M0 c0 p.marks) :
    wpM ts0 M0 fin (parseNode b i) (SpanRes ts0 M0) { p with states := x :: p.states } (lv toks fin st pk) :=
  wpM_parseNode (p := { p with states := x :: p.states }) h0 hi0 hM

theorem wpM_leave {data : EventData} {token : Token} {ts : List Token} (ht : token.data ≠ .streamEnd) (hc : Closes token.data data)
    (h0 : ts0 = c0 ++ token :: ts) (hi0 : ∀ u ∈ c0, IsIndicator u) (hM : MarksFrom M0 c0 p.marks) :
    wpM ts0 M0 fin (leaveCollection data token) (SpanRes ts0 M0) p (lv (token :: ts) fin true true) := by
  unfold leaveCollection
  pws
  refine wpM_popState fun x r hr => ?_
  rw [wp_skip_lv ht]
  refine ⟨c0 ++ [token], by rw [h0]; simp, .closes hi0 hc ⟨⟨_, rfl, rfl⟩, _, rfl, rfl⟩, ?_⟩
  exact fun m hm => hM.mono m (List.mem_of_mem_tail hm)

/-- An omitted node after an indicator. -/
theorem omitted_after {t : Token} {ts : List Token} {p' : PState} {st' pk' : Bool} (h0 : ts0 = c0 ++ t :: ts) (hi0 : ∀ u ∈ c0, IsIndicator u)
    (hM : MarksFrom M0 c0 p'.marks) : SpanRes ts0 M0 (emptyScalar t.endMark) p' (lv ts fin st' pk') :=
  ⟨c0 ++ [t], by rw [h0]; simp, .omittedAfter rfl hi0 ⟨rfl, rfl⟩, hM.mono⟩

theorem omitted_before {t : Token} {ts : List Token} {p' : PState} {st' pk' : Bool} (h0 : ts0 = c0 ++ t :: ts) (hi0 : ∀ u ∈ c0, IsIndicator u)
    (hM : MarksFrom M0 c0 p'.marks) : SpanRes ts0 M0 (emptyScalar t.startMark) p' (lv (t :: ts) fin st' pk') :=
  ⟨c0, by rw [h0], .omittedBefore rfl hi0 ⟨rfl, rfl⟩, hM⟩

/-- Collections without closing token. -/
theorem spans_ends {t : Token} {ts : List Token} {p' : PState} {st' pk' : Bool} {data : EventData} (h0 : ts0 = t :: ts)
    (hd : data = .sequenceEnd ∨ data = .mappingEnd) (hM : MarksFrom M0 [] p'.marks) :
    SpanRes ts0 M0 ⟨data, t.startMark, t.endMark⟩ p' (lv (t :: ts) fin st' pk') :=
  ⟨[], by rw [h0]; rfl, .ends hd ⟨⟨_, rfl, rfl⟩, _, rfl, rfl⟩, hM⟩

theorem wpM_blockSequenceEntry (h0 : ts0 = c0 ++ toks) (hi0 : ∀ u ∈ c0, IsIndicator u) (hM : MarksFrom M0 c0 p.marks) :
    wpM ts0 M0 fin (parseBlockSequenceEntry false) (SpanRes ts0 M0) p (lv toks fin st pk) := by
  unfold parseBlockSequenceEntry enterCollection
  pws
  rw [M.wp_when]
  rw [if_neg (by simp)]
  refine wpM_peek ?_
  rintro ⟨d, m1, m2⟩ ts rfl
  cases d with
  | blockEntry =>
    dsimp only
    pws
    rw [wp_skip_lv (by simp)]
    refine wpM_peek ?_
    rintro t2 ts2 rfl
    split
    · pws
      exact omitted_after h0 hi0 hM
    · pws
      exact wpM_pushed (c0 := c0 ++ [⟨.blockEntry, m1, m2⟩]) (by rw [h0]; simp) (ind_snoc hi0 (Or.inl rfl)) hM.mono
  | blockEnd =>
    dsimp only
    exact wpM_leave (by simp) (Or.inl rfl) h0 hi0 hM
  | _ => exact wpM_complain h0 hM

theorem wpM_enter {m : Bool → Pars Event} {t : Token} {ts : List Token} (ht : t.data ≠ .streamEnd) (hi : IsIndicator t)
    (hm : m true = (do enterCollection true; m false : Pars Event)) (h0 : ts0 = t :: ts) (hM : MarksFrom M0 [] p.marks)
    (h : ∀ p' : PState, MarksFrom M0 [t] p'.marks → wpM ts0 M0 fin (m false) (SpanRes ts0 M0) p' (lv ts fin true false)) :
    wpM ts0 M0 fin (m true) (SpanRes ts0 M0) p (lv (t :: ts) fin st pk) := by
  rw [hm]
  unfold enterCollection
  unfold wpM
  pws
  rw [M.wp_when, if_pos rfl]
  pws
  rw [wp_skip_lv ht]
  refine h _ ?_
  intro m hm
  rcases List.mem_cons.1 hm with rfl | hm
  · exact Or.inr ⟨t, by simp, rfl⟩
  · exact (hM m hm).imp id (by rintro ⟨u, hu, _⟩; cases hu)

theorem wpM_blockSequenceFirst {t : Token} {ts : List Token} (ht : t.data = .blockSequenceStart) (h0 : ts0 = t :: ts) (hM : MarksFrom M0 [] p.marks) :
    wpM ts0 M0 fin (parseBlockSequenceEntry true) (SpanRes ts0 M0) p (lv (t :: ts) fin st pk) := by
  refine wpM_enter (m := parseBlockSequenceEntry) (by simp [ht]) (by simp [IsIndicator, ht]) rfl h0 hM ?_
  intro p' h
  exact wpM_blockSequenceEntry (c0 := [t]) (by rw [h0]; rfl) (by simp [IsIndicator, ht]) h

theorem wpM_indentless (h0 : ts0 = toks) (hM : MarksFrom M0 [] p.marks) :
    wpM ts0 M0 fin parseIndentlessSequenceEntry (SpanRes ts0 M0) p (lv toks fin st pk) := by
  unfold parseIndentlessSequenceEntry
  pws
  refine wpM_peek ?_
  rintro ⟨d, m1, m2⟩ ts rfl
  split
  · rename_i h
    have h : d = .blockEntry := by simpa using h
    subst h
    pws
    rw [wp_skip_lv (by simp)]
    refine wpM_peek ?_
    rintro t2 ts2 rfl
    split
    · pws
      exact omitted_after (c0 := []) h0 (by simp) hM
    · pws
      exact wpM_pushed (c0 := [⟨.blockEntry, m1, m2⟩]) (by rw [h0]; rfl) (by simp [IsIndicator]) (MarksFrom.mono hM)
  · pws
    refine wpM_popState fun x r hr => ?_
    exact spans_ends h0 (Or.inl rfl) hM

theorem wpM_blockMappingKey (h0 : ts0 = c0 ++ toks) (hi0 : ∀ u ∈ c0, IsIndicator u) (hM : MarksFrom M0 c0 p.marks) :
    wpM ts0 M0 fin (parseBlockMappingKey false) (SpanRes ts0 M0) p (lv toks fin st pk) := by
  unfold parseBlockMappingKey enterCollection
  pws
  rw [M.wp_when]
  rw [if_neg (by simp)]
  refine wpM_peek ?_
  rintro ⟨d, m1, m2⟩ ts rfl
  cases d with
  | key =>
    dsimp only
    pws
    rw [wp_skip_lv (by simp)]
    refine wpM_peek ?_
    rintro t2 ts2 rfl
    split
    · pws
      exact omitted_after h0 hi0 hM
    · pws
      exact wpM_pushed (c0 := c0 ++ [⟨.key, m1, m2⟩]) (by rw [h0]; simp) (ind_snoc hi0 (by simp [IsIndicator])) hM.mono
  | blockEnd =>
    dsimp only
    exact wpM_leave (by simp) (Or.inl rfl) h0 hi0 hM
  | _ => exact wpM_complain h0 hM

theorem wpM_blockMappingFirst {t : Token} {ts : List Token} (ht : t.data = .blockMappingStart) (h0 : ts0 = t :: ts) (hM : MarksFrom M0 [] p.marks) :
    wpM ts0 M0 fin (parseBlockMappingKey true) (SpanRes ts0 M0) p (lv (t :: ts) fin st pk) := by
  refine wpM_enter (m := parseBlockMappingKey) (by simp [ht]) (by simp [IsIndicator, ht]) rfl h0 hM ?_
  intro p' h
  exact wpM_blockMappingKey (c0 := [t]) (by rw [h0]; rfl) (by simp [IsIndicator, ht]) h

theorem wpM_blockMappingValue (h0 : ts0 = toks) (hM : MarksFrom M0 [] p.marks) :
    wpM ts0 M0 fin parseBlockMappingValue (SpanRes ts0 M0) p (lv toks fin st pk) := by
  unfold parseBlockMappingValue
  pws
  refine wpM_peek ?_
  rintro ⟨d, m1, m2⟩ ts rfl
  split
  · rename_i h
    have h : d = .value := by simpa using h
    subst h
    pws
    rw [wp_skip_lv (by simp)]
    refine wpM_peek ?_
    rintro t2 ts2 rfl
    split
    · pws
      exact omitted_after (c0 := []) h0 (by simp) hM
    · pws
      exact wpM_pushed (c0 := [⟨.value, m1, m2⟩]) (by rw [h0]; rfl) (by simp [IsIndicator]) (MarksFrom.mono hM)
  · pws
    exact omitted_before (c0 := []) (t := ⟨d, m1, m2⟩) h0 (by simp) hM

/-- The part of `parse_flow_sequence_entry` after the separator. -/
theorem wpM_flowSeqRest {token : Token} {ts : List Token} (h0 : ts0 = c0 ++ token :: ts) (hi0 : ∀ u ∈ c0, IsIndicator u) (hM : MarksFrom M0 c0 p.marks) :
    wpM ts0 M0 fin (if (token.data == .key) = true then do
      setState .flowSequenceEntryMappingKey
      skip
      pure ⟨.mappingStart none none true .flow, token.startMark, token.endMark⟩
    else if (token.data == .flowSequenceEnd) = true then leaveCollection .sequenceEnd token
    else do
      pushState .flowSequenceEntry
      parseNode false false : Pars Event) (SpanRes ts0 M0) p (lv (token :: ts) fin true true) := by
  obtain ⟨d, m1, m2⟩ := token
  unfold wpM
  split
  · rename_i hk
    have hk : d = .key := by simpa using hk
    subst hk
    pws
    rw [wp_skip_lv (by simp)]
    exact ⟨c0 ++ [⟨.key, m1, m2⟩], by rw [h0]; simp, .pair rfl hi0 rfl ⟨⟨_, rfl, rfl⟩, _, rfl, rfl⟩, hM.mono⟩
  split
  · rename_i hk
    have hk : d = .flowSequenceEnd := by simpa using hk
    subst hk
    exact wpM_leave (by simp) (Or.inr rfl) h0 hi0 hM
  · pws
    exact wpM_pushed h0 hi0 hM

theorem wpM_flowSequenceFirst {t : Token} {ts : List Token} (ht : t.data = .flowSequenceStart) (h0 : ts0 = t :: ts) (hM : MarksFrom M0 [] p.marks) :
    wpM ts0 M0 fin (parseFlowSequenceEntry true) (SpanRes ts0 M0) p (lv (t :: ts) fin st pk) := by
  unfold parseFlowSequenceEntry enterCollection flowSeparator
  pws
  rw [M.wp_when, if_pos rfl]
  pws
  rw [wp_skip_lv (by simp [ht])]
  have hM' : MarksFrom M0 [t] (t.startMark :: p.marks) := by
    intro m hm
    rcases List.mem_cons.1 hm with rfl | hm
    · exact Or.inr ⟨t, by simp, rfl⟩
    · exact (hM m hm).imp id (by rintro ⟨u, hu, _⟩; cases hu)
  have hi0 : ∀ u ∈ [t], IsIndicator u := by simp [IsIndicator, ht]
  refine wpM_peek ?_
  rintro ⟨d, m1, m2⟩ ts2 rfl
  split
  · rename_i hk
    have hk : d = .flowSequenceEnd := by simpa using hk
    subst hk
    exact wpM_leave (p := { p with marks := t.startMark :: p.marks }) (by simp) (Or.inr rfl) (c0 := [t]) h0 hi0 hM'
  · simp only [if_true]
    pws
    have := wpM_flowSeqRest (p := { p with marks := t.startMark :: p.marks }) (token := ⟨d, m1, m2⟩) (ts := ts2) (fin := fin) (c0 := [t]) h0 hi0 hM'
    exact this

theorem wpM_flowSequenceEntry (h0 : ts0 = toks) (hM : MarksFrom M0 [] p.marks) :
    wpM ts0 M0 fin (parseFlowSequenceEntry false) (SpanRes ts0 M0) p (lv toks fin st pk) := by
  unfold parseFlowSequenceEntry enterCollection flowSeparator
  pws
  rw [M.wp_when, if_neg (by simp)]
  refine wpM_peek ?_
  rintro ⟨d, m1, m2⟩ ts2 rfl
  split
  · rename_i hk
    have hk : d = .flowSequenceEnd := by simpa using hk
    subst hk
    exact wpM_leave (by simp) (Or.inr rfl) (c0 := []) h0 (by simp) hM
  · rw [if_neg (by simp)]
    split
    · rename_i hk
      have hk : d = .flowEntry := by simpa using hk
      subst hk
      pws
      rw [wp_skip_lv (by simp)]
      refine wpM_peek ?_
      rintro t3 ts3 rfl
      have := wpM_flowSeqRest (p := p) (token := t3) (ts := ts3) (fin := fin) (c0 := [⟨.flowEntry, m1, m2⟩]) h0 (by simp [IsIndicator]) (MarksFrom.mono hM)
      exact this
    · rw [M.wp_bind]
      exact wpM_complain (c0 := []) (t := ⟨d, m1, m2⟩) h0 hM

theorem wpM_pairKey (h0 : ts0 = toks) (hM : MarksFrom M0 [] p.marks) :
    wpM ts0 M0 fin parseFlowSequenceEntryMappingKey (SpanRes ts0 M0) p (lv toks fin st pk) := by
  unfold parseFlowSequenceEntryMappingKey
  pws
  refine wpM_peek ?_
  rintro ⟨d, m1, m2⟩ ts rfl
  split
  · rename_i h
    have h : d = .value ∨ d = .flowEntry ∨ d = .flowSequenceEnd := by simpa [or_assoc] using h
    pws
    rw [wp_skip_lv (by rcases h with h | h | h <;> simp [h])]
    exact omitted_after (c0 := []) (t := ⟨d, m1, m2⟩) h0 (by simp) hM
  · pws
    exact wpM_pushed (c0 := []) h0 (by simp) hM

/-- A value after `:`, with the marks of an omitted one before the next token. -/
theorem wpM_pairValue (h0 : ts0 = toks) (hM : MarksFrom M0 [] p.marks) :
    wpM ts0 M0 fin parseFlowSequenceEntryMappingValue (SpanRes ts0 M0) p (lv toks fin st pk) := by
  unfold parseFlowSequenceEntryMappingValue
  pws
  refine wpM_peek ?_
  rintro ⟨d, m1, m2⟩ ts rfl
  split
  · rename_i h
    have h : d = .value := by simpa using h
    subst h
    pws
    rw [wp_skip_lv (by simp)]
    refine wpM_peek ?_
    rintro t2 ts2 rfl
    split
    · pws
      exact omitted_before (c0 := [⟨.value, m1, m2⟩]) h0 (by simp [IsIndicator]) (MarksFrom.mono hM)
    · pws
      exact wpM_pushed (c0 := [⟨.value, m1, m2⟩]) h0 (by simp [IsIndicator]) (MarksFrom.mono hM)
  · pws
    exact omitted_before (c0 := []) (t := ⟨d, m1, m2⟩) h0 (by simp) hM

theorem wpM_pairEnd (h0 : ts0 = toks) (hM : MarksFrom M0 [] p.marks) :
    wpM ts0 M0 fin parseFlowSequenceEntryMappingEnd (SpanRes ts0 M0) p (lv toks fin st pk) := by
  unfold parseFlowSequenceEntryMappingEnd
  pws
  refine wpM_peek ?_
  rintro ⟨d, m1, m2⟩ ts rfl
  exact spans_ends (t := ⟨d, m1, m2⟩) h0 (Or.inr rfl) hM

/-- The part of `parse_flow_mapping_key` after the separator. -/
theorem wpM_flowMapRest {token : Token} {ts : List Token} (h0 : ts0 = c0 ++ token :: ts) (hi0 : ∀ u ∈ c0, IsIndicator u) (hM : MarksFrom M0 c0 p.marks) :
    wpM ts0 M0 fin (if (token.data == .key) = true then do
      skip
      let token ← peek
      if (token.data == .value || token.data == .flowEntry || token.data == .flowMappingEnd) = true then do
        setState .flowMappingValue
        pure (emptyScalar token.startMark)
      else do
        pushState .flowMappingValue
        parseNode false false
    else if (token.data == .flowMappingEnd) = true then leaveCollection .mappingEnd token
    else do
      pushState .flowMappingEmptyValue
      parseNode false false : Pars Event) (SpanRes ts0 M0) p (lv (token :: ts) fin true true) := by
  obtain ⟨d, m1, m2⟩ := token
  unfold wpM
  split
  · rename_i hk
    have hk : d = .key := by simpa using hk
    subst hk
    pws
    rw [wp_skip_lv (by simp)]
    refine wpM_peek ?_
    rintro t2 ts2 rfl
    have hi1 := ind_snoc (t := ⟨.key, m1, m2⟩) hi0 (by simp [IsIndicator])
    have h1 : ts0 = (c0 ++ [⟨.key, m1, m2⟩]) ++ t2 :: ts2 := by rw [h0]; simp
    split
    · pws
      exact omitted_before h1 hi1 hM.mono
    · pws
      exact wpM_pushed h1 hi1 hM.mono
  split
  · rename_i hk
    have hk : d = .flowMappingEnd := by simpa using hk
    subst hk
    exact wpM_leave (by simp) (Or.inr rfl) h0 hi0 hM
  · pws
    exact wpM_pushed h0 hi0 hM

theorem wpM_flowMappingFirst {t : Token} {ts : List Token} (ht : t.data = .flowMappingStart) (h0 : ts0 = t :: ts) (hM : MarksFrom M0 [] p.marks) :
    wpM ts0 M0 fin (parseFlowMappingKey true) (SpanRes ts0 M0) p (lv (t :: ts) fin st pk) := by
  unfold parseFlowMappingKey enterCollection flowSeparator
  pws
  rw [M.wp_when, if_pos rfl]
  pws
  rw [wp_skip_lv (by simp [ht])]
  have hM' : MarksFrom M0 [t] (t.startMark :: p.marks) := by
    intro m hm
    rcases List.mem_cons.1 hm with rfl | hm
    · exact Or.inr ⟨t, by simp, rfl⟩
    · exact (hM m hm).imp id (by rintro ⟨u, hu, _⟩; cases hu)
  have hi0 : ∀ u ∈ [t], IsIndicator u := by simp [IsIndicator, ht]
  refine wpM_peek ?_
  rintro ⟨d, m1, m2⟩ ts2 rfl
  split
  · rename_i hk
    have hk : d = .flowMappingEnd := by simpa using hk
    subst hk
    exact wpM_leave (p := { p with marks := t.startMark :: p.marks }) (by simp) (Or.inr rfl) (c0 := [t]) h0 hi0 hM'
  · simp only [if_true]
    pws
    have := wpM_flowMapRest (p := { p with marks := t.startMark :: p.marks }) (token := ⟨d, m1, m2⟩) (ts := ts2) (fin := fin) (c0 := [t]) h0 hi0 hM'
    exact this

theorem wpM_flowMappingKey (h0 : ts0 = toks) (hM : MarksFrom M0 [] p.marks) :
    wpM ts0 M0 fin (parseFlowMappingKey false) (SpanRes ts0 M0) p (lv toks fin st pk) := by
  unfold parseFlowMappingKey enterCollection flowSeparator
  pws
  rw [M.wp_when, if_neg (by simp)]
  refine wpM_peek ?_
  rintro ⟨d, m1, m2⟩ ts2 rfl
  split
  · rename_i hk
    have hk : d = .flowMappingEnd := by simpa using hk
    subst hk
    exact wpM_leave (by simp) (Or.inr rfl) (c0 := []) h0 (by simp) hM
  · rw [if_neg (by simp)]
    split
    · rename_i hk
      have hk : d = .flowEntry := by simpa using hk
      subst hk
      pws
      rw [wp_skip_lv (by simp)]
      refine wpM_peek ?_
      rintro t3 ts3 rfl
      have := wpM_flowMapRest (p := p) (token := t3) (ts := ts3) (fin := fin) (c0 := [⟨.flowEntry, m1, m2⟩]) h0 (by simp [IsIndicator]) (MarksFrom.mono hM)
      exact this
    · rw [M.wp_bind]
      exact wpM_complain (c0 := []) (t := ⟨d, m1, m2⟩) h0 hM

theorem wpM_flowMappingValue (h0 : ts0 = toks) (hM : MarksFrom M0 [] p.marks) :
    wpM ts0 M0 fin (parseFlowMappingValue false) (SpanRes ts0 M0) p (lv toks fin st pk) := by
  unfold parseFlowMappingValue
  pws
  refine wpM_peek ?_
  rintro ⟨d, m1, m2⟩ ts rfl
  rw [if_neg (by simp)]
  split
  · rename_i h
    have h : d = .value := by simpa using h
    subst h
    pws
    rw [wp_skip_lv (by simp)]
    refine wpM_peek ?_
    rintro t2 ts2 rfl
    split
    · pws
      exact omitted_before (c0 := [⟨.value, m1, m2⟩]) h0 (by simp [IsIndicator]) (MarksFrom.mono hM)
    · pws
      exact wpM_pushed (c0 := [⟨.value, m1, m2⟩]) h0 (by simp [IsIndicator]) (MarksFrom.mono hM)
  · pws
    exact omitted_before (c0 := []) (t := ⟨d, m1, m2⟩) h0 (by simp) hM

theorem wpM_flowMappingEmptyValue (h0 : ts0 = toks) (hM : MarksFrom M0 [] p.marks) :
    wpM ts0 M0 fin (parseFlowMappingValue true) (SpanRes ts0 M0) p (lv toks fin st pk) := by
  unfold parseFlowMappingValue
  pws
  refine wpM_peek ?_
  rintro ⟨d, m1, m2⟩ ts rfl
  simp only [if_true]
  pws
  exact omitted_before (c0 := []) (t := ⟨d, m1, m2⟩) h0 (by simp) hM

end

end Yaml
