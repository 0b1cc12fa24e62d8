import Verif.Lib.Trans

/-
The calls of `parse` follow the table of transitions.
-/

namespace Yaml
open Spec Parser
set_option linter.unusedSimpArgs false
set_option linter.unusedVariables false

variable {D : List TagDirective} {p : PState} {fin : Out Token} {st pk : Bool} {toks : List Token}

/-- The result of a call. -/
abbrev TrRes (D : List TagDirective) (x : PSt) (r : List PSt) (l : List TokenData) : Event → PState → Toks → Prop :=
  fun ev p' g' => Tr D x r l ev.data p'.state p'.states (dd g'.toks)

/-- A node is read with a state pushed. -/
theorem wpA_pushed {Q : Event → PState → Toks → Prop} {b i : Bool} {x : PSt} (hd : p.tagDirectives = withDefaults D)
    (h : ∀ ev p' g', NTr D b i (x :: p.states) (dd toks) ev.data p'.state p'.states (dd g'.toks) → Q ev p' g') :
    wpA (parseNode b i) Q { p with states := x :: p.states } (lv toks fin st pk) :=
  M.wp_cut stepL_mono _ (wpA_parseNode (p := { p with states := x :: p.states }) hd) h

theorem wpA_leave {data : EventData} {token : Token} {ts : List Token} {Q : Event → PState → Toks → Prop} (ht : token.data ≠ .streamEnd)
    (h : ∀ (x : PSt) (r : List PSt) (ev : Event) (p' : PState), p.states = x :: r → p'.state = x → p'.states = r → ev.data = data → Q ev p' (lv ts fin true false)) :
    wpA (leaveCollection data token) Q p (lv (token :: ts) fin true true) := by
  unfold leaveCollection
  pws
  refine wpA_popState fun x r hr => ?_
  rw [wp_skip_lv ht]
  exact h x r _ _ hr rfl rfl rfl

theorem wpA_complain {α : Type} {a b : String} {m : Mark} {Q : α → PState → Toks → Prop} {g : Toks} :
    wpA (do let mark ← popMark; parserError a mark b m : Pars α) Q p g := by
  unfold wpA
  rw [M.wp_bind]
  exact wpA_popMark fun m p' => trivial

theorem wpA_blockSequenceEntry (hd : p.tagDirectives = withDefaults D) :
    wpA (parseBlockSequenceEntry false) (TrRes D .blockSequenceEntry p.states (dd toks)) p (lv toks fin st pk) := by
  unfold parseBlockSequenceEntry enterCollection
  pws
  rw [M.wp_when]
  rw [if_neg (by simp)]
  refine wp_peek ?_ (fun _ _ => trivial)
  rintro ⟨d, m1, m2⟩ ts rfl
  cases d with
  | blockEntry =>
    dsimp only
    pws
    rw [wp_skip_lv (by simp)]
    refine wp_peek ?_ (fun _ _ => trivial)
    rintro t2 ts2 rfl
    split
    · pws
      exact .itemEmpty
    · pws
      exact wpA_pushed hd fun ev p' g' h => .item h
  | blockEnd =>
    dsimp only
    refine wpA_leave (by simp) ?_
    intro x r ev p' hr h1 h2 h3
    show Tr _ _ _ _ _ _ _ _
    rw [hr, h1, h2, h3]
    exact .seqEnd
  | _ => exact wpA_complain

theorem wpA_enter {first : Bool} {Q : Event → PState → Toks → Prop} {m : Bool → Pars Event} {t : Token} {ts : List Token} (ht : t.data ≠ .streamEnd)
    (hm : m true = (do enterCollection true; m false : Pars Event))
    (h : ∀ p' : PState, p'.states = p.states → p'.tagDirectives = p.tagDirectives → wpA (m false) Q p' (lv ts fin true false)) :
    wpA (m true) Q p (lv (t :: ts) fin st pk) := by
  rw [hm]
  unfold enterCollection
  unfold wpA
  pws
  rw [M.wp_when, if_pos rfl]
  pws
  rw [wp_skip_lv ht]
  exact h _ rfl rfl

theorem wpA_blockSequenceFirst {t : Token} {ts : List Token} (ht : t.data = .blockSequenceStart) (hd : p.tagDirectives = withDefaults D) :
    wpA (parseBlockSequenceEntry true) (TrRes D .blockSequenceFirstEntry p.states (dd (t :: ts))) p (lv (t :: ts) fin st pk) := by
  refine wpA_enter (m := parseBlockSequenceEntry) (first := true) (by simp [ht]) rfl ?_
  intro p' h1 h2
  refine M.wp_cut stepL_mono _ (wpA_blockSequenceEntry (D := D) (by rw [h2, hd])) ?_
  intro ev p2 g2 h
  rw [h1] at h
  show Tr _ _ _ (t.data :: dd ts) _ _ _ _
  rw [ht]
  exact .enterSeq h

theorem wpA_indentless (hd : p.tagDirectives = withDefaults D) :
    wpA parseIndentlessSequenceEntry (TrRes D .indentlessSequenceEntry p.states (dd toks)) p (lv toks fin st pk) := by
  unfold parseIndentlessSequenceEntry
  pws
  refine wp_peek ?_ (fun _ _ => trivial)
  rintro ⟨d, m1, m2⟩ ts rfl
  split
  · rename_i h
    have h : d = .blockEntry := by simpa using h
    subst h
    pws
    rw [wp_skip_lv (by simp)]
    refine wp_peek ?_ (fun _ _ => trivial)
    rintro t2 ts2 rfl
    split
    · pws
      exact .indEmpty
    · pws
      exact wpA_pushed hd fun ev p' g' h => .ind h
  · rename_i h
    pws
    refine wpA_popState fun x r hr => ?_
    show Tr _ _ p.states _ _ _ _ _
    rw [hr]
    exact .indEnd (by simpa using h)

theorem wpA_blockMappingKey (hd : p.tagDirectives = withDefaults D) :
    wpA (parseBlockMappingKey false) (TrRes D .blockMappingKey p.states (dd toks)) p (lv toks fin st pk) := by
  unfold parseBlockMappingKey enterCollection
  pws
  rw [M.wp_when]
  rw [if_neg (by simp)]
  refine wp_peek ?_ (fun _ _ => trivial)
  rintro ⟨d, m1, m2⟩ ts rfl
  cases d with
  | key =>
    dsimp only
    pws
    rw [wp_skip_lv (by simp)]
    refine wp_peek ?_ (fun _ _ => trivial)
    rintro t2 ts2 rfl
    split
    · pws
      exact .keyEmpty
    · pws
      exact wpA_pushed hd fun ev p' g' h => .key h
  | blockEnd =>
    dsimp only
    refine wpA_leave (by simp) ?_
    intro x r ev p' hr h1 h2 h3
    show Tr _ _ _ _ _ _ _ _
    rw [hr, h1, h2, h3]
    exact .mapEnd
  | _ => exact wpA_complain

theorem wpA_blockMappingFirst {t : Token} {ts : List Token} (ht : t.data = .blockMappingStart) (hd : p.tagDirectives = withDefaults D) :
    wpA (parseBlockMappingKey true) (TrRes D .blockMappingFirstKey p.states (dd (t :: ts))) p (lv (t :: ts) fin st pk) := by
  refine wpA_enter (m := parseBlockMappingKey) (first := true) (by simp [ht]) rfl ?_
  intro p' h1 h2
  refine M.wp_cut stepL_mono _ (wpA_blockMappingKey (D := D) (by rw [h2, hd])) ?_
  intro ev p2 g2 h
  rw [h1] at h
  show Tr _ _ _ (t.data :: dd ts) _ _ _ _
  rw [ht]
  exact .enterMap h

theorem wpA_blockMappingValue (hd : p.tagDirectives = withDefaults D) :
    wpA parseBlockMappingValue (TrRes D .blockMappingValue p.states (dd toks)) p (lv toks fin st pk) := by
  unfold parseBlockMappingValue
  pws
  refine wp_peek ?_ (fun _ _ => trivial)
  rintro ⟨d, m1, m2⟩ ts rfl
  split
  · rename_i h
    have h : d = .value := by simpa using h
    subst h
    pws
    rw [wp_skip_lv (by simp)]
    refine wp_peek ?_ (fun _ _ => trivial)
    rintro t2 ts2 rfl
    split
    · pws
      exact .valueEmpty
    · pws
      exact wpA_pushed hd fun ev p' g' h => .value h
  · pws
    exact .noValue

/-- The part of `parse_flow_sequence_entry` after the separator. -/
theorem wpA_flowSeqRest {token : Token} {ts : List Token} {Q : Event → PState → Toks → Prop} (hd : p.tagDirectives = withDefaults D)
    (h : ∀ ev p' g', FSTr D p.states (dd (token :: ts)) ev.data p'.state p'.states (dd g'.toks) → Q ev p' g') :
    wpA (if (token.data == .key) = true then do
      setState .flowSequenceEntryMappingKey
      skip
      pure ⟨.mappingStart none none true .flow, token.startMark, token.endMark⟩
    else if (token.data == .flowSequenceEnd) = true then leaveCollection .sequenceEnd token
    else do
      pushState .flowSequenceEntry
      parseNode false false : Pars Event) Q p (lv (token :: ts) fin true true) := by
  obtain ⟨d, m1, m2⟩ := token
  unfold wpA
  split
  · rename_i hk
    have hk : d = .key := by simpa using hk
    subst hk
    pws
    rw [wp_skip_lv (by simp)]
    exact h _ _ _ .pair
  split
  · rename_i hk
    have hk : d = .flowSequenceEnd := by simpa using hk
    subst hk
    refine wpA_leave (by simp) ?_
    intro x r ev p' hr h1 h2 h3
    refine h _ _ _ ?_
    rw [hr, h1, h2, h3]
    exact .close
  · pws
    exact wpA_pushed hd fun ev p' g' hn => h _ _ _ (.node hn)

theorem wpA_flowSequenceFirst {t : Token} {ts : List Token} (ht : t.data = .flowSequenceStart) (hd : p.tagDirectives = withDefaults D) :
    wpA (parseFlowSequenceEntry true) (TrRes D .flowSequenceFirstEntry p.states (dd (t :: ts))) p (lv (t :: ts) fin st pk) := by
  unfold parseFlowSequenceEntry enterCollection flowSeparator
  pws
  rw [M.wp_when, if_pos rfl]
  pws
  rw [wp_skip_lv (by simp [ht])]
  refine wp_peek ?_ (fun _ _ => trivial)
  rintro ⟨d, m1, m2⟩ ts2 rfl
  split
  · rename_i hk
    have hk : d = .flowSequenceEnd := by simpa using hk
    subst hk
    refine wpA_leave (by simp) ?_
    intro x r ev p' hr h1 h2 h3
    show Tr _ _ _ (t.data :: _) _ _ _ _
    rw [ht, h1, h2, h3]
    have hr : p.states = x :: r := hr
    rw [hr]
    exact .enterFlowSeq .close
  · simp only [if_true]
    pws
    refine wpA_flowSeqRest (D := D) (p := { p with marks := t.startMark :: p.marks }) (token := ⟨d, m1, m2⟩) (ts := ts2) (fin := fin)
      (Q := TrRes D .flowSequenceFirstEntry p.states (dd (t :: ⟨d, m1, m2⟩ :: ts2))) hd ?_
    intro ev p' g' h
    show Tr _ _ _ (t.data :: _) _ _ _ _
    rw [ht]
    exact .enterFlowSeq h

theorem wpA_flowSequenceEntry (hd : p.tagDirectives = withDefaults D) :
    wpA (parseFlowSequenceEntry false) (TrRes D .flowSequenceEntry p.states (dd toks)) p (lv toks fin st pk) := by
  unfold parseFlowSequenceEntry enterCollection flowSeparator
  pws
  rw [M.wp_when, if_neg (by simp)]
  refine wp_peek ?_ (fun _ _ => trivial)
  rintro ⟨d, m1, m2⟩ ts2 rfl
  split
  · rename_i hk
    have hk : d = .flowSequenceEnd := by simpa using hk
    subst hk
    refine wpA_leave (by simp) ?_
    intro x r ev p' hr h1 h2 h3
    show Tr _ _ _ _ _ _ _ _
    rw [hr, h1, h2, h3]
    exact .flowSeqEnd
  · rw [if_neg (by simp)]
    split
    · rename_i hk
      have hk : d = .flowEntry := by simpa using hk
      subst hk
      pws
      rw [wp_skip_lv (by simp)]
      refine wp_peek ?_ (fun _ _ => trivial)
      rintro t3 ts3 rfl
      refine wpA_flowSeqRest (D := D) hd ?_
      intro ev p' g' h
      exact .flowSeqMore h
    · rw [M.wp_bind]
      exact wpA_complain

theorem wpA_pairKey (hd : p.tagDirectives = withDefaults D) :
    wpA parseFlowSequenceEntryMappingKey (TrRes D .flowSequenceEntryMappingKey p.states (dd toks)) p (lv toks fin st pk) := by
  unfold parseFlowSequenceEntryMappingKey
  pws
  refine wp_peek ?_ (fun _ _ => trivial)
  rintro ⟨d, m1, m2⟩ ts rfl
  split
  · rename_i h
    have h : d = .value ∨ d = .flowEntry ∨ d = .flowSequenceEnd := by simpa [or_assoc] using h
    pws
    rw [wp_skip_lv (by rcases h with h | h | h <;> simp [h])]
    exact .pairLax h
  · pws
    exact wpA_pushed hd fun ev p' g' h => .pairKey h

theorem wpA_pairValue (hd : p.tagDirectives = withDefaults D) :
    wpA parseFlowSequenceEntryMappingValue (TrRes D .flowSequenceEntryMappingValue p.states (dd toks)) p (lv toks fin st pk) := by
  unfold parseFlowSequenceEntryMappingValue
  pws
  refine wp_peek ?_ (fun _ _ => trivial)
  rintro ⟨d, m1, m2⟩ ts rfl
  split
  · rename_i h
    have h : d = .value := by simpa using h
    subst h
    pws
    rw [wp_skip_lv (by simp)]
    refine wp_peek ?_ (fun _ _ => trivial)
    rintro t2 ts2 rfl
    split
    · pws
      exact .pairValueEmpty
    · pws
      exact wpA_pushed hd fun ev p' g' h => .pairValue h
  · pws
    exact .pairNoValue

theorem wpA_pairEnd :
    wpA parseFlowSequenceEntryMappingEnd (TrRes D .flowSequenceEntryMappingEnd p.states (dd toks)) p (lv toks fin st pk) := by
  unfold parseFlowSequenceEntryMappingEnd
  pws
  refine wp_peek ?_ (fun _ _ => trivial)
  rintro ⟨d, m1, m2⟩ ts rfl
  exact .pairEnd

/-- The part of `parse_flow_mapping_key` after the separator. -/
theorem wpA_flowMapRest {token : Token} {ts : List Token} {Q : Event → PState → Toks → Prop} (hd : p.tagDirectives = withDefaults D)
    (h : ∀ ev p' g', FMTr D p.states (dd (token :: ts)) ev.data p'.state p'.states (dd g'.toks) → Q ev p' g') :
    wpA (if (token.data == .key) = true then do
      skip
      let token ← peek
      if (token.data == .value || token.data == .flowEntry || token.data == .flowMappingEnd) = true then do
        setState .flowMappingValue
        pure (emptyScalar token.startMark)
      else do
        pushState .flowMappingValue
        parseNode false false
    else if (token.data == .flowMappingEnd) = true then leaveCollection .mappingEnd token
    else do
      pushState .flowMappingEmptyValue
      parseNode false false : Pars Event) Q p (lv (token :: ts) fin true true) := by
  obtain ⟨d, m1, m2⟩ := token
  unfold wpA
  split
  · rename_i hk
    have hk : d = .key := by simpa using hk
    subst hk
    pws
    rw [wp_skip_lv (by simp)]
    refine wp_peek ?_ (fun _ _ => trivial)
    rintro t2 ts2 rfl
    split
    · pws
      exact h _ _ _ .keyEmpty
    · pws
      exact wpA_pushed hd fun ev p' g' hn => h _ _ _ (.key hn)
  split
  · rename_i hk
    have hk : d = .flowMappingEnd := by simpa using hk
    subst hk
    refine wpA_leave (by simp) ?_
    intro x r ev p' hr h1 h2 h3
    refine h _ _ _ ?_
    rw [hr, h1, h2, h3]
    exact .close
  · pws
    exact wpA_pushed hd fun ev p' g' hn => h _ _ _ (.node hn)

theorem wpA_flowMappingFirst {t : Token} {ts : List Token} (ht : t.data = .flowMappingStart) (hd : p.tagDirectives = withDefaults D) :
    wpA (parseFlowMappingKey true) (TrRes D .flowMappingFirstKey p.states (dd (t :: ts))) p (lv (t :: ts) fin st pk) := by
  unfold parseFlowMappingKey enterCollection flowSeparator
  pws
  rw [M.wp_when, if_pos rfl]
  pws
  rw [wp_skip_lv (by simp [ht])]
  refine wp_peek ?_ (fun _ _ => trivial)
  rintro ⟨d, m1, m2⟩ ts2 rfl
  split
  · rename_i hk
    have hk : d = .flowMappingEnd := by simpa using hk
    subst hk
    refine wpA_leave (by simp) ?_
    intro x r ev p' hr h1 h2 h3
    show Tr _ _ _ (t.data :: _) _ _ _ _
    rw [ht, h1, h2, h3]
    have hr : p.states = x :: r := hr
    rw [hr]
    exact .enterFlowMap .close
  · simp only [if_true]
    pws
    have := wpA_flowMapRest (D := D) (p := { p with marks := t.startMark :: p.marks }) (token := ⟨d, m1, m2⟩) (ts := ts2) (fin := fin)
      (Q := TrRes D .flowMappingFirstKey p.states (dd (t :: ⟨d, m1, m2⟩ :: ts2))) hd ?_
    · exact this
    intro ev p' g' h
    show Tr _ _ _ (t.data :: _) _ _ _ _
    rw [ht]
    exact .enterFlowMap h

theorem wpA_flowMappingKey (hd : p.tagDirectives = withDefaults D) :
    wpA (parseFlowMappingKey false) (TrRes D .flowMappingKey p.states (dd toks)) p (lv toks fin st pk) := by
  unfold parseFlowMappingKey enterCollection flowSeparator
  pws
  rw [M.wp_when, if_neg (by simp)]
  refine wp_peek ?_ (fun _ _ => trivial)
  rintro ⟨d, m1, m2⟩ ts2 rfl
  split
  · rename_i hk
    have hk : d = .flowMappingEnd := by simpa using hk
    subst hk
    refine wpA_leave (by simp) ?_
    intro x r ev p' hr h1 h2 h3
    show Tr _ _ _ _ _ _ _ _
    rw [hr, h1, h2, h3]
    exact .flowMapEnd
  · rw [if_neg (by simp)]
    split
    · rename_i hk
      have hk : d = .flowEntry := by simpa using hk
      subst hk
      pws
      rw [wp_skip_lv (by simp)]
      refine wp_peek ?_ (fun _ _ => trivial)
      rintro t3 ts3 rfl
      have := wpA_flowMapRest (D := D) (p := p) (token := t3) (ts := ts3) (fin := fin)
        (Q := TrRes D .flowMappingKey p.states (dd (⟨.flowEntry, m1, m2⟩ :: t3 :: ts3))) hd ?_
      · exact this
      intro ev p' g' h
      exact .flowMapMore h
    · rw [M.wp_bind]
      exact wpA_complain

theorem wpA_flowMappingValue (hd : p.tagDirectives = withDefaults D) :
    wpA (parseFlowMappingValue false) (TrRes D .flowMappingValue p.states (dd toks)) p (lv toks fin st pk) := by
  unfold parseFlowMappingValue
  pws
  refine wp_peek ?_ (fun _ _ => trivial)
  rintro ⟨d, m1, m2⟩ ts rfl
  rw [if_neg (by simp)]
  split
  · rename_i h
    have h : d = .value := by simpa using h
    subst h
    pws
    rw [wp_skip_lv (by simp)]
    refine wp_peek ?_ (fun _ _ => trivial)
    rintro t2 ts2 rfl
    split
    · pws
      exact .flowValueEmpty
    · pws
      exact wpA_pushed hd fun ev p' g' h => .flowValue h
  · pws
    exact .flowNoValue

theorem wpA_flowMappingEmptyValue :
    wpA (parseFlowMappingValue true) (TrRes D .flowMappingEmptyValue p.states (dd toks)) p (lv toks fin st pk) := by
  unfold parseFlowMappingValue
  pws
  refine wp_peek ?_ (fun _ _ => trivial)
  rintro ⟨d, m1, m2⟩ ts rfl
  simp only [if_true]
  pws
  exact .flowEmptyValue

end Yaml
