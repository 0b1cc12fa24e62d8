import Verif.Lib.Pars2

/-
The functions of the parser, continued: collections.
-/

namespace Yaml
open Spec Parser
set_option linter.unusedSimpArgs false
set_option linter.unusedVariables false

variable {D : List TagDirective} {p : PState} {fin : Out Token} {st pk : Bool} {toks : List Token} {f : List Coll} {m : Nat}

/-- After `enterCollection`: some structural tokens were read. -/
def Entered (first : Bool) (p : PState) (toks : List Token) (fin : Out Token) (m : Nat) (p1 : PState) (g1 : Toks) : Prop :=
  ∃ pre toks1 st pk, (first = true → pre ≠ []) ∧ g1 = lv toks1 fin st pk ∧ toks = pre ++ toks1 ∧ (∀ t ∈ pre, structural t.data = true) ∧ p1.states = p.states ∧
    p1.tagDirectives = p.tagDirectives ∧ p1.aliases = p.aliases ∧ p1.marks.length = m + 1

theorem wp_entered {first : Bool}
    (h1 : first = true → p.marks.length = m ∧ ∃ t ts, toks = t :: ts ∧ structural t.data = true ∧ t.data ≠ .streamEnd)
    (h2 : first = false → p.marks.length = m + 1) :
    M.wp stepL NoP AnyE (enterCollection first) (fun _ => Entered first p toks fin m) p (lv toks fin st pk) := by
  cases first with
  | true =>
    obtain ⟨hm, t, ts, rfl, g1, g2⟩ := h1 rfl
    exact wp_enter (t := t) (ts := ts) (fun _ => ⟨rfl, g2, [t], ts, _, _, by simp, rfl, rfl, by simpa using g1, rfl, rfl, rfl, by simpa using hm⟩) (by simp)
  | false => exact wp_enter (t := default) (ts := []) (by simp) (fun _ => ⟨[], toks, _, _, by simp, rfl, rfl, by simp, rfl, rfl, rfl, h2 rfl⟩)

/-- A node after the tokens `pre`, with `x` pushed. -/
theorem wp_node {block ind : Bool} {f' : List Coll} {m' : Nat} {G : GSt} {p1 : PState} {x : PSt} {pre toks1 : List Token} {st pk : Bool}
    (hs : Stk (x :: p1.states) f' m') (hm : p1.marks.length = m') (hd : p1.tagDirectives = withDefaults D) (ha : p1.aliases = p.aliases)
    (hG : ∀ e G', gstep (.inDoc f') e = some G' → gstep G e = some G')
    (ht : toks = pre ++ toks1) (hpre : ∀ t ∈ pre, structural t.data = true)
    (hl : 4 * toks1.length + (if ind then 1 else 0) + rank x + (p1.states.map rank).sum < potential p toks) :
    M.wp stepL NoP AnyE (parseNode block ind) (Res G D p toks fin) { p1 with states := x :: p1.states } (lv toks1 fin st pk) := by
  refine M.wp_cut stepL_mono _ (wp_parseNode (D := D) (f := f') (m := m') hs hm hd) ?_
  rintro ev p' g' ⟨c', G', toks', pk', rfl, h⟩
  exact h.res hG ht hpre hd ha (by simp only [List.map_cons, List.sum_cons]; omega)

theorem snoc_struct {pre : List Token} {t : Token} (h : ∀ t ∈ pre, structural t.data = true) (ht : structural t.data = true) :
    ∀ t' ∈ pre ++ [t], structural t'.data = true := by
  intro t' h'
  rcases List.mem_append.1 h' with h' | h'
  · exact h t' h'
  · simp at h'; subst h'; exact ht

theorem bare_of {c : List Token} (h : ∀ t ∈ c, structural t.data = true) : Bare c := by
  induction c with
  | nil => exact Bare.nil
  | cons t c ih => exact Bare.cons (h t (by simp)) (ih fun t ht => h t (by simp [ht]))

theorem wp_blockSequenceEntry {first : Bool} (hs : Stk p.states f m) (hd : p.tagDirectives = withDefaults D)
    (h1 : first = true → p.marks.length = m ∧ ∃ t ts, toks = t :: ts ∧ structural t.data = true ∧ t.data ≠ .streamEnd)
    (h2 : first = false → p.marks.length = m + 1) :
    M.wp stepL NoP AnyE (parseBlockSequenceEntry first) (Res (.inDoc (.seq :: f)) D p toks fin) p (lv toks fin st pk) := by
  unfold parseBlockSequenceEntry
  pws
  refine M.wp_cut stepL_mono _ (wp_entered h1 h2) ?_
  rintro _ p1 g1 ⟨pre, toks1, st1, pk1, hne, rfl, ht, hpre, e1, e2, e3, e4⟩
  refine wp_peek ?_ (fun _ _ => trivial)
  rintro ⟨d, m1, m2⟩ ts rfl
  rw [← e1] at hs
  have el := congrArg List.length ht
  simp only [List.length_append, List.length_cons] at el
  have other : M.wp stepL NoP AnyE (do
      let mark ← popMark
      parserError "while parsing a block collection" mark "did not find expected '-' indicator" m1 : Pars Event)
      (Res (.inDoc (.seq :: f)) D p toks fin) p1 (lv (⟨d, m1, m2⟩ :: ts) fin true true) := by
    obtain ⟨x, r, hx⟩ := List.exists_cons_of_length_eq_add_one e4
    pws
    rw [wp_popMark hx]
    exact trivial
  cases d with
  | blockEntry =>
    dsimp only
    pws
    rw [wp_skip_lv (by simp)]
    refine wp_peek ?_ (fun _ _ => trivial)
    rintro t2 ts2 rfl
    simp only [List.length_cons] at el
    split
    · pws
      exact empty_res (f := f) (G' := .inDoc (.seq :: f)) rfl rfl (pre := pre ++ [⟨.blockEntry, m1, m2⟩]) (by simp [ht]) (snoc_struct hpre rfl)
        (show At .blockSequenceEntry p1.states _ _ p1.marks.length by rw [e4]; exact At.after (.blockSeq hs)) (e2.trans hd) e3
        (by simp only [potential, e1, rank, List.length_cons]; omega)
    · pws
      exact wp_node (f' := .seq :: f) (.blockSeq hs) e4 (e2.trans hd) e3 (fun _ _ h => h) (pre := pre ++ [⟨.blockEntry, m1, m2⟩]) (by simp [ht])
        (snoc_struct hpre rfl) (by simp only [potential, e1, rank, List.length_cons]; simp only [Bool.false_eq_true, if_false]; omega)
  | blockEnd => exact wp_leave rfl (Or.inl rfl) hs e4 ht hpre rfl (by simp) (e2.trans hd) e3 (by rw [e1]; omega)
  | _ => exact other

theorem wp_indentless (hs : Stk p.states f m) (hd : p.tagDirectives = withDefaults D) (hst : p.state = .indentlessSequenceEntry)
    (hm : p.marks.length = m) :
    M.wp stepL NoP AnyE parseIndentlessSequenceEntry (Res (.inDoc (.seq :: f)) D p toks fin) p (lv toks fin st pk) := by
  unfold parseIndentlessSequenceEntry
  pws
  refine wp_peek ?_ (fun _ _ => trivial)
  rintro ⟨d, m1, m2⟩ ts rfl
  split
  · rename_i h
    have h : d = .blockEntry := by simpa using h
    subst h
    pws
    rw [wp_skip_lv (by simp)]
    refine wp_peek ?_ (fun _ _ => trivial)
    rintro t2 ts2 rfl
    split
    · pws
      exact empty_res (f := f) (G' := .inDoc (.seq :: f)) rfl rfl (pre := [⟨.blockEntry, m1, m2⟩]) rfl (by simp [structural])
        (show At .indentlessSequenceEntry p.states _ _ p.marks.length by rw [hm]; exact At.after (.indentless hs)) hd rfl
        (by simp only [potential, hst, rank, List.length_cons]; omega)
    · pws
      exact wp_node (f' := .seq :: f) (.indentless hs) hm hd rfl (fun _ _ h => h) (pre := [⟨.blockEntry, m1, m2⟩]) rfl
        (by simp [structural]) (by simp only [potential, hst, rank, List.length_cons]; simp only [Bool.false_eq_true, if_false]; omega)
  · obtain ⟨x, r, hr⟩ := hs.ne
    pws
    rw [wp_popState hr]
    have hpos : At x r (⟨d, m1, m2⟩ :: ts) (.after f) p.marks.length := by rw [hm]; rw [hr] at hs; exact .after hs
    refine ⟨[], .after f, _, true, ?_, rfl, rfl, ⟨rfl, rfl, rfl, rfl, rfl, rfl⟩, ⟨hpos, ?_, ?_⟩, ?_, rfl⟩
    · rw [hpos.notEnd (after_inside f)]
    · rw [after_inside, if_pos rfl]; exact hd
    · rw [after_inside]; simp
    · simp only [potential, hst, hr, rank, List.map_cons, List.sum_cons]; omega

theorem wp_blockMappingKey {first : Bool} (hs : Stk p.states f m) (hd : p.tagDirectives = withDefaults D)
    (h1 : first = true → p.marks.length = m ∧ ∃ t ts, toks = t :: ts ∧ structural t.data = true ∧ t.data ≠ .streamEnd)
    (h2 : first = false → p.marks.length = m + 1) :
    M.wp stepL NoP AnyE (parseBlockMappingKey first) (Res (.inDoc (.mapK :: f)) D p toks fin) p (lv toks fin st pk) := by
  unfold parseBlockMappingKey
  pws
  refine M.wp_cut stepL_mono _ (wp_entered h1 h2) ?_
  rintro _ p1 g1 ⟨pre, toks1, st1, pk1, hne, rfl, ht, hpre, e1, e2, e3, e4⟩
  refine wp_peek ?_ (fun _ _ => trivial)
  rintro ⟨d, m1, m2⟩ ts rfl
  rw [← e1] at hs
  have el := congrArg List.length ht
  simp only [List.length_append, List.length_cons] at el
  have other : M.wp stepL NoP AnyE (do
      let mark ← popMark
      parserError "while parsing a block mapping" mark "did not find expected key" m1 : Pars Event)
      (Res (.inDoc (.mapK :: f)) D p toks fin) p1 (lv (⟨d, m1, m2⟩ :: ts) fin true true) := by
    obtain ⟨x, r, hx⟩ := List.exists_cons_of_length_eq_add_one e4
    pws
    rw [wp_popMark hx]
    exact trivial
  cases d with
  | key =>
    dsimp only
    pws
    rw [wp_skip_lv (by simp)]
    refine wp_peek ?_ (fun _ _ => trivial)
    rintro t2 ts2 rfl
    simp only [List.length_cons] at el
    split
    · pws
      exact empty_res (f := f) (G' := .inDoc (.mapV :: f)) rfl rfl (pre := pre ++ [⟨.key, m1, m2⟩]) (by simp [ht]) (snoc_struct hpre rfl)
        (show At .blockMappingValue p1.states _ _ p1.marks.length by rw [e4]; exact At.after (.blockKey hs)) (e2.trans hd) e3
        (by simp only [potential, e1, rank, List.length_cons]; omega)
    · pws
      exact wp_node (f' := .mapK :: f) (.blockKey hs) e4 (e2.trans hd) e3 (fun _ _ h => h) (pre := pre ++ [⟨.key, m1, m2⟩]) (by simp [ht])
        (snoc_struct hpre rfl) (by simp only [potential, e1, rank, List.length_cons]; simp only [if_true]; omega)
  | blockEnd => exact wp_leave rfl (Or.inr rfl) hs e4 ht hpre rfl (by simp) (e2.trans hd) e3 (by rw [e1]; omega)
  | _ => exact other

/-- `parse_block_mapping_value` and the like: `x` is the next state. -/
theorem wp_blockMappingValue (hs : Stk p.states f m) (hd : p.tagDirectives = withDefaults D) (hst : p.state = .blockMappingValue)
    (hm : p.marks.length = m + 1) :
    M.wp stepL NoP AnyE parseBlockMappingValue (Res (.inDoc (.mapV :: f)) D p toks fin) p (lv toks fin st pk) := by
  unfold parseBlockMappingValue
  pws
  refine wp_peek ?_ (fun _ _ => trivial)
  rintro ⟨d, m1, m2⟩ ts rfl
  split
  · rename_i h
    have h : d = .value := by simpa using h
    subst h
    pws
    rw [wp_skip_lv (by simp)]
    refine wp_peek ?_ (fun _ _ => trivial)
    rintro t2 ts2 rfl
    split
    · pws
      exact empty_res (f := f) (G' := .inDoc (.mapK :: f)) rfl rfl (pre := [⟨.value, m1, m2⟩]) rfl (by simp [structural])
        (show At .blockMappingKey p.states _ _ p.marks.length by rw [hm]; exact At.after (.blockValue hs)) hd rfl
        (by simp only [potential, hst, rank, List.length_cons]; omega)
    · pws
      exact wp_node (f' := .mapV :: f) (.blockValue hs) hm hd rfl (fun _ _ h => h) (pre := [⟨.value, m1, m2⟩]) rfl
        (by simp [structural]) (by simp only [potential, hst, rank, List.length_cons]; simp only [if_true]; omega)
  · pws
    exact empty_res (f := f) (G' := .inDoc (.mapK :: f)) rfl rfl (pre := []) rfl (by simp)
        (show At .blockMappingKey p.states _ _ p.marks.length by rw [hm]; exact At.after (.blockValue hs)) hd rfl
        (by simp only [potential, hst, rank, List.length_cons]; omega)

/-- After the separator: the front token was looked at. -/
theorem wp_separator {first : Bool} {token : Token} {ts : List Token} {a b : String} {p1 : PState} {pre : List Token}
    (e4 : p1.marks.length = m + 1) (ht : toks = pre ++ token :: ts) (hpre : ∀ t ∈ pre, structural t.data = true)
    (hne : first = true → pre ≠ []) :
    M.wp stepL NoP AnyE (flowSeparator first token a b) (fun t p' g' => p' = p1 ∧ ∃ pre' ts', pre' ≠ [] ∧ g' = lv (t :: ts') fin true true ∧
      toks = pre' ++ t :: ts' ∧ (∀ t ∈ pre', structural t.data = true)) p1 (lv (token :: ts) fin true true) := by
  unfold flowSeparator
  split
  · pws
    rename_i h
    exact ⟨trivial, pre, ts, hne h, rfl, ht, hpre⟩
  · split
    · rename_i h
      have h : token.data = .flowEntry := by simpa using h
      pws
      rw [wp_skip_lv (by simp [h])]
      refine wp_peek ?_ (fun _ _ => trivial)
      rintro t2 ts2 rfl
      exact ⟨rfl, pre ++ [token], ts2, by simp, rfl, by simp [ht], snoc_struct hpre (by simp [h, structural])⟩
    · obtain ⟨x, r, hx⟩ := List.exists_cons_of_length_eq_add_one e4
      pws
      rw [wp_popMark hx]
      exact trivial

theorem wp_flowSequenceEntry {first : Bool} (hs : Stk p.states f m) (hd : p.tagDirectives = withDefaults D)
    (h1 : first = true → p.marks.length = m ∧ ∃ t ts, toks = t :: ts ∧ structural t.data = true ∧ t.data ≠ .streamEnd)
    (h2 : first = false → p.marks.length = m + 1) :
    M.wp stepL NoP AnyE (parseFlowSequenceEntry first) (Res (.inDoc (.seq :: f)) D p toks fin) p (lv toks fin st pk) := by
  unfold parseFlowSequenceEntry
  pws
  refine M.wp_cut stepL_mono _ (wp_entered h1 h2) ?_
  rintro _ p1 g1 ⟨pre, toks1, st1, pk1, hne, rfl, ht, hpre, e1, e2, e3, e4⟩
  refine wp_peek ?_ (fun _ _ => trivial)
  rintro ⟨d, m1, m2⟩ ts rfl
  rw [← e1] at hs
  split
  · rename_i h
    have h : d = .flowSequenceEnd := by simpa using h
    subst h
    exact wp_leave rfl (Or.inl rfl) hs e4 ht hpre rfl (by simp) (e2.trans hd) e3 (by rw [e1]; omega)
  · pws
    refine M.wp_cut stepL_mono _ (wp_separator e4 ht hpre hne) ?_
    rintro ⟨d2, n1, n2⟩ p2 g2 ⟨rfl, pre', ts', hne', rfl, ht', hpre'⟩
    have hl := List.length_pos_iff.2 hne'
    have el := congrArg List.length ht'
    simp only [List.length_append, List.length_cons] at el
    split
    · rename_i h
      have h : d2 = .key := by simpa using h
      subst h
      pws
      rw [wp_skip_lv (by simp)]
      refine ⟨pre' ++ [⟨.key, n1, n2⟩], .inDoc (.mapK :: .seq :: f), ts', false, rfl, rfl, by simp [ht'], ?_, ⟨?_, ?_, by simp [GSt.inside]⟩, ?_, e3⟩
      · have hb : Bare (pre' ++ [⟨.key, n1, n2⟩]) := bare_of (snoc_struct hpre' rfl)
        exact ⟨hb.anchors, by rw [hb.tags]; rfl, hb.aliases, hb.tagDirs, hb.versions, hb.scalars, by simp⟩
      · show At .flowSequenceEntryMappingKey p2.states _ _ p2.marks.length
        rw [e4]; exact .pair hs
      · exact e2.trans hd
      · simp only [potential, rank, e1]; omega
    · split
      · rename_i h
        have h : d2 = .flowSequenceEnd := by simpa using h
        subst h
        exact wp_leave rfl (Or.inl rfl) hs e4 ht' hpre' rfl (by simp) (e2.trans hd) e3 (by rw [e1]; omega)
      · pws
        exact wp_node (f' := .seq :: f) (.flowSeq hs) e4 (e2.trans hd) e3 (fun _ _ h => h) ht' hpre'
          (by simp only [potential, e1, rank, List.length_cons]; simp only [Bool.false_eq_true, if_false]; omega)

theorem wp_pairKey (hs : Stk p.states f m) (hd : p.tagDirectives = withDefaults D) (hst : p.state = .flowSequenceEntryMappingKey)
    (hm : p.marks.length = m + 1) :
    M.wp stepL NoP AnyE parseFlowSequenceEntryMappingKey (Res (.inDoc (.mapK :: .seq :: f)) D p toks fin) p (lv toks fin st pk) := by
  unfold parseFlowSequenceEntryMappingKey
  pws
  refine wp_peek ?_ (fun _ _ => trivial)
  rintro ⟨d, m1, m2⟩ ts rfl
  split
  · rename_i h
    have h : d = .value ∨ d = .flowEntry ∨ d = .flowSequenceEnd := by simpa [or_assoc] using h
    pws
    rw [wp_skip_lv (by rcases h with rfl | rfl | rfl <;> simp)]
    exact empty_res (f := f) (G' := .inDoc (.mapV :: .seq :: f)) rfl rfl (pre := [⟨d, m1, m2⟩]) rfl
        (by rcases h with rfl | rfl | rfl <;> simp [structural])
        (show At .flowSequenceEntryMappingValue p.states _ _ p.marks.length by rw [hm]; exact At.after (.pairKey hs)) hd rfl
        (by simp only [potential, hst, rank, List.length_cons]; omega)
  · pws
    exact wp_node (f' := .mapK :: .seq :: f) (.pairKey hs) hm hd rfl (fun _ _ h => h) (pre := []) rfl
        (by simp [structural]) (by simp only [potential, hst, rank, List.length_cons]; simp only [Bool.false_eq_true, if_false]; omega)

theorem wp_pairValue (hs : Stk p.states f m) (hd : p.tagDirectives = withDefaults D) (hst : p.state = .flowSequenceEntryMappingValue)
    (hm : p.marks.length = m + 1) :
    M.wp stepL NoP AnyE parseFlowSequenceEntryMappingValue (Res (.inDoc (.mapV :: .seq :: f)) D p toks fin) p (lv toks fin st pk) := by
  unfold parseFlowSequenceEntryMappingValue
  pws
  refine wp_peek ?_ (fun _ _ => trivial)
  rintro ⟨d, m1, m2⟩ ts rfl
  split
  · rename_i h
    have h : d = .value := by simpa using h
    subst h
    pws
    rw [wp_skip_lv (by simp)]
    refine wp_peek ?_ (fun _ _ => trivial)
    rintro t2 ts2 rfl
    split
    · pws
      exact empty_res (f := f) (G' := .inDoc (.mapK :: .seq :: f)) rfl rfl (pre := [⟨.value, m1, m2⟩]) rfl (by simp [structural])
        (show At .flowSequenceEntryMappingEnd p.states _ _ p.marks.length by rw [hm]; exact At.after (.pairValue hs)) hd rfl
        (by simp only [potential, hst, rank, List.length_cons]; omega)
    · pws
      exact wp_node (f' := .mapV :: .seq :: f) (.pairValue hs) hm hd rfl (fun _ _ h => h) (pre := [⟨.value, m1, m2⟩]) rfl
        (by simp [structural]) (by simp only [potential, hst, rank, List.length_cons]; simp only [Bool.false_eq_true, if_false]; omega)
  · pws
    exact empty_res (f := f) (G' := .inDoc (.mapK :: .seq :: f)) rfl rfl (pre := []) rfl (by simp)
        (show At .flowSequenceEntryMappingEnd p.states _ _ p.marks.length by rw [hm]; exact At.after (.pairValue hs)) hd rfl
        (by simp only [potential, hst, rank, List.length_cons]; omega)

theorem wp_pairEnd (hs : Stk p.states f m) (hd : p.tagDirectives = withDefaults D) (hst : p.state = .flowSequenceEntryMappingEnd)
    (hm : p.marks.length = m + 1) :
    M.wp stepL NoP AnyE parseFlowSequenceEntryMappingEnd (Res (.inDoc (.mapK :: .seq :: f)) D p toks fin) p (lv toks fin st pk) := by
  unfold parseFlowSequenceEntryMappingEnd
  pws
  refine wp_peek ?_ (fun _ _ => trivial)
  rintro t ts rfl
  refine ⟨[], .inDoc (.seq :: f), _, true, rfl, rfl, rfl, ⟨rfl, rfl, rfl, rfl, rfl, rfl⟩, ⟨?_, hd, by simp [GSt.inside]⟩, ?_, rfl⟩
  · show At .flowSequenceEntry p.states _ _ p.marks.length
    rw [hm]; exact At.after (.flowSeq hs)
  · simp only [potential, hst, rank]; omega

theorem wp_flowMappingKey {first : Bool} (hs : Stk p.states f m) (hd : p.tagDirectives = withDefaults D)
    (h1 : first = true → p.marks.length = m ∧ ∃ t ts, toks = t :: ts ∧ structural t.data = true ∧ t.data ≠ .streamEnd)
    (h2 : first = false → p.marks.length = m + 1) :
    M.wp stepL NoP AnyE (parseFlowMappingKey first) (Res (.inDoc (.mapK :: f)) D p toks fin) p (lv toks fin st pk) := by
  unfold parseFlowMappingKey
  pws
  refine M.wp_cut stepL_mono _ (wp_entered h1 h2) ?_
  rintro _ p1 g1 ⟨pre, toks1, st1, pk1, hne, rfl, ht, hpre, e1, e2, e3, e4⟩
  refine wp_peek ?_ (fun _ _ => trivial)
  rintro ⟨d, m1, m2⟩ ts rfl
  rw [← e1] at hs
  split
  · rename_i h
    have h : d = .flowMappingEnd := by simpa using h
    subst h
    exact wp_leave rfl (Or.inr rfl) hs e4 ht hpre rfl (by simp) (e2.trans hd) e3 (by rw [e1]; omega)
  · pws
    refine M.wp_cut stepL_mono _ (wp_separator e4 ht hpre hne) ?_
    rintro ⟨d2, n1, n2⟩ p2 g2 ⟨rfl, pre', ts', hne', rfl, ht', hpre'⟩
    have hl := List.length_pos_iff.2 hne'
    have el := congrArg List.length ht'
    simp only [List.length_append, List.length_cons] at el
    split
    · rename_i h
      have h : d2 = .key := by simpa using h
      subst h
      pws
      rw [wp_skip_lv (by simp)]
      refine wp_peek ?_ (fun _ _ => trivial)
      rintro t2 ts2 rfl
      simp only [List.length_cons] at el
      split
      · pws
        exact empty_res (f := f) (G' := .inDoc (.mapV :: f)) rfl rfl (pre := pre' ++ [⟨.key, n1, n2⟩]) (by simp [ht']) (snoc_struct hpre' rfl)
          (show At .flowMappingValue p2.states _ _ p2.marks.length by rw [e4]; exact At.after (.flowKey hs)) (e2.trans hd) e3
          (by simp only [potential, e1, rank, List.length_cons]; omega)
      · pws
        exact wp_node (f' := .mapK :: f) (.flowKey hs) e4 (e2.trans hd) e3 (fun _ _ h => h) (pre := pre' ++ [⟨.key, n1, n2⟩]) (by simp [ht'])
          (snoc_struct hpre' rfl) (by simp only [potential, e1, rank, List.length_cons]; simp only [Bool.false_eq_true, if_false]; omega)
    · split
      · rename_i h
        have h : d2 = .flowMappingEnd := by simpa using h
        subst h
        exact wp_leave rfl (Or.inr rfl) hs e4 ht' hpre' rfl (by simp) (e2.trans hd) e3 (by rw [e1]; omega)
      · pws
        exact wp_node (f' := .mapK :: f) (.flowKeyOnly hs) e4 (e2.trans hd) e3 (fun _ _ h => h) ht' hpre'
          (by simp only [potential, e1, rank, List.length_cons]; simp only [Bool.false_eq_true, if_false]; omega)

theorem wp_flowMappingValue {empty : Bool} (hs : Stk p.states f m) (hd : p.tagDirectives = withDefaults D) (hst : rank p.state = 1)
    (hm : p.marks.length = m + 1) :
    M.wp stepL NoP AnyE (parseFlowMappingValue empty) (Res (.inDoc (.mapV :: f)) D p toks fin) p (lv toks fin st pk) := by
  unfold parseFlowMappingValue
  have e0 : rank .flowMappingKey = 0 := rfl
  pws
  refine wp_peek ?_ (fun _ _ => trivial)
  rintro ⟨d, m1, m2⟩ ts rfl
  have blank : Res (.inDoc (.mapV :: f)) D p (⟨d, m1, m2⟩ :: ts) fin (emptyScalar m1) { p with state := .flowMappingKey } (lv (⟨d, m1, m2⟩ :: ts) fin true true) :=
    empty_res (f := f) (G' := .inDoc (.mapK :: f)) rfl rfl (pre := []) rfl (by simp)
        (show At .flowMappingKey p.states _ _ p.marks.length by rw [hm]; exact At.after (.flowValue hs)) hd rfl
        (by simp only [potential, hst, List.length_cons]; omega)
  split
  · pws; exact blank
  split
  · rename_i h
    have h : d = .value := by simpa using h
    subst h
    pws
    rw [wp_skip_lv (by simp)]
    refine wp_peek ?_ (fun _ _ => trivial)
    rintro t2 ts2 rfl
    split
    · pws
      exact empty_res (f := f) (G' := .inDoc (.mapK :: f)) rfl rfl (pre := [⟨.value, m1, m2⟩]) rfl (by simp [structural])
        (show At .flowMappingKey p.states _ _ p.marks.length by rw [hm]; exact At.after (.flowValue hs)) hd rfl
        (by simp only [potential, hst, List.length_cons]; omega)
    · pws
      exact wp_node (f' := .mapV :: f) (.flowValue hs) hm hd rfl (fun _ _ h => h) (pre := [⟨.value, m1, m2⟩]) rfl
        (by simp [structural]) (by simp only [potential, hst, List.length_cons, Bool.false_eq_true, if_false]; omega)
  · pws; exact blank

end Yaml
