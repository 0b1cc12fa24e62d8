import Verif.Lib.Spans2

/-
The marks of the events and errors of one call of `parse`: documents, and `parse` itself.
-/

namespace Yaml
open Spec Parser
set_option linter.unusedSimpArgs false
set_option linter.unusedVariables false

section
variable {p : PState} {fin : Out Token} {st pk : Bool} {toks ts0 c0 : List Token} {M0 : List Mark} {D : List TagDirective}

theorem MarksFrom.any {l : List Mark} (h : MarksFrom M0 [] l) : MarksFrom M0 c0 l := fun m hm => (h m hm).imp id (by rintro ⟨u, hu, _⟩; cases hu)

theorem wpM_append {v : TagDirective} {dup : Bool} {t : Token} {ts : List Token} {Q : Unit → PState → Toks → Prop} {g : Toks}
    (h0 : ts0 = c0 ++ t :: ts) (hQ : ∀ p' : PState, p'.marks = p.marks → p'.states = p.states → Q () p' g) :
    wpM ts0 M0 fin (appendTagDirective v dup t.startMark) Q p g := by
  unfold appendTagDirective wpM
  pws
  split
  · split
    · exact hQ _ rfl rfl
    · exact Or.inr (spanErr_at h0 (Or.inl ⟨rfl, rfl⟩))
  · exact hQ _ rfl rfl

theorem wpM_directiveLoop {F : Nat} (h0 : ts0 = c0 ++ toks) (hF : toks.length < F) :
    wpM ts0 M0 fin (directiveLoop F) (fun r p' g' => ∃ c ts, g' = lv (r.2.2 :: ts) fin true true ∧ toks = c ++ r.2.2 :: ts ∧
      (∀ u ∈ c, IsDirective u) ∧ p'.marks = p.marks) p (lv toks fin st pk) := by
  unfold directiveLoop
  refine M.wp_loop stepL_mono (I := fun x p' g' => ∃ c toks1 st pk, g' = lv toks1 fin st pk ∧ toks = c ++ toks1 ∧
      (∀ u ∈ c, IsDirective u) ∧ p'.marks = p.marks)
    (μ := fun _ _ g => g.toks.length) ?_ F _ _ _ ⟨[], toks, st, pk, rfl, rfl, by simp, rfl⟩ hF
  rintro ⟨version, tags⟩ p' g' ⟨c, toks1, st1, pk1, rfl, hsplit, hok, hm⟩
  have more : ∀ (t : Token), IsDirective t → ∀ u ∈ c ++ [t], IsDirective u := by
    intro t ht u hu
    rcases List.mem_append.1 hu with hu | hu
    · exact hok u hu
    · simp at hu; subst hu; exact ht
  pws
  refine wpM_peek ?_
  rintro ⟨d, m1, m2⟩ ts rfl
  have h1 : ts0 = (c0 ++ c) ++ ⟨d, m1, m2⟩ :: ts := by rw [h0, hsplit]; simp
  cases d with
  | versionDirective a b =>
    dsimp only
    split
    · exact Or.inr (spanErr_at h1 (Or.inl ⟨rfl, rfl⟩))
    · split
      · exact Or.inr (spanErr_at h1 (Or.inl ⟨rfl, rfl⟩))
      · pws
        rw [wp_skip_lv (by simp)]
        exact ⟨⟨c ++ [⟨.versionDirective a b, m1, m2⟩], ts, true, false, rfl, by simp [hsplit], more _ (by simp [IsDirective]), hm⟩, by simp⟩
  | tagDirective a b =>
    dsimp only
    pws
    rw [M.wp_prim]
    refine ⟨by simp, rfl, rfl, _, _, rfl, by simp, ?_⟩
    refine wpM_append (t := ⟨.tagDirective a b, m1, m2⟩) h1 ?_
    intro p2 hm2 _
    rw [wp_skip_lv (by simp)]
    exact ⟨⟨c ++ [⟨.tagDirective a b, m1, m2⟩], ts, true, false, rfl, by simp [hsplit], more _ (by simp [IsDirective]), hm2.trans hm⟩, by simp⟩
  | _ => exact ⟨c, ts, rfl, hsplit, hok, hm⟩

theorem wpM_processDirectives {F : Nat} (h0 : ts0 = c0 ++ toks) (hF : toks.length < F) :
    wpM ts0 M0 fin (processDirectives F) (fun r p' g' => ∃ c t ts, g' = lv (t :: ts) fin true true ∧ toks = c ++ t :: ts ∧
      (∀ u ∈ c, IsDirective u) ∧ p'.marks = p.marks) p (lv toks fin st pk) := by
  unfold processDirectives
  pws
  refine M.wp_cut stepL_mono _ (wpM_directiveLoop h0 hF) ?_
  rintro ⟨version, tags, token⟩ p' g' ⟨c, ts, rfl, h1, h2, h3⟩
  dsimp only at h1 h2 ⊢
  have h1' : ts0 = (c0 ++ c) ++ token :: ts := by rw [h0, h1]; simp
  refine wpM_append h1' ?_
  intro p2 hm2 _
  refine wpM_append h1' ?_
  intro p3 hm3 _
  exact ⟨c, token, ts, rfl, h1, h2, hm3.trans (hm2.trans h3)⟩

theorem wpM_skipDocumentEnds {F : Nat} {implicit : Bool} (hF : toks.length < F) :
    wpM ts0 M0 fin (skipDocumentEnds F implicit) (fun t p' g' => p' = p ∧ ∃ c ts, g' = lv (t :: ts) fin true true ∧ toks = c ++ t :: ts ∧
      (∀ u ∈ c, u.data = .documentEnd) ∧ (implicit = true → c = []) ∧ (implicit = false → t.data ≠ .documentEnd)) p (lv toks fin st pk) := by
  unfold skipDocumentEnds
  split
  · rename_i hi
    refine wpM_peek ?_
    rintro t ts rfl
    exact ⟨rfl, [], ts, rfl, rfl, by simp, fun _ => rfl, by simp [hi]⟩
  · rename_i hi
    refine M.wp_loop stepL_mono (I := fun _ p' g' => p' = p ∧ ∃ c toks1 st pk, g' = lv toks1 fin st pk ∧ toks = c ++ toks1 ∧
      (∀ u ∈ c, u.data = .documentEnd)) (μ := fun _ _ g => g.toks.length) ?_ F _ _ _ ⟨rfl, [], toks, st, pk, rfl, rfl, by simp⟩ hF
    rintro _ p' g' ⟨rfl, c, toks1, st1, pk1, rfl, hs, hc⟩
    pws
    refine wpM_peek ?_
    rintro t ts rfl
    split
    · rename_i h
      have h : t.data = .documentEnd := by simpa using h
      pws
      rw [wp_skip_lv (by simp [h])]
      refine ⟨⟨rfl, c ++ [t], ts, true, false, rfl, by simp [hs], ?_⟩, by simp⟩
      intro d hd
      rcases List.mem_append.1 hd with hd | hd
      · exact hc d hd
      · simp at hd; rw [hd, h]
    · rename_i hne
      pws
      exact ⟨trivial, c, ts, rfl, hs, hc, fun h => absurd h hi, fun _ => by simpa using hne⟩

theorem wpM_streamStart (h0 : ts0 = toks) (hM : MarksFrom M0 [] p.marks) :
    wpM ts0 M0 fin parseStreamStart (SpanRes ts0 M0) p (lv toks fin st pk) := by
  unfold parseStreamStart
  pws
  refine wpM_peek ?_
  rintro ⟨d, m1, m2⟩ ts rfl
  cases d with
  | streamStart e =>
    dsimp only
    pws
    rw [wp_skip_lv (by simp)]
    exact ⟨[⟨.streamStart e, m1, m2⟩], h0, .streamStart rfl ⟨⟨_, rfl, rfl⟩, _, rfl, rfl⟩, MarksFrom.mono hM⟩
  | _ => exact Or.inr (spanErr_at (c0 := []) h0 (Or.inl ⟨rfl, rfl⟩))

theorem wpM_documentStart {F : Nat} {implicit : Bool} (hF : toks.length < F) (h0 : ts0 = toks) (hM : MarksFrom M0 [] p.marks) (hd : p.tagDirectives = []) :
    wpM ts0 M0 fin (parseDocumentStart F implicit) (SpanRes ts0 M0) p (lv toks fin st pk) := by
  unfold parseDocumentStart
  pws
  refine M.wp_cut stepL_mono _ (wpM_skipDocumentEnds hF) ?_
  rintro ⟨d, m1, m2⟩ p1 g1 ⟨rfl, c0, ts, rfl, ht, hc0, hi, hl⟩
  have h1 : ts0 = c0 ++ ⟨d, m1, m2⟩ :: ts := by rw [h0, ht]
  have hlen := congrArg List.length ht
  simp at hlen
  split
  · rename_i h
    simp only [Bool.and_eq_true, Bool.not_eq_true'] at h
    obtain ⟨rfl, hs⟩ := h
    have := hi rfl
    subst this
    pws
    refine M.wp_cut stepL_mono _ (wpM_processDirectives (c0 := []) (toks := ⟨d, m1, m2⟩ :: ts) h1 (by simp; omega)) ?_
    rintro ⟨version, tags⟩ p2 g2 ⟨c, t2, ts2, rfl, hsplit, hok, hst⟩
    have hc : c = [] := by
      cases c with
      | nil => rfl
      | cons u c =>
        simp at hsplit
        have hu := hok u (by simp)
        rw [← hsplit.1] at hu
        rcases hu with ⟨a, b, rfl⟩ | ⟨a, b, rfl⟩ <;> simp [startsExplicitDocument] at hs
    subst hc
    obtain ⟨rfl, rfl⟩ : t2 = ⟨d, m1, m2⟩ ∧ ts2 = ts := by simp at hsplit; exact ⟨hsplit.1.symm, hsplit.2.symm⟩
    refine ⟨[], h1, .implicitStart rfl ⟨⟨_, rfl, rfl⟩, _, rfl, rfl⟩, ?_⟩
    show MarksFrom M0 _ p2.marks
    rw [hst]
    exact hM
  split
  · pws
    refine M.wp_cut stepL_mono _ (wpM_processDirectives (toks := ⟨d, m1, m2⟩ :: ts) h1 (by simp; omega)) ?_
    rintro ⟨version, tags⟩ p2 g2 ⟨c, t2, ts2, rfl, hsplit, hok, hst⟩
    dsimp only at hok ⊢
    pws
    have h2 : ts0 = (c0 ++ c) ++ t2 :: ts2 := by rw [h1, hsplit]; simp
    split
    · rename_i h
      have h : t2.data = .documentStart := by simpa using h
      pws
      rw [wp_skip_lv (by simp [h])]
      refine ⟨c0 ++ (c ++ [t2]), by rw [h2]; simp, .documentStart rfl hc0 hok h ⟨?_, t2, by simp, rfl⟩, ?_⟩
      · cases c with
        | nil => simp at hsplit; exact ⟨t2, rfl, by rw [← hsplit.1]⟩
        | cons u c => simp at hsplit; exact ⟨u, rfl, by rw [← hsplit.1]⟩
      · show MarksFrom M0 _ p2.marks
        rw [hst]
        exact MarksFrom.any hM
    · exact Or.inr (spanErr_at h2 (Or.inl ⟨rfl, rfl⟩))
  · rename_i hne
    have h : d = .streamEnd := by simpa using hne
    subst h
    pws
    rw [wp_skip]
    exact ⟨c0 ++ [⟨.streamEnd, m1, m2⟩], by rw [h1]; simp, .streamEnd rfl rfl ⟨⟨_, rfl, rfl⟩, _, rfl, rfl⟩, MarksFrom.any hM⟩

theorem wpM_documentContent (h0 : ts0 = toks) (hM : MarksFrom M0 [] p.marks) :
    wpM ts0 M0 fin parseDocumentContent (SpanRes ts0 M0) p (lv toks fin st pk) := by
  unfold parseDocumentContent
  pws
  refine wpM_peek ?_
  rintro t ts rfl
  split
  · pws
    refine wpM_popState fun x r hr => ?_
    exact omitted_before (c0 := []) h0 (by simp) hM
  · exact wpM_parseNode (c0 := []) h0 (by simp) hM

theorem wpM_documentEnd (h0 : ts0 = toks) (hM : MarksFrom M0 [] p.marks) :
    wpM ts0 M0 fin parseDocumentEnd (SpanRes ts0 M0) p (lv toks fin st pk) := by
  unfold parseDocumentEnd
  pws
  refine wpM_peek ?_
  rintro ⟨d, m1, m2⟩ ts rfl
  rw [M.wp_when]
  split
  · rename_i h
    have h : d = .documentEnd := by simpa using h
    subst h
    rw [wp_skip_lv (by simp)]
    exact ⟨[⟨.documentEnd, m1, m2⟩], h0, .documentEnd rfl rfl ⟨⟨_, rfl, rfl⟩, _, rfl, rfl⟩, MarksFrom.mono hM⟩
  · rename_i h
    have h' : ((⟨d, m1, m2⟩ : Token).data == TokenData.documentEnd) = false := by simpa using h
    rw [h']
    pws
    exact ⟨[], h0, .implicitEnd rfl ⟨rfl, rfl⟩, hM⟩

/-- One call of `parse`. -/
theorem wpM_parse {F : Nat} {G : GSt} (hF : toks.length < F) (hg : PGood G D p toks) (hne : p.state ≠ .end_) :
    wpM toks p.marks fin (Parser.parse F) (SpanRes toks p.marks) p (lv toks fin st pk) := by
  have hM : MarksFrom p.marks [] p.marks := fun m hm => Or.inl hm
  unfold Parser.parse
  unfold wpM
  rw [M.wp_bind, M.wp_prim]
  refine ⟨rfl, ?_⟩
  pws
  have : (p.state == .end_) = false := by simpa using hne
  rw [this]
  obtain ⟨hpos, hdirs, hdecl⟩ := hg
  generalize hx : p.state = x at hpos hne ⊢
  generalize hr : p.states = r at hpos
  generalize hk : p.marks.length = k at hpos
  cases hpos with
  | streamStart => exact wpM_streamStart rfl hM
  | implicitDoc => exact wpM_documentStart (implicit := true) hF rfl hM (by simpa [GSt.inside] using hdirs)
  | docStart => exact wpM_documentStart (implicit := false) hF rfl hM (by simpa [GSt.inside] using hdirs)
  | done => exact absurd rfl hne
  | content h => exact wpM_documentContent rfl hM
  | node h => exact wpM_parseNode (c0 := []) rfl (by simp) hM
  | blockSeq h ht => exact wpM_blockSequenceFirst ht rfl hM
  | blockMap h ht => exact wpM_blockMappingFirst ht rfl hM
  | flowSeq h ht => exact wpM_flowSequenceFirst ht rfl hM
  | flowMap h ht => exact wpM_flowMappingFirst ht rfl hM
  | pair h => exact wpM_pairKey rfl hM
  | after h =>
    cases h with
    | bottom => exact wpM_documentEnd rfl hM
    | blockSeq h => exact wpM_blockSequenceEntry (c0 := []) rfl (by simp) hM
    | indentless h => exact wpM_indentless rfl hM
    | blockKey h => exact wpM_blockMappingValue rfl hM
    | blockValue h => exact wpM_blockMappingKey (c0 := []) rfl (by simp) hM
    | flowSeq h => exact wpM_flowSequenceEntry rfl hM
    | pairKey h => exact wpM_pairValue rfl hM
    | pairValue h => exact wpM_pairEnd rfl hM
    | flowKey h => exact wpM_flowMappingValue rfl hM
    | flowKeyOnly h => exact wpM_flowMappingEmptyValue rfl hM
    | flowValue h => exact wpM_flowMappingKey rfl hM

end

end Yaml
