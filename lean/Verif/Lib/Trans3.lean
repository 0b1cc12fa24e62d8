import Verif.Lib.Trans2

/-
The calls of `parse` follow the table of transitions, continued: documents, and `parse` itself.
-/

namespace Yaml
open Spec Parser
set_option linter.unusedSimpArgs false
set_option linter.unusedVariables false

variable {D : List TagDirective} {p : PState} {fin : Out Token} {st pk : Bool} {toks : List Token}

theorem isDirectives_version {c : List TokenData} {version : Option VersionDirective} {tags : List TagDirective} (h : IsDirectives c version tags)
    (hv : version = none) {minor : Int} (hm : minor = 1 ∨ minor = 2) : IsDirectives (c ++ [.versionDirective 1 minor]) (some ⟨1, minor⟩) tags := by
  induction h with
  | none => exact .version .none minor hm
  | version h m' hm' ih => simp at hv
  | tag h d hd ih => exact .tag (ih hv) d hd

theorem isDirectives_tag {c : List TokenData} {version : Option VersionDirective} {tags : List TagDirective} (h : IsDirectives c version tags)
    {d : TagDirective} (hn : ∀ e ∈ tags, d.handle ≠ e.handle) : IsDirectives (c ++ [.tagDirective d.handle d.prefix_]) version (tags ++ [d]) := by
  induction h with
  | none => exact .tag .none d (by simp)
  | version h m' hm' ih => exact .version (ih hn) m' hm'
  | tag h d' hd ih =>
    refine .tag (ih fun e he => hn e (by simp [he])) d' ?_
    intro e he
    rcases List.mem_append.1 he with he | he
    · exact hd e he
    · simp at he; subst he; exact hn d' (by simp)

theorem wpA_directiveLoop {F : Nat} (hF : toks.length < F) (hd : p.tagDirectives = []) :
    wpA (directiveLoop F) (fun r p' g' => ∃ c ts, g' = lv (r.2.2 :: ts) fin true true ∧ dd toks = c ++ dd (r.2.2 :: ts) ∧
      IsDirectives c r.1 r.2.1 ∧ p' = { p with tagDirectives := r.2.1 }) p (lv toks fin st pk) := by
  unfold directiveLoop
  refine M.wp_loop stepL_mono (I := fun x p' g' => ∃ c toks1 st pk, g' = lv toks1 fin st pk ∧ dd toks = c ++ dd toks1 ∧ IsDirectives c x.1 x.2 ∧
      p' = { p with tagDirectives := x.2 })
    (μ := fun _ _ g => g.toks.length) ?_ F _ _ _ ⟨[], toks, st, pk, rfl, rfl, .none, by rw [← hd]⟩ hF
  rintro ⟨version, tags⟩ p' g' ⟨c, toks1, st1, pk1, rfl, hsplit, hok, rfl⟩
  dsimp only at hok ⊢
  pws
  refine wp_peek ?_ (fun _ _ => trivial)
  rintro ⟨d, m1, m2⟩ ts rfl
  cases d with
  | versionDirective a b =>
    dsimp only
    split
    · exact trivial
    · rename_i hv
      have hv : version = none := by simpa using hv
      split
      · exact trivial
      · rename_i hv'
        pws
        rw [wp_skip_lv (by simp)]
        simp at hv'
        obtain ⟨rfl, hb⟩ := hv'
        exact ⟨⟨c ++ [.versionDirective 1 b], ts, true, false, rfl, by simp [hsplit], isDirectives_version hok hv (by omega), rfl⟩, by simp⟩
  | tagDirective a b =>
    dsimp only
    pws
    rw [M.wp_prim]
    refine ⟨by simp, rfl, rfl, _, _, rfl, by simp, ?_⟩
    refine wp_append (by simp) ?_ (fun _ _ => trivial)
    intro _ hn
    rw [wp_skip_lv (by simp)]
    exact ⟨⟨c ++ [.tagDirective a b], ts, true, false, rfl, by simp [hsplit], isDirectives_tag (d := ⟨a, b⟩) hok hn, rfl⟩, by simp⟩
  | _ => exact ⟨c, ts, rfl, hsplit, hok, rfl⟩

theorem wpA_processDirectives {F : Nat} (hF : toks.length < F) (hd : p.tagDirectives = []) :
    wpA (processDirectives F) (fun r p' g' => ∃ c t ts, g' = lv (t :: ts) fin true true ∧ dd toks = c ++ dd (t :: ts) ∧
      IsDirectives c r.1 r.2 ∧ p'.states = p.states) p (lv toks fin st pk) := by
  unfold processDirectives
  pws
  refine M.wp_cut stepL_mono _ (wpA_directiveLoop hF hd) ?_
  rintro ⟨version, tags, token⟩ p' g' ⟨c, ts, rfl, h1, h2, rfl⟩
  dsimp only at h1 h2 ⊢
  refine wp_append ?_ (by simp) (fun _ _ => trivial)
  intro _
  refine wp_append ?_ (by simp) (fun _ _ => trivial)
  intro _
  exact ⟨c, token, ts, rfl, h1, h2, rfl⟩

theorem wpA_skipDocumentEnds {F : Nat} {implicit : Bool} (hF : toks.length < F) :
    wpA (skipDocumentEnds F implicit) (fun t p' g' => p' = p ∧ ∃ c ts, g' = lv (t :: ts) fin true true ∧ dd toks = c ++ dd (t :: ts) ∧
      (∀ d ∈ c, d = .documentEnd) ∧ (implicit = true → c = []) ∧ (t :: ts).length ≤ toks.length) p (lv toks fin st pk) := by
  unfold skipDocumentEnds
  split
  · refine wp_peek ?_ (fun _ _ => trivial)
    rintro t ts rfl
    exact ⟨rfl, [], ts, rfl, rfl, by simp, fun _ => rfl, by simp⟩
  · rename_i hi
    refine M.wp_loop stepL_mono (I := fun _ p' g' => p' = p ∧ ∃ c toks1 st pk, g' = lv toks1 fin st pk ∧ dd toks = c ++ dd toks1 ∧
      (∀ d ∈ c, d = .documentEnd) ∧ toks1.length ≤ toks.length) (μ := fun _ _ g => g.toks.length) ?_ F _ _ _ ⟨rfl, [], toks, st, pk, rfl, rfl, by simp, by simp⟩ hF
    rintro _ p' g' ⟨rfl, c, toks1, st1, pk1, rfl, hs, hc, hl⟩
    pws
    refine wp_peek ?_ (fun _ _ => trivial)
    rintro t ts rfl
    split
    · rename_i h
      have h : t.data = .documentEnd := by simpa using h
      pws
      rw [wp_skip_lv (by simp [h])]
      refine ⟨⟨rfl, c ++ [t.data], ts, true, false, rfl, by simp [hs], ?_, by simp at hl; omega⟩, by simp⟩
      intro d hd
      rcases List.mem_append.1 hd with hd | hd
      · exact hc d hd
      · simp at hd; rw [hd, h]
    · pws
      exact ⟨trivial, c, ts, rfl, hs, hc, fun h => absurd h hi, hl⟩

theorem wpA_streamStart : wpA parseStreamStart (TrRes D .streamStart p.states (dd toks)) p (lv toks fin st pk) := by
  unfold parseStreamStart
  pws
  refine wp_peek ?_ (fun _ _ => trivial)
  rintro ⟨d, m1, m2⟩ ts rfl
  cases d with
  | streamStart e =>
    dsimp only
    pws
    rw [wp_skip_lv (by simp)]
    exact .streamStart e
  | _ => exact trivial

theorem wpA_documentStart {F : Nat} {implicit : Bool} {x : PSt} (hF : toks.length < F) (hx : if implicit then x = .implicitDocumentStart else x = .documentStart)
    (hd : p.tagDirectives = []) :
    wpA (parseDocumentStart F implicit) (TrRes D x p.states (dd toks)) p (lv toks fin st pk) := by
  unfold parseDocumentStart
  pws
  refine M.wp_cut stepL_mono _ (wpA_skipDocumentEnds hF) ?_
  rintro ⟨d, m1, m2⟩ p1 g1 ⟨rfl, c0, ts, rfl, ht, hc0, hi, hl⟩
  have side : x = .implicitDocumentStart ∧ c0 = [] ∨ x = .documentStart := by
    cases implicit with
    | true => exact .inl ⟨by simpa using hx, hi rfl⟩
    | false => exact .inr (by simpa using hx)
  split
  · rename_i h
    simp only [Bool.and_eq_true, Bool.not_eq_true'] at h
    obtain ⟨rfl, hs⟩ := h
    have := hi rfl
    subst this
    have hx : x = .implicitDocumentStart := by simpa using hx
    subst hx
    pws
    have hw := wp_processDirectives_none (p := p1) (st := true) (pk := true) (t := ⟨d, m1, m2⟩) (ts := ts) (fin := fin) (F := F) (by omega) hd ?_ ?_
      (Q := fun r p' g' => p'.states = p1.states ∧ g' = lv (⟨d, m1, m2⟩ :: ts) fin true true) ⟨rfl, rfl⟩
    · refine Free.wp_mono stepL_mono ?_ hw
      rintro ⟨o, p'⟩ g' h
      cases o with
      | ok r =>
        obtain ⟨h1, rfl⟩ := h
        show Tr D _ p1.states (dd toks) (.documentStart none [] true) .blockNode (.documentEnd :: p'.states) _
        rw [h1, ht]
        exact .docImplicit
      | err e => exact h
      | panic x => exact trivial
      | fuel => exact h
    · rintro a b rfl; simp [startsExplicitDocument] at hs
    · rintro a b rfl; simp [startsExplicitDocument] at hs
  split
  · pws
    refine M.wp_cut stepL_mono _ (wpA_processDirectives (toks := ⟨d, m1, m2⟩ :: ts) (by omega) hd) ?_
    rintro ⟨version, tags⟩ p2 g2 ⟨c, t2, ts2, rfl, hsplit, hok, hst⟩
    dsimp only at hok ⊢
    pws
    split
    · rename_i h
      have h : t2.data = .documentStart := by simpa using h
      pws
      rw [wp_skip_lv (by simp [h])]
      show Tr D x p1.states (dd toks) (.documentStart version tags false) .documentContent (.documentEnd :: p2.states) _
      rw [hst, ht, hsplit]
      show Tr D x p1.states (c0 ++ (c ++ t2.data :: dd ts2)) _ _ _ _
      rw [h]
      exact .docStart side hc0 hok
    · exact trivial
  · rename_i hne
    have h : d = .streamEnd := by simpa using hne
    subst h
    pws
    rw [wp_skip]
    show Tr D x p1.states (dd toks) .streamEnd .end_ p1.states _
    rw [ht]
    exact .streamEnd side hc0

theorem wpA_documentContent (hd : p.tagDirectives = withDefaults D) :
    wpA parseDocumentContent (TrRes D .documentContent p.states (dd toks)) p (lv toks fin st pk) := by
  unfold parseDocumentContent
  pws
  refine wp_peek ?_ (fun _ _ => trivial)
  rintro t ts rfl
  split
  · pws
    refine wpA_popState fun x r hr => ?_
    show Tr D _ p.states _ _ x r _
    rw [hr]
    exact .contentEmpty
  · exact M.wp_cut stepL_mono _ (wpA_parseNode (D := D) hd) fun ev p' g' h => .content h

theorem wpA_documentEnd : wpA parseDocumentEnd (TrRes D .documentEnd p.states (dd toks)) p (lv toks fin st pk) := by
  unfold parseDocumentEnd
  pws
  refine wp_peek ?_ (fun _ _ => trivial)
  rintro ⟨d, m1, m2⟩ ts rfl
  rw [M.wp_when]
  split
  · rename_i h
    have h : d = .documentEnd := by simpa using h
    subst h
    rw [wp_skip_lv (by simp)]
    exact .docEndX
  · rename_i h
    have h : ¬ d = .documentEnd := by simpa using h
    have e : (!((⟨d, m1, m2⟩ : Token).data == TokenData.documentEnd)) = true := by simpa using h
    pws
    first
    | (show Tr D _ _ _ (.documentEnd true) _ _ _; exact .docEnd (by simpa using h))
    | (show Tr D _ _ _ (.documentEnd (!((⟨d, m1, m2⟩ : Token).data == TokenData.documentEnd))) _ _ _; rw [e]; exact .docEnd (by simpa using h))

/-- One call of `parse`. -/
theorem wpA_parse {F : Nat} {G : GSt} (hF : toks.length < F) (hg : PGood G D p toks) (hne : p.state ≠ .end_) :
    wpA (Parser.parse F) (TrRes D p.state p.states (dd toks)) p (lv toks fin st pk) := by
  unfold Parser.parse
  unfold wpA
  rw [M.wp_bind, M.wp_prim]
  refine ⟨rfl, ?_⟩
  pws
  have : (p.state == .end_) = false := by simpa using hne
  rw [this]
  obtain ⟨hpos, hdirs, hdecl⟩ := hg
  generalize hx : p.state = x at hpos hne ⊢
  generalize hr : p.states = r at hpos
  generalize hk : p.marks.length = k at hpos
  cases hpos with
  | streamStart => rw [← hr]; exact wpA_streamStart
  | implicitDoc => rw [← hr]; exact wpA_documentStart (implicit := true) hF (by simp) (by simpa [GSt.inside] using hdirs)
  | docStart => rw [← hr]; exact wpA_documentStart (implicit := false) hF (by simp) (by simpa [GSt.inside] using hdirs)
  | done => exact absurd rfl hne
  | content h => subst hr; exact wpA_documentContent hdirs
  | node h => subst hr; exact M.wp_cut stepL_mono _ (wpA_parseNode (D := D) hdirs) fun ev p' g' h => .blockNode h
  | blockSeq h ht => subst hr; exact wpA_blockSequenceFirst ht hdirs
  | blockMap h ht => subst hr; exact wpA_blockMappingFirst ht hdirs
  | flowSeq h ht => subst hr; exact wpA_flowSequenceFirst ht hdirs
  | flowMap h ht => subst hr; exact wpA_flowMappingFirst ht hdirs
  | pair h => subst hr; exact wpA_pairKey hdirs
  | after h =>
    cases h with
    | bottom => rw [← hr]; exact wpA_documentEnd
    | blockSeq h => subst hr; exact wpA_blockSequenceEntry hdirs
    | indentless h => subst hr; exact wpA_indentless hdirs
    | blockKey h => subst hr; exact wpA_blockMappingValue hdirs
    | blockValue h => subst hr; exact wpA_blockMappingKey hdirs
    | flowSeq h => subst hr; exact wpA_flowSequenceEntry hdirs
    | pairKey h => subst hr; exact wpA_pairValue hdirs
    | pairValue h => subst hr; exact wpA_pairEnd
    | flowKey h => subst hr; exact wpA_flowMappingValue hdirs
    | flowKeyOnly h => subst hr; exact wpA_flowMappingEmptyValue
    | flowValue h => subst hr; exact wpA_flowMappingKey hdirs

end Yaml
