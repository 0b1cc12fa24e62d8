import Verif.Lib.Pars3

/-
The functions of the parser, continued: documents, and the state machine.
-/

namespace Yaml
open Spec Parser
set_option linter.unusedSimpArgs false
set_option linter.unusedVariables false

variable {D : List TagDirective} {p : PState} {fin : Out Token} {st pk : Bool} {toks : List Token} {f : List Coll} {m : Nat}

theorem wp_append {P : PanicSite → Prop} {E : Err → PState → Toks → Prop} {v : TagDirective} {dup : Bool} {mark : Mark}
    {Q : Unit → PState → Toks → Prop} {g : Toks}
    (hdup : dup = true → Q () { p with tagDirectives := addDir p.tagDirectives v } g)
    (hnew : dup = false → (∀ d ∈ p.tagDirectives, v.handle ≠ d.handle) → Q () { p with tagDirectives := p.tagDirectives ++ [v] } g)
    (hE : ∀ e g, E e p g) : M.wp stepL P E (appendTagDirective v dup mark) Q p g := by
  unfold appendTagDirective
  pws
  unfold addDir at hdup
  split
  · rename_i h
    rw [if_pos h] at hdup
    split
    · rename_i h'
      pws
      exact hdup h'
    · exact hE _ _
  · rename_i h
    rw [if_neg h] at hdup
    pws
    cases dup with
    | true => exact hdup rfl
    | false =>
      refine hnew rfl ?_
      intro d hd he
      apply h
      rw [List.any_eq_true]
      exact ⟨d, hd, by simp [he]⟩

/-- What the directives read so far say. -/
structure DirsOk (c : List Token) (version : Option VersionDirective) (tags : List TagDirective) : Prop where
  versions : versionsIn c = version.toList
  tagDirs : tagDirectivesIn c = tags
  nodup : (tags.map (·.handle)).Nodup
  valid : ∀ v, version = some v → v.major = 1 ∧ (v.minor = 1 ∨ v.minor = 2)
  anchors : anchorsIn c = []
  tagToks : tagsIn c = []
  aliases : aliasesIn c = []
  scalars : scalarsIn c = []

theorem DirsOk.bare {c : List Token} (h : Bare c) : DirsOk c none [] :=
  ⟨h.versions, h.tagDirs, by simp, by simp, h.anchors, h.tags, h.aliases, h.scalars⟩

theorem DirsOk.snocBare {c : List Token} {version : Option VersionDirective} {tags : List TagDirective} (h : DirsOk c version tags)
    {t : Token} (ht : structural t.data = true) : DirsOk (c ++ [t]) version tags := by
  have hb : Bare [t] := Bare.cons ht Bare.nil
  obtain ⟨h1, h2, h3, h4, h5, h6, h7, h8⟩ := h
  obtain ⟨b1, b2, b3, b4, b5, b6⟩ := hb
  refine ⟨?_, ?_, h3, h4, ?_, ?_, ?_, ?_⟩
  · simp only [versionsIn, List.filterMap_append] at *; rw [h1, b6]; simp
  · simp only [tagDirectivesIn, List.filterMap_append] at *; rw [h2, b5]; simp
  · simp only [anchorsIn, List.filterMap_append] at *; rw [h5, b2]; simp
  · simp only [tagsIn, List.filterMap_append] at *; rw [h6, b1]; simp
  · simp only [aliasesIn, List.filterMap_append] at *; rw [h7, b3]; simp
  · simp only [scalarsIn, List.filterMap_append] at *; rw [h8, b4]; simp

theorem DirsOk.version {c : List Token} {tags : List TagDirective} (h : DirsOk c none tags) {a b : Int} {m1 m2 : Mark}
    (hv : a = 1 ∧ (b = 1 ∨ b = 2)) : DirsOk (c ++ [⟨.versionDirective a b, m1, m2⟩]) (some ⟨a, b⟩) tags := by
  obtain ⟨h1, h2, h3, h4, h5, h6, h7, h8⟩ := h
  refine ⟨?_, ?_, h3, ?_, ?_, ?_, ?_, ?_⟩
  · simp only [versionsIn, List.filterMap_append] at *; rw [h1]; simp
  · simp only [tagDirectivesIn, List.filterMap_append] at *; rw [h2]; simp
  · rintro v hv'; cases hv'; exact hv
  · simp only [anchorsIn, List.filterMap_append] at *; rw [h5]; simp
  · simp only [tagsIn, List.filterMap_append] at *; rw [h6]; simp
  · simp only [aliasesIn, List.filterMap_append] at *; rw [h7]; simp
  · simp only [scalarsIn, List.filterMap_append] at *; rw [h8]; simp

theorem DirsOk.tag {c : List Token} {version : Option VersionDirective} {tags : List TagDirective} (h : DirsOk c version tags) {a b : Str} {m1 m2 : Mark}
    (hn : ∀ d ∈ tags, a ≠ d.handle) : DirsOk (c ++ [⟨.tagDirective a b, m1, m2⟩]) version (tags ++ [⟨a, b⟩]) := by
  obtain ⟨h1, h2, h3, h4, h5, h6, h7, h8⟩ := h
  refine ⟨?_, ?_, ?_, h4, ?_, ?_, ?_, ?_⟩
  · simp only [versionsIn, List.filterMap_append] at *; rw [h1]; simp
  · simp only [tagDirectivesIn, List.filterMap_append] at *; rw [h2]; simp
  · rw [List.map_append, List.nodup_append]
    refine ⟨h3, by simp, ?_⟩
    intro x hx y hy
    obtain ⟨d, hd, rfl⟩ := List.mem_map.1 hx
    simp at hy; subst hy
    exact fun h => hn d hd h.symm
  · simp only [anchorsIn, List.filterMap_append] at *; rw [h5]; simp
  · simp only [tagsIn, List.filterMap_append] at *; rw [h6]; simp
  · simp only [aliasesIn, List.filterMap_append] at *; rw [h7]; simp
  · simp only [scalarsIn, List.filterMap_append] at *; rw [h8]; simp

/-- After the directives `c` (with `c0` before them). -/
def DirsRead (p : PState) (c0 toks : List Token) (fin : Out Token) (version : Option VersionDirective) (tags : List TagDirective) (p' : PState)
    (c toks1 : List Token) : Prop :=
  toks = c ++ toks1 ∧ DirsOk (c0 ++ c) version tags ∧ p' = { p with tagDirectives := tags }

theorem wp_directiveLoop {F : Nat} {c0 : List Token} (hF : toks.length < F) (h0 : Bare c0) (hd : p.tagDirectives = []) :
    M.wp stepL NoP AnyE (directiveLoop F) (fun r p' g' => ∃ c ts, g' = lv (r.2.2 :: ts) fin true true ∧
      DirsRead p c0 toks fin r.1 r.2.1 p' c (r.2.2 :: ts) ∧ (∀ a b, r.2.2.data ≠ .versionDirective a b) ∧ (∀ a b, r.2.2.data ≠ .tagDirective a b)) p (lv toks fin st pk) := by
  unfold directiveLoop
  refine M.wp_loop stepL_mono (I := fun x p' g' => ∃ c toks1 st pk, g' = lv toks1 fin st pk ∧ DirsRead p c0 toks fin x.1 x.2 p' c toks1)
    (μ := fun _ _ g => g.toks.length) ?_ F _ _ _ ⟨[], toks, st, pk, rfl, rfl, by rw [List.append_nil]; exact DirsOk.bare h0, by rw [← hd]⟩ hF
  rintro ⟨version, tags⟩ p' g' ⟨c, toks1, st1, pk1, rfl, hsplit, hok, rfl⟩
  dsimp only at hok ⊢
  pws
  refine wp_peek ?_ (fun _ _ => trivial)
  rintro ⟨d, m1, m2⟩ ts rfl
  cases d with
  | versionDirective a b =>
    dsimp only
    split
    · exact trivial
    · rename_i hv
      have hv : version = none := by simpa using hv
      subst hv
      split
      · exact trivial
      · rename_i hv
        pws
        rw [wp_skip_lv (by simp)]
        refine ⟨⟨c ++ [⟨.versionDirective a b, m1, m2⟩], ts, true, false, rfl, by simp [hsplit], ?_, rfl⟩, by simp⟩
        rw [← List.append_assoc]
        refine hok.version ?_
        simp at hv
        exact ⟨hv.1, by have := hv.2; omega⟩
  | tagDirective a b =>
    dsimp only
    pws
    rw [M.wp_prim]
    refine ⟨by simp, rfl, rfl, _, _, rfl, by simp, ?_⟩
    refine wp_append (by simp) ?_ (fun _ _ => trivial)
    intro _ hn
    rw [wp_skip_lv (by simp)]
    refine ⟨⟨c ++ [⟨.tagDirective a b, m1, m2⟩], ts, true, false, rfl, by simp [hsplit], ?_, rfl⟩, by simp⟩
    rw [← List.append_assoc]
    exact hok.tag hn
  | _ => exact ⟨c, ts, rfl, ⟨hsplit, hok, rfl⟩, by simp, by simp⟩

theorem wp_processDirectives {F : Nat} {c0 : List Token} (hF : toks.length < F) (h0 : Bare c0) (hd : p.tagDirectives = []) :
    M.wp stepL NoP AnyE (processDirectives F) (fun r p' g' => ∃ c t ts, g' = lv (t :: ts) fin true true ∧
      toks = c ++ t :: ts ∧ DirsOk (c0 ++ c) r.1 r.2 ∧ p' = { p with tagDirectives := withDefaults r.2 }) p (lv toks fin st pk) := by
  unfold processDirectives
  pws
  refine M.wp_cut stepL_mono _ (wp_directiveLoop hF h0 hd) ?_
  rintro ⟨version, tags, token⟩ p' g' ⟨c, ts, rfl, ⟨h1, h2, rfl⟩, _, _⟩
  dsimp only at h1 h2 ⊢
  refine wp_append ?_ (by simp) (fun _ _ => trivial)
  intro _
  refine wp_append ?_ (by simp) (fun _ _ => trivial)
  intro _
  exact ⟨c, token, ts, rfl, h1, h2, rfl⟩

/-- With no directive in front, nothing is read. -/
theorem wp_processDirectives_none {F : Nat} {t : Token} {ts : List Token} (hF : 0 < F) (hd : p.tagDirectives = [])
    (h1 : ∀ a b, t.data ≠ .versionDirective a b) (h2 : ∀ a b, t.data ≠ .tagDirective a b) {Q : Option VersionDirective × List TagDirective → PState → Toks → Prop}
    (hQ : Q (none, []) { p with tagDirectives := withDefaults [] } (lv (t :: ts) fin true true)) :
    M.wp stepL NoP AnyE (processDirectives F) Q p (lv (t :: ts) fin st pk) := by
  unfold processDirectives directiveLoop
  pws
  obtain ⟨F, rfl⟩ : ∃ n, F = n + 1 := ⟨F - 1, by omega⟩
  unfold M.loop
  pws
  have key : ∀ (R : Option VersionDirective × List TagDirective × Token → PState → Toks → Prop), R (none, [], t) p (lv (t :: ts) fin true true) →
      M.wp stepL NoP AnyE (match (Sum.inr (none, [], t) : (Option VersionDirective × List TagDirective) ⊕ (Option VersionDirective × List TagDirective × Token)) with
        | .inr a => pure a
        | .inl x => M.outOfFuel : Pars _) R p (lv (t :: ts) fin true true) := fun R h => h
  obtain ⟨d, m1, m2⟩ := t
  have fin1 : M.wp stepL NoP AnyE (appendTagDirective ⟨cs! "!", cs! "!"⟩ true m1)
      (fun _ s b => M.wp stepL NoP AnyE (appendTagDirective ⟨cs! "!!", cs! "tag:yaml.org,2002:"⟩ true m1) (fun _ s b => Q (none, []) s b) s b)
      p (lv (⟨d, m1, m2⟩ :: ts) fin true true) := by
    refine wp_append ?_ (by simp) (fun _ _ => trivial)
    intro _
    refine wp_append ?_ (by simp) (fun _ _ => trivial)
    intro _
    rw [hd]
    exact hQ
  cases d with
  | versionDirective a b => exact absurd rfl (h1 a b)
  | tagDirective a b => exact absurd rfl (h2 a b)
  | _ => exact fin1

theorem wp_skipDocumentEnds {F : Nat} {implicit : Bool} (hF : toks.length < F) :
    M.wp stepL NoP AnyE (skipDocumentEnds F implicit) (fun t p' g' => p' = p ∧ ∃ c ts, g' = lv (t :: ts) fin true true ∧ toks = c ++ t :: ts ∧
      (∀ t ∈ c, structural t.data = true) ∧ (implicit = true → c = [])) p (lv toks fin st pk) := by
  unfold skipDocumentEnds
  split
  · refine wp_peek ?_ (fun _ _ => trivial)
    rintro t ts rfl
    exact ⟨rfl, [], ts, rfl, rfl, by simp, fun _ => rfl⟩
  · rename_i hi
    refine M.wp_loop stepL_mono (I := fun _ p' g' => p' = p ∧ ∃ c toks1 st pk, g' = lv toks1 fin st pk ∧ toks = c ++ toks1 ∧
      (∀ t ∈ c, structural t.data = true)) (μ := fun _ _ g => g.toks.length) ?_ F _ _ _ ⟨rfl, [], toks, st, pk, rfl, rfl, by simp⟩ hF
    rintro _ p' g' ⟨rfl, c, toks1, st1, pk1, rfl, hs, hc⟩
    pws
    refine wp_peek ?_ (fun _ _ => trivial)
    rintro t ts rfl
    split
    · rename_i h
      have h : t.data = .documentEnd := by simpa using h
      pws
      rw [wp_skip_lv (by simp [h])]
      exact ⟨⟨rfl, c ++ [t], ts, true, false, rfl, by simp [hs], snoc_struct hc (by simp [h, structural])⟩, by simp⟩
    · pws
      exact ⟨trivial, c, ts, rfl, hs, hc, fun h => absurd h hi⟩

theorem wp_streamStart (hp : p.state = .streamStart) (hs : p.states = []) (hm : p.marks.length = 0) (hd : p.tagDirectives = []) (hD : D = []) :
    M.wp stepL NoP AnyE parseStreamStart (Res .start D p toks fin) p (lv toks fin st pk) := by
  unfold parseStreamStart
  pws
  refine wp_peek ?_ (fun _ _ => trivial)
  rintro ⟨d, m1, m2⟩ ts rfl
  cases d with
  | streamStart e =>
    dsimp only
    pws
    rw [wp_skip_lv (by simp)]
    refine ⟨[⟨.streamStart e, m1, m2⟩], .docs, ts, false, rfl, rfl, rfl, ⟨⟨rfl, rfl, rfl, rfl, rfl, rfl⟩, _, rfl, rfl⟩, ⟨?_, hd, fun _ => hD⟩, ?_, rfl⟩
    · show At .implicitDocumentStart p.states _ _ p.marks.length
      rw [hs, hm]; exact .implicitDoc
    · simp only [potential, rank, hp, List.length_cons]; omega
  | _ => exact trivial

theorem wp_documentStart {F : Nat} {implicit : Bool} (hF : toks.length < F)
    (hp : if implicit then p.state = .implicitDocumentStart else p.state = .documentStart) (hs : p.states = []) (hm : p.marks.length = 0)
    (hd : p.tagDirectives = []) (hD : D = []) :
    M.wp stepL NoP AnyE (parseDocumentStart F implicit) (Res .docs D p toks fin) p (lv toks fin st pk) := by
  unfold parseDocumentStart
  pws
  refine M.wp_cut stepL_mono _ (wp_skipDocumentEnds hF) ?_
  rintro ⟨d, m1, m2⟩ p1 g1 ⟨rfl, c0, ts, rfl, ht, hc0, hi⟩
  have el := congrArg List.length ht
  simp only [List.length_append, List.length_cons] at el
  split
  · -- an implicit document
    rename_i h
    simp only [Bool.and_eq_true, Bool.not_eq_true'] at h
    obtain ⟨rfl, hx⟩ := h
    have hc0' := hi rfl
    subst hc0'
    have hp : p1.state = .implicitDocumentStart := by simpa using hp
    pws
    refine wp_processDirectives_none (by omega) hd ?_ ?_ ?_
    · rintro a b rfl; simp [startsExplicitDocument] at hx
    · rintro a b rfl; simp [startsExplicitDocument] at hx
    · refine ⟨[], .inDoc [], _, true, rfl, rfl, ht, ?_, ⟨?_, rfl, by simp [GSt.inside]⟩, ?_, rfl⟩
      · exact ⟨rfl, rfl, by simp, by simp, rfl, rfl, rfl, rfl, by simp⟩
      · show At .blockNode (.documentEnd :: p1.states) _ _ p1.marks.length
        rw [hs, hm]; exact .node .bottom
      · simp only [potential, hp, hs, rank, el, List.length_cons, List.map_cons, List.map_nil, List.sum_cons, List.sum_nil, List.length_nil]; omega
  split
  · -- an explicit document
    rename_i hx hne
    pws
    refine M.wp_cut stepL_mono _ (wp_processDirectives (toks := ⟨d, m1, m2⟩ :: ts) (c0 := c0) (by simp only [List.length_cons]; omega) (bare_of hc0) hd) ?_
    rintro ⟨version, tags⟩ p2 g2 ⟨c, t2, ts2, rfl, hsplit, hok, rfl⟩
    dsimp only at hok ⊢
    have el2 := congrArg List.length hsplit
    simp only [List.length_append, List.length_cons] at el2
    pws
    split
    · rename_i h
      have h : t2.data = .documentStart := by simpa using h
      pws
      rw [wp_skip_lv (by simp [h])]
      have hok' := hok.snocBare (t := t2) (by simp [h, structural])
      refine ⟨c0 ++ c ++ [t2], .inDoc [], ts2, false, rfl, rfl, by simp [ht, hsplit], ?_, ⟨?_, rfl, by simp [GSt.inside]⟩, ?_, rfl⟩
      · exact ⟨hok'.versions, hok'.tagDirs, hok'.nodup, hok'.valid, hok'.aliases, hok'.anchors, hok'.tagToks, hok'.scalars,
          iff_of_true rfl ⟨t2, by simp, h⟩⟩
      · show At .documentContent (.documentEnd :: p1.states) _ _ p1.marks.length
        rw [hs, hm]; exact .content .bottom
      · simp only [potential, hs, rank, List.map_cons, List.map_nil, List.sum_cons, List.sum_nil]; omega
    · exact trivial
  · -- the end
    rename_i hx hne
    have h : d = .streamEnd := by simpa using hne
    subst h
    pws
    rw [wp_skip]
    have hb := bare_of (snoc_struct hc0 (t := ⟨.streamEnd, m1, m2⟩) rfl)
    refine ⟨c0 ++ [⟨.streamEnd, m1, m2⟩], .done, ts, false, ?_, rfl, by simp [ht],
      ⟨⟨hb.aliases, hb.anchors, hb.tags, hb.tagDirs, hb.versions, hb.scalars⟩, _, _, rfl, rfl⟩,
      ⟨?_, hd, fun _ => hD⟩, ?_, rfl⟩
    · simp
    · show At .end_ p1.states _ _ p1.marks.length
      rw [hs, hm]; exact .done
    · simp only [potential, hs, rank, List.map_nil, List.sum_nil]; omega

theorem wp_documentContent (hs : Stk p.states f m) (hm : p.marks.length = m) (hp : rank p.state = 1) (hd : p.tagDirectives = withDefaults D) :
    M.wp stepL NoP AnyE parseDocumentContent (Res (.inDoc f) D p toks fin) p (lv toks fin st pk) := by
  unfold parseDocumentContent
  pws
  refine wp_peek ?_ (fun _ _ => trivial)
  rintro t ts rfl
  obtain ⟨x, r, hr⟩ := hs.ne
  split
  · pws
    rw [wp_popState hr]
    exact empty_res (f := f) (G' := .after f) rfl (after_inside f) (pre := []) rfl (by simp)
      (show At x r _ _ p.marks.length by rw [hm]; rw [hr] at hs; exact .after hs) hd rfl
      (by simp only [potential, hp, hr, List.map_cons, List.sum_cons]; omega)
  · refine M.wp_cut stepL_mono _ (wp_parseNode (D := D) hs hm hd) ?_
    rintro ev p' g' ⟨c', G', toks', pk', rfl, h⟩
    exact h.res (fun _ _ h => h) (pre := []) rfl (by simp) hd rfl (by simp only [potential, hp, Bool.false_eq_true, if_false]; omega)

theorem wp_blockNode (hs : Stk p.states f m) (hm : p.marks.length = m) (hp : p.state = .blockNode) (hd : p.tagDirectives = withDefaults D) :
    M.wp stepL NoP AnyE (parseNode true false) (Res (.inDoc f) D p toks fin) p (lv toks fin st pk) := by
  refine M.wp_cut stepL_mono _ (wp_parseNode (D := D) hs hm hd) ?_
  rintro ev p' g' ⟨c', G', toks', pk', rfl, h⟩
  exact h.res (fun _ _ h => h) (pre := []) rfl (by simp) hd rfl (by simp only [potential, hp, rank, Bool.false_eq_true, if_false]; omega)

theorem wp_documentEnd (hs : p.states = []) (hm : p.marks.length = 0) (hp : p.state = .documentEnd) :
    M.wp stepL NoP AnyE parseDocumentEnd (Res .docEnd D p toks fin) p (lv toks fin st pk) := by
  unfold parseDocumentEnd
  pws
  refine wp_peek ?_ (fun _ _ => trivial)
  rintro t ts rfl
  rw [M.wp_when]
  split
  · rename_i h
    have h : t.data = .documentEnd := by simpa using h
    rw [wp_skip_lv (by simp [h])]
    have hb : Bare [t] := Bare.cons (by simp [h, structural]) Bare.nil
    refine ⟨[t], .docs, ts, false, rfl, rfl, rfl, ⟨⟨hb.aliases, hb.anchors, hb.tags, hb.tagDirs, hb.versions, hb.scalars⟩, by simp [h]⟩, ⟨?_, rfl, fun _ => rfl⟩, ?_, rfl⟩
    · show At .documentStart p.states _ _ p.marks.length
      rw [hs, hm]; exact .docStart
    · simp only [potential, hp, rank, List.length_cons]; omega
  · rename_i h
    have h : ¬ t.data = .documentEnd := by simpa using h
    refine ⟨[], .docs, _, true, rfl, rfl, rfl, ⟨⟨rfl, rfl, rfl, rfl, rfl, rfl⟩, by simp [h]⟩, ⟨?_, rfl, fun _ => rfl⟩, ?_, rfl⟩
    · show At .documentStart p.states _ _ p.marks.length
      rw [hs, hm]; exact .docStart
    · simp only [potential, hp, rank]; omega

/-- One call of the state machine. -/
theorem wp_stateMachine {F : Nat} {G : GSt} (hF : toks.length < F) (hg : PGood G D p toks) (hne : p.state ≠ .end_) :
    M.wp stepL NoP AnyE (stateMachine F p.state) (Res G D p toks fin) p (lv toks fin st pk) := by
  obtain ⟨hpos, hdirs, hdecl⟩ := hg
  generalize hx : p.state = x at hpos hne ⊢
  generalize hr : p.states = r at hpos
  generalize hk : p.marks.length = k at hpos
  cases hpos with
  | streamStart => exact wp_streamStart hx hr hk (by simpa [GSt.inside] using hdirs) (hdecl rfl)
  | implicitDoc => exact wp_documentStart (implicit := true) hF (by simpa using hx) hr hk (by simpa [GSt.inside] using hdirs) (hdecl rfl)
  | docStart => exact wp_documentStart (implicit := false) hF (by simpa using hx) hr hk (by simpa [GSt.inside] using hdirs) (hdecl rfl)
  | done => exact absurd rfl hne
  | content h => subst hr; exact wp_documentContent h hk (by rw [hx]; rfl) hdirs
  | node h => subst hr; exact wp_blockNode h hk hx hdirs
  | @blockSeq r f m t ts h ht =>
    subst hr
    exact wp_blockSequenceEntry h hdirs (fun _ => ⟨hk, t, ts, rfl, by rw [ht]; rfl, by rw [ht]; simp⟩) (by simp)
  | @blockMap r f m t ts h ht =>
    subst hr
    exact wp_blockMappingKey h hdirs (fun _ => ⟨hk, t, ts, rfl, by rw [ht]; rfl, by rw [ht]; simp⟩) (by simp)
  | @flowSeq r f m t ts h ht =>
    subst hr
    exact wp_flowSequenceEntry h hdirs (fun _ => ⟨hk, t, ts, rfl, by rw [ht]; rfl, by rw [ht]; simp⟩) (by simp)
  | @flowMap r f m t ts h ht =>
    subst hr
    exact wp_flowMappingKey h hdirs (fun _ => ⟨hk, t, ts, rfl, by rw [ht]; rfl, by rw [ht]; simp⟩) (by simp)
  | pair h => subst hr; exact wp_pairKey h hdirs hx hk
  | after h =>
    cases h with
    | bottom => exact wp_documentEnd hr hk hx
    | blockSeq h => subst hr; exact wp_blockSequenceEntry h hdirs (by simp) (fun _ => hk)
    | indentless h => subst hr; exact wp_indentless h hdirs hx hk
    | blockKey h => subst hr; exact wp_blockMappingValue h hdirs hx hk
    | blockValue h => subst hr; exact wp_blockMappingKey h hdirs (by simp) (fun _ => hk)
    | flowSeq h => subst hr; exact wp_flowSequenceEntry h hdirs (by simp) (fun _ => hk)
    | pairKey h => subst hr; exact wp_pairValue h hdirs hx hk
    | pairValue h => subst hr; exact wp_pairEnd h hdirs hx hk
    | flowKey h => subst hr; exact wp_flowMappingValue h hdirs (by rw [hx]; rfl) hk
    | flowKeyOnly h => subst hr; exact wp_flowMappingValue h hdirs (by rw [hx]; rfl) hk
    | flowValue h => subst hr; exact wp_flowMappingKey h hdirs (by simp) (fun _ => hk)

/-- One call of `parse` before the end. -/
theorem wp_parse {F : Nat} {G : GSt} (hF : toks.length < F) (hg : PGood G D p toks) (hne : p.state ≠ .end_) :
    M.wp stepL NoP AnyE (Parser.parse F) (Res G D p toks fin) p (lv toks fin st pk) := by
  unfold Parser.parse
  rw [M.wp_bind, M.wp_prim]
  refine ⟨rfl, ?_⟩
  pws
  have : (p.state == .end_) = false := by simpa using hne
  rw [this]
  exact wp_stateMachine hF hg hne

/-! ### The root of an implicit document -/

/-- An implicit document begins with a node, and the first node of a document in that state is never made from
no token at all. -/
def Side (p : PState) (toks : List Token) (ev : Event) (p' : PState) : Prop :=
  (∀ v tags, ev.data = .documentStart v tags true → p'.state = .blockNode) ∧
  (p.state = .blockNode → ∀ value pi qi style, ev.data = .scalar none none value pi qi style → ∃ t ∈ toks, t.data = .scalar value style)

theorem wp_documentStart_side {F : Nat} {implicit : Bool} (hF : toks.length < F) (hd : p.tagDirectives = [])
    (hp : p.state ≠ .blockNode) :
    M.wp stepL NoP AnyE (parseDocumentStart F implicit) (fun ev p' _ => Side p toks ev p') p (lv toks fin st pk) := by
  unfold parseDocumentStart
  pws
  refine M.wp_cut stepL_mono _ (wp_skipDocumentEnds hF) ?_
  rintro ⟨d, m1, m2⟩ p1 g1 ⟨rfl, c0, ts, rfl, ht, hc0, hi⟩
  have el := congrArg List.length ht
  simp only [List.length_append, List.length_cons] at el
  split
  · rename_i h
    simp only [Bool.and_eq_true, Bool.not_eq_true'] at h
    obtain ⟨rfl, hx⟩ := h
    pws
    refine wp_processDirectives_none (by omega) hd ?_ ?_ ?_
    · rintro a b rfl; simp [startsExplicitDocument] at hx
    · rintro a b rfl; simp [startsExplicitDocument] at hx
    · exact ⟨fun _ _ _ => rfl, fun h => absurd h hp⟩
  split
  · pws
    refine M.wp_cut stepL_mono _ (wp_processDirectives (toks := ⟨d, m1, m2⟩ :: ts) (c0 := c0) (by simp only [List.length_cons]; omega) (bare_of hc0) hd) ?_
    rintro ⟨version, tags⟩ p2 g2 ⟨c, t2, ts2, rfl, hsplit, hok, rfl⟩
    dsimp only at hok ⊢
    pws
    split
    · rename_i h
      have h : t2.data = .documentStart := by simpa using h
      pws
      rw [wp_skip_lv (by simp [h])]
      exact ⟨fun _ _ h => by simp at h, fun h => absurd h hp⟩
    · exact trivial
  · pws
    rw [wp_skip]
    exact ⟨fun _ _ h => by simp at h, fun h => absurd h hp⟩

theorem wp_parse_side {F : Nat} {G : GSt} (hF : toks.length < F) (hg : PGood G D p toks) (hne : p.state ≠ .end_) :
    M.wp stepL NoP AnyE (Parser.parse F) (fun ev p' _ => Side p toks ev p') p (lv toks fin st pk) := by
  have other : G ≠ .docs → p.state ≠ .blockNode →
      M.wp stepL NoP AnyE (Parser.parse F) (fun ev p' _ => Side p toks ev p') p (lv toks fin st pk) := by
    intro h1 h2
    refine M.wp_cut stepL_mono _ (wp_parse (D := D) hF hg hne) ?_
    rintro ev p' g' ⟨c, G', toks', pk', _, h⟩
    refine ⟨fun v tags he => ?_, fun h => absurd h h2⟩
    have hs := h.step
    rw [he] at hs
    exfalso
    unfold gstep at hs
    split at hs <;> simp_all
  have main : M.wp stepL NoP AnyE (Parser.stateMachine F p.state) (fun ev p' _ => Side p toks ev p') p (lv toks fin st pk) →
      M.wp stepL NoP AnyE (Parser.parse F) (fun ev p' _ => Side p toks ev p') p (lv toks fin st pk) := by
    intro h
    unfold Parser.parse
    rw [M.wp_bind, M.wp_prim]
    refine ⟨rfl, ?_⟩
    pws
    have : (p.state == .end_) = false := by simpa using hne
    rw [this]
    exact h
  obtain ⟨hpos, hdirs, hdecl⟩ := id hg
  generalize hx : p.state = x at hpos hne other main
  generalize hr : p.states = r at hpos
  generalize hk : p.marks.length = k at hpos
  cases hpos with
  | implicitDoc => exact main (wp_documentStart_side (implicit := true) hF (by simpa [GSt.inside] using hdirs) (by simp [hx]))
  | docStart => exact main (wp_documentStart_side (implicit := false) hF (by simpa [GSt.inside] using hdirs) (by simp [hx]))
  | node h =>
    subst hr
    refine main (M.wp_cut stepL_mono _ (wp_parseNode (D := D) (ind := false) (block := true) h hk hdirs) ?_)
    rintro ev p' g' ⟨c', G', toks', pk', rfl, h⟩
    refine ⟨fun v tags he => ?_, fun _ v pi qi st he => ?_⟩
    · exfalso
      have hs := h.step
      rw [he] at hs
      simp [gstep] at hs
    · obtain ⟨t, ht, htd⟩ := h.content _ _ _ _ he
      exact ⟨t, by rw [h.split]; simp [ht], htd⟩
  | streamStart => exact other (by simp) (by simp)
  | done => exact absurd rfl hne
  | content h => exact other (by simp) (by simp)
  | blockSeq h ht => exact other (by simp) (by simp)
  | blockMap h ht => exact other (by simp) (by simp)
  | flowSeq h ht => exact other (by simp) (by simp)
  | flowMap h ht => exact other (by simp) (by simp)
  | pair h => exact other (by simp) (by simp)
  | @after _ _ f _ _ h =>
    refine other ?_ (by cases h <;> simp)
    match f with
    | [] => simp [GSt.after]
    | .seq :: _ => simp [GSt.after]
    | .mapK :: _ => simp [GSt.after]
    | .mapV :: _ => simp [GSt.after]

end Yaml
