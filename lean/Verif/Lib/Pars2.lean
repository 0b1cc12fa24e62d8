import Verif.Lib.Pars

/-
The functions of the parser, one by one.
-/

namespace Yaml
open Spec Parser
set_option linter.unusedSimpArgs false
set_option linter.unusedVariables false

/-- No panic. -/
abbrev NoP : PanicSite → Prop := fun _ => False
/-- Any error. -/
abbrev AnyE : Err → PState → Toks → Prop := fun _ _ _ => True

/-- Tokens without content. -/
structure Bare (c : List Token) : Prop where
  tags : tagsIn c = []
  anchors : anchorsIn c = []
  aliases : aliasesIn c = []
  scalars : scalarsIn c = []
  tagDirs : tagDirectivesIn c = []
  versions : versionsIn c = []

theorem Bare.nil : Bare [] := ⟨rfl, rfl, rfl, rfl, rfl, rfl⟩

/-- A token that says nothing by itself. -/
def structural : TokenData → Bool
  | .versionDirective _ _ => false
  | .tagDirective _ _ => false
  | .alias _ => false
  | .anchor _ => false
  | .tag _ _ => false
  | .scalar _ _ => false
  | _ => true

theorem Bare.cons {t : Token} {c : List Token} (ht : structural t.data = true) (h : Bare c) : Bare (t :: c) := by
  obtain ⟨h1, h2, h3, h4, h5, h6⟩ := h
  obtain ⟨d, m1, m2⟩ := t
  constructor <;> cases d <;> first | (simp [structural] at ht; done) | assumption

theorem Carries.bare {D : List TagDirective} {c : List Token} {ev : EventData} {t : Token} (ht : structural t.data = true)
    (hev : ∃ stk G, gstep (.inDoc stk) ev = some G) (h : Carries D c ev) : Carries D (t :: c) ev := by
  have e1 : tagsIn (t :: c) = tagsIn c := by
    obtain ⟨d, m1, m2⟩ := t
    cases d <;> first | (simp [structural] at ht; done) | rfl
  have e2 : anchorsIn (t :: c) = anchorsIn c := by
    obtain ⟨d, m1, m2⟩ := t
    cases d <;> first | (simp [structural] at ht; done) | rfl
  have e3 : aliasesIn (t :: c) = aliasesIn c := by
    obtain ⟨d, m1, m2⟩ := t
    cases d <;> first | (simp [structural] at ht; done) | rfl
  have e4 : scalarsIn (t :: c) = scalarsIn c := by
    obtain ⟨d, m1, m2⟩ := t
    cases d <;> first | (simp [structural] at ht; done) | rfl
  have e5 : tagDirectivesIn (t :: c) = tagDirectivesIn c := by
    obtain ⟨d, m1, m2⟩ := t
    cases d <;> first | (simp [structural] at ht; done) | rfl
  have e6 : versionsIn (t :: c) = versionsIn c := by
    obtain ⟨d, m1, m2⟩ := t
    cases d <;> first | (simp [structural] at ht; done) | rfl
  obtain ⟨stk, G, hev⟩ := hev
  cases ev <;> first | (simp [gstep] at hev; done) | (simp only [Carries, Plain, e1, e2, e3, e4, e5, e6] at h ⊢; exact h)

/-- An empty scalar says nothing. -/
theorem Carries.empty {D : List TagDirective} {c : List Token} {m : Mark} (h : Bare c) : Carries D c (emptyScalar m).data :=
  ⟨h.anchors, by rw [h.tags]; rfl, h.aliases, h.tagDirs, h.versions, Or.inr ⟨h.scalars, rfl, rfl, by simp, rfl⟩⟩

/-! ### Tags -/

theorem find_withDefaults (D : List TagDirective) (handle : Str) :
    ((withDefaults D).find? (fun d => d.handle == handle)).map (·.prefix_) = prefixOf D handle := by
  have add : ∀ (l : List TagDirective) (d : TagDirective),
      (addDir l d).find? (fun d => d.handle == handle) = (l ++ [d]).find? (fun d => d.handle == handle) := by
    intro l d
    unfold addDir
    split
    · rename_i h
      rw [List.find?_append]
      cases hf : l.find? (fun d => d.handle == handle) with
      | some x => rfl
      | none =>
        rw [List.find?_eq_none] at hf
        obtain ⟨e, he, hh⟩ := List.any_eq_true.1 h
        have := hf e he
        simp only [beq_iff_eq] at hh this
        simp [hh, this]
    · rfl
  unfold withDefaults prefixOf
  rw [add, List.find?_append, add, ← List.find?_append, List.append_assoc]
  have e : (fun d : TagDirective => d.handle == handle) = fun d => decide (d.handle = handle) := by
    funext d; exact Bool.beq_eq_decide_eq _ _
  rw [e]
  rfl

variable {D : List TagDirective} {p : PState} {fin : Out Token} {st pk : Bool} {toks : List Token}

/-- The tag and anchor properties of a node. -/
structure PropsOk (props : Props) (c : List Token) : Prop where
  anchors : anchorsIn c = props.anchor.toList
  tags : tagsIn c = (props.tag.map fun x => (x.1, x.2.1)).toList
  aliases : aliasesIn c = []
  scalars : scalarsIn c = []
  tagDirs : tagDirectivesIn c = []
  versions : versionsIn c = []
  ne : props.anchor.isSome || props.tag.isSome → c ≠ []

theorem wp_resolveTag {props : Props} {Q : Option Str → PState → Toks → Prop} {g : Toks} (hd : p.tagDirectives = withDefaults D)
    (hQ : ∀ tag, TagIs D (props.tag.map fun x => (x.1, x.2.1)).toList tag → (props.tag = none → tag = none) → Q tag p g) :
    M.wp stepL NoP AnyE (resolveTag props) Q p g := by
  unfold resolveTag
  cases ht : props.tag with
  | none => exact hQ none (by rw [ht]; rfl) (fun _ => rfl)
  | some x =>
    obtain ⟨handle, suffix, mark⟩ := x
    dsimp only
    rw [ht] at hQ
    by_cases he : handle.isEmpty = true
    · rw [if_pos he]
      have he : handle = [] := by simpa using he
      exact hQ (some suffix) (by simp [TagIs, he]) (by simp)
    · rw [if_neg he]
      have he' : ¬ handle = [] := by simpa using he
      pws
      rw [hd]
      have hf := find_withDefaults D handle
      cases hfd : (withDefaults D).find? (fun d => d.handle == handle) with
      | none => dsimp only; exact trivial
      | some d =>
        rw [hfd] at hf
        dsimp only
        refine hQ (some (d.prefix_ ++ suffix)) ?_ (by simp)
        simp only [Option.map_some, Option.toList_some, TagIs, if_neg he']
        exact ⟨d.prefix_, hf.symm, rfl⟩

theorem wp_nodeProperties {token : Token} {ts : List Token} {Q : Props → PState → Toks → Prop}
    (hQ : ∀ props c toks' pk', token :: ts = c ++ toks' → PropsOk props c → Q props p (lv toks' fin true pk')) :
    M.wp stepL NoP AnyE (nodeProperties token) Q p (lv (token :: ts) fin true true) := by
  unfold nodeProperties
  obtain ⟨d, m1, m2⟩ := token
  cases d with
  | anchor a =>
    dsimp only
    pws
    rw [wp_skip_lv (by simp)]
    refine wp_peek ?_ (fun _ _ => trivial)
    rintro ⟨d2, n1, n2⟩ ts2 rfl
    cases d2 with
    | tag handle suffix =>
      dsimp only
      pws
      rw [wp_skip_lv (by simp)]
      exact hQ _ [⟨.anchor a, m1, m2⟩, ⟨.tag handle suffix, n1, n2⟩] ts2 _ rfl ⟨rfl, rfl, rfl, rfl, rfl, rfl, by simp⟩
    | _ => exact hQ _ [⟨.anchor a, m1, m2⟩] _ _ rfl ⟨rfl, rfl, rfl, rfl, rfl, rfl, by simp⟩
  | tag handle suffix =>
    dsimp only
    pws
    rw [wp_skip_lv (by simp)]
    refine wp_peek ?_ (fun _ _ => trivial)
    rintro ⟨d2, n1, n2⟩ ts2 rfl
    cases d2 with
    | anchor a =>
      dsimp only
      pws
      rw [wp_skip_lv (by simp)]
      exact hQ _ [⟨.tag handle suffix, m1, m2⟩, ⟨.anchor a, n1, n2⟩] ts2 _ rfl ⟨rfl, rfl, rfl, rfl, rfl, rfl, by simp⟩
    | _ => exact hQ _ [⟨.tag handle suffix, m1, m2⟩] _ _ rfl ⟨rfl, rfl, rfl, rfl, rfl, rfl, by simp⟩
  | _ => exact hQ _ [] _ _ rfl ⟨rfl, rfl, rfl, rfl, rfl, rfl, by simp⟩

/-! ### Nodes -/

/-- What `parse_node` does. -/
structure NPost (f : List Coll) (D : List TagDirective) (ind : Bool) (p : PState) (toks : List Token) (ev : Event) (c : List Token)
    (G' : GSt) (p' : PState) (toks' : List Token) : Prop where
  step : gstep (.inDoc f) ev.data = some G'
  split : toks = c ++ toks'
  carries : Carries D c ev.data
  inside : G'.inside = true
  keep : dirsAfter D ev.data = D
  pos : At p'.state p'.states toks' G' p'.marks.length
  dirs : p'.tagDirectives = p.tagDirectives
  aliases : p'.aliases = p.aliases
  less : potential p' toks' ≤ 4 * toks.length + (if ind then 1 else 0) + (p.states.map rank).sum
  content : ∀ value pi qi style, ev.data = .scalar none none value pi qi style → ∃ t ∈ c, t.data = .scalar value style

theorem after_inside (f : List Coll) : (GSt.after f).inside = true := by
  match f with
  | [] => rfl
  | .seq :: _ => rfl
  | .mapK :: _ => rfl
  | .mapV :: _ => rfl

theorem after_keep {f : List Coll} {G' : GSt} {ev : EventData} (h : gstep (.inDoc f) ev = some G') :
    G'.inside = true ∧ dirsAfter D ev = D := by
  unfold gstep at h
  split at h <;> simp_all [after_inside, dirsAfter]
  all_goals first | (subst h; first | rfl | exact after_inside _)

theorem wp_nodeContent {block ind : Bool} {props : Props} {tag : Option Str} {f : List Coll} {m : Nat} {c : List Token}
    {toks0 : List Token} (hs : Stk p.states f m) (hm : p.marks.length = m) (hp : PropsOk props c)
    (htag : TagIs D (tagsIn c) tag) (hnone : props.tag = none → tag = none) (h0 : toks0 = c ++ toks) :
    M.wp stepL NoP AnyE (nodeContent block ind props tag)
      (fun ev p' g' => ∃ c' G' toks' pk', g' = lv toks' fin true pk' ∧ NPost f D ind p toks0 ev c' G' p' toks') p (lv toks fin st pk) := by
  unfold nodeContent
  pws
  refine wp_peek ?_ (fun _ _ => trivial)
  rintro ⟨d, m1, m2⟩ ts rfl
  obtain ⟨x, r, hr⟩ := hs.ne
  -- a collection that begins here
  have coll : ∀ (ev : Event) (G' : GSt) (x' : PSt), gstep (.inDoc f) ev.data = some G' → Carries D c ev.data →
      At x' p.states (⟨d, m1, m2⟩ :: ts) G' m → rank x' ≤ (if ind then 1 else 0) →
      (∀ value pi qi style, ev.data ≠ .scalar none none value pi qi style) →
      ∃ c' G' toks' pk', lv (⟨d, m1, m2⟩ :: ts) fin true true = lv toks' fin true pk' ∧
        NPost f D ind p toks0 ev c' G' { p with state := x' } toks' := by
    intro ev G' x' h1 h2 h3 h4 h5
    refine ⟨c, G', _, _, rfl, h1, h0, h2, (after_keep (D := D) h1).1, (after_keep h1).2, by rw [hm]; exact h3, rfl, rfl, ?_, fun _ _ _ _ h => absurd h (h5 _ _ _ _)⟩
    subst h0
    simp only [potential, List.length_append, List.length_cons]
    omega
  by_cases hi : (ind && (d == .blockEntry)) = true
  · rw [if_pos hi]
    pws
    simp only [Bool.and_eq_true, beq_iff_eq] at hi
    obtain ⟨rfl, rfl⟩ := hi
    exact coll _ (.inDoc (.seq :: f)) _ rfl ⟨hp.anchors, htag, hp.aliases, hp.tagDirs, hp.versions, hp.scalars, by simp⟩
      (At.after (.indentless hs)) (by simp [rank]) (by simp)
  rw [if_neg hi]
  -- an empty node with properties
  have empty : ∀ implicit, (props.anchor.isSome || tag.isSome) = true → (implicit = true ↔ tag = none ∨ tag = some []) →
      ∃ c' G' toks' pk', lv (⟨d, m1, m2⟩ :: ts) fin true true = lv toks' fin true pk' ∧
        NPost f D ind p toks0 ⟨.scalar props.anchor tag [] implicit false .plain, props.startMark, props.endMark⟩ c' G'
          { p with state := x, states := r } toks' := by
    intro implicit he himp
    have hne : c ≠ [] := by
      apply hp.ne
      cases ha : props.anchor.isSome with
      | true => rfl
      | false =>
        rw [ha, Bool.false_or] at he
        cases hpt : props.tag with
        | some _ => simp
        | none => rw [hnone hpt] at he; simp at he
    refine ⟨c, .after f, _, _, rfl, rfl, h0, ⟨hp.anchors, htag, hp.aliases, hp.tagDirs, hp.versions, Or.inr ⟨hp.scalars, rfl, rfl, himp, rfl⟩⟩,
      after_inside f, rfl, by rw [hr] at hs; rw [hm]; exact .after hs, rfl, rfl, ?_, ?_⟩
    rotate_left
    · intro v pi qi st h; simp only [EventData.scalar.injEq] at h; rw [h.1, h.2.1] at he; simp at he
    subst h0
    have := List.length_pos_iff.2 hne
    simp only [potential, List.length_append, List.length_cons, hr, List.map_cons, List.sum_cons]
    omega
  have rest : structural d = true ∨ True → M.wp stepL NoP AnyE
      (if (block && (d == .blockSequenceStart)) = true then do
        setState .blockSequenceFirstEntry
        pure ⟨.sequenceStart props.anchor tag (tag.isNone || tag == some []) .block, props.startMark, m2⟩
      else if (block && (d == .blockMappingStart)) = true then do
        setState .blockMappingFirstKey
        pure ⟨.mappingStart props.anchor tag (tag.isNone || tag == some []) .block, props.startMark, m2⟩
      else if (props.anchor.isSome || tag.isSome) = true then do
        popState
        pure ⟨.scalar props.anchor tag [] (tag.isNone || tag == some []) false .plain, props.startMark, props.endMark⟩
      else
        parserError (if block then "while parsing a block node" else "while parsing a flow node")
          props.startMark "did not find expected node content" m1 : Pars Event)
      (fun ev p' g' => ∃ c' G' toks' pk', g' = lv toks' fin true pk' ∧ NPost f D ind p toks0 ev c' G' p' toks') p
      (lv (⟨d, m1, m2⟩ :: ts) fin true true) := by
    intro _
    by_cases h1 : (block && (d == .blockSequenceStart)) = true
    · rw [if_pos h1]
      simp only [Bool.and_eq_true, beq_iff_eq] at h1
      pws
      exact coll _ (.inDoc (.seq :: f)) _ rfl ⟨hp.anchors, htag, hp.aliases, hp.tagDirs, hp.versions, hp.scalars, by simp⟩ (.blockSeq hs h1.2) (by simp [rank]) (by simp)
    rw [if_neg h1]
    by_cases h2 : (block && (d == .blockMappingStart)) = true
    · rw [if_pos h2]
      simp only [Bool.and_eq_true, beq_iff_eq] at h2
      pws
      exact coll _ (.inDoc (.mapK :: f)) _ rfl ⟨hp.anchors, htag, hp.aliases, hp.tagDirs, hp.versions, hp.scalars, by simp⟩ (.blockMap hs h2.2) (by simp [rank]) (by simp)
    rw [if_neg h2]
    by_cases h3 : (props.anchor.isSome || tag.isSome) = true
    · rw [if_pos h3]
      pws
      rw [wp_popState hr]
      exact empty _ h3 (by simp)
    · rw [if_neg h3]
      exact trivial
  cases d with
  | scalar value style =>
    dsimp only
    pws
    rw [wp_popState hr, wp_skip_lv (by simp)]
    refine ⟨c ++ [⟨.scalar value style, m1, m2⟩], .after f, ts, false, rfl, rfl, by simp [h0], ?_, after_inside f, rfl,
      by rw [hr] at hs; rw [hm]; exact .after hs, rfl, rfl, ?_, fun v _ _ st h => ⟨⟨.scalar value style, m1, m2⟩, by simp, by simp at h; simp [h]⟩⟩
    · refine ⟨?_, ?_, ?_, ?_, ?_, Or.inl ?_⟩
      · simp only [anchorsIn, List.filterMap_append]; simpa [anchorsIn] using hp.anchors
      · have : tagsIn (c ++ [⟨.scalar value style, m1, m2⟩]) = tagsIn c := by simp [tagsIn]
        rw [this]; exact htag
      · simpa [aliasesIn] using hp.aliases
      · simpa [tagDirectivesIn] using hp.tagDirs
      · simpa [versionsIn] using hp.versions
      · refine ⟨?_, by simp, ?_⟩
        · simp only [scalarsIn, List.filterMap_append]
          have := hp.scalars
          unfold scalarsIn at this
          rw [this]; rfl
        · cases tag <;> simp
    · subst h0
      simp only [potential, List.length_append, List.length_cons, hr, List.map_cons, List.sum_cons]
      omega
  | flowSequenceStart =>
    dsimp only
    pws
    exact coll _ (.inDoc (.seq :: f)) _ rfl ⟨hp.anchors, htag, hp.aliases, hp.tagDirs, hp.versions, hp.scalars, by simp⟩ (.flowSeq hs rfl) (by simp [rank]) (by simp)
  | flowMappingStart =>
    dsimp only
    pws
    exact coll _ (.inDoc (.mapK :: f)) _ rfl ⟨hp.anchors, htag, hp.aliases, hp.tagDirs, hp.versions, hp.scalars, by simp⟩ (.flowMap hs rfl) (by simp [rank]) (by simp)
  | _ => exact rest (Or.inr trivial)

theorem wp_parseNode {block ind : Bool} {f : List Coll} {m : Nat} (hs : Stk p.states f m) (hm : p.marks.length = m)
    (hd : p.tagDirectives = withDefaults D) :
    M.wp stepL NoP AnyE (parseNode block ind)
      (fun ev p' g' => ∃ c' G' toks' pk', g' = lv toks' fin true pk' ∧ NPost f D ind p toks ev c' G' p' toks') p (lv toks fin st pk) := by
  unfold parseNode
  pws
  refine wp_peek ?_ (fun _ _ => trivial)
  rintro ⟨d, m1, m2⟩ ts rfl
  have other : M.wp stepL NoP AnyE (do
      let props ← nodeProperties ⟨d, m1, m2⟩
      let tag ← resolveTag props
      nodeContent block ind props tag : Pars Event)
      (fun ev p' g' => ∃ c' G' toks' pk', g' = lv toks' fin true pk' ∧ NPost f D ind p (⟨d, m1, m2⟩ :: ts) ev c' G' p' toks') p
      (lv (⟨d, m1, m2⟩ :: ts) fin true true) := by
    pws
    refine wp_nodeProperties ?_
    intro props c toks' pk' h0 hp
    refine wp_resolveTag hd ?_
    intro tag ht hn
    exact wp_nodeContent hs hm hp (by rw [hp.tags]; exact ht) hn h0
  cases d with
  | alias value =>
    dsimp only
    pws
    obtain ⟨x, r, hr⟩ := hs.ne
    rw [wp_popState hr, wp_skip_lv (by simp)]
    refine ⟨[⟨.alias value, m1, m2⟩], .after f, ts, false, rfl, rfl, rfl, ⟨rfl, rfl, rfl, rfl, rfl, rfl⟩, after_inside f, rfl,
      by rw [hr] at hs; rw [hm]; exact .after hs, rfl, rfl, ?_, by simp⟩
    simp only [potential, List.length_cons, hr, List.map_cons, List.sum_cons]
    omega
  | _ => exact other

/-! ### Collections -/

/-- The result of a call: one event, no end of the stream. -/
def Res (G : GSt) (D : List TagDirective) (p : PState) (toks : List Token) (fin : Out Token) (ev : Event) (p' : PState) (g' : Toks) : Prop :=
  ∃ c G' toks' pk', g' = ⟨toks', fin, true, p'.state == .end_, pk', false⟩ ∧ PStep G D p toks ev c G' p' toks'

theorem At.notEnd {x : PSt} {r : List PSt} {ts : List Token} {G : GSt} {m : Nat} (h : At x r ts G m) (hi : G.inside = true) :
    (x == .end_) = false := by
  cases h with
  | done => simp [GSt.inside] at hi
  | after h => cases h <;> rfl
  | _ => rfl

/-- A node read after the tokens `pre`, with `x` pushed. -/
theorem NPost.res {f : List Coll} {ind : Bool} {G : GSt} {p1 p' : PState} {toks1 toks' : List Token} {ev : Event} {c pre : List Token} {G' : GSt}
    {pk' : Bool} (h : NPost f D ind p1 toks1 ev c G' p' toks') (hG : ∀ e G', gstep (.inDoc f) e = some G' → gstep G e = some G')
    (ht : toks = pre ++ toks1) (hpre : ∀ t ∈ pre, structural t.data = true)
    (hd : p1.tagDirectives = withDefaults D) (ha : p1.aliases = p.aliases)
    (hl : 4 * toks1.length + (if ind then 1 else 0) + (p1.states.map rank).sum < potential p toks) :
    Res G D p toks fin ev p' (lv toks' fin true pk') := by
  refine ⟨pre ++ c, G', toks', pk', ?_, hG _ _ h.step, by rw [ht, h.split, List.append_assoc], ?_, ⟨h.pos, ?_, ?_⟩, Nat.lt_of_le_of_lt h.less hl,
    h.aliases.trans ha⟩
  · rw [h.pos.notEnd h.inside]
  · clear ht hl
    induction pre with
    | nil => exact h.carries
    | cons t pre ih => exact Carries.bare (hpre t (by simp)) ⟨f, G', h.step⟩ (ih (fun t ht => hpre t (by simp [ht])))
  · rw [h.inside, if_pos rfl, h.keep, h.dirs, hd]
  · rw [h.inside]; simp

/-- An empty scalar after the tokens `pre`. -/
theorem empty_res {f : List Coll} {G G' : GSt} {p' : PState} {toks' pre : List Token} {mark : Mark} {pk' : Bool}
    (hG : gstep G (emptyScalar mark).data = some G') (hi : G'.inside = true)
    (ht : toks = pre ++ toks') (hpre : ∀ t ∈ pre, structural t.data = true) (hpos : At p'.state p'.states toks' G' p'.marks.length)
    (hd : p'.tagDirectives = withDefaults D) (ha : p'.aliases = p.aliases) (hl : potential p' toks' < potential p toks) :
    Res G D p toks fin (emptyScalar mark) p' (lv toks' fin true pk') := by
  refine ⟨pre, G', toks', pk', ?_, hG, ht, ?_, ⟨hpos, ?_, ?_⟩, hl, ha⟩
  · rw [hpos.notEnd hi]
  · refine Carries.empty ?_
    clear ht hl
    induction pre with
    | nil => exact Bare.nil
    | cons t pre ih => exact Bare.cons (hpre t (by simp)) (ih (fun t ht => hpre t (by simp [ht])))
  · rw [hi, if_pos rfl]; exact hd
  · rw [hi]; simp

/-- The end of a collection. -/
theorem wp_leave {G : GSt} {f : List Coll} {m : Nat} {data : EventData} {token : Token} {ts : List Token} {pre : List Token} {p1 : PState}
    (hG : gstep G data = some (.after f)) (hdat : data = .sequenceEnd ∨ data = .mappingEnd)
    (hs : Stk p1.states f m) (hm : p1.marks.length = m + 1) (ht : toks = pre ++ token :: ts)
    (hpre : ∀ t ∈ pre, structural t.data = true) (hst : structural token.data = true) (hne : token.data ≠ .streamEnd)
    (hd : p1.tagDirectives = withDefaults D) (ha : p1.aliases = p.aliases)
    (hl : (p1.states.map rank).sum ≤ rank p.state + (p.states.map rank).sum) :
    M.wp stepL NoP AnyE (leaveCollection data token) (Res G D p toks fin) p1 (lv (token :: ts) fin true true) := by
  unfold leaveCollection
  obtain ⟨x, r, hr⟩ := hs.ne
  pws
  rw [wp_popState hr]
  pws
  rw [wp_skip_lv hne]
  have hpos : At x r ts (.after f) (p1.marks.tail).length := by
    rw [List.length_tail, hm]
    rw [hr] at hs
    exact .after hs
  refine ⟨pre ++ [token], .after f, ts, false, ?_, hG, by simp [ht], ?_, ⟨hpos, ?_, ?_⟩, ?_, ha⟩
  · rw [hpos.notEnd (after_inside f)]
  · have : Bare (pre ++ [token]) := by
      clear ht hl
      induction pre with
      | nil => exact Bare.cons hst Bare.nil
      | cons t pre ih => exact Bare.cons (hpre t (by simp)) (ih (fun t ht => hpre t (by simp [ht])))
    rcases hdat with rfl | rfl
    · exact ⟨this.aliases, this.anchors, this.tags, this.tagDirs, this.versions, this.scalars⟩
    · exact ⟨this.aliases, this.anchors, this.tags, this.tagDirs, this.versions, this.scalars⟩
  · rw [after_inside, if_pos rfl]
    rcases hdat with rfl | rfl
    · exact hd
    · exact hd
  · rw [after_inside]; simp
  · have e := congrArg List.length ht
    simp only [List.length_append, List.length_cons] at e
    rw [hr] at hl
    simp only [List.map_cons, List.sum_cons] at hl
    simp only [potential]
    omega

theorem wp_enter {first : Bool} {Q : Unit → PState → Toks → Prop} {t : Token} {ts : List Token}
    (h1 : first = true → toks = t :: ts ∧ t.data ≠ .streamEnd ∧ Q () { p with marks := t.startMark :: p.marks } (lv ts fin true false))
    (h2 : first = false → Q () p (lv toks fin st pk)) : M.wp stepL NoP AnyE (enterCollection first) Q p (lv toks fin st pk) := by
  unfold enterCollection
  rw [M.wp_when]
  split
  · rename_i h
    obtain ⟨rfl, g1, g2⟩ := h1 h
    pws
    rw [wp_skip_lv g1]
    exact g2
  · rename_i h
    exact h2 (by simpa using h)

end Yaml
