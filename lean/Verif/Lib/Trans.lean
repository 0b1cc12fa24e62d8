import Verif.Lib.ParseTree3

/-
The converse of Lib/ParseTree: what one call of `parse` may do, as a table of transitions.
-/

namespace Yaml
open Spec Parser
set_option linter.unusedSimpArgs false
set_option linter.unusedVariables false

/-- What the tokens say. -/
abbrev dd (l : List Token) : List TokenData := l.map (·.data)

/-- A node begins: the stack, the tokens, the event, and the state, stack and tokens afterwards. -/
inductive NTr (D : List TagDirective) (b i : Bool) : List PSt → List TokenData → EventData → PSt → List PSt → List TokenData → Prop
  | alias {x : PSt} {r : List PSt} {l : List TokenData} (n : Str) : NTr D b i (x :: r) (.alias n :: l) (.alias n) x r l
  | scalar {x : PSt} {r : List PSt} {ps l : List TokenData} {a t : Option Str} (hp : IsProps D ps a t) (v : Str) (s : ScalarStyle) :
      NTr D b i (x :: r) (ps ++ .scalar v s :: l) (scalarEvent a t v s) x r l
  | bare {x : PSt} {r : List PSt} {ps l : List TokenData} {a t : Option Str} (hp : IsProps D ps a t) (hne : ps ≠ []) :
      NTr D b i (x :: r) (ps ++ l) (.scalar a t [] (untagged t) false .plain) x r l
  | blockSeq {r : List PSt} {ps l : List TokenData} {a t : Option Str} (hp : IsProps D ps a t) (hb : b = true) :
      NTr D b i r (ps ++ .blockSequenceStart :: l) (.sequenceStart a t (untagged t) .block) .blockSequenceFirstEntry r (.blockSequenceStart :: l)
  | blockMap {r : List PSt} {ps l : List TokenData} {a t : Option Str} (hp : IsProps D ps a t) (hb : b = true) :
      NTr D b i r (ps ++ .blockMappingStart :: l) (.mappingStart a t (untagged t) .block) .blockMappingFirstKey r (.blockMappingStart :: l)
  | flowSeq {r : List PSt} {ps l : List TokenData} {a t : Option Str} (hp : IsProps D ps a t) :
      NTr D b i r (ps ++ .flowSequenceStart :: l) (.sequenceStart a t (untagged t) .flow) .flowSequenceFirstEntry r (.flowSequenceStart :: l)
  | flowMap {r : List PSt} {ps l : List TokenData} {a t : Option Str} (hp : IsProps D ps a t) :
      NTr D b i r (ps ++ .flowMappingStart :: l) (.mappingStart a t (untagged t) .flow) .flowMappingFirstKey r (.flowMappingStart :: l)
  | indentless {r : List PSt} {ps l : List TokenData} {a t : Option Str} (hp : IsProps D ps a t) (hi : i = true) :
      NTr D b i r (ps ++ .blockEntry :: l) (.sequenceStart a t (untagged t) .block) .indentlessSequenceEntry r (.blockEntry :: l)

/-- An item of a flow sequence begins, or the sequence ends. -/
inductive FSTr (D : List TagDirective) : List PSt → List TokenData → EventData → PSt → List PSt → List TokenData → Prop
  | pair {r : List PSt} {l : List TokenData} : FSTr D r (.key :: l) (.mappingStart none none true .flow) .flowSequenceEntryMappingKey r l
  | close {x : PSt} {r : List PSt} {l : List TokenData} : FSTr D (x :: r) (.flowSequenceEnd :: l) .sequenceEnd x r l
  | node {r r' : List PSt} {l l' : List TokenData} {ev : EventData} {x' : PSt} (h : NTr D false false (.flowSequenceEntry :: r) l ev x' r' l') :
      FSTr D r l ev x' r' l'

/-- An entry of a flow mapping begins, or the mapping ends. -/
inductive FMTr (D : List TagDirective) : List PSt → List TokenData → EventData → PSt → List PSt → List TokenData → Prop
  | keyEmpty {r : List PSt} {l : List TokenData} : FMTr D r (.key :: l) emptyNode .flowMappingValue r l
  | key {r r' : List PSt} {l l' : List TokenData} {ev : EventData} {x' : PSt} (h : NTr D false false (.flowMappingValue :: r) l ev x' r' l') :
      FMTr D r (.key :: l) ev x' r' l'
  | close {x : PSt} {r : List PSt} {l : List TokenData} : FMTr D (x :: r) (.flowMappingEnd :: l) .mappingEnd x r l
  | node {r r' : List PSt} {l l' : List TokenData} {ev : EventData} {x' : PSt} (h : NTr D false false (.flowMappingEmptyValue :: r) l ev x' r' l') :
      FMTr D r l ev x' r' l'

/-- One call of `parse`. -/
inductive Tr (D : List TagDirective) : PSt → List PSt → List TokenData → EventData → PSt → List PSt → List TokenData → Prop
  | streamStart {r : List PSt} {l : List TokenData} (e : Encoding) :
      Tr D .streamStart r (.streamStart e :: l) (.streamStart e) .implicitDocumentStart r l
  | docImplicit {r : List PSt} {l : List TokenData} : Tr D .implicitDocumentStart r l (.documentStart none [] true) .blockNode (.documentEnd :: r) l
  | docStart {x : PSt} {r : List PSt} {c ds l : List TokenData} {v : Option VersionDirective} {tags : List TagDirective}
      (hx : x = .implicitDocumentStart ∧ c = [] ∨ x = .documentStart) (hc : ∀ d ∈ c, d = .documentEnd) (hd : IsDirectives ds v tags) :
      Tr D x r (c ++ (ds ++ .documentStart :: l)) (.documentStart v tags false) .documentContent (.documentEnd :: r) l
  | streamEnd {x : PSt} {r : List PSt} {c l : List TokenData} (hx : x = .implicitDocumentStart ∧ c = [] ∨ x = .documentStart)
      (hc : ∀ d ∈ c, d = .documentEnd) : Tr D x r (c ++ .streamEnd :: l) .streamEnd .end_ r l
  | contentEmpty {x : PSt} {r : List PSt} {l : List TokenData} : Tr D .documentContent (x :: r) l emptyNode x r l
  | content {r r' : List PSt} {l l' : List TokenData} {ev : EventData} {x' : PSt} (h : NTr D true false r l ev x' r' l') :
      Tr D .documentContent r l ev x' r' l'
  | blockNode {r r' : List PSt} {l l' : List TokenData} {ev : EventData} {x' : PSt} (h : NTr D true false r l ev x' r' l') :
      Tr D .blockNode r l ev x' r' l'
  | docEnd {r : List PSt} {l : List TokenData} (h : l.head? ≠ some .documentEnd) : Tr D .documentEnd r l (.documentEnd true) .documentStart r l
  | docEndX {r : List PSt} {l : List TokenData} : Tr D .documentEnd r (.documentEnd :: l) (.documentEnd false) .documentStart r l
  | enterSeq {r r' : List PSt} {l l' : List TokenData} {ev : EventData} {x' : PSt} (h : Tr D .blockSequenceEntry r l ev x' r' l') :
      Tr D .blockSequenceFirstEntry r (.blockSequenceStart :: l) ev x' r' l'
  | itemEmpty {r : List PSt} {l : List TokenData} : Tr D .blockSequenceEntry r (.blockEntry :: l) emptyNode .blockSequenceEntry r l
  | item {r r' : List PSt} {l l' : List TokenData} {ev : EventData} {x' : PSt} (h : NTr D true false (.blockSequenceEntry :: r) l ev x' r' l') :
      Tr D .blockSequenceEntry r (.blockEntry :: l) ev x' r' l'
  | seqEnd {x : PSt} {r : List PSt} {l : List TokenData} : Tr D .blockSequenceEntry (x :: r) (.blockEnd :: l) .sequenceEnd x r l
  | indEmpty {r : List PSt} {l : List TokenData} : Tr D .indentlessSequenceEntry r (.blockEntry :: l) emptyNode .indentlessSequenceEntry r l
  | ind {r r' : List PSt} {l l' : List TokenData} {ev : EventData} {x' : PSt} (h : NTr D true false (.indentlessSequenceEntry :: r) l ev x' r' l') :
      Tr D .indentlessSequenceEntry r (.blockEntry :: l) ev x' r' l'
  | indEnd {x : PSt} {r : List PSt} {l : List TokenData} (h : l.head? ≠ some .blockEntry) : Tr D .indentlessSequenceEntry (x :: r) l .sequenceEnd x r l
  | enterMap {r r' : List PSt} {l l' : List TokenData} {ev : EventData} {x' : PSt} (h : Tr D .blockMappingKey r l ev x' r' l') :
      Tr D .blockMappingFirstKey r (.blockMappingStart :: l) ev x' r' l'
  | keyEmpty {r : List PSt} {l : List TokenData} : Tr D .blockMappingKey r (.key :: l) emptyNode .blockMappingValue r l
  | key {r r' : List PSt} {l l' : List TokenData} {ev : EventData} {x' : PSt} (h : NTr D true true (.blockMappingValue :: r) l ev x' r' l') :
      Tr D .blockMappingKey r (.key :: l) ev x' r' l'
  | mapEnd {x : PSt} {r : List PSt} {l : List TokenData} : Tr D .blockMappingKey (x :: r) (.blockEnd :: l) .mappingEnd x r l
  | valueEmpty {r : List PSt} {l : List TokenData} : Tr D .blockMappingValue r (.value :: l) emptyNode .blockMappingKey r l
  | value {r r' : List PSt} {l l' : List TokenData} {ev : EventData} {x' : PSt} (h : NTr D true true (.blockMappingKey :: r) l ev x' r' l') :
      Tr D .blockMappingValue r (.value :: l) ev x' r' l'
  | noValue {r : List PSt} {l : List TokenData} : Tr D .blockMappingValue r l emptyNode .blockMappingKey r l
  | enterFlowSeq {r r' : List PSt} {l l' : List TokenData} {ev : EventData} {x' : PSt} (h : FSTr D r l ev x' r' l') :
      Tr D .flowSequenceFirstEntry r (.flowSequenceStart :: l) ev x' r' l'
  | flowSeqMore {r r' : List PSt} {l l' : List TokenData} {ev : EventData} {x' : PSt} (h : FSTr D r l ev x' r' l') :
      Tr D .flowSequenceEntry r (.flowEntry :: l) ev x' r' l'
  | flowSeqEnd {x : PSt} {r : List PSt} {l : List TokenData} : Tr D .flowSequenceEntry (x :: r) (.flowSequenceEnd :: l) .sequenceEnd x r l
  | pairLax {r : List PSt} {l : List TokenData} {d : TokenData} (hd : d = .value ∨ d = .flowEntry ∨ d = .flowSequenceEnd) :
      Tr D .flowSequenceEntryMappingKey r (d :: l) emptyNode .flowSequenceEntryMappingValue r l
  | pairKey {r r' : List PSt} {l l' : List TokenData} {ev : EventData} {x' : PSt}
      (h : NTr D false false (.flowSequenceEntryMappingValue :: r) l ev x' r' l') : Tr D .flowSequenceEntryMappingKey r l ev x' r' l'
  | pairValueEmpty {r : List PSt} {l : List TokenData} :
      Tr D .flowSequenceEntryMappingValue r (.value :: l) emptyNode .flowSequenceEntryMappingEnd r l
  | pairValue {r r' : List PSt} {l l' : List TokenData} {ev : EventData} {x' : PSt}
      (h : NTr D false false (.flowSequenceEntryMappingEnd :: r) l ev x' r' l') : Tr D .flowSequenceEntryMappingValue r (.value :: l) ev x' r' l'
  | pairNoValue {r : List PSt} {l : List TokenData} : Tr D .flowSequenceEntryMappingValue r l emptyNode .flowSequenceEntryMappingEnd r l
  | pairEnd {r : List PSt} {l : List TokenData} : Tr D .flowSequenceEntryMappingEnd r l .mappingEnd .flowSequenceEntry r l
  | enterFlowMap {r r' : List PSt} {l l' : List TokenData} {ev : EventData} {x' : PSt} (h : FMTr D r l ev x' r' l') :
      Tr D .flowMappingFirstKey r (.flowMappingStart :: l) ev x' r' l'
  | flowMapMore {r r' : List PSt} {l l' : List TokenData} {ev : EventData} {x' : PSt} (h : FMTr D r l ev x' r' l') :
      Tr D .flowMappingKey r (.flowEntry :: l) ev x' r' l'
  | flowMapEnd {x : PSt} {r : List PSt} {l : List TokenData} : Tr D .flowMappingKey (x :: r) (.flowMappingEnd :: l) .mappingEnd x r l
  | flowValueEmpty {r : List PSt} {l : List TokenData} : Tr D .flowMappingValue r (.value :: l) emptyNode .flowMappingKey r l
  | flowValue {r r' : List PSt} {l l' : List TokenData} {ev : EventData} {x' : PSt}
      (h : NTr D false false (.flowMappingKey :: r) l ev x' r' l') : Tr D .flowMappingValue r (.value :: l) ev x' r' l'
  | flowNoValue {r : List PSt} {l : List TokenData} : Tr D .flowMappingValue r l emptyNode .flowMappingKey r l
  | flowEmptyValue {r : List PSt} {l : List TokenData} : Tr D .flowMappingEmptyValue r l emptyNode .flowMappingKey r l

section
variable {D : List TagDirective} {p : PState} {fin : Out Token} {st pk : Bool} {toks : List Token} {b i : Bool}

theorem wpA_popState {Q : Unit → PState → Toks → Prop} {g : Toks} (h : ∀ x r, p.states = x :: r → Q () { p with state := x, states := r } g) :
    wpA popState Q p g := by
  cases hs : p.states with
  | nil =>
    unfold wpA popState
    rw [M.wp_bind, M.wp_get]
    simp only [hs]
    exact trivial
  | cons x r => exact (wp_popState hs).2 (h x r hs)

theorem wpA_popMark {Q : Mark → PState → Toks → Prop} {g : Toks} (h : ∀ m p', Q m p' g) : wpA popMark Q p g := by
  cases hs : p.marks with
  | nil =>
    unfold wpA popMark
    rw [M.wp_bind, M.wp_get]
    simp only [hs]
    exact trivial
  | cons x r => exact (wp_popMark hs).2 (h x _)

theorem wpA_resolveTag {props : Props} {Q : Option Str → PState → Toks → Prop} {g : Toks} (hd : p.tagDirectives = withDefaults D)
    (hQ : ∀ tag, TagIs D (props.tag.map fun x => (x.1, x.2.1)).toList tag → Q tag p g) : wpA (resolveTag props) Q p g := by
  refine Free.wp_mono stepL_mono ?_ (wp_resolveTag (D := D) hd (Q := Q) (g := g) (props := props) fun tag h _ => hQ tag h)
  rintro ⟨o, s'⟩ b' h
  cases o with
  | ok a => exact h
  | err e => exact h
  | panic p => trivial
  | fuel => exact h

/-- The tokens of the properties. -/
def PropsRel (props : Props) (ps : List TokenData) : Prop :=
  ∀ D tag, TagIs D (props.tag.map fun x => (x.1, x.2.1)).toList tag → IsProps D ps props.anchor tag

theorem wpA_nodeProperties {token : Token} {ts : List Token} {Q : Props → PState → Toks → Prop}
    (hQ : ∀ props ps toks' pk', token.data :: dd ts = ps ++ dd toks' → PropsRel props ps → Q props p (lv toks' fin true pk')) :
    wpA (nodeProperties token) Q p (lv (token :: ts) fin true true) := by
  unfold nodeProperties
  obtain ⟨d, m1, m2⟩ := token
  cases d with
  | anchor a =>
    dsimp only
    pws
    rw [wp_skip_lv (by simp)]
    refine wp_peek ?_ (fun _ _ => trivial)
    rintro ⟨d2, n1, n2⟩ ts2 rfl
    cases d2 with
    | tag handle suffix =>
      dsimp only
      pws
      rw [wp_skip_lv (by simp)]
      exact hQ _ [.anchor a, .tag handle suffix] ts2 _ rfl (fun D tag h => .anchorTag a h)
    | _ => exact hQ _ [.anchor a] _ _ rfl (fun D tag h => by have h : tag = none := h; subst h; exact .anchor a)
  | tag handle suffix =>
    dsimp only
    pws
    rw [wp_skip_lv (by simp)]
    refine wp_peek ?_ (fun _ _ => trivial)
    rintro ⟨d2, n1, n2⟩ ts2 rfl
    cases d2 with
    | anchor a =>
      dsimp only
      pws
      rw [wp_skip_lv (by simp)]
      exact hQ _ [.tag handle suffix, .anchor a] ts2 _ rfl (fun D tag h => .tagAnchor a h)
    | _ => exact hQ _ [.tag handle suffix] _ _ rfl (fun D tag h => .tag h)
  | _ => exact hQ _ [] _ _ rfl (fun D tag h => by have h : tag = none := h; subst h; exact .none)

/-- The result of reading a node. -/
abbrev NodeRes (D : List TagDirective) (b i : Bool) (r : List PSt) (l : List TokenData) : Event → PState → Toks → Prop :=
  fun ev p' g' => NTr D b i r l ev.data p'.state p'.states (dd g'.toks)

theorem wpA_nodeContent {props : Props} {ps l0 : List TokenData} {tag : Option Str} (hp : IsProps D ps props.anchor tag) (h0 : l0 = ps ++ dd toks) :
    wpA (nodeContent b i props tag) (NodeRes D b i p.states l0) p (lv toks fin st pk) := by
  unfold nodeContent
  pws
  refine wp_peek ?_ (fun _ _ => trivial)
  rintro ⟨d, m1, m2⟩ ts rfl
  subst h0
  by_cases hi : (i && (d == .blockEntry)) = true
  · rw [if_pos hi]
    pws
    simp only [Bool.and_eq_true, beq_iff_eq] at hi
    obtain ⟨rfl, rfl⟩ := hi
    rw [untagged_eq]
    exact .indentless hp rfl
  rw [if_neg hi]
  have rest : wpA
      (if (b && (d == .blockSequenceStart)) = true then do
        setState .blockSequenceFirstEntry
        pure ⟨.sequenceStart props.anchor tag (tag.isNone || tag == some []) .block, props.startMark, m2⟩
      else if (b && (d == .blockMappingStart)) = true then do
        setState .blockMappingFirstKey
        pure ⟨.mappingStart props.anchor tag (tag.isNone || tag == some []) .block, props.startMark, m2⟩
      else if (props.anchor.isSome || tag.isSome) = true then do
        popState
        pure ⟨.scalar props.anchor tag [] (tag.isNone || tag == some []) false .plain, props.startMark, props.endMark⟩
      else
        parserError (if b then "while parsing a block node" else "while parsing a flow node")
          props.startMark "did not find expected node content" m1 : Pars Event)
      (NodeRes D b i p.states (ps ++ dd (⟨d, m1, m2⟩ :: ts))) p
      (lv (⟨d, m1, m2⟩ :: ts) fin true true) := by
    rw [untagged_eq]
    by_cases h1 : (b && (d == .blockSequenceStart)) = true
    · rw [if_pos h1]
      simp only [Bool.and_eq_true, beq_iff_eq] at h1
      obtain ⟨rfl, rfl⟩ := h1
      pws
      exact .blockSeq hp rfl
    rw [if_neg h1]
    by_cases h2 : (b && (d == .blockMappingStart)) = true
    · rw [if_pos h2]
      simp only [Bool.and_eq_true, beq_iff_eq] at h2
      obtain ⟨rfl, rfl⟩ := h2
      pws
      exact .blockMap hp rfl
    rw [if_neg h2]
    by_cases h3 : (props.anchor.isSome || tag.isSome) = true
    · rw [if_pos h3]
      pws
      refine wpA_popState fun x r hr => ?_
      show NTr D b i p.states _ _ x r _
      rw [hr]
      refine .bare hp ?_
      rintro rfl
      generalize props.anchor = a at hp h3
      cases hp
      simp at h3
    · rw [if_neg h3]
      exact trivial
  cases d with
  | scalar value style =>
    dsimp only
    pws
    refine wpA_popState fun x r hr => ?_
    rw [wp_skip_lv (by simp)]
    show NTr D b i p.states _ _ x r _
    rw [hr]
    have e : EventData.scalar props.anchor tag value (style == ScalarStyle.plain && tag.isNone || tag == some ['!'])
      (!(style == ScalarStyle.plain && tag.isNone || tag == some ['!']) && tag.isNone) style = scalarEvent props.anchor tag value style := by
      unfold scalarEvent
      congr 1
      · cases tag <;> cases style <;> simp [Bool.beq_eq_decide_eq]
      · cases tag <;> cases style <;> simp
    show NTr D b i (x :: r) _ (EventData.scalar props.anchor tag value (style == ScalarStyle.plain && tag.isNone || tag == some ['!'])
      (!(style == ScalarStyle.plain && tag.isNone || tag == some ['!']) && tag.isNone) style) x r _
    rw [e]
    exact .scalar hp value style
  | flowSequenceStart =>
    dsimp only
    pws
    rw [untagged_eq]
    exact .flowSeq hp
  | flowMappingStart =>
    dsimp only
    pws
    rw [untagged_eq]
    exact .flowMap hp
  | _ => exact rest

theorem wpA_parseNode (hd : p.tagDirectives = withDefaults D) :
    wpA (parseNode b i) (NodeRes D b i p.states (dd toks)) p (lv toks fin st pk) := by
  unfold parseNode
  pws
  refine wp_peek ?_ (fun _ _ => trivial)
  rintro ⟨d, m1, m2⟩ ts rfl
  have other : wpA (do
      let props ← nodeProperties ⟨d, m1, m2⟩
      let tag ← resolveTag props
      nodeContent b i props tag : Pars Event)
      (NodeRes D b i p.states (dd (⟨d, m1, m2⟩ :: ts))) p (lv (⟨d, m1, m2⟩ :: ts) fin true true) := by
    unfold wpA
    pws
    refine wpA_nodeProperties ?_
    intro props ps toks' pk' h0 hp
    refine wpA_resolveTag hd ?_
    intro tag ht
    exact wpA_nodeContent (hp D tag ht) h0
  cases d with
  | alias value =>
    dsimp only
    pws
    refine wpA_popState fun x r hr => ?_
    rw [wp_skip_lv (by simp)]
    show NTr D b i p.states _ _ x r _
    rw [hr]
    exact .alias value
  | _ => exact other

end

end Yaml
