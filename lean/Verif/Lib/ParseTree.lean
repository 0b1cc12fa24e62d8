import Verif.Lib.ParsRun
import Verif.Spec.TokenGrammar

/-
Tokens that derive from the grammar are parsed to the events they stand for.
-/

namespace Yaml
open Spec Parser
set_option linter.unusedSimpArgs false
set_option linter.unusedVariables false

/-- No error. -/
abbrev NoE : Err → PState → Toks → Prop := fun _ _ _ => False

section
variable {fin : Out Token} {F : Nat}

/-- The method yields the event `ev` and goes from the stack `r`, directives `D` and tokens `l` to the
state `x'` etc. -/
def Does (fin : Out Token) (m : Pars Event) (r : List PSt) (D : List TagDirective) (l : List Token) (ev : EventData) (x' : PSt) (r' : List PSt)
    (D' : List TagDirective) (l' : List Token) : Prop :=
  ∀ p st pk, p.states = r → p.tagDirectives = D →
    M.wp stepL NoP NoE m (fun e p' g' => e.data = ev ∧ p'.state = x' ∧ p'.states = r' ∧ p'.tagDirectives = D' ∧
      ∃ pk', g' = ⟨l', fin, true, x' == .end_, pk', false⟩) p (lv l fin st pk)

/-- Successive calls of `parse`. -/
inductive Calls (F : Nat) (fin : Out Token) : PSt → List PSt → List TagDirective → List Token → List EventData →
    PSt → List PSt → List TagDirective → List Token → Prop
  | nil {x : PSt} {r : List PSt} {D : List TagDirective} {l : List Token} : Calls F fin x r D l [] x r D l
  | cons {x x1 x2 : PSt} {r r1 r2 : List PSt} {D D1 D2 : List TagDirective} {l l1 l2 : List Token} {ev : EventData} {evs : List EventData}
      (hx : x ≠ .end_) (h : Does fin (stateMachine F x) r D l ev x1 r1 D1 l1) (hs : Calls F fin x1 r1 D1 l1 evs x2 r2 D2 l2) :
      Calls F fin x r D l (ev :: evs) x2 r2 D2 l2

theorem Calls.trans {x x1 x2 : PSt} {r r1 r2 : List PSt} {D D1 D2 : List TagDirective} {l l1 l2 : List Token} {es fs : List EventData}
    (h : Calls F fin x r D l es x1 r1 D1 l1) (h' : Calls F fin x1 r1 D1 l1 fs x2 r2 D2 l2) : Calls F fin x r D l (es ++ fs) x2 r2 D2 l2 := by
  induction h with
  | nil => exact h'
  | cons hx h hs ih => exact .cons hx h (ih h')

/-- A method followed by calls of `parse` yields the events. -/
def Begins (F : Nat) (fin : Out Token) (m : Pars Event) (r : List PSt) (D : List TagDirective) (l : List Token) (es : List EventData)
    (x' : PSt) (r' : List PSt) (D' : List TagDirective) (l' : List Token) : Prop :=
  ∃ ev evs x1 r1 D1 l1, es = ev :: evs ∧ Does fin m r D l ev x1 r1 D1 l1 ∧ Calls F fin x1 r1 D1 l1 evs x' r' D' l'

theorem Begins.calls {x x' : PSt} {r r' : List PSt} {D D' : List TagDirective} {l l' : List Token} {es : List EventData}
    (h : Begins F fin (stateMachine F x) r D l es x' r' D' l') (hx : x ≠ .end_) : Calls F fin x r D l es x' r' D' l' := by
  obtain ⟨ev, evs, x1, r1, D1, l1, rfl, h1, h2⟩ := h
  exact .cons hx h1 h2

theorem Begins.then {m : Pars Event} {x x' : PSt} {r r' r1 : List PSt} {D D' D1 : List TagDirective} {l l' l1 : List Token} {es fs : List EventData}
    (h : Begins F fin m r D l es x r1 D1 l1) (h' : Calls F fin x r1 D1 l1 fs x' r' D' l') : Begins F fin m r D l (es ++ fs) x' r' D' l' := by
  obtain ⟨ev, evs, x1, r2, D2, l2, rfl, h1, h2⟩ := h
  exact ⟨ev, evs ++ fs, x1, r2, D2, l2, rfl, h1, h2.trans h'⟩

/-- One event. -/
theorem Does.begins {m : Pars Event} {x' : PSt} {r r' : List PSt} {D D' : List TagDirective} {l l' : List Token} {ev : EventData}
    (h : Does fin m r D l ev x' r' D' l') : Begins F fin m r D l [ev] x' r' D' l' :=
  ⟨ev, [], _, _, _, _, rfl, h, .nil⟩

/-- What `m` does, `n` does from elsewhere. -/
theorem Begins.via {m n : Pars Event} {x' : PSt} {r r' r0 : List PSt} {D D' D0 : List TagDirective} {l l' l0 : List Token} {es : List EventData}
    (h : Begins F fin m r D l es x' r' D' l') (hm : ∀ ev x1 r1 D1 l1, Does fin m r D l ev x1 r1 D1 l1 → Does fin n r0 D0 l0 ev x1 r1 D1 l1) :
    Begins F fin n r0 D0 l0 es x' r' D' l' := by
  obtain ⟨ev, evs, x1, r1, D1, l1, rfl, h1, h2⟩ := h
  exact ⟨ev, evs, x1, r1, D1, l1, rfl, hm _ _ _ _ _ h1, h2⟩

/-! ### Nodes -/

/-- What may follow a node: not the beginning of content. -/
def follows (indentless : Bool) : TokenData → Bool
  | .key => true
  | .value => true
  | .blockEnd => true
  | .blockEntry => !indentless
  | .flowEntry => !indentless
  | .flowSequenceEnd => !indentless
  | .flowMappingEnd => !indentless
  | .versionDirective _ _ => !indentless
  | .tagDirective _ _ => !indentless
  | .documentStart => !indentless
  | .documentEnd => !indentless
  | .streamEnd => !indentless
  | _ => false

/-- What a node may begin with. -/
def starts : TokenData → Bool
  | .alias _ => true
  | .anchor _ => true
  | .tag _ _ => true
  | .scalar _ _ => true
  | .flowSequenceStart => true
  | .flowMappingStart => true
  | .blockSequenceStart => true
  | .blockMappingStart => true
  | _ => false

theorem resolve {D : List TagDirective} {props : Props} {p : PState} {g : Toks} {Q : Option Str → PState → Toks → Prop} {tag : Option Str}
    (hd : p.tagDirectives = withDefaults D) (ht : TagIs D (props.tag.map fun x => (x.1, x.2.1)).toList tag) (hQ : Q tag p g) :
    M.wp stepL NoP NoE (resolveTag props) Q p g := by
  unfold resolveTag
  cases hp : props.tag with
  | none =>
    rw [hp] at ht
    have ht : tag = none := ht
    subst ht; exact hQ
  | some x =>
    obtain ⟨handle, suffix, mark⟩ := x
    dsimp only
    rw [hp] at ht
    simp only [Option.map_some, Option.toList_some, TagIs] at ht
    by_cases he : handle.isEmpty = true
    · rw [if_pos he]
      have he : handle = [] := by simpa using he
      rw [if_pos he] at ht
      subst ht; exact hQ
    · rw [if_neg he]
      have he' : ¬ handle = [] := by simpa using he
      rw [if_neg he'] at ht
      obtain ⟨pre, h1, rfl⟩ := ht
      pws
      rw [hd]
      have hf := find_withDefaults D handle
      rw [h1] at hf
      cases hfd : (withDefaults D).find? (fun d => d.handle == handle) with
      | none => rw [hfd] at hf; simp at hf
      | some d =>
        rw [hfd] at hf
        simp at hf
        subst hf
        exact hQ

/-- The properties and what follows them. -/
theorem begin_node {D : List TagDirective} {b i : Bool} {ps : List TokenData} {anchor tag : Option Str} (hp : IsProps D ps anchor tag)
    {lp : List Token} {t : Token} {l : List Token} (hl : lp.map (·.data) = ps) {r : List PSt} {ev : EventData} {x1 : PSt} {r1 : List PSt} {l1 : List Token}
    (ht1 : (∀ a, t.data ≠ .anchor a) ∧ (∀ h s, t.data ≠ .tag h s) ∧ ∀ a, t.data ≠ .alias a)
    (h : ∀ props : Props, props.anchor = anchor → Does fin (nodeContent b i props tag) r (withDefaults D) (t :: l) ev x1 r1 (withDefaults D) l1) :
    Does fin (parseNode b i) r (withDefaults D) (lp ++ t :: l) ev x1 r1 (withDefaults D) l1 := by
  intro p st pk hr hd
  unfold parseNode
  obtain ⟨td, m1, m2⟩ := t
  obtain ⟨ha, htg, hal⟩ := ht1
  simp only at ha htg hal
  cases hp with
  | none =>
    have : lp = [] := List.map_eq_nil_iff.1 hl
    subst this
    simp only [List.nil_append]
    pws
    have key : M.wp stepL NoP NoE (do
        let props ← nodeProperties ⟨td, m1, m2⟩
        let tag ← resolveTag props
        nodeContent b i props tag : Pars Event) (fun e p' g' => e.data = ev ∧ p'.state = x1 ∧ p'.states = r1 ∧ p'.tagDirectives = withDefaults D ∧
      ∃ pk', g' = ⟨l1, fin, true, x1 == .end_, pk', false⟩) p (lv (⟨td, m1, m2⟩ :: l) fin true true) := by
      pws
      have : nodeProperties ⟨td, m1, m2⟩ = pure ⟨none, none, m1, m1⟩ := by
        unfold nodeProperties
        cases td with
        | anchor a => exact absurd rfl (ha a)
        | tag a b => exact absurd rfl (htg a b)
        | _ => rfl
      rw [this]
      pws
      refine resolve hd (by rfl) ?_
      exact h ⟨none, none, m1, m1⟩ rfl p _ _ hr hd
    cases td with
    | alias a => exact absurd rfl (hal a)
    | _ => first | exact key | (simp only [M.wp_bind] at key; exact key)
  | anchor a =>
    obtain ⟨t1, rfl, h1⟩ := List.map_eq_singleton_iff.1 hl
    obtain ⟨d1, n1, n2⟩ := t1
    simp only at h1; subst h1
    simp only [List.cons_append, List.nil_append]
    pws
    unfold nodeProperties
    pws
    rw [wp_skip_lv (by simp)]
    pws
    have key : ∀ props : Props, props.anchor = some a → props.tag = none → M.wp stepL NoP NoE (do
        let tag ← resolveTag props
        nodeContent b i props tag : Pars Event) (fun e p' g' => e.data = ev ∧ p'.state = x1 ∧ p'.states = r1 ∧ p'.tagDirectives = withDefaults D ∧
      ∃ pk', g' = ⟨l1, fin, true, x1 == .end_, pk', false⟩) p (lv (⟨td, m1, m2⟩ :: l) fin true true) := by
      intro props hpa hpt
      pws
      refine resolve hd (by rw [hpt]; rfl) ?_
      exact h props hpa p _ _ hr hd
    simp only [M.wp_bind] at key
    cases td with
    | anchor a => exact absurd rfl (ha a)
    | tag a b => exact absurd rfl (htg a b)
    | _ => exact key ⟨some a, none, n1, n2⟩ rfl rfl
  | tag ht =>
    rename_i hh s
    obtain ⟨t1, rfl, h1⟩ := List.map_eq_singleton_iff.1 hl
    obtain ⟨d1, n1, n2⟩ := t1
    simp only at h1; subst h1
    simp only [List.cons_append, List.nil_append]
    pws
    unfold nodeProperties
    pws
    rw [wp_skip_lv (by simp)]
    pws
    have key : ∀ props : Props, props.anchor = none → props.tag = some (hh, s, n1) → M.wp stepL NoP NoE (do
        let tag ← resolveTag props
        nodeContent b i props tag : Pars Event) (fun e p' g' => e.data = ev ∧ p'.state = x1 ∧ p'.states = r1 ∧ p'.tagDirectives = withDefaults D ∧
      ∃ pk', g' = ⟨l1, fin, true, x1 == .end_, pk', false⟩) p (lv (⟨td, m1, m2⟩ :: l) fin true true) := by
      intro props hpa hpt
      pws
      refine resolve hd (by rw [hpt]; exact ht) ?_
      exact h props hpa p _ _ hr hd
    simp only [M.wp_bind] at key
    cases td with
    | anchor a => exact absurd rfl (ha a)
    | tag a b => exact absurd rfl (htg a b)
    | _ => exact key ⟨none, some (hh, s, n1), n1, n2⟩ rfl rfl
  | anchorTag a ht =>
    rename_i hh s
    obtain ⟨t1, lp', rfl, h1, hl'⟩ := List.map_eq_cons_iff.1 hl
    obtain ⟨t2, rfl, h2⟩ := List.map_eq_singleton_iff.1 hl'
    obtain ⟨d1, n1, n2⟩ := t1
    obtain ⟨d2, n3, n4⟩ := t2
    simp only at h1 h2; subst h1 h2
    simp only [List.cons_append, List.nil_append]
    pws
    unfold nodeProperties
    pws
    rw [wp_skip_lv (by simp)]
    pws
    rw [wp_skip_lv (by simp)]
    refine resolve hd (by exact ht) ?_
    exact h ⟨some a, some (hh, s, n3), n1, n4⟩ rfl p _ _ hr hd
  | tagAnchor a ht =>
    rename_i hh s
    obtain ⟨t1, lp', rfl, h1, hl'⟩ := List.map_eq_cons_iff.1 hl
    obtain ⟨t2, rfl, h2⟩ := List.map_eq_singleton_iff.1 hl'
    obtain ⟨d1, n1, n2⟩ := t1
    obtain ⟨d2, n3, n4⟩ := t2
    simp only at h1 h2; subst h1 h2
    simp only [List.cons_append, List.nil_append]
    pws
    unfold nodeProperties
    pws
    rw [wp_skip_lv (by simp)]
    pws
    rw [wp_skip_lv (by simp)]
    refine resolve hd (by exact ht) ?_
    exact h ⟨some a, some (hh, s, n1), n1, n4⟩ rfl p _ _ hr hd

variable {D : List TagDirective} {b i : Bool} {r : List PSt} {x : PSt} {ps : List TokenData} {anchor tag : Option Str} {lp l rest : List Token} {t : Token}

theorem untagged_eq (tag : Option Str) : (tag.isNone || tag == some []) = untagged tag := by
  unfold untagged
  cases tag with
  | none => simp
  | some v => cases v <;> simp

/-- Close a goal about the result. -/
macro "dn" : tactic => `(tactic| (refine ⟨?_, ?_, ?_, ?_, ?_⟩ <;> first | trivial | rfl | assumption | exact ⟨_, rfl⟩ | (simp [*, untagged_eq]; done) | exact ⟨true, by simp [*]⟩ | exact ⟨false, by simp [*]⟩))

theorem does_scalar (hp : IsProps D ps anchor tag) (hl : lp.map (·.data) = ps) {value : Str} {style : ScalarStyle} (ht : t.data = .scalar value style)
    (hx : x ≠ .end_) :
    Does fin (parseNode b i) (x :: r) (withDefaults D) (lp ++ t :: rest) (scalarEvent anchor tag value style) x r (withDefaults D) rest := by
  obtain ⟨d, m1, m2⟩ := t
  simp only at ht; subst ht
  refine begin_node hp hl (by simp) ?_
  rintro props rfl p st pk hr hd
  unfold nodeContent
  pws
  rw [if_neg (by simp)]
  pws
  rw [wp_popState hr, wp_skip_lv (by simp)]
  refine ⟨?_, rfl, rfl, hd, false, ?_⟩
  · unfold scalarEvent
    congr 1
    · cases tag <;> cases style <;> simp [Bool.beq_eq_decide_eq]
    · cases tag <;> cases style <;> simp
  · simp [hx]

/-- The common part of the other nodes. -/
theorem content_other {props : Props} (h1 : ∀ v s, t.data ≠ .scalar v s) (h2 : t.data ≠ .flowSequenceStart) (h3 : t.data ≠ .flowMappingStart)
    (h4 : (i && t.data == .blockEntry) = false) {ev : EventData} {x1 : PSt} {r1 : List PSt} {l1 : List Token}
    (h : Does fin (do
      let token ← peek
      if (b && token.data == .blockSequenceStart) = true then do
        setState .blockSequenceFirstEntry
        pure ⟨.sequenceStart props.anchor tag (tag.isNone || tag == some []) .block, props.startMark, token.endMark⟩
      else if (b && token.data == .blockMappingStart) = true then do
        setState .blockMappingFirstKey
        pure ⟨.mappingStart props.anchor tag (tag.isNone || tag == some []) .block, props.startMark, token.endMark⟩
      else if (props.anchor.isSome || tag.isSome) = true then do
        popState
        pure ⟨.scalar props.anchor tag [] (tag.isNone || tag == some []) false .plain, props.startMark, props.endMark⟩
      else
        parserError (if b then "while parsing a block node" else "while parsing a flow node")
          props.startMark "did not find expected node content" token.startMark) r D (t :: l) ev x1 r1 D l1) :
    Does fin (nodeContent b i props tag) r D (t :: l) ev x1 r1 D l1 := by
  intro p st pk hr hd
  have h := h p st pk hr hd
  obtain ⟨d, m1, m2⟩ := t
  unfold nodeContent
  pws
  pws at h
  simp only at h4
  rw [if_neg (by rw [h4]; simp)]
  cases d with
  | scalar v s => exact absurd rfl (h1 v s)
  | flowSequenceStart => exact absurd rfl h2
  | flowMappingStart => exact absurd rfl h3
  | _ => exact h

theorem isProps_some (hp : IsProps D ps anchor tag) (hne : ps ≠ []) : (anchor.isSome || tag.isSome) = true := by
  cases hp with
  | none => exact absurd rfl hne
  | anchor a => rfl
  | anchorTag a ht => rfl
  | tagAnchor a ht => rfl
  | @tag h s t ht =>
    simp only [TagIs] at ht
    split at ht
    · subst ht; rfl
    · obtain ⟨_, _, rfl⟩ := ht; rfl

theorem does_bare (hp : IsProps D ps anchor tag) (hl : lp.map (·.data) = ps) (hne : ps ≠ []) (ht : follows i t.data = true) (hx : x ≠ .end_) :
    Does fin (parseNode b i) (x :: r) (withDefaults D) (lp ++ t :: rest) (.scalar anchor tag [] (untagged tag) false .plain) x r (withDefaults D) (t :: rest) := by
  have hs := isProps_some hp hne
  obtain ⟨d, m1, m2⟩ := t
  simp only at ht
  refine begin_node hp hl ?_ ?_
  · refine ⟨?_, ?_, ?_⟩
    all_goals (intros; simp only; rintro rfl; simp [follows] at ht)
  rintro props rfl
  refine content_other ?_ ?_ ?_ ?_ ?_
  · intros; simp only; rintro rfl; simp [follows] at ht
  · simp only; rintro rfl; simp [follows] at ht
  · simp only; rintro rfl; simp [follows] at ht
  · simp only
    cases hi : (i && d == .blockEntry) with
    | false => rfl
    | true =>
      simp at hi
      obtain ⟨rfl, rfl⟩ := hi
      simp [follows] at ht
  intro p st pk hr hd
  pws
  rw [if_neg (by
    intro h
    simp at h
    rw [h.2] at ht
    simp [follows] at ht), if_neg (by
    intro h
    simp at h
    rw [h.2] at ht
    simp [follows] at ht), if_pos hs]
  pws
  rw [wp_popState hr]
  dn

theorem does_blockSeq (hp : IsProps D ps anchor tag) (hl : lp.map (·.data) = ps) (ht : t.data = .blockSequenceStart) :
    Does fin (parseNode true i) r (withDefaults D) (lp ++ t :: rest) (.sequenceStart anchor tag (untagged tag) .block) .blockSequenceFirstEntry r (withDefaults D) (t :: rest) := by
  obtain ⟨d, m1, m2⟩ := t
  simp only at ht; subst ht
  refine begin_node hp hl (by simp) ?_
  rintro props rfl
  refine content_other (by simp) (by simp) (by simp) (by simp) ?_
  intro p st pk hr hd
  pws
  rw [if_pos (by simp)]
  pws
  dn

theorem does_blockMap (hp : IsProps D ps anchor tag) (hl : lp.map (·.data) = ps) (ht : t.data = .blockMappingStart) :
    Does fin (parseNode true i) r (withDefaults D) (lp ++ t :: rest) (.mappingStart anchor tag (untagged tag) .block) .blockMappingFirstKey r (withDefaults D) (t :: rest) := by
  obtain ⟨d, m1, m2⟩ := t
  simp only at ht; subst ht
  refine begin_node hp hl (by simp) ?_
  rintro props rfl
  refine content_other (by simp) (by simp) (by simp) (by simp) ?_
  intro p st pk hr hd
  pws
  rw [if_neg (by simp), if_pos (by simp)]
  pws
  dn

theorem does_indentless (hp : IsProps D ps anchor tag) (hl : lp.map (·.data) = ps) (ht : t.data = .blockEntry) :
    Does fin (parseNode b true) r (withDefaults D) (lp ++ t :: rest) (.sequenceStart anchor tag (untagged tag) .block) .indentlessSequenceEntry r (withDefaults D) (t :: rest) := by
  obtain ⟨d, m1, m2⟩ := t
  simp only at ht; subst ht
  refine begin_node hp hl (by simp) ?_
  rintro props rfl
  intro p st pk hr hd
  unfold nodeContent
  pws
  rw [if_pos (by simp)]
  pws
  dn

theorem does_flowSeq (hp : IsProps D ps anchor tag) (hl : lp.map (·.data) = ps) (ht : t.data = .flowSequenceStart) :
    Does fin (parseNode b i) r (withDefaults D) (lp ++ t :: rest) (.sequenceStart anchor tag (untagged tag) .flow) .flowSequenceFirstEntry r (withDefaults D) (t :: rest) := by
  obtain ⟨d, m1, m2⟩ := t
  simp only at ht; subst ht
  refine begin_node hp hl (by simp) ?_
  rintro props rfl
  intro p st pk hr hd
  unfold nodeContent
  pws
  rw [if_neg (by simp)]
  pws
  dn

theorem does_flowMap (hp : IsProps D ps anchor tag) (hl : lp.map (·.data) = ps) (ht : t.data = .flowMappingStart) :
    Does fin (parseNode b i) r (withDefaults D) (lp ++ t :: rest) (.mappingStart anchor tag (untagged tag) .flow) .flowMappingFirstKey r (withDefaults D) (t :: rest) := by
  obtain ⟨d, m1, m2⟩ := t
  simp only at ht; subst ht
  refine begin_node hp hl (by simp) ?_
  rintro props rfl
  intro p st pk hr hd
  unfold nodeContent
  pws
  rw [if_neg (by simp)]
  pws
  dn

theorem does_alias {name : Str} (ht : t.data = .alias name) (hx : x ≠ .end_) : Does fin (parseNode b i) (x :: r) D (t :: rest) (.alias name) x r D rest := by
  obtain ⟨d, m1, m2⟩ := t
  simp only at ht; subst ht
  intro p st pk hr hd
  unfold parseNode
  pws
  rw [wp_popState hr, wp_skip_lv (by simp)]
  dn

/-! ### Collections -/

section
variable {ev : EventData} {x1 : PSt} {r1 : List PSt} {D1 : List TagDirective} {l1 : List Token} {t2 : Token}

theorem enter_blockSeq (h : Does fin (parseBlockSequenceEntry false) r D l ev x1 r1 D1 l1) (ht : t.data ≠ .streamEnd) :
    Does fin (parseBlockSequenceEntry true) r D (t :: l) ev x1 r1 D1 l1 := by
  intro p st pk hr hd
  have := h { p with marks := t.startMark :: p.marks } true false hr hd
  unfold parseBlockSequenceEntry enterCollection at this ⊢
  rw [M.wp_bind, M.wp_when] at this ⊢
  rw [if_neg (by simp)] at this
  rw [if_pos rfl]
  pws
  rw [wp_skip_lv ht]
  exact this

theorem enter_blockMap (h : Does fin (parseBlockMappingKey false) r D l ev x1 r1 D1 l1) (ht : t.data ≠ .streamEnd) :
    Does fin (parseBlockMappingKey true) r D (t :: l) ev x1 r1 D1 l1 := by
  intro p st pk hr hd
  have := h { p with marks := t.startMark :: p.marks } true false hr hd
  unfold parseBlockMappingKey enterCollection at this ⊢
  rw [M.wp_bind, M.wp_when] at this ⊢
  rw [if_neg (by simp)] at this
  rw [if_pos rfl]
  pws
  rw [wp_skip_lv ht]
  exact this

theorem does_leave {data : EventData} (ht : t.data ≠ .streamEnd) (hx : x ≠ .end_) :
    ∀ p : PState, p.states = x :: r → p.tagDirectives = D →
    M.wp stepL NoP NoE (leaveCollection data t) (fun e p' g' => e.data = data ∧ p'.state = x ∧ p'.states = r ∧ p'.tagDirectives = D ∧
      ∃ pk', g' = ⟨rest, fin, true, x == .end_, pk', false⟩) p (lv (t :: rest) fin true true) := by
  intro p hr hd
  unfold leaveCollection
  pws
  rw [wp_popState hr]
  pws
  rw [wp_skip_lv ht]
  dn

/-- The end of a block sequence. -/
theorem does_seqEnd (ht : t.data = .blockEnd) (hx : x ≠ .end_) : Does fin (parseBlockSequenceEntry false) (x :: r) D (t :: rest) .sequenceEnd x r D rest := by
  obtain ⟨d, m1, m2⟩ := t
  simp only at ht; subst ht
  intro p st pk hr hd
  unfold parseBlockSequenceEntry enterCollection
  rw [M.wp_bind, M.wp_when, if_neg (by simp)]
  pws
  exact does_leave (by simp) hx p hr hd

/-- The end of a block mapping. -/
theorem does_mapEnd (ht : t.data = .blockEnd) (hx : x ≠ .end_) : Does fin (parseBlockMappingKey false) (x :: r) D (t :: rest) .mappingEnd x r D rest := by
  obtain ⟨d, m1, m2⟩ := t
  simp only at ht; subst ht
  intro p st pk hr hd
  unfold parseBlockMappingKey enterCollection
  rw [M.wp_bind, M.wp_when, if_neg (by simp)]
  pws
  exact does_leave (by simp) hx p hr hd

/-- An entry of a block sequence. -/
theorem does_item (ht : t.data = .blockEntry) (h2 : t2.data ≠ .blockEntry ∧ t2.data ≠ .blockEnd)
    (h : Does fin (parseNode true false) (.blockSequenceEntry :: r) D (t2 :: l) ev x1 r1 D1 l1) :
    Does fin (parseBlockSequenceEntry false) r D (t :: t2 :: l) ev x1 r1 D1 l1 := by
  obtain ⟨d, m1, m2⟩ := t
  simp only at ht; subst ht
  intro p st pk hr hd
  unfold parseBlockSequenceEntry enterCollection
  rw [M.wp_bind, M.wp_when, if_neg (by simp)]
  pws
  rw [wp_skip_lv (by simp)]
  pws
  rw [if_neg (by simp [h2])]
  pws
  exact h { p with states := .blockSequenceEntry :: p.states } _ _ (by simp [hr]) hd

theorem does_itemEmpty (ht : t.data = .blockEntry) (h2 : t2.data = .blockEntry ∨ t2.data = .blockEnd) :
    Does fin (parseBlockSequenceEntry false) r D (t :: t2 :: l) emptyNode .blockSequenceEntry r D (t2 :: l) := by
  obtain ⟨d, m1, m2⟩ := t
  simp only at ht; subst ht
  intro p st pk hr hd
  unfold parseBlockSequenceEntry enterCollection
  rw [M.wp_bind, M.wp_when, if_neg (by simp)]
  pws
  rw [wp_skip_lv (by simp)]
  pws
  rw [if_pos (by simpa using h2)]
  pws
  dn

/-- An entry of a sequence without indentation. -/
theorem does_indItem (ht : t.data = .blockEntry) (h2 : t2.data ≠ .blockEntry ∧ t2.data ≠ .key ∧ t2.data ≠ .value ∧ t2.data ≠ .blockEnd)
    (h : Does fin (parseNode true false) (.indentlessSequenceEntry :: r) D (t2 :: l) ev x1 r1 D1 l1) :
    Does fin parseIndentlessSequenceEntry r D (t :: t2 :: l) ev x1 r1 D1 l1 := by
  obtain ⟨d, m1, m2⟩ := t
  simp only at ht; subst ht
  intro p st pk hr hd
  unfold parseIndentlessSequenceEntry
  pws
  rw [if_pos (by simp)]
  pws
  rw [wp_skip_lv (by simp)]
  pws
  rw [if_neg (by simp [h2])]
  pws
  exact h { p with states := .indentlessSequenceEntry :: p.states } _ _ (by simp [hr]) hd

theorem does_indItemEmpty (ht : t.data = .blockEntry) (h2 : t2.data = .blockEntry ∨ t2.data = .key ∨ t2.data = .value ∨ t2.data = .blockEnd) :
    Does fin parseIndentlessSequenceEntry r D (t :: t2 :: l) emptyNode .indentlessSequenceEntry r D (t2 :: l) := by
  obtain ⟨d, m1, m2⟩ := t
  simp only at ht; subst ht
  intro p st pk hr hd
  unfold parseIndentlessSequenceEntry
  pws
  rw [if_pos (by simp)]
  pws
  rw [wp_skip_lv (by simp)]
  pws
  rw [if_pos (by simpa [or_assoc] using h2)]
  pws
  dn

theorem does_indEnd (ht : t.data ≠ .blockEntry) (hx : x ≠ .end_) : Does fin parseIndentlessSequenceEntry (x :: r) D (t :: rest) .sequenceEnd x r D (t :: rest) := by
  intro p st pk hr hd
  unfold parseIndentlessSequenceEntry
  pws
  rw [if_neg (by simpa using ht)]
  pws
  rw [wp_popState hr]
  dn

/-- What ends an empty key or value in a block mapping. -/
def isKV (d : TokenData) : Prop := d = .key ∨ d = .value ∨ d = .blockEnd

theorem does_key (ht : t.data = .key) (h2 : ¬ isKV t2.data) (h : Does fin (parseNode true true) (.blockMappingValue :: r) D (t2 :: l) ev x1 r1 D1 l1) :
    Does fin (parseBlockMappingKey false) r D (t :: t2 :: l) ev x1 r1 D1 l1 := by
  obtain ⟨d, m1, m2⟩ := t
  simp only at ht; subst ht
  intro p st pk hr hd
  unfold parseBlockMappingKey enterCollection
  rw [M.wp_bind, M.wp_when, if_neg (by simp)]
  pws
  rw [wp_skip_lv (by simp)]
  pws
  rw [if_neg (by simpa [isKV, not_or, and_assoc] using h2)]
  pws
  exact h { p with states := .blockMappingValue :: p.states } _ _ (by simp [hr]) hd

theorem does_keyEmpty (ht : t.data = .key) (h2 : isKV t2.data) :
    Does fin (parseBlockMappingKey false) r D (t :: t2 :: l) emptyNode .blockMappingValue r D (t2 :: l) := by
  obtain ⟨d, m1, m2⟩ := t
  simp only at ht; subst ht
  intro p st pk hr hd
  unfold parseBlockMappingKey enterCollection
  rw [M.wp_bind, M.wp_when, if_neg (by simp)]
  pws
  rw [wp_skip_lv (by simp)]
  pws
  rw [if_pos (by simpa [isKV, or_assoc] using h2)]
  pws
  dn

theorem does_value (ht : t.data = .value) (h2 : ¬ isKV t2.data) (h : Does fin (parseNode true true) (.blockMappingKey :: r) D (t2 :: l) ev x1 r1 D1 l1) :
    Does fin parseBlockMappingValue r D (t :: t2 :: l) ev x1 r1 D1 l1 := by
  obtain ⟨d, m1, m2⟩ := t
  simp only at ht; subst ht
  intro p st pk hr hd
  unfold parseBlockMappingValue
  pws
  rw [if_pos (by simp)]
  pws
  rw [wp_skip_lv (by simp)]
  pws
  rw [if_neg (by simpa [isKV, not_or, and_assoc] using h2)]
  pws
  exact h { p with states := .blockMappingKey :: p.states } _ _ (by simp [hr]) hd

theorem does_valueEmpty (ht : t.data = .value) (h2 : isKV t2.data) :
    Does fin parseBlockMappingValue r D (t :: t2 :: l) emptyNode .blockMappingKey r D (t2 :: l) := by
  obtain ⟨d, m1, m2⟩ := t
  simp only at ht; subst ht
  intro p st pk hr hd
  unfold parseBlockMappingValue
  pws
  rw [if_pos (by simp)]
  pws
  rw [wp_skip_lv (by simp)]
  pws
  rw [if_pos (by simpa [isKV, or_assoc] using h2)]
  pws
  dn

theorem does_noValue (ht : t.data ≠ .value) : Does fin parseBlockMappingValue r D (t :: l) emptyNode .blockMappingKey r D (t :: l) := by
  intro p st pk hr hd
  unfold parseBlockMappingValue
  pws
  rw [if_neg (by simpa using ht)]
  pws
  dn

/-! Flow collections: `t0` is the opening bracket or the comma before. -/

/-- The token before an item: the opening bracket for the first item, a comma for the others. -/
def isBefore (opening : TokenData) (first : Bool) (d : TokenData) : Prop := if first then d = opening else d = .flowEntry

theorem flowSeq_enter {first : Bool} {t0 : Token} (h0 : isBefore .flowSequenceStart first t0.data)
    (h : ∀ p : PState, p.states = r → p.tagDirectives = D → M.wp stepL NoP NoE (
      if (t2.data == .key) = true then do
        setState .flowSequenceEntryMappingKey
        skip
        pure ⟨.mappingStart none none true .flow, t2.startMark, t2.endMark⟩
      else if (t2.data == .flowSequenceEnd) = true then leaveCollection .sequenceEnd t2
      else do
        pushState .flowSequenceEntry
        parseNode false false : Pars Event) (fun e p' g' => e.data = ev ∧ p'.state = x1 ∧ p'.states = r1 ∧ p'.tagDirectives = D1 ∧
      ∃ pk', g' = ⟨l1, fin, true, x1 == .end_, pk', false⟩) p (lv (t2 :: l) fin true true)) :
    Does fin (parseFlowSequenceEntry first) r D (t0 :: t2 :: l) ev x1 r1 D1 l1 := by
  intro p st pk hr hd
  obtain ⟨d0, m1, m2⟩ := t0
  unfold parseFlowSequenceEntry enterCollection
  rw [M.wp_bind, M.wp_when]
  cases first with
  | true =>
    have h0 : d0 = .flowSequenceStart := h0
    subst h0
    rw [if_pos rfl]
    pws
    rw [wp_skip_lv (by simp)]
    pws
    have h := h { p with marks := m1 :: p.marks } hr hd
    by_cases he : (t2.data == .flowSequenceEnd) = true
    · rw [if_pos he]
      have he' : (t2.data == .key) = false := by
        have : t2.data = .flowSequenceEnd := by simpa using he
        rw [this]; rfl
      rw [if_neg (by rw [he']; simp), if_pos he] at h
      exact h
    · rw [if_neg he]
      unfold flowSeparator
      rw [if_pos rfl]
      pws
      exact h
  | false =>
    have h0 : d0 = .flowEntry := h0
    subst h0
    rw [if_neg (by simp)]
    pws
    rw [if_neg (by simp)]
    unfold flowSeparator
    rw [if_neg (by simp), if_pos (by simp)]
    pws
    rw [wp_skip_lv (by simp)]
    pws
    exact h p hr hd

theorem flowSeq_node {first : Bool} {t0 : Token} (h0 : isBefore .flowSequenceStart first t0.data) (h2 : t2.data ≠ .key ∧ t2.data ≠ .flowSequenceEnd)
    (h : Does fin (parseNode false false) (.flowSequenceEntry :: r) D (t2 :: l) ev x1 r1 D1 l1) :
    Does fin (parseFlowSequenceEntry first) r D (t0 :: t2 :: l) ev x1 r1 D1 l1 := by
  refine flowSeq_enter h0 ?_
  intro p hr hd
  rw [if_neg (by simpa using h2.1), if_neg (by simpa using h2.2)]
  pws
  exact h { p with states := .flowSequenceEntry :: p.states } _ _ (by simp [hr]) hd

theorem flowSeq_close {first : Bool} {t0 : Token} (h0 : isBefore .flowSequenceStart first t0.data) (h2 : t2.data = .flowSequenceEnd) (hx : x ≠ .end_) :
    Does fin (parseFlowSequenceEntry first) (x :: r) D (t0 :: t2 :: l) .sequenceEnd x r D l := by
  refine flowSeq_enter h0 ?_
  intro p hr hd
  rw [if_neg (by simp [h2]), if_pos (by simp [h2])]
  exact does_leave (by simp [h2]) hx p hr hd

theorem flowSeq_pair {first : Bool} {t0 : Token} (h0 : isBefore .flowSequenceStart first t0.data) (h2 : t2.data = .key) :
    Does fin (parseFlowSequenceEntry first) r D (t0 :: t2 :: l) (.mappingStart none none true .flow) .flowSequenceEntryMappingKey r D l := by
  refine flowSeq_enter h0 ?_
  intro p hr hd
  rw [if_pos (by simp [h2])]
  pws
  rw [wp_skip_lv (by simp [h2])]
  dn

theorem flowSeq_end (ht : t.data = .flowSequenceEnd) (hx : x ≠ .end_) :
    Does fin (parseFlowSequenceEntry false) (x :: r) D (t :: rest) .sequenceEnd x r D rest := by
  intro p st pk hr hd
  unfold parseFlowSequenceEntry enterCollection
  rw [M.wp_bind, M.wp_when, if_neg (by simp)]
  pws
  rw [if_pos (by simp [ht])]
  exact does_leave (by simp [ht]) hx p hr hd

theorem pair_key (h2 : t.data ≠ .value ∧ t.data ≠ .flowEntry ∧ t.data ≠ .flowSequenceEnd)
    (h : Does fin (parseNode false false) (.flowSequenceEntryMappingValue :: r) D (t :: l) ev x1 r1 D1 l1) :
    Does fin parseFlowSequenceEntryMappingKey r D (t :: l) ev x1 r1 D1 l1 := by
  intro p st pk hr hd
  unfold parseFlowSequenceEntryMappingKey
  pws
  rw [if_neg (by simp [h2])]
  pws
  exact h { p with states := .flowSequenceEntryMappingValue :: p.states } _ _ (by simp [hr]) hd

theorem pair_lax (h2 : t.data = .value ∨ t.data = .flowEntry ∨ t.data = .flowSequenceEnd) :
    Does fin parseFlowSequenceEntryMappingKey r D (t :: l) emptyNode .flowSequenceEntryMappingValue r D l := by
  intro p st pk hr hd
  unfold parseFlowSequenceEntryMappingKey
  pws
  rw [if_pos (by simpa [or_assoc] using h2)]
  pws
  rw [wp_skip_lv (by rcases h2 with h | h | h <;> simp [h])]
  dn

theorem pair_value (ht : t.data = .value) (h2 : t2.data ≠ .flowEntry ∧ t2.data ≠ .flowSequenceEnd)
    (h : Does fin (parseNode false false) (.flowSequenceEntryMappingEnd :: r) D (t2 :: l) ev x1 r1 D1 l1) :
    Does fin parseFlowSequenceEntryMappingValue r D (t :: t2 :: l) ev x1 r1 D1 l1 := by
  intro p st pk hr hd
  unfold parseFlowSequenceEntryMappingValue
  pws
  rw [if_pos (by simp [ht])]
  pws
  rw [wp_skip_lv (by simp [ht])]
  pws
  rw [if_neg (by simp [h2])]
  pws
  exact h { p with states := .flowSequenceEntryMappingEnd :: p.states } _ _ (by simp [hr]) hd

theorem pair_valueEmpty (ht : t.data = .value) (h2 : t2.data = .flowEntry ∨ t2.data = .flowSequenceEnd) :
    Does fin parseFlowSequenceEntryMappingValue r D (t :: t2 :: l) emptyNode .flowSequenceEntryMappingEnd r D (t2 :: l) := by
  intro p st pk hr hd
  unfold parseFlowSequenceEntryMappingValue
  pws
  rw [if_pos (by simp [ht])]
  pws
  rw [wp_skip_lv (by simp [ht])]
  pws
  rw [if_pos (by simpa using h2)]
  pws
  dn

theorem pair_noValue (ht : t.data ≠ .value) : Does fin parseFlowSequenceEntryMappingValue r D (t :: l) emptyNode .flowSequenceEntryMappingEnd r D (t :: l) := by
  intro p st pk hr hd
  unfold parseFlowSequenceEntryMappingValue
  pws
  rw [if_neg (by simpa using ht)]
  pws
  dn

theorem pair_end : Does fin parseFlowSequenceEntryMappingEnd r D (t :: l) .mappingEnd .flowSequenceEntry r D (t :: l) := by
  intro p st pk hr hd
  unfold parseFlowSequenceEntryMappingEnd
  pws
  dn

theorem flowMap_enter {first : Bool} {t0 : Token} (h0 : isBefore .flowMappingStart first t0.data)
    (h : ∀ p : PState, p.states = r → p.tagDirectives = D → M.wp stepL NoP NoE (
      if (t2.data == .key) = true then do
        skip
        let token ← peek
        if token.data == .value || token.data == .flowEntry || token.data == .flowMappingEnd then do
          setState .flowMappingValue
          pure (emptyScalar token.startMark)
        else do
          pushState .flowMappingValue
          parseNode false false
      else if (t2.data == .flowMappingEnd) = true then leaveCollection .mappingEnd t2
      else do
        pushState .flowMappingEmptyValue
        parseNode false false : Pars Event) (fun e p' g' => e.data = ev ∧ p'.state = x1 ∧ p'.states = r1 ∧ p'.tagDirectives = D1 ∧
      ∃ pk', g' = ⟨l1, fin, true, x1 == .end_, pk', false⟩) p (lv (t2 :: l) fin true true)) :
    Does fin (parseFlowMappingKey first) r D (t0 :: t2 :: l) ev x1 r1 D1 l1 := by
  intro p st pk hr hd
  obtain ⟨d0, m1, m2⟩ := t0
  unfold parseFlowMappingKey enterCollection
  rw [M.wp_bind, M.wp_when]
  cases first with
  | true =>
    have h0 : d0 = .flowMappingStart := h0
    subst h0
    rw [if_pos rfl]
    pws
    rw [wp_skip_lv (by simp)]
    pws
    have h := h { p with marks := m1 :: p.marks } hr hd
    by_cases he : (t2.data == .flowMappingEnd) = true
    · rw [if_pos he]
      have he' : (t2.data == .key) = false := by
        have : t2.data = .flowMappingEnd := by simpa using he
        rw [this]; rfl
      rw [if_neg (by rw [he']; simp), if_pos he] at h
      exact h
    · rw [if_neg he]
      unfold flowSeparator
      rw [if_pos rfl]
      pws
      exact h
  | false =>
    have h0 : d0 = .flowEntry := h0
    subst h0
    rw [if_neg (by simp)]
    pws
    rw [if_neg (by simp)]
    unfold flowSeparator
    rw [if_neg (by simp), if_pos (by simp)]
    pws
    rw [wp_skip_lv (by simp)]
    pws
    exact h p hr hd

theorem flowMap_node {first : Bool} {t0 : Token} (h0 : isBefore .flowMappingStart first t0.data) (h2 : t2.data ≠ .key ∧ t2.data ≠ .flowMappingEnd)
    (h : Does fin (parseNode false false) (.flowMappingEmptyValue :: r) D (t2 :: l) ev x1 r1 D1 l1) :
    Does fin (parseFlowMappingKey first) r D (t0 :: t2 :: l) ev x1 r1 D1 l1 := by
  refine flowMap_enter h0 ?_
  intro p hr hd
  rw [if_neg (by simpa using h2.1), if_neg (by simpa using h2.2)]
  pws
  exact h { p with states := .flowMappingEmptyValue :: p.states } _ _ (by simp [hr]) hd

theorem flowMap_close {first : Bool} {t0 : Token} (h0 : isBefore .flowMappingStart first t0.data) (h2 : t2.data = .flowMappingEnd) (hx : x ≠ .end_) :
    Does fin (parseFlowMappingKey first) (x :: r) D (t0 :: t2 :: l) .mappingEnd x r D l := by
  refine flowMap_enter h0 ?_
  intro p hr hd
  rw [if_neg (by simp [h2]), if_pos (by simp [h2])]
  exact does_leave (by simp [h2]) hx p hr hd

/-- What ends an empty key in a flow mapping. -/
def isFKV (d : TokenData) : Prop := d = .value ∨ d = .flowEntry ∨ d = .flowMappingEnd

theorem flowMap_key {first : Bool} {t0 t3 : Token} (h0 : isBefore .flowMappingStart first t0.data) (h2 : t2.data = .key) (h3 : ¬ isFKV t3.data)
    (h : Does fin (parseNode false false) (.flowMappingValue :: r) D (t3 :: l) ev x1 r1 D1 l1) :
    Does fin (parseFlowMappingKey first) r D (t0 :: t2 :: t3 :: l) ev x1 r1 D1 l1 := by
  refine flowMap_enter h0 ?_
  intro p hr hd
  rw [if_pos (by simp [h2])]
  pws
  rw [wp_skip_lv (by simp [h2])]
  pws
  rw [if_neg (by simpa [isFKV, not_or, and_assoc] using h3)]
  pws
  exact h { p with states := .flowMappingValue :: p.states } _ _ (by simp [hr]) hd

theorem flowMap_keyEmpty {first : Bool} {t0 t3 : Token} (h0 : isBefore .flowMappingStart first t0.data) (h2 : t2.data = .key) (h3 : isFKV t3.data) :
    Does fin (parseFlowMappingKey first) r D (t0 :: t2 :: t3 :: l) emptyNode .flowMappingValue r D (t3 :: l) := by
  refine flowMap_enter h0 ?_
  intro p hr hd
  rw [if_pos (by simp [h2])]
  pws
  rw [wp_skip_lv (by simp [h2])]
  pws
  rw [if_pos (by simpa [isFKV, or_assoc] using h3)]
  pws
  dn

theorem flowMap_end (ht : t.data = .flowMappingEnd) (hx : x ≠ .end_) :
    Does fin (parseFlowMappingKey false) (x :: r) D (t :: rest) .mappingEnd x r D rest := by
  intro p st pk hr hd
  unfold parseFlowMappingKey enterCollection
  rw [M.wp_bind, M.wp_when, if_neg (by simp)]
  pws
  rw [if_pos (by simp [ht])]
  exact does_leave (by simp [ht]) hx p hr hd

theorem flowMap_value (ht : t.data = .value) (h2 : t2.data ≠ .flowEntry ∧ t2.data ≠ .flowMappingEnd)
    (h : Does fin (parseNode false false) (.flowMappingKey :: r) D (t2 :: l) ev x1 r1 D1 l1) :
    Does fin (parseFlowMappingValue false) r D (t :: t2 :: l) ev x1 r1 D1 l1 := by
  intro p st pk hr hd
  unfold parseFlowMappingValue
  pws
  rw [if_neg (by simp), if_pos (by simp [ht])]
  pws
  rw [wp_skip_lv (by simp [ht])]
  pws
  rw [if_neg (by simp [h2])]
  pws
  exact h { p with states := .flowMappingKey :: p.states } _ _ (by simp [hr]) hd

theorem flowMap_valueEmpty (ht : t.data = .value) (h2 : t2.data = .flowEntry ∨ t2.data = .flowMappingEnd) :
    Does fin (parseFlowMappingValue false) r D (t :: t2 :: l) emptyNode .flowMappingKey r D (t2 :: l) := by
  intro p st pk hr hd
  unfold parseFlowMappingValue
  pws
  rw [if_neg (by simp), if_pos (by simp [ht])]
  pws
  rw [wp_skip_lv (by simp [ht])]
  pws
  rw [if_pos (by simpa using h2)]
  pws
  dn

theorem flowMap_noValue (ht : t.data ≠ .value) : Does fin (parseFlowMappingValue false) r D (t :: l) emptyNode .flowMappingKey r D (t :: l) := by
  intro p st pk hr hd
  unfold parseFlowMappingValue
  pws
  rw [if_neg (by simp), if_neg (by simpa using ht)]
  pws
  dn

theorem flowMap_emptyValue : Does fin (parseFlowMappingValue true) r D (t :: l) emptyNode .flowMappingKey r D (t :: l) := by
  intro p st pk hr hd
  unfold parseFlowMappingValue
  pws
  rw [if_pos trivial]
  pws
  dn

end

end
end Yaml
