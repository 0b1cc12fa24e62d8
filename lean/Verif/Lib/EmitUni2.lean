import Verif.Lib.EmitUni

/-
The emitter with the other setting of `set_unicode`: analysis and state machine.
-/

namespace Yaml.Eu
open Yaml Emitter Spec
set_option linter.unusedSimpArgs false
set_option linter.unusedVariables false

variable {α β : Type} {b : Bool} {s : EState}

theorem bf_version {v : VersionDirective} (hs : J s) : BF b (analyzeVersionDirective v) T s := by
  unfold analyzeVersionDirective
  split
  · exact bf_error hs
  · exact bf_unit hs

theorem bf_tagDirective {t : TagDirective} (hs : J s) : BF b (analyzeTagDirective t) T s := by
  unfold analyzeTagDirective
  repeat' split
  all_goals first | exact bf_error hs | exact bf_pure hs trivial

theorem bf_anchor {a : Str} {al : Bool} (hs : J s) : BF b (analyzeAnchor a al) T s := by
  unfold analyzeAnchor
  repeat' split
  all_goals first | exact bf_error hs | exact bf_pure hs trivial

theorem bf_tagLoop {tag : Str} {ds : List TagDirective} (hs : J s) : BF b (analyzeTagLoop tag ds) T s := by
  induction ds with
  | nil => exact bf_pure hs trivial
  | cons d ds ih =>
    unfold analyzeTagLoop
    repeat' split
    all_goals first | exact ih | exact bf_panic hs | exact bf_pure hs trivial

theorem bf_tag {tag : Str} {ds : List TagDirective} (hs : J s) : BF b (analyzeTag tag ds) T s := by
  unfold analyzeTag
  split
  · exact bf_error hs
  · exact bf_tagLoop hs

theorem bf_optAnchor {a : Option Str} (hs : J s) : BF b (analyzeOptAnchor a) T s := by
  cases a with
  | none => exact bf_pure hs trivial
  | some a => exact bf_bind (bf_anchor hs) fun r s hs hr => bf_pure hs trivial

theorem bf_optTag {w : Bool} {ds : List TagDirective} {a : Option Str} (hs : J s) : BF b (analyzeOptTag w ds a) T s := by
  cases a with
  | none => exact bf_pure hs trivial
  | some a =>
    unfold analyzeOptTag
    dsimp only
    split
    · exact bf_bind (bf_tag hs) fun r s hs hr => bf_pure hs trivial
    · exact bf_pure hs trivial

def AFine (a : Analysis) : Prop := ∀ x, a.scalar = some x → Asc x.value

theorem loop_eq {X : Str} (hv : Asc X) (u v : Bool) : ∀ (first : Bool) (f : Flags), analyzeLoop u X first f = analyzeLoop v X first f := by
  induction X with
  | nil => intro _ _; rfl
  | cons c X ih =>
    intro first f
    have h : ∀ u first last f, spaceStep u first c last f = spaceStep false first c last f := by
      intro u first last f
      unfold spaceStep
      rw [isAscii_of (hv c (List.mem_cons_self ..))]
      simp
    unfold analyzeLoop
    rw [h u, h v]
    exact ih (fun c hc => hv c (List.mem_cons_of_mem _ hc)) _ _

theorem scalar_eq {X : Str} (hv : Asc X) (u v : Bool) : analyzeScalar u X = analyzeScalar v X := by
  unfold analyzeScalar
  dsimp only
  rw [loop_eq hv u v]

theorem scalar_asc {X : Str} (hv : Asc X) (u : Bool) : Asc (analyzeScalar u X).value := by
  unfold analyzeScalar
  dsimp only
  split
  · intro c h; cases h
  · exact hv

theorem bf_analyze {ev : Event} {ds : List TagDirective} (he : AsciiEvent ev) (hs : J s) : BF b (analyzeEvent ev ds) AFine s := by
  unfold analyzeEvent
  have no : AFine {} := by intro x h; cases h
  cases hd : ev.data with
  | alias a => exact bf_get rfl (bf_bind (bf_anchor hs) fun r s hs hr => bf_pure hs (by intro x h; cases h))
  | scalar a t v p q st =>
    have hv : Asc v := he _ _ _ _ _ _ hd
    refine bf_get ?_ ?_
    · dsimp only
      rw [scalar_eq hv (wb b s).unicode s.unicode]
      rfl
    refine bf_bind (bf_optAnchor hs) fun r s hs hr => bf_bind (bf_optTag hs) fun t s hs ht => bf_pure hs ?_
    intro x h
    cases h
    exact scalar_asc hv _
  | sequenceStart a t i st => exact bf_get rfl (bf_bind (bf_optAnchor hs) fun r s hs hr => bf_bind (bf_optTag hs) fun t s hs ht => bf_pure hs (by intro x h; cases h))
  | mappingStart a t i st => exact bf_get rfl (bf_bind (bf_optAnchor hs) fun r s hs hr => bf_bind (bf_optTag hs) fun t s hs ht => bf_pure hs (by intro x h; cases h))
  | _ => exact bf_get rfl (bf_pure hs no)

/-! ### States -/

theorem bf_append {t : TagDirective} {al : Bool} (hs : J s) : BF b (appendTagDirective t al) T s := by
  refine bf_get rfl ?_
  split
  · split
    · exact bf_unit hs
    · exact bf_error hs
  · bfm hs

theorem bf_incIndent {x y : Bool} (hs : J s) : BF b (increaseIndent x y) T s := by bfm hs
theorem bf_pushState {x : EmSt} (hs : J s) : BF b (pushState x) T s := by bfm hs
theorem bf_setState {x : EmSt} (hs : J s) : BF b (setState x) T s := by bfm hs
theorem bf_openEnded {x : Int} (hs : J s) : BF b (setOpenEnded x) T s := by bfm hs
theorem bf_flowLevel {x : Int} (hs : J s) : BF b (addFlowLevel x) T s := by bfm hs

theorem bf_popIndent (hs : J s) : BF b popIndent T s := by
  refine bf_get rfl ?_
  split
  · exact bf_panic hs
  · bfm hs
theorem bf_popState (hs : J s) : BF b popState T s := by
  refine bf_get rfl ?_
  split
  · exact bf_panic hs
  · bfm hs

theorem bf_declareTags {ts : List TagDirective} (hs : J s) : BF b (declareTags ts) T s := by
  induction ts generalizing s with
  | nil => exact bf_unit hs
  | cons t ts ih => exact bf_bind (bf_tagDirective hs) fun _ s hs ht => bf_bind (bf_append hs) fun _ s hs _ => ih hs

theorem bf_tagLines {ts : List TagDirective} (hs : J s) : BF b (writeTagLines ts) T s := by
  induction ts generalizing s with
  | nil => exact bf_unit hs
  | cons t ts ih =>
    exact bf_bind (bf_ind hs) fun _ s hs _ => bf_bind (bf_writeTagHandle hs) fun _ s hs _ =>
      bf_bind (bf_writeTagContent hs) fun _ s hs _ => bf_bind (bf_writeIndent hs) fun _ s hs _ => ih hs

theorem bf_defaults {ts : List TagDirective} (hs : J s) : BF b (declareDefaults ts) T s := by
  induction ts generalizing s with
  | nil => exact bf_unit hs
  | cons t ts ih => exact bf_bind (bf_append hs) fun _ s hs _ => ih hs

theorem bf_streamStart {ev : Event} (hs : J s) : BF b (emitStreamStart ev) T s := by
  refine bf_bind (Q := T) (by bfm hs) fun _ s hs _ => ?_
  split
  · rename_i enc _
    refine bf_bind (Q := T) (bf_mod hs ?_ ?_) fun _ s hs _ => ?_
    · rfl
    · rfl
    refine bf_get rfl ?_
    exact bf_bind (bf_when hs (bf_writeBom hs)) fun _ s hs _ => bf_setState hs
  · exact bf_error hs

theorem bf_documentStart {ev : Event} {first : Bool} (hs : J s) : BF b (emitDocumentStart ev first) T s := by
  unfold emitDocumentStart
  split
  · rename_i version tags implicit _
    refine bf_bind (Q := T) ?_ fun _ s hs _ => ?_
    · cases version with
      | none => exact bf_unit hs
      | some v => exact bf_version hs
    refine bf_bind (bf_declareTags hs) fun _ s hs ht => ?_
    refine bf_bind (bf_defaults hs) fun _ s hs _ => ?_
    refine bf_get rfl ?_
    generalize s.canonical = cn
    generalize s.openEnded = oe
    refine bf_bind (bf_when hs (bf_bind (bf_ind hs) fun _ s hs _ => bf_writeIndent hs)) fun _ s hs _ => ?_
    refine bf_bind (bf_openEnded hs) fun _ s hs _ => ?_
    refine bf_bind (Q := T) ?_ fun _ s hs _ => ?_
    · cases version with
      | none => exact bf_unit hs
      | some v =>
        refine bf_bind (bf_ind hs) fun _ s hs _ => ?_
        dsimp only
        split
        · exact bf_bind (bf_ind hs) fun _ s hs _ => bf_writeIndent hs
        · exact bf_bind (bf_ind hs) fun _ s hs _ => bf_writeIndent hs
    refine bf_bind (bf_tagLines hs) fun _ s hs _ => ?_
    dsimp only
    refine bf_bind (bf_when hs ?_) fun _ s hs _ => bf_bind (bf_setState hs) fun _ s hs _ => bf_openEnded hs
    exact bf_bind (bf_writeIndent hs) fun _ s hs _ => bf_bind (bf_ind hs) fun _ s hs _ => bf_when hs (bf_writeIndent hs)
  · refine bf_get rfl ?_
    refine bf_bind (bf_when hs ?_) fun _ s hs _ => bf_bind (bf_flush hs) fun _ s hs _ => bf_setState hs
    exact bf_bind (bf_ind hs) fun _ s hs _ => bf_bind (bf_openEnded hs) fun _ s hs _ => bf_writeIndent hs
  · exact bf_error hs

theorem bf_documentEnd {ev : Event} (hs : J s) : BF b (emitDocumentEnd ev) T s := by
  unfold emitDocumentEnd
  split
  · refine bf_bind (bf_writeIndent hs) fun _ s hs _ => ?_
    have last : ∀ s, J s → BF b (Emitter.flush >>= fun _ => M.modify fun s => { s with state := .documentStart, tagDirectives := [] }) T s :=
      fun s hs => bf_bind (bf_flush hs) fun _ s hs _ => by bfm hs
    split
    · exact bf_bind (bf_ind hs) fun _ s hs _ => bf_bind (bf_openEnded hs) fun _ s hs _ => bf_bind (bf_writeIndent hs) fun _ s hs _ => last s hs
    · exact bf_bind (Q := T) (by bfm hs) fun _ s hs _ => last s hs
  · exact bf_error hs

theorem bf_select {p q : Bool} {st : ScalarStyle} {sc : ScalarAnalysis} {tag : Option TagAnalysis} (hs : J s) :
    BF b (selectScalarStyle p q st sc tag) T s := by
  refine bf_get rfl ?_
  dsimp only
  split
  · exact bf_error hs
  · exact bf_pure hs trivial

theorem bf_processAnchor {a : Option AnchorAnalysis} (hs : J s) : BF b (processAnchor a) T s := by
  cases a with
  | none => exact bf_unit hs
  | some a => exact bf_bind (bf_ind hs) fun _ s hs _ => bf_writeAnchor hs

theorem bf_processTag {t : Option TagAnalysis} (hs : J s) : BF b (processTag t) T s := by
  cases t with
  | none => exact bf_unit hs
  | some t =>
    unfold processTag
    dsimp only
    split
    · exact bf_unit hs
    · split
      · exact bf_bind (bf_ind hs) fun _ s hs _ => bf_bind (bf_writeTagContent hs) fun _ s hs _ => bf_ind hs
      · exact bf_bind (bf_writeTagHandle hs) fun _ s hs _ => bf_when hs (bf_writeTagContent hs)

theorem bf_processScalar {st : ScalarStyle} {v : Str} (hs : J s) (hv : Asc v) : BF b (processScalar st v) T s := by
  refine bf_get rfl ?_
  cases st with
  | any => exact bf_panic hs
  | plain => exact bf_writePlain hs
  | singleQuoted => exact bf_writeSingle hs
  | doubleQuoted => exact bf_writeDouble hs hv
  | literal => exact bf_writeLiteral hs
  | folded => exact bf_writeFolded hs

theorem bf_emitAlias {a : Analysis} (hs : J s) (h : AFine a) : BF b (emitAlias a) T s :=
  bf_bind (bf_processAnchor hs) fun _ s hs _ => bf_get rfl (bf_bind (bf_when hs (bf_put hs)) fun _ s hs _ => bf_popState hs)

theorem bf_emitScalar {p q : Bool} {st : ScalarStyle} {a : Analysis} (hs : J s) (h : AFine a) : BF b (emitScalar p q st a) T s := by
  unfold emitScalar
  split
  · exact bf_panic hs
  · rename_i sc e
    refine bf_bind (bf_select hs) fun r s hs hr => ?_
    obtain ⟨st, tag⟩ := r
    exact bf_bind (bf_processAnchor hs) fun _ s hs _ => bf_bind (bf_processTag hs) fun _ s hs _ => bf_bind (bf_incIndent hs) fun _ s hs _ =>
      bf_bind (bf_processScalar hs (h _ e)) fun _ s hs _ => bf_bind (bf_popIndent hs) fun _ s hs _ => bf_popState hs

theorem bf_emitSeq {ev : Event} {st : CollStyle} {a : Analysis} (hs : J s) (h : AFine a) : BF b (emitSequenceStart ev st a) T s := by
  refine bf_bind (bf_processAnchor hs) fun _ s hs _ => bf_bind (bf_processTag hs) fun _ s hs _ => bf_get rfl ?_
  split
  · exact bf_setState hs
  · exact bf_setState hs

theorem bf_emitMap {ev : Event} {st : CollStyle} {a : Analysis} (hs : J s) (h : AFine a) : BF b (emitMappingStart ev st a) T s := by
  refine bf_bind (bf_processAnchor hs) fun _ s hs _ => bf_bind (bf_processTag hs) fun _ s hs _ => bf_get rfl ?_
  split
  · exact bf_setState hs
  · exact bf_setState hs

theorem bf_node {ev : Event} {x y z w : Bool} {a : Analysis} (hs : J s) (h : AFine a) : BF b (emitNode ev x y z w a) T s := by
  refine bf_bind (Q := T) (by bfm hs) fun _ s hs _ => ?_
  split
  · exact bf_emitAlias hs h
  · exact bf_emitScalar hs h
  · exact bf_emitSeq hs h
  · exact bf_emitMap hs h
  · exact bf_error hs

theorem bf_content {ev : Event} {a : Analysis} (hs : J s) (h : AFine a) : BF b (emitDocumentContent ev a) T s :=
  bf_bind (bf_pushState hs) fun _ s hs _ => bf_node hs h

theorem bf_flowEnd {first : Bool} {c : Char} (hs : J s) : BF b (emitFlowEnd first c) T s := by
  refine bf_bind (bf_flowLevel hs) fun _ s hs _ => bf_bind (bf_popIndent hs) fun _ s hs _ => bf_get rfl ?_
  refine bf_bind (bf_when hs (bf_bind (bf_ind hs) fun _ s hs _ => bf_writeIndent hs)) fun _ s hs _ => ?_
  exact bf_bind (bf_ind hs) fun _ s hs _ => bf_popState hs

theorem bf_flowSep {first : Bool} (hs : J s) : BF b (emitFlowSeparator first) T s :=
  bf_bind (bf_when hs (bf_ind hs)) fun _ s hs _ => bf_get rfl (bf_when hs (bf_writeIndent hs))

theorem bf_flowSeq {ev : Event} {first : Bool} {a : Analysis} (hs : J s) (h : AFine a) : BF b (emitFlowSequenceItem ev first a) T s := by
  refine bf_bind (bf_when hs (bf_bind (bf_ind hs) fun _ s hs _ => bf_bind (bf_incIndent hs) fun _ s hs _ => bf_flowLevel hs)) fun _ s hs _ => ?_
  split
  · exact bf_flowEnd hs
  · exact bf_bind (bf_flowSep hs) fun _ s hs _ => bf_bind (bf_pushState hs) fun _ s hs _ => bf_node hs h

theorem bf_simple {ev : Event} {a : Analysis} (hs : J s) : BF b (simpleKeyTest ev a) T s := by
  refine bf_get rfl ?_
  split
  · exact bf_pure hs trivial
  · exact bf_panic hs

theorem bf_flowMap {ev : Event} {first : Bool} {a : Analysis} (hs : J s) (h : AFine a) : BF b (emitFlowMappingKey ev first a) T s := by
  refine bf_bind (bf_when hs (bf_bind (bf_ind hs) fun _ s hs _ => bf_bind (bf_incIndent hs) fun _ s hs _ => bf_flowLevel hs)) fun _ s hs _ => ?_
  split
  · exact bf_flowEnd hs
  · refine bf_bind (bf_flowSep hs) fun _ s hs _ => bf_get rfl ?_
    have last : ∀ simple s, J s → BF b (if simple = true then (do pushState .flowMappingSimpleValue; emitNode ev false false true true a)
        else (do writeIndicator ['?'] true false false; pushState .flowMappingValue; emitNode ev false false true false a) : Emit Unit) T s := by
      intro simple s hs
      split
      · exact bf_bind (bf_pushState hs) fun _ s hs _ => bf_node hs h
      · exact bf_bind (bf_ind hs) fun _ s hs _ => bf_bind (bf_pushState hs) fun _ s hs _ => bf_node hs h
    split
    · exact bf_bind (Q := T) (bf_pure hs trivial) fun x s hs _ => last x s hs
    · exact bf_bind (bf_simple hs) fun x s hs _ => last x s hs

theorem bf_flowVal {ev : Event} {simple : Bool} {a : Analysis} (hs : J s) (h : AFine a) : BF b (emitFlowMappingValue ev simple a) T s := by
  unfold emitFlowMappingValue
  split
  · exact bf_bind (bf_ind hs) fun _ s hs _ => bf_bind (bf_pushState hs) fun _ s hs _ => bf_node hs h
  · refine bf_get rfl ?_
    exact bf_bind (bf_when hs (bf_writeIndent hs)) fun _ s hs _ => bf_bind (bf_ind hs) fun _ s hs _ => bf_bind (bf_pushState hs) fun _ s hs _ => bf_node hs h

theorem bf_blockSeq {ev : Event} {first : Bool} {a : Analysis} (hs : J s) (h : AFine a) : BF b (emitBlockSequenceItem ev first a) T s := by
  refine bf_get rfl ?_
  refine bf_bind (bf_when hs (bf_incIndent hs)) fun _ s hs _ => ?_
  split
  · exact bf_bind (bf_popIndent hs) fun _ s hs _ => bf_popState hs
  · exact bf_bind (bf_writeIndent hs) fun _ s hs _ => bf_bind (bf_ind hs) fun _ s hs _ => bf_bind (bf_pushState hs) fun _ s hs _ => bf_node hs h

theorem bf_blockMap {ev : Event} {first : Bool} {a : Analysis} (hs : J s) (h : AFine a) : BF b (emitBlockMappingKey ev first a) T s := by
  refine bf_bind (bf_when hs (bf_incIndent hs)) fun _ s hs _ => ?_
  split
  · exact bf_bind (bf_popIndent hs) fun _ s hs _ => bf_popState hs
  · refine bf_bind (bf_writeIndent hs) fun _ s hs _ => bf_bind (bf_simple hs) fun simple s hs _ => ?_
    split
    · exact bf_bind (bf_pushState hs) fun _ s hs _ => bf_node hs h
    · exact bf_bind (bf_ind hs) fun _ s hs _ => bf_bind (bf_pushState hs) fun _ s hs _ => bf_node hs h

theorem bf_blockVal {ev : Event} {simple : Bool} {a : Analysis} (hs : J s) (h : AFine a) : BF b (emitBlockMappingValue ev simple a) T s := by
  unfold emitBlockMappingValue
  split
  · exact bf_bind (bf_ind hs) fun _ s hs _ => bf_bind (bf_pushState hs) fun _ s hs _ => bf_node hs h
  · exact bf_bind (bf_writeIndent hs) fun _ s hs _ => bf_bind (bf_ind hs) fun _ s hs _ => bf_bind (bf_pushState hs) fun _ s hs _ => bf_node hs h

theorem bf_machine {ev : Event} {a : Analysis} (hs : J s) (h : AFine a) : BF b (stateMachine ev a) T s := by
  refine bf_get rfl ?_
  generalize s.state = st
  cases st with
  | streamStart => exact bf_streamStart hs
  | firstDocumentStart => exact bf_documentStart hs
  | documentStart => exact bf_documentStart hs
  | documentContent => exact bf_content hs h
  | documentEnd => exact bf_documentEnd hs
  | flowSequenceFirstItem => exact bf_flowSeq hs h
  | flowSequenceItem => exact bf_flowSeq hs h
  | flowMappingFirstKey => exact bf_flowMap hs h
  | flowMappingKey => exact bf_flowMap hs h
  | flowMappingSimpleValue => exact bf_flowVal hs h
  | flowMappingValue => exact bf_flowVal hs h
  | blockSequenceFirstItem => exact bf_blockSeq hs h
  | blockSequenceItem => exact bf_blockSeq hs h
  | blockMappingFirstKey => exact bf_blockMap hs h
  | blockMappingKey => exact bf_blockMap hs h
  | blockMappingSimpleValue => exact bf_blockVal hs h
  | blockMappingValue => exact bf_blockVal hs h
  | end_ => exact bf_error hs

theorem bf_process {ev : Event} (he : AsciiEvent ev) (hs : J s) : BF b (process ev) T s := by
  refine bf_get rfl ?_
  dsimp only
  refine bf_bind (Q := T) (by bfm hs) fun _ s hs _ => ?_
  exact bf_bind (bf_analyze he hs) fun a s hs ha => bf_bind (bf_machine hs ha) fun _ s hs _ => by bfm hs

theorem bf_emitLoop {F : Nat} (hs : J s) : BF b (emitLoop F) T s := by
  induction F generalizing s with
  | zero => exact bf_fuel hs
  | succ F ih =>
    unfold emitLoop
    refine bf_get rfl ?_
    split
    · rename_i e es hes
      have hall : ∀ ev ∈ e :: es, AsciiEvent ev := by rw [← hes]; exact hs
      split
      · refine bf_bind (Q := T) (bf_modify rfl fun ev h => hall ev (List.mem_cons_of_mem _ h)) fun _ s hs _ =>
          bf_bind (bf_process (hall e (List.mem_cons_self ..)) hs) fun _ s hs _ => ih hs
      · exact bf_unit hs
    · exact bf_unit hs

theorem bf_emit {ev : Event} (he : AsciiEvent ev) (hs : J s) : BF b (Emitter.emit ev) T s := by
  refine bf_bind (Q := T) (bf_modify rfl ?_) fun _ s hs _ => bf_get rfl (bf_emitLoop hs)
  intro x hx
  rcases List.mem_append.1 hx with hx | hx
  · exact hs x hx
  · rw [List.mem_singleton.1 hx]; exact he

end Yaml.Eu
