import Verif.Lib.EmitEnc

/-
The emitter with another encoding: analysis and state machine.
-/

namespace Yaml.Ec
open Yaml Emitter
set_option linter.unusedSimpArgs false
set_option linter.unusedVariables false

variable {α β : Type} {b : Encoding} {s : EState}

theorem alpha_ne {c : Char} (h : isAlpha c = true) : c ≠ '\n' := by rintro rfl; revert h; decide

theorem bf_version {v : VersionDirective} (hs : J s) : BF b (analyzeVersionDirective v) T s := by
  unfold analyzeVersionDirective
  split
  · exact bf_error hs
  · exact bf_unit hs

theorem bf_tagDirective {t : TagDirective} (hs : J s) : BF b (analyzeTagDirective t) (fun _ => '\n' ∉ t.handle) s := by
  unfold analyzeTagDirective
  split
  · exact bf_error hs
  · split
    · exact bf_error hs
    · split
      · exact bf_error hs
      · split
        · exact bf_error hs
        · split
          · exact bf_error hs
          · rename_i h1 h2 h3 h4 _
            refine bf_pure hs ?_
            obtain ⟨h, p⟩ := t
            dsimp only at *
            have h2 := Classical.not_not.1 h2
            have h3 := Classical.not_not.1 h3
            cases h with
            | nil => simp at h1
            | cons c cs =>
              simp only [List.head?_cons, Option.some.injEq] at h2
              subst h2
              rcases List.eq_nil_or_concat cs with rfl | ⟨m, l, rfl⟩
              · decide
              · rw [List.concat_eq_append] at *
                have h3 : l = '!' := by
                  rw [← List.cons_append, List.getLast?_concat] at h3
                  simpa using h3
                subst h3
                intro hm
                rcases List.mem_cons.1 hm with hm | hm
                · exact absurd hm (by decide)
                · rcases List.mem_append.1 hm with hm | hm
                  · have hlen : strLen ('!' :: (m ++ ['!'])) > 2 := by
                      have h1 : ∀ x : Str, x ≠ [] → 0 < strLen x := by
                        intro x hx
                        cases x with
                        | nil => exact absurd rfl hx
                        | cons c cs =>
                          have : 0 < lenUtf8 c := by unfold lenUtf8; (repeat' split) <;> omega
                          simp only [strLen]; omega
                      have h2 : ∀ x y : Str, strLen (x ++ y) = strLen x + strLen y := by
                        intro x y
                        induction x with
                        | nil => simp [strLen]
                        | cons c cs ih => simp only [List.cons_append, strLen, ih]; omega
                      have h3 := h1 m (by rintro rfl; simp at hm)
                      have e1 : strLen ('!' :: (m ++ ['!'])) = strLen ['!'] + strLen (m ++ ['!']) := h2 ['!'] _
                      have e2 : strLen ['!'] = 1 := by decide
                      rw [e1, h2, e2]; omega
                    rw [decide_eq_true hlen] at h4
                    simp only [Bool.true_and, Bool.not_eq_true', List.drop_succ_cons, List.drop_zero, List.dropLast_concat] at h4
                    have h4 : m.all isAlpha = true := by simpa using h4
                    exact alpha_ne (List.all_eq_true.1 h4 _ hm) rfl
                  · exact absurd hm (by decide)

theorem bf_anchor {a : Str} {al : Bool} (hs : J s) : BF b (analyzeAnchor a al) (fun r => '\n' ∉ r.anchor) s := by
  unfold analyzeAnchor
  split
  · exact bf_error hs
  · split
    · exact bf_error hs
    · rename_i h
      refine bf_pure hs ?_
      have h : a.all isAlpha = true := by simpa using h
      exact fun hm => alpha_ne (List.all_eq_true.1 h _ hm) rfl

theorem bf_tagLoop {tag : Str} {ds : List TagDirective} (hd : ∀ d ∈ ds, '\n' ∉ d.handle) (hs : J s) : BF b (analyzeTagLoop tag ds) (fun r => '\n' ∉ r.handle) s := by
  induction ds with
  | nil => exact bf_pure hs (by simp)
  | cons d ds ih =>
    have ih := ih fun d hm => hd d (List.mem_cons_of_mem _ hm)
    unfold analyzeTagLoop
    split
    · split
      · exact bf_panic hs
      · split
        · exact bf_pure hs (hd d (List.mem_cons_self ..))
        · exact ih
    · exact ih

theorem bf_tag {tag : Str} {ds : List TagDirective} (hd : ∀ d ∈ ds, '\n' ∉ d.handle) (hs : J s) : BF b (analyzeTag tag ds) (fun r => '\n' ∉ r.handle) s := by
  unfold analyzeTag
  split
  · exact bf_error hs
  · exact bf_tagLoop hd hs

def TagFine (t : Option TagAnalysis) : Prop := ∀ x, t = some x → '\n' ∉ x.handle
def AncFine (t : Option AnchorAnalysis) : Prop := ∀ x, t = some x → '\n' ∉ x.anchor

theorem bf_optAnchor {a : Option Str} (hs : J s) : BF b (analyzeOptAnchor a) AncFine s := by
  cases a with
  | none => exact bf_pure hs (by intro x h; cases h)
  | some a => exact bf_bind (bf_anchor hs) fun r s hs hr => bf_pure hs (by intro x h; cases h; exact hr)

theorem bf_optTag {w : Bool} {ds : List TagDirective} {a : Option Str} (hd : ∀ d ∈ ds, '\n' ∉ d.handle) (hs : J s) : BF b (analyzeOptTag w ds a) TagFine s := by
  cases a with
  | none => exact bf_pure hs (by intro x h; cases h)
  | some a =>
    unfold analyzeOptTag
    dsimp only
    split
    · exact bf_bind (bf_tag hd hs) fun r s hs hr => bf_pure hs (by intro x h; cases h; exact hr)
    · exact bf_pure hs (by intro x h; cases h)

def AFine (a : Analysis) : Prop := AncFine a.anchor ∧ TagFine a.tag

theorem noTag : TagFine none := by intro x h; cases h
theorem noAnc : AncFine none := by intro x h; cases h

theorem bf_analyze {ev : Event} {ds : List TagDirective} (hd : ∀ d ∈ ds, '\n' ∉ d.handle) (hs : J s) : BF b (analyzeEvent ev ds) AFine s := by
  unfold analyzeEvent
  refine bf_get rfl ?_
  split
  · exact bf_bind (bf_anchor hs) fun r s hs hr => bf_pure hs ⟨by intro x h; cases h; exact hr, noTag⟩
  · exact bf_bind (bf_optAnchor hs) fun r s hs hr => bf_bind (bf_optTag hd hs) fun t s hs ht => bf_pure hs ⟨hr, ht⟩
  · exact bf_bind (bf_optAnchor hs) fun r s hs hr => bf_bind (bf_optTag hd hs) fun t s hs ht => bf_pure hs ⟨hr, ht⟩
  · exact bf_bind (bf_optAnchor hs) fun r s hs hr => bf_bind (bf_optTag hd hs) fun t s hs ht => bf_pure hs ⟨hr, ht⟩
  · exact bf_pure hs ⟨noAnc, noTag⟩

/-! ### States -/

theorem bf_append {t : TagDirective} {al : Bool} (hs : J s) (ht : '\n' ∉ t.handle) : BF b (appendTagDirective t al) T s := by
  refine bf_get rfl ?_
  split
  · split
    · exact bf_unit hs
    · exact bf_error hs
  · refine bf_modify rfl ⟨hs.brk, ?_⟩
    intro d hd
    rcases List.mem_append.1 hd with hd | hd
    · exact hs.tags d hd
    · rw [List.mem_singleton.1 hd]; exact ht

theorem bf_incIndent {x y : Bool} (hs : J s) : BF b (increaseIndent x y) T s := by bfm hs
theorem bf_pushState {x : EmSt} (hs : J s) (hx : x ≠ .streamStart := by decide) : BF b (pushState x) T s := by
  refine bf_modify rfl ⟨⟨hs.brk.1, ?_⟩, hs.tags⟩
  intro h
  rcases List.mem_cons.1 h with h | h
  · exact hx h.symm
  · exact hs.brk.2 h
theorem bf_setState {x : EmSt} (hs : J s) (hx : x ≠ .streamStart := by decide) : BF b (setState x) T s := bf_modify rfl ⟨⟨hx, hs.brk.2⟩, hs.tags⟩
theorem bf_openEnded {x : Int} (hs : J s) : BF b (setOpenEnded x) T s := by bfm hs
theorem bf_flowLevel {x : Int} (hs : J s) : BF b (addFlowLevel x) T s := by bfm hs

theorem bf_popIndent (hs : J s) : BF b popIndent T s := by
  refine bf_get rfl ?_
  split
  · exact bf_panic hs
  · bfm hs
theorem bf_popState (hs : J s) : BF b popState T s := by
  refine bf_get rfl ?_
  have h := hs.brk.2
  split
  · exact bf_panic hs
  · rename_i st rest e
    rw [e] at h
    simp only [List.mem_cons, not_or] at h
    exact bf_modify rfl ⟨⟨fun e => h.1 e.symm, h.2⟩, hs.tags⟩

theorem bf_declareTags {ts : List TagDirective} (hs : J s) : BF b (declareTags ts) (fun _ => ∀ t ∈ ts, '\n' ∉ t.handle) s := by
  induction ts generalizing s with
  | nil => exact bf_pure hs (by simp)
  | cons t ts ih =>
    refine bf_bind (bf_tagDirective hs) fun _ s hs ht => bf_bind (bf_append hs ht) fun _ s hs _ => bf_mono (ih hs) ?_
    intro _ h x hx
    rcases List.mem_cons.1 hx with rfl | hx
    · exact ht
    · exact h x hx

theorem bf_tagLines {ts : List TagDirective} (h : ∀ t ∈ ts, '\n' ∉ t.handle) (hs : J s) : BF b (writeTagLines ts) T s := by
  induction ts generalizing s with
  | nil => exact bf_unit hs
  | cons t ts ih =>
    exact bf_bind (bf_ind hs (by decide)) fun _ s hs _ => bf_bind (bf_writeTagHandle hs (h t (List.mem_cons_self ..))) fun _ s hs _ =>
      bf_bind (bf_writeTagContent hs) fun _ s hs _ => bf_bind (bf_writeIndent hs) fun _ s hs _ => ih (fun t hm => h t (List.mem_cons_of_mem _ hm)) hs

theorem bf_defaults {ts : List TagDirective} (h : ∀ t ∈ ts, '\n' ∉ t.handle) (hs : J s) : BF b (declareDefaults ts) T s := by
  induction ts generalizing s with
  | nil => exact bf_unit hs
  | cons t ts ih => exact bf_bind (bf_append hs (h t (List.mem_cons_self ..))) fun _ s hs _ => ih (fun t hm => h t (List.mem_cons_of_mem _ hm)) hs

theorem defaults_fine : ∀ t ∈ defaultTagDirectives, '\n' ∉ t.handle := by decide

theorem bf_documentStart {ev : Event} {first : Bool} (hs : J s) : BF b (emitDocumentStart ev first) T s := by
  unfold emitDocumentStart
  split
  · rename_i version tags implicit _
    refine bf_bind (Q := T) ?_ fun _ s hs _ => ?_
    · cases version with
      | none => exact bf_unit hs
      | some v => exact bf_version hs
    refine bf_bind (bf_declareTags hs) fun _ s hs ht => ?_
    refine bf_bind (bf_defaults defaults_fine hs) fun _ s hs _ => ?_
    refine bf_get rfl ?_
    generalize s.canonical = cn
    generalize s.openEnded = oe
    refine bf_bind (bf_when hs (bf_bind (bf_ind hs (by decide)) fun _ s hs _ => bf_writeIndent hs)) fun _ s hs _ => ?_
    refine bf_bind (bf_openEnded hs) fun _ s hs _ => ?_
    refine bf_bind (Q := T) ?_ fun _ s hs _ => ?_
    · cases version with
      | none => exact bf_unit hs
      | some v =>
        refine bf_bind (bf_ind hs (by decide)) fun _ s hs _ => ?_
        dsimp only
        split
        · exact bf_bind (bf_ind hs (by decide)) fun _ s hs _ => bf_writeIndent hs
        · exact bf_bind (bf_ind hs (by decide)) fun _ s hs _ => bf_writeIndent hs
    refine bf_bind (bf_tagLines ht hs) fun _ s hs _ => ?_
    dsimp only
    refine bf_bind (bf_when hs ?_) fun _ s hs _ => bf_bind (bf_setState hs) fun _ s hs _ => bf_openEnded hs
    exact bf_bind (bf_writeIndent hs) fun _ s hs _ => bf_bind (bf_ind hs (by decide)) fun _ s hs _ => bf_when hs (bf_writeIndent hs)
  · refine bf_get rfl ?_
    refine bf_bind (bf_when hs ?_) fun _ s hs _ => bf_bind (bf_flush hs) fun _ s hs _ => bf_setState hs
    exact bf_bind (bf_ind hs (by decide)) fun _ s hs _ => bf_bind (bf_openEnded hs) fun _ s hs _ => bf_writeIndent hs
  · exact bf_error hs

theorem bf_documentEnd {ev : Event} (hs : J s) : BF b (emitDocumentEnd ev) T s := by
  unfold emitDocumentEnd
  split
  · refine bf_bind (bf_writeIndent hs) fun _ s hs _ => ?_
    have last : ∀ s, J s → BF b (Emitter.flush >>= fun _ => M.modify fun s => { s with state := .documentStart, tagDirectives := [] }) T s :=
      fun s hs => bf_bind (bf_flush hs) fun _ s hs _ => bf_modify rfl ⟨⟨fun h => (by cases h), hs.brk.2⟩, by simp⟩
    split
    · exact bf_bind (bf_ind hs (by decide)) fun _ s hs _ => bf_bind (bf_openEnded hs) fun _ s hs _ => bf_bind (bf_writeIndent hs) fun _ s hs _ => last s hs
    · exact bf_bind (Q := T) (by bfm hs) fun _ s hs _ => last s hs
  · exact bf_error hs

theorem bf_select {p q : Bool} {st : ScalarStyle} {sc : ScalarAnalysis} {tag : Option TagAnalysis} (hs : J s) (ht : TagFine tag) :
    BF b (selectScalarStyle p q st sc tag) (fun r => TagFine r.2) s := by
  refine bf_get rfl ?_
  dsimp only
  split
  · exact bf_error hs
  · refine bf_pure hs ?_
    dsimp only
    split
    · intro x h; cases h; decide
    · exact ht

theorem bf_processAnchor {a : Option AnchorAnalysis} (hs : J s) (h : AncFine a) : BF b (processAnchor a) T s := by
  cases a with
  | none => exact bf_unit hs
  | some a =>
    refine bf_bind (bf_ind hs ?_) fun _ s hs _ => bf_writeAnchor hs (h a rfl)
    split <;> decide

theorem bf_processTag {t : Option TagAnalysis} (hs : J s) (h : TagFine t) : BF b (processTag t) T s := by
  cases t with
  | none => exact bf_unit hs
  | some t =>
    unfold processTag
    dsimp only
    split
    · exact bf_unit hs
    · split
      · exact bf_bind (bf_ind hs (by decide)) fun _ s hs _ => bf_bind (bf_writeTagContent hs) fun _ s hs _ => bf_ind hs (by decide)
      · exact bf_bind (bf_writeTagHandle hs (h t rfl)) fun _ s hs _ => bf_when hs (bf_writeTagContent hs)

theorem bf_processScalar {st : ScalarStyle} {v : Str} (hs : J s) : BF b (processScalar st v) T s := by
  refine bf_get rfl ?_
  cases st with
  | any => exact bf_panic hs
  | plain => exact bf_writePlain hs
  | singleQuoted => exact bf_writeSingle hs
  | doubleQuoted => exact bf_writeDouble hs
  | literal => exact bf_writeLiteral hs
  | folded => exact bf_writeFolded hs

theorem bf_emitAlias {a : Analysis} (hs : J s) (h : AFine a) : BF b (emitAlias a) T s :=
  bf_bind (bf_processAnchor hs h.1) fun _ s hs _ => bf_get rfl (bf_bind (bf_when hs (bf_put hs (by decide))) fun _ s hs _ => bf_popState hs)

theorem bf_emitScalar {p q : Bool} {st : ScalarStyle} {a : Analysis} (hs : J s) (h : AFine a) : BF b (emitScalar p q st a) T s := by
  unfold emitScalar
  split
  · exact bf_panic hs
  · refine bf_bind (bf_select hs h.2) fun r s hs hr => ?_
    obtain ⟨st, tag⟩ := r
    exact bf_bind (bf_processAnchor hs h.1) fun _ s hs _ => bf_bind (bf_processTag hs hr) fun _ s hs _ => bf_bind (bf_incIndent hs) fun _ s hs _ =>
      bf_bind (bf_processScalar hs) fun _ s hs _ => bf_bind (bf_popIndent hs) fun _ s hs _ => bf_popState hs

theorem bf_emitSeq {ev : Event} {st : CollStyle} {a : Analysis} (hs : J s) (h : AFine a) : BF b (emitSequenceStart ev st a) T s := by
  refine bf_bind (bf_processAnchor hs h.1) fun _ s hs _ => bf_bind (bf_processTag hs h.2) fun _ s hs _ => bf_get rfl ?_
  split
  · exact bf_setState hs
  · exact bf_setState hs

theorem bf_emitMap {ev : Event} {st : CollStyle} {a : Analysis} (hs : J s) (h : AFine a) : BF b (emitMappingStart ev st a) T s := by
  refine bf_bind (bf_processAnchor hs h.1) fun _ s hs _ => bf_bind (bf_processTag hs h.2) fun _ s hs _ => bf_get rfl ?_
  split
  · exact bf_setState hs
  · exact bf_setState hs

theorem bf_node {ev : Event} {x y z w : Bool} {a : Analysis} (hs : J s) (h : AFine a) : BF b (emitNode ev x y z w a) T s := by
  refine bf_bind (Q := T) (by bfm hs) fun _ s hs _ => ?_
  split
  · exact bf_emitAlias hs h
  · exact bf_emitScalar hs h
  · exact bf_emitSeq hs h
  · exact bf_emitMap hs h
  · exact bf_error hs

theorem bf_content {ev : Event} {a : Analysis} (hs : J s) (h : AFine a) : BF b (emitDocumentContent ev a) T s :=
  bf_bind (bf_pushState hs) fun _ s hs _ => bf_node hs h

theorem bf_flowEnd {first : Bool} {c : Char} (hs : J s) (hc : c ≠ '\n') : BF b (emitFlowEnd first c) T s := by
  refine bf_bind (bf_flowLevel hs) fun _ s hs _ => bf_bind (bf_popIndent hs) fun _ s hs _ => bf_get rfl ?_
  refine bf_bind (bf_when hs (bf_bind (bf_ind hs (by decide)) fun _ s hs _ => bf_writeIndent hs)) fun _ s hs _ => ?_
  exact bf_bind (bf_ind hs (by simpa using fun h => hc h.symm)) fun _ s hs _ => bf_popState hs

theorem bf_flowSep {first : Bool} (hs : J s) : BF b (emitFlowSeparator first) T s :=
  bf_bind (bf_when hs (bf_ind hs (by decide))) fun _ s hs _ => bf_get rfl (bf_when hs (bf_writeIndent hs))

theorem bf_flowSeq {ev : Event} {first : Bool} {a : Analysis} (hs : J s) (h : AFine a) : BF b (emitFlowSequenceItem ev first a) T s := by
  refine bf_bind (bf_when hs (bf_bind (bf_ind hs (by decide)) fun _ s hs _ => bf_bind (bf_incIndent hs) fun _ s hs _ => bf_flowLevel hs)) fun _ s hs _ => ?_
  split
  · exact bf_flowEnd hs (by decide)
  · exact bf_bind (bf_flowSep hs) fun _ s hs _ => bf_bind (bf_pushState hs) fun _ s hs _ => bf_node hs h

theorem bf_simple {ev : Event} {a : Analysis} (hs : J s) : BF b (simpleKeyTest ev a) T s := by
  refine bf_get rfl ?_
  split
  · exact bf_pure hs trivial
  · exact bf_panic hs

theorem bf_flowMap {ev : Event} {first : Bool} {a : Analysis} (hs : J s) (h : AFine a) : BF b (emitFlowMappingKey ev first a) T s := by
  refine bf_bind (bf_when hs (bf_bind (bf_ind hs (by decide)) fun _ s hs _ => bf_bind (bf_incIndent hs) fun _ s hs _ => bf_flowLevel hs)) fun _ s hs _ => ?_
  split
  · exact bf_flowEnd hs (by decide)
  · refine bf_bind (bf_flowSep hs) fun _ s hs _ => bf_get rfl ?_
    have last : ∀ simple s, J s → BF b (if simple = true then (do pushState .flowMappingSimpleValue; emitNode ev false false true true a)
        else (do writeIndicator ['?'] true false false; pushState .flowMappingValue; emitNode ev false false true false a) : Emit Unit) T s := by
      intro simple s hs
      split
      · exact bf_bind (bf_pushState hs) fun _ s hs _ => bf_node hs h
      · exact bf_bind (bf_ind hs (by decide)) fun _ s hs _ => bf_bind (bf_pushState hs) fun _ s hs _ => bf_node hs h
    split
    · exact bf_bind (Q := T) (bf_pure hs trivial) fun x s hs _ => last x s hs
    · exact bf_bind (bf_simple hs) fun x s hs _ => last x s hs

theorem bf_flowVal {ev : Event} {simple : Bool} {a : Analysis} (hs : J s) (h : AFine a) : BF b (emitFlowMappingValue ev simple a) T s := by
  unfold emitFlowMappingValue
  split
  · exact bf_bind (bf_ind hs (by decide)) fun _ s hs _ => bf_bind (bf_pushState hs) fun _ s hs _ => bf_node hs h
  · refine bf_get rfl ?_
    exact bf_bind (bf_when hs (bf_writeIndent hs)) fun _ s hs _ => bf_bind (bf_ind hs (by decide)) fun _ s hs _ => bf_bind (bf_pushState hs) fun _ s hs _ => bf_node hs h

theorem bf_blockSeq {ev : Event} {first : Bool} {a : Analysis} (hs : J s) (h : AFine a) : BF b (emitBlockSequenceItem ev first a) T s := by
  refine bf_get rfl ?_
  refine bf_bind (bf_when hs (bf_incIndent hs)) fun _ s hs _ => ?_
  split
  · exact bf_bind (bf_popIndent hs) fun _ s hs _ => bf_popState hs
  · exact bf_bind (bf_writeIndent hs) fun _ s hs _ => bf_bind (bf_ind hs (by decide)) fun _ s hs _ => bf_bind (bf_pushState hs) fun _ s hs _ => bf_node hs h

theorem bf_blockMap {ev : Event} {first : Bool} {a : Analysis} (hs : J s) (h : AFine a) : BF b (emitBlockMappingKey ev first a) T s := by
  refine bf_bind (bf_when hs (bf_incIndent hs)) fun _ s hs _ => ?_
  split
  · exact bf_bind (bf_popIndent hs) fun _ s hs _ => bf_popState hs
  · refine bf_bind (bf_writeIndent hs) fun _ s hs _ => bf_bind (bf_simple hs) fun simple s hs _ => ?_
    split
    · exact bf_bind (bf_pushState hs) fun _ s hs _ => bf_node hs h
    · exact bf_bind (bf_ind hs (by decide)) fun _ s hs _ => bf_bind (bf_pushState hs) fun _ s hs _ => bf_node hs h

theorem bf_blockVal {ev : Event} {simple : Bool} {a : Analysis} (hs : J s) (h : AFine a) : BF b (emitBlockMappingValue ev simple a) T s := by
  unfold emitBlockMappingValue
  split
  · exact bf_bind (bf_ind hs (by decide)) fun _ s hs _ => bf_bind (bf_pushState hs) fun _ s hs _ => bf_node hs h
  · exact bf_bind (bf_writeIndent hs) fun _ s hs _ => bf_bind (bf_ind hs (by decide)) fun _ s hs _ => bf_bind (bf_pushState hs) fun _ s hs _ => bf_node hs h

theorem bf_machine {ev : Event} {a : Analysis} (hs : J s) (h : AFine a) : BF b (stateMachine ev a) T s := by
  refine bf_get rfl ?_
  have h0 := hs.brk.1
  generalize s.state = st at h0
  cases st with
  | streamStart => exact absurd rfl h0
  | firstDocumentStart => exact bf_documentStart hs
  | documentStart => exact bf_documentStart hs
  | documentContent => exact bf_content hs h
  | documentEnd => exact bf_documentEnd hs
  | flowSequenceFirstItem => exact bf_flowSeq hs h
  | flowSequenceItem => exact bf_flowSeq hs h
  | flowMappingFirstKey => exact bf_flowMap hs h
  | flowMappingKey => exact bf_flowMap hs h
  | flowMappingSimpleValue => exact bf_flowVal hs h
  | flowMappingValue => exact bf_flowVal hs h
  | blockSequenceFirstItem => exact bf_blockSeq hs h
  | blockSequenceItem => exact bf_blockSeq hs h
  | blockMappingFirstKey => exact bf_blockMap hs h
  | blockMappingKey => exact bf_blockMap hs h
  | blockMappingSimpleValue => exact bf_blockVal hs h
  | blockMappingValue => exact bf_blockVal hs h
  | end_ => exact bf_error hs

theorem bf_process {ev : Event} (hs : J s) : BF b (process ev) T s := by
  have hd := hs.tags
  refine bf_get rfl ?_
  dsimp only
  generalize s.tagDirectives = ds at hd
  refine bf_bind (Q := T) (bf_modify rfl ⟨hs.brk, by simp⟩) fun _ s hs _ => ?_
  refine bf_bind (bf_analyze hd hs) fun a s hs ha => bf_bind (bf_machine hs ha) fun _ s hs _ => bf_modify rfl ⟨hs.brk, ?_⟩
  intro d h
  dsimp only at h
  split at h
  · exact hd d h
  · exact hs.tags d h

theorem bf_emitLoop {F : Nat} (hs : J s) : BF b (emitLoop F) T s := by
  induction F generalizing s with
  | zero => exact bf_fuel hs
  | succ F ih =>
    unfold emitLoop
    refine bf_get rfl ?_
    split
    · split
      · exact bf_bind (Q := T) (by bfm hs) fun _ s hs _ => bf_bind (bf_process hs) fun _ s hs _ => ih hs
      · exact bf_unit hs
    · exact bf_unit hs

theorem bf_emit {ev : Event} (hs : J s) : BF b (Emitter.emit ev) T s := by
  refine bf_bind (Q := T) (by bfm hs) fun _ s hs _ => bf_get rfl ?_
  exact bf_emitLoop hs

/-! ### Before the stream begins -/

/-- Nothing was written yet. -/
structure P0 (s : EState) : Prop where
  st : s.state = .streamStart
  sts : .streamStart ∉ s.states
  tags : ∀ d ∈ s.tagDirectives, '\n' ∉ d.handle
  enc : s.encoding = .utf8

/-- `m` from `s` with nothing written, and with the other encoding. -/
def PF (b : Encoding) (m : Emit α) (Q : α → Prop) (s : EState) : Prop :=
  ∃ x s' W W', execText (m s) [] = ((x, s'), W) ∧ execText (m (wb b s)) [] = ((x, wb b s'), W') ∧
    ((W = [] ∧ W' = [] ∧ P0 s') ∨ (W' = '\uFEFF' :: W ∧ J s')) ∧ ∀ a, x = .ok a → Q a

theorem pf_bind {m : Emit α} {f : α → Emit β} {Q : α → Prop} {R : β → Prop} (h : PF b m Q s) (hf : ∀ a s', P0 s' → Q a → PF b (f a) R s')
    (hg : ∀ a s', J s' → Q a → BF b (f a) R s') : PF b (m >>= f) R s := by
  obtain ⟨x, s', W, W', h1, h2, h3, h4⟩ := h
  unfold PF
  rw [bind_text, bind_text, h1, h2]
  rcases h3 with ⟨rfl, rfl, h3⟩ | ⟨rfl, h3⟩
  · cases x with
    | ok a => exact hf a s' h3 (h4 a rfl)
    | err e => exact ⟨_, _, _, _, rfl, rfl, Or.inl ⟨rfl, rfl, h3⟩, by intro a h; cases h⟩
    | panic e => exact ⟨_, _, _, _, rfl, rfl, Or.inl ⟨rfl, rfl, h3⟩, by intro a h; cases h⟩
    | fuel => exact ⟨_, _, _, _, rfl, rfl, Or.inl ⟨rfl, rfl, h3⟩, by intro a h; cases h⟩
  · cases x with
    | ok a =>
      obtain ⟨y, s2, W2, g1, g2, g3, g4⟩ := hg a s' h3 (h4 a rfl) W
      exact ⟨y, s2, W2, _, g1, g2, Or.inr ⟨rfl, g3⟩, g4⟩
    | err e => exact ⟨_, _, _, _, rfl, rfl, Or.inr ⟨rfl, h3⟩, by intro a h; cases h⟩
    | panic e => exact ⟨_, _, _, _, rfl, rfl, Or.inr ⟨rfl, h3⟩, by intro a h; cases h⟩
    | fuel => exact ⟨_, _, _, _, rfl, rfl, Or.inr ⟨rfl, h3⟩, by intro a h; cases h⟩

theorem pf_get {f : EState → Emit β} {R : β → Prop} (e : f (wb b s) = f s) (h : PF b (f s) R s) : PF b (M.get >>= f) R s := by
  have h1 : ∀ s, (M.get >>= f) s = f s s := fun _ => rfl
  unfold PF
  rw [h1, h1, e]
  exact h

theorem pf_modify {f : EState → EState} (e : f (wb b s) = wb b (f s)) (hs : P0 (f s)) : PF b (M.modify f : Emit Unit) T s :=
  ⟨_, _, _, _, rfl, by show ((_, f (wb b s)), _) = _; rw [e], Or.inl ⟨rfl, rfl, hs⟩, fun _ _ => trivial⟩
theorem pf_mbind {f : EState → EState} {g : Unit → Emit β} {R : β → Prop} (e : f (wb b s) = wb b (f s)) (h : PF b (g ()) R (f s)) :
    PF b (M.modify f >>= g) R s := by
  have h1 : ∀ s, (M.modify f >>= g) s = g () (f s) := fun _ => rfl
  unfold PF
  rw [h1, h1, e]
  exact h
theorem pf_pure {a : α} {Q : α → Prop} (hs : P0 s) (h : Q a) : PF b (pure a : Emit α) Q s :=
  ⟨_, _, _, _, rfl, rfl, Or.inl ⟨rfl, rfl, hs⟩, by intro x hx; cases hx; exact h⟩
theorem pf_error {e : String} {Q : α → Prop} (hs : P0 s) : PF b (emitterError e : Emit α) Q s :=
  ⟨_, _, _, _, rfl, rfl, Or.inl ⟨rfl, rfl, hs⟩, by intro x hx; cases hx⟩
theorem pf_panic {e : PanicSite} {Q : α → Prop} (hs : P0 s) : PF b (M.panic e : Emit α) Q s :=
  ⟨_, _, _, _, rfl, rfl, Or.inl ⟨rfl, rfl, hs⟩, by intro x hx; cases hx⟩

theorem pf_anchor {a : Str} {al : Bool} (hs : P0 s) : PF b (analyzeAnchor a al) (fun r => '\n' ∉ r.anchor) s := by
  unfold analyzeAnchor
  split
  · exact pf_error hs
  · split
    · exact pf_error hs
    · rename_i h
      refine pf_pure hs ?_
      have h : a.all isAlpha = true := by simpa using h
      exact fun hm => alpha_ne (List.all_eq_true.1 h _ hm) rfl

theorem pf_tagLoop {tag : Str} {ds : List TagDirective} (hd : ∀ d ∈ ds, '\n' ∉ d.handle) (hs : P0 s) : PF b (analyzeTagLoop tag ds) (fun r => '\n' ∉ r.handle) s := by
  induction ds with
  | nil => exact pf_pure hs (by simp)
  | cons d ds ih =>
    have ih := ih fun d hm => hd d (List.mem_cons_of_mem _ hm)
    unfold analyzeTagLoop
    split
    · split
      · exact pf_panic hs
      · split
        · exact pf_pure hs (hd d (List.mem_cons_self ..))
        · exact ih
    · exact ih

theorem pf_tag {tag : Str} {ds : List TagDirective} (hd : ∀ d ∈ ds, '\n' ∉ d.handle) (hs : P0 s) : PF b (analyzeTag tag ds) (fun r => '\n' ∉ r.handle) s := by
  unfold analyzeTag
  split
  · exact pf_error hs
  · exact pf_tagLoop hd hs

theorem pf_optAnchor {a : Option Str} (hs : P0 s) : PF b (analyzeOptAnchor a) AncFine s := by
  cases a with
  | none => exact pf_pure hs (by intro x h; cases h)
  | some a => exact pf_bind (pf_anchor hs) (fun r s hs hr => pf_pure hs (by intro x h; cases h; exact hr)) (fun r s hs hr => bf_pure hs (by intro x h; cases h; exact hr))

theorem pf_optTag {w : Bool} {ds : List TagDirective} {a : Option Str} (hd : ∀ d ∈ ds, '\n' ∉ d.handle) (hs : P0 s) : PF b (analyzeOptTag w ds a) TagFine s := by
  cases a with
  | none => exact pf_pure hs (by intro x h; cases h)
  | some a =>
    unfold analyzeOptTag
    dsimp only
    split
    · exact pf_bind (pf_tag hd hs) (fun r s hs hr => pf_pure hs (by intro x h; cases h; exact hr)) (fun r s hs hr => bf_pure hs (by intro x h; cases h; exact hr))
    · exact pf_pure hs (by intro x h; cases h)

theorem pf_analyze {ev : Event} {ds : List TagDirective} (hd : ∀ d ∈ ds, '\n' ∉ d.handle) (hs : P0 s) : PF b (analyzeEvent ev ds) AFine s := by
  unfold analyzeEvent
  refine pf_get rfl ?_
  split
  · exact pf_bind (pf_anchor hs) (fun r s hs hr => pf_pure hs ⟨by intro x h; cases h; exact hr, noTag⟩) (fun r s hs hr => bf_pure hs ⟨by intro x h; cases h; exact hr, noTag⟩)
  · exact pf_bind (pf_optAnchor hs) (fun r s hs hr => pf_bind (pf_optTag hd hs) (fun t s hs ht => pf_pure hs ⟨hr, ht⟩) (fun t s hs ht => bf_pure hs ⟨hr, ht⟩))
      (fun r s hs hr => bf_bind (bf_optTag hd hs) fun t s hs ht => bf_pure hs ⟨hr, ht⟩)
  · exact pf_bind (pf_optAnchor hs) (fun r s hs hr => pf_bind (pf_optTag hd hs) (fun t s hs ht => pf_pure hs ⟨hr, ht⟩) (fun t s hs ht => bf_pure hs ⟨hr, ht⟩))
      (fun r s hs hr => bf_bind (bf_optTag hd hs) fun t s hs ht => bf_pure hs ⟨hr, ht⟩)
  · exact pf_bind (pf_optAnchor hs) (fun r s hs hr => pf_bind (pf_optTag hd hs) (fun t s hs ht => pf_pure hs ⟨hr, ht⟩) (fun t s hs ht => bf_pure hs ⟨hr, ht⟩))
      (fun r s hs hr => bf_bind (bf_optTag hd hs) fun t s hs ht => bf_pure hs ⟨hr, ht⟩)
  · exact pf_pure hs ⟨noAnc, noTag⟩

theorem pf_start (hb : b ≠ .any) (hu : b ≠ .utf8) {ev : Event} (hs : P0 s) : PF b (emitStreamStart ev) T s := by
  refine pf_mbind rfl ?_
  have hs : P0 { s with openEnded := 0 } := ⟨hs.st, hs.sts, hs.tags, hs.enc⟩
  generalize ({ s with openEnded := 0 } : EState) = s at hs
  · split
    · rename_i enc _
      have e1 : normalise enc (wb b s) = wb b (normalise enc s) := by
        have h1 : (normalise enc (wb b s)).encoding = b := by
          cases b with
          | any => exact absurd rfl hb
          | utf8 => rfl
          | utf16le => rfl
          | utf16be => rfl
        have h2 : ∀ x y : EState, x.encoding = b → wb b x = wb b y → x = wb b y := by
          intro x y h h'
          rw [← h', ← h]; rfl
        exact h2 _ _ h1 rfl
      have e2 : (normalise enc s).encoding = .utf8 := by
        show (if (if s.encoding = .any then enc else s.encoding) = .any then Encoding.utf8 else if s.encoding = .any then enc else s.encoding) = _
        rw [hs.enc]; rfl
      have hst : J { normalise enc s with state := .firstDocumentStart } := ⟨⟨fun h => (by cases h), hs.sts⟩, hs.tags⟩
      refine ⟨.ok (), { normalise enc s with state := .firstDocumentStart }, [], ['\uFEFF'], ?_, ?_, Or.inr ⟨rfl, hst⟩, fun _ _ => trivial⟩
      · show execText ((M.when ((normalise enc s).encoding != .utf8) writeBom >>= fun _ => setState .firstDocumentStart) (normalise enc s)) [] = _
        rw [e2]; rfl
      · show execText ((M.when ((normalise enc (wb b s)).encoding != .utf8) writeBom >>= fun _ => setState .firstDocumentStart) (normalise enc (wb b s))) [] = _
        rw [e1]
        have : ((wb b (normalise enc s)).encoding != .utf8) = true := by
          show (b != .utf8) = true
          cases b with
          | any => rfl
          | utf8 => exact absurd rfl hu
          | utf16le => rfl
          | utf16be => rfl
        rw [this]; rfl
    · exact pf_error hs

theorem pf_process (hb : b ≠ .any) (hu : b ≠ .utf8) {ev : Event} (hs : P0 s) : PF b (process ev) T s := by
  have hd := hs.tags
  refine pf_get rfl ?_
  dsimp only
  generalize s.tagDirectives = ds at hd
  have fin : ∀ s : EState, (∀ d ∈ s.tagDirectives, '\n' ∉ d.handle) → ∀ d ∈ (if s.tagDirectives.isEmpty then ds else s.tagDirectives), '\n' ∉ d.handle := by
    intro s h d hm
    split at hm
    · exact hd d hm
    · exact h d hm
  refine pf_mbind rfl ?_
  have hs : P0 { s with tagDirectives := [] } := ⟨hs.st, hs.sts, by simp, hs.enc⟩
  generalize ({ s with tagDirectives := [] } : EState) = s at hs
  refine pf_bind (pf_analyze hd hs) (fun a s hs ha => ?_) fun a s hs ha => bf_bind (bf_machine hs ha) fun _ s hs _ => bf_modify rfl ⟨hs.brk, fin s hs.tags⟩
  refine pf_bind (Q := T) ?_ (fun _ s hs _ => pf_modify rfl ⟨hs.st, hs.sts, fin s hs.tags, hs.enc⟩) fun _ s hs _ => bf_modify rfl ⟨hs.brk, fin s hs.tags⟩
  refine pf_get rfl ?_
  rw [hs.st]
  exact pf_start hb hu hs

theorem pf_emitLoop (hb : b ≠ .any) (hu : b ≠ .utf8) {F : Nat} (hs : P0 s) : PF b (emitLoop F) T s := by
  induction F generalizing s with
  | zero => exact ⟨_, _, _, _, rfl, rfl, Or.inl ⟨rfl, rfl, hs⟩, by intro x hx; cases hx⟩
  | succ F ih =>
    unfold emitLoop
    refine pf_get rfl ?_
    split
    · rename_i es _
      split
      · refine pf_mbind rfl ?_
        have hs : P0 { s with events := es } := ⟨hs.st, hs.sts, hs.tags, hs.enc⟩
        exact pf_bind (pf_process hb hu hs) (fun _ s hs _ => ih hs) fun _ s hs _ => bf_emitLoop hs
      · exact pf_pure hs trivial
    · exact pf_pure hs trivial

theorem pf_emit (hb : b ≠ .any) (hu : b ≠ .utf8) {ev : Event} (hs : P0 s) : PF b (Emitter.emit ev) T s := by
  refine pf_mbind rfl ?_
  have hs : P0 { s with events := s.events ++ [ev] } := ⟨hs.st, hs.sts, hs.tags, hs.enc⟩
  exact pf_get rfl (pf_emitLoop hb hu hs)

end Yaml.Ec
