import Verif.Lib.EmitBreak

/-
The emitter with another line break: analysis and state machine.
-/

namespace Yaml.Eb
open Yaml Emitter
set_option linter.unusedSimpArgs false
set_option linter.unusedVariables false

variable {α β : Type} {b : Break} {s : EState}

theorem alpha_ne {c : Char} (h : isAlpha c = true) : c ≠ '\n' := by rintro rfl; revert h; decide

theorem bf_version {v : VersionDirective} (hs : J s) : BF b (analyzeVersionDirective v) T s := by
  unfold analyzeVersionDirective
  split
  · exact bf_error hs
  · exact bf_unit hs

theorem bf_tagDirective {t : TagDirective} (hs : J s) : BF b (analyzeTagDirective t) (fun _ => '\n' ∉ t.handle) s := by
  unfold analyzeTagDirective
  split
  · exact bf_error hs
  · split
    · exact bf_error hs
    · split
      · exact bf_error hs
      · split
        · exact bf_error hs
        · split
          · exact bf_error hs
          · rename_i h1 h2 h3 h4 _
            refine bf_pure hs ?_
            obtain ⟨h, p⟩ := t
            dsimp only at *
            have h2 := Classical.not_not.1 h2
            have h3 := Classical.not_not.1 h3
            cases h with
            | nil => simp at h1
            | cons c cs =>
              simp only [List.head?_cons, Option.some.injEq] at h2
              subst h2
              rcases List.eq_nil_or_concat cs with rfl | ⟨m, l, rfl⟩
              · decide
              · rw [List.concat_eq_append] at *
                have h3 : l = '!' := by
                  rw [← List.cons_append, List.getLast?_concat] at h3
                  simpa using h3
                subst h3
                intro hm
                rcases List.mem_cons.1 hm with hm | hm
                · exact absurd hm (by decide)
                · rcases List.mem_append.1 hm with hm | hm
                  · have hlen : strLen ('!' :: (m ++ ['!'])) > 2 := by
                      have h1 : ∀ x : Str, x ≠ [] → 0 < strLen x := by
                        intro x hx
                        cases x with
                        | nil => exact absurd rfl hx
                        | cons c cs =>
                          have : 0 < lenUtf8 c := by unfold lenUtf8; (repeat' split) <;> omega
                          simp only [strLen]; omega
                      have h2 : ∀ x y : Str, strLen (x ++ y) = strLen x + strLen y := by
                        intro x y
                        induction x with
                        | nil => simp [strLen]
                        | cons c cs ih => simp only [List.cons_append, strLen, ih]; omega
                      have h3 := h1 m (by rintro rfl; simp at hm)
                      have e1 : strLen ('!' :: (m ++ ['!'])) = strLen ['!'] + strLen (m ++ ['!']) := h2 ['!'] _
                      have e2 : strLen ['!'] = 1 := by decide
                      rw [e1, h2, e2]; omega
                    rw [decide_eq_true hlen] at h4
                    simp only [Bool.true_and, Bool.not_eq_true', List.drop_succ_cons, List.drop_zero, List.dropLast_concat] at h4
                    have h4 : m.all isAlpha = true := by simpa using h4
                    exact alpha_ne (List.all_eq_true.1 h4 _ hm) rfl
                  · exact absurd hm (by decide)

theorem bf_anchor {a : Str} {al : Bool} (hs : J s) : BF b (analyzeAnchor a al) (fun r => '\n' ∉ r.anchor) s := by
  unfold analyzeAnchor
  split
  · exact bf_error hs
  · split
    · exact bf_error hs
    · rename_i h
      refine bf_pure hs ?_
      have h : a.all isAlpha = true := by simpa using h
      exact fun hm => alpha_ne (List.all_eq_true.1 h _ hm) rfl

theorem bf_tagLoop {tag : Str} {ds : List TagDirective} (hd : ∀ d ∈ ds, '\n' ∉ d.handle) (hs : J s) : BF b (analyzeTagLoop tag ds) (fun r => '\n' ∉ r.handle) s := by
  induction ds with
  | nil => exact bf_pure hs (by simp)
  | cons d ds ih =>
    have ih := ih fun d hm => hd d (List.mem_cons_of_mem _ hm)
    unfold analyzeTagLoop
    split
    · split
      · exact bf_panic hs
      · split
        · exact bf_pure hs (hd d (List.mem_cons_self ..))
        · exact ih
    · exact ih

theorem bf_tag {tag : Str} {ds : List TagDirective} (hd : ∀ d ∈ ds, '\n' ∉ d.handle) (hs : J s) : BF b (analyzeTag tag ds) (fun r => '\n' ∉ r.handle) s := by
  unfold analyzeTag
  split
  · exact bf_error hs
  · exact bf_tagLoop hd hs

def TagFine (t : Option TagAnalysis) : Prop := ∀ x, t = some x → '\n' ∉ x.handle
def AncFine (t : Option AnchorAnalysis) : Prop := ∀ x, t = some x → '\n' ∉ x.anchor

theorem bf_optAnchor {a : Option Str} (hs : J s) : BF b (analyzeOptAnchor a) AncFine s := by
  cases a with
  | none => exact bf_pure hs (by intro x h; cases h)
  | some a => exact bf_bind (bf_anchor hs) fun r s hs hr => bf_pure hs (by intro x h; cases h; exact hr)

theorem bf_optTag {w : Bool} {ds : List TagDirective} {a : Option Str} (hd : ∀ d ∈ ds, '\n' ∉ d.handle) (hs : J s) : BF b (analyzeOptTag w ds a) TagFine s := by
  cases a with
  | none => exact bf_pure hs (by intro x h; cases h)
  | some a =>
    unfold analyzeOptTag
    dsimp only
    split
    · exact bf_bind (bf_tag hd hs) fun r s hs hr => bf_pure hs (by intro x h; cases h; exact hr)
    · exact bf_pure hs (by intro x h; cases h)

def AFine (a : Analysis) : Prop := AncFine a.anchor ∧ TagFine a.tag

theorem noTag : TagFine none := by intro x h; cases h
theorem noAnc : AncFine none := by intro x h; cases h

theorem bf_analyze {ev : Event} {ds : List TagDirective} (hd : ∀ d ∈ ds, '\n' ∉ d.handle) (hs : J s) : BF b (analyzeEvent ev ds) AFine s := by
  unfold analyzeEvent
  refine bf_get rfl ?_
  split
  · exact bf_bind (bf_anchor hs) fun r s hs hr => bf_pure hs ⟨by intro x h; cases h; exact hr, noTag⟩
  · exact bf_bind (bf_optAnchor hs) fun r s hs hr => bf_bind (bf_optTag hd hs) fun t s hs ht => bf_pure hs ⟨hr, ht⟩
  · exact bf_bind (bf_optAnchor hs) fun r s hs hr => bf_bind (bf_optTag hd hs) fun t s hs ht => bf_pure hs ⟨hr, ht⟩
  · exact bf_bind (bf_optAnchor hs) fun r s hs hr => bf_bind (bf_optTag hd hs) fun t s hs ht => bf_pure hs ⟨hr, ht⟩
  · exact bf_pure hs ⟨noAnc, noTag⟩

/-! ### States -/

theorem bf_append {t : TagDirective} {al : Bool} (hs : J s) (ht : '\n' ∉ t.handle) : BF b (appendTagDirective t al) T s := by
  refine bf_get rfl ?_
  split
  · split
    · exact bf_unit hs
    · exact bf_error hs
  · refine bf_modify rfl ⟨hs.brk, ?_⟩
    intro d hd
    rcases List.mem_append.1 hd with hd | hd
    · exact hs.tags d hd
    · rw [List.mem_singleton.1 hd]; exact ht

theorem bf_incIndent {x y : Bool} (hs : J s) : BF b (increaseIndent x y) T s := by bfm hs
theorem bf_pushState {x : EmSt} (hs : J s) : BF b (pushState x) T s := by bfm hs
theorem bf_setState {x : EmSt} (hs : J s) : BF b (setState x) T s := by bfm hs
theorem bf_openEnded {x : Int} (hs : J s) : BF b (setOpenEnded x) T s := by bfm hs
theorem bf_flowLevel {x : Int} (hs : J s) : BF b (addFlowLevel x) T s := by bfm hs

theorem bf_popIndent (hs : J s) : BF b popIndent T s := by
  refine bf_get rfl ?_
  split
  · exact bf_panic hs
  · bfm hs
theorem bf_popState (hs : J s) : BF b popState T s := by
  refine bf_get rfl ?_
  split
  · exact bf_panic hs
  · bfm hs

theorem bf_streamStart (hb : b ≠ .any) {ev : Event} (hs : J s) : BF b (emitStreamStart ev) T s := by
  refine bf_bind (bf_openEnded hs) fun _ s hs _ => ?_
  split
  · rename_i enc _
    refine bf_bind (Q := T) (bf_modify ?_ ?_) fun _ s hs _ => ?_
    · have h1 : (normalise enc (wb b s)).lineBreak = b := by
        show (if b = .any then _ else b) = b
        rw [if_neg hb]
      have h2 : ∀ x y : EState, x.lineBreak = b → wb b x = wb b y → x = wb b y := by
        intro x y h h'
        rw [← h', ← h]; rfl
      exact h2 _ _ h1 rfl
    · refine hs.same ?_ rfl
      show (if s.lineBreak = .any then _ else s.lineBreak) = _
      rw [hs.brk]; rfl
    · refine bf_get rfl ?_
      exact bf_bind (bf_when hs (bf_writeBom hs)) fun _ s hs _ => bf_setState hs
  · exact bf_error hs

theorem bf_declareTags {ts : List TagDirective} (hs : J s) : BF b (declareTags ts) (fun _ => ∀ t ∈ ts, '\n' ∉ t.handle) s := by
  induction ts generalizing s with
  | nil => exact bf_pure hs (by simp)
  | cons t ts ih =>
    refine bf_bind (bf_tagDirective hs) fun _ s hs ht => bf_bind (bf_append hs ht) fun _ s hs _ => bf_mono (ih hs) ?_
    intro _ h x hx
    rcases List.mem_cons.1 hx with rfl | hx
    · exact ht
    · exact h x hx

theorem bf_tagLines {ts : List TagDirective} (h : ∀ t ∈ ts, '\n' ∉ t.handle) (hs : J s) : BF b (writeTagLines ts) T s := by
  induction ts generalizing s with
  | nil => exact bf_unit hs
  | cons t ts ih =>
    exact bf_bind (bf_ind hs (by decide)) fun _ s hs _ => bf_bind (bf_writeTagHandle hs (h t (List.mem_cons_self ..))) fun _ s hs _ =>
      bf_bind (bf_writeTagContent hs) fun _ s hs _ => bf_bind (bf_writeIndent hs) fun _ s hs _ => ih (fun t hm => h t (List.mem_cons_of_mem _ hm)) hs

theorem bf_defaults {ts : List TagDirective} (h : ∀ t ∈ ts, '\n' ∉ t.handle) (hs : J s) : BF b (declareDefaults ts) T s := by
  induction ts generalizing s with
  | nil => exact bf_unit hs
  | cons t ts ih => exact bf_bind (bf_append hs (h t (List.mem_cons_self ..))) fun _ s hs _ => ih (fun t hm => h t (List.mem_cons_of_mem _ hm)) hs

theorem defaults_fine : ∀ t ∈ defaultTagDirectives, '\n' ∉ t.handle := by decide

theorem bf_documentStart {ev : Event} {first : Bool} (hs : J s) : BF b (emitDocumentStart ev first) T s := by
  unfold emitDocumentStart
  split
  · rename_i version tags implicit _
    refine bf_bind (Q := T) ?_ fun _ s hs _ => ?_
    · cases version with
      | none => exact bf_unit hs
      | some v => exact bf_version hs
    refine bf_bind (bf_declareTags hs) fun _ s hs ht => ?_
    refine bf_bind (bf_defaults defaults_fine hs) fun _ s hs _ => ?_
    refine bf_get rfl ?_
    generalize s.canonical = cn
    generalize s.openEnded = oe
    refine bf_bind (bf_when hs (bf_bind (bf_ind hs (by decide)) fun _ s hs _ => bf_writeIndent hs)) fun _ s hs _ => ?_
    refine bf_bind (bf_openEnded hs) fun _ s hs _ => ?_
    refine bf_bind (Q := T) ?_ fun _ s hs _ => ?_
    · cases version with
      | none => exact bf_unit hs
      | some v =>
        refine bf_bind (bf_ind hs (by decide)) fun _ s hs _ => ?_
        dsimp only
        split
        · exact bf_bind (bf_ind hs (by decide)) fun _ s hs _ => bf_writeIndent hs
        · exact bf_bind (bf_ind hs (by decide)) fun _ s hs _ => bf_writeIndent hs
    refine bf_bind (bf_tagLines ht hs) fun _ s hs _ => ?_
    dsimp only
    refine bf_bind (bf_when hs ?_) fun _ s hs _ => bf_bind (bf_setState hs) fun _ s hs _ => bf_openEnded hs
    exact bf_bind (bf_writeIndent hs) fun _ s hs _ => bf_bind (bf_ind hs (by decide)) fun _ s hs _ => bf_when hs (bf_writeIndent hs)
  · refine bf_get rfl ?_
    refine bf_bind (bf_when hs ?_) fun _ s hs _ => bf_bind (bf_flush hs) fun _ s hs _ => bf_setState hs
    exact bf_bind (bf_ind hs (by decide)) fun _ s hs _ => bf_bind (bf_openEnded hs) fun _ s hs _ => bf_writeIndent hs
  · exact bf_error hs

theorem bf_documentEnd {ev : Event} (hs : J s) : BF b (emitDocumentEnd ev) T s := by
  unfold emitDocumentEnd
  split
  · refine bf_bind (bf_writeIndent hs) fun _ s hs _ => ?_
    have last : ∀ s, J s → BF b (Emitter.flush >>= fun _ => M.modify fun s => { s with state := .documentStart, tagDirectives := [] }) T s :=
      fun s hs => bf_bind (bf_flush hs) fun _ s hs _ => bf_modify rfl ⟨hs.brk, by simp⟩
    split
    · exact bf_bind (bf_ind hs (by decide)) fun _ s hs _ => bf_bind (bf_openEnded hs) fun _ s hs _ => bf_bind (bf_writeIndent hs) fun _ s hs _ => last s hs
    · exact bf_bind (Q := T) (by bfm hs) fun _ s hs _ => last s hs
  · exact bf_error hs

theorem bf_select {p q : Bool} {st : ScalarStyle} {sc : ScalarAnalysis} {tag : Option TagAnalysis} (hs : J s) (ht : TagFine tag) :
    BF b (selectScalarStyle p q st sc tag) (fun r => TagFine r.2) s := by
  refine bf_get rfl ?_
  dsimp only
  split
  · exact bf_error hs
  · refine bf_pure hs ?_
    dsimp only
    split
    · intro x h; cases h; decide
    · exact ht

theorem bf_processAnchor {a : Option AnchorAnalysis} (hs : J s) (h : AncFine a) : BF b (processAnchor a) T s := by
  cases a with
  | none => exact bf_unit hs
  | some a =>
    refine bf_bind (bf_ind hs ?_) fun _ s hs _ => bf_writeAnchor hs (h a rfl)
    split <;> decide

theorem bf_processTag {t : Option TagAnalysis} (hs : J s) (h : TagFine t) : BF b (processTag t) T s := by
  cases t with
  | none => exact bf_unit hs
  | some t =>
    unfold processTag
    dsimp only
    split
    · exact bf_unit hs
    · split
      · exact bf_bind (bf_ind hs (by decide)) fun _ s hs _ => bf_bind (bf_writeTagContent hs) fun _ s hs _ => bf_ind hs (by decide)
      · exact bf_bind (bf_writeTagHandle hs (h t rfl)) fun _ s hs _ => bf_when hs (bf_writeTagContent hs)

theorem bf_processScalar {st : ScalarStyle} {v : Str} (hs : J s) : BF b (processScalar st v) T s := by
  refine bf_get rfl ?_
  cases st with
  | any => exact bf_panic hs
  | plain => exact bf_writePlain hs
  | singleQuoted => exact bf_writeSingle hs
  | doubleQuoted => exact bf_writeDouble hs
  | literal => exact bf_writeLiteral hs
  | folded => exact bf_writeFolded hs

theorem bf_emitAlias {a : Analysis} (hs : J s) (h : AFine a) : BF b (emitAlias a) T s :=
  bf_bind (bf_processAnchor hs h.1) fun _ s hs _ => bf_get rfl (bf_bind (bf_when hs (bf_put hs (by decide))) fun _ s hs _ => bf_popState hs)

theorem bf_emitScalar {p q : Bool} {st : ScalarStyle} {a : Analysis} (hs : J s) (h : AFine a) : BF b (emitScalar p q st a) T s := by
  unfold emitScalar
  split
  · exact bf_panic hs
  · refine bf_bind (bf_select hs h.2) fun r s hs hr => ?_
    obtain ⟨st, tag⟩ := r
    exact bf_bind (bf_processAnchor hs h.1) fun _ s hs _ => bf_bind (bf_processTag hs hr) fun _ s hs _ => bf_bind (bf_incIndent hs) fun _ s hs _ =>
      bf_bind (bf_processScalar hs) fun _ s hs _ => bf_bind (bf_popIndent hs) fun _ s hs _ => bf_popState hs

theorem bf_emitSeq {ev : Event} {st : CollStyle} {a : Analysis} (hs : J s) (h : AFine a) : BF b (emitSequenceStart ev st a) T s := by
  refine bf_bind (bf_processAnchor hs h.1) fun _ s hs _ => bf_bind (bf_processTag hs h.2) fun _ s hs _ => bf_get rfl ?_
  split
  · exact bf_setState hs
  · exact bf_setState hs

theorem bf_emitMap {ev : Event} {st : CollStyle} {a : Analysis} (hs : J s) (h : AFine a) : BF b (emitMappingStart ev st a) T s := by
  refine bf_bind (bf_processAnchor hs h.1) fun _ s hs _ => bf_bind (bf_processTag hs h.2) fun _ s hs _ => bf_get rfl ?_
  split
  · exact bf_setState hs
  · exact bf_setState hs

theorem bf_node {ev : Event} {x y z w : Bool} {a : Analysis} (hs : J s) (h : AFine a) : BF b (emitNode ev x y z w a) T s := by
  refine bf_bind (Q := T) (by bfm hs) fun _ s hs _ => ?_
  split
  · exact bf_emitAlias hs h
  · exact bf_emitScalar hs h
  · exact bf_emitSeq hs h
  · exact bf_emitMap hs h
  · exact bf_error hs

theorem bf_content {ev : Event} {a : Analysis} (hs : J s) (h : AFine a) : BF b (emitDocumentContent ev a) T s :=
  bf_bind (bf_pushState hs) fun _ s hs _ => bf_node hs h

theorem bf_flowEnd {first : Bool} {c : Char} (hs : J s) (hc : c ≠ '\n') : BF b (emitFlowEnd first c) T s := by
  refine bf_bind (bf_flowLevel hs) fun _ s hs _ => bf_bind (bf_popIndent hs) fun _ s hs _ => bf_get rfl ?_
  refine bf_bind (bf_when hs (bf_bind (bf_ind hs (by decide)) fun _ s hs _ => bf_writeIndent hs)) fun _ s hs _ => ?_
  exact bf_bind (bf_ind hs (by simpa using fun h => hc h.symm)) fun _ s hs _ => bf_popState hs

theorem bf_flowSep {first : Bool} (hs : J s) : BF b (emitFlowSeparator first) T s :=
  bf_bind (bf_when hs (bf_ind hs (by decide))) fun _ s hs _ => bf_get rfl (bf_when hs (bf_writeIndent hs))

theorem bf_flowSeq {ev : Event} {first : Bool} {a : Analysis} (hs : J s) (h : AFine a) : BF b (emitFlowSequenceItem ev first a) T s := by
  refine bf_bind (bf_when hs (bf_bind (bf_ind hs (by decide)) fun _ s hs _ => bf_bind (bf_incIndent hs) fun _ s hs _ => bf_flowLevel hs)) fun _ s hs _ => ?_
  split
  · exact bf_flowEnd hs (by decide)
  · exact bf_bind (bf_flowSep hs) fun _ s hs _ => bf_bind (bf_pushState hs) fun _ s hs _ => bf_node hs h

theorem bf_simple {ev : Event} {a : Analysis} (hs : J s) : BF b (simpleKeyTest ev a) T s := by
  refine bf_get rfl ?_
  split
  · exact bf_pure hs trivial
  · exact bf_panic hs

theorem bf_flowMap {ev : Event} {first : Bool} {a : Analysis} (hs : J s) (h : AFine a) : BF b (emitFlowMappingKey ev first a) T s := by
  refine bf_bind (bf_when hs (bf_bind (bf_ind hs (by decide)) fun _ s hs _ => bf_bind (bf_incIndent hs) fun _ s hs _ => bf_flowLevel hs)) fun _ s hs _ => ?_
  split
  · exact bf_flowEnd hs (by decide)
  · refine bf_bind (bf_flowSep hs) fun _ s hs _ => bf_get rfl ?_
    have last : ∀ simple s, J s → BF b (if simple = true then (do pushState .flowMappingSimpleValue; emitNode ev false false true true a)
        else (do writeIndicator ['?'] true false false; pushState .flowMappingValue; emitNode ev false false true false a) : Emit Unit) T s := by
      intro simple s hs
      split
      · exact bf_bind (bf_pushState hs) fun _ s hs _ => bf_node hs h
      · exact bf_bind (bf_ind hs (by decide)) fun _ s hs _ => bf_bind (bf_pushState hs) fun _ s hs _ => bf_node hs h
    split
    · exact bf_bind (Q := T) (bf_pure hs trivial) fun x s hs _ => last x s hs
    · exact bf_bind (bf_simple hs) fun x s hs _ => last x s hs

theorem bf_flowVal {ev : Event} {simple : Bool} {a : Analysis} (hs : J s) (h : AFine a) : BF b (emitFlowMappingValue ev simple a) T s := by
  unfold emitFlowMappingValue
  split
  · exact bf_bind (bf_ind hs (by decide)) fun _ s hs _ => bf_bind (bf_pushState hs) fun _ s hs _ => bf_node hs h
  · refine bf_get rfl ?_
    exact bf_bind (bf_when hs (bf_writeIndent hs)) fun _ s hs _ => bf_bind (bf_ind hs (by decide)) fun _ s hs _ => bf_bind (bf_pushState hs) fun _ s hs _ => bf_node hs h

theorem bf_blockSeq {ev : Event} {first : Bool} {a : Analysis} (hs : J s) (h : AFine a) : BF b (emitBlockSequenceItem ev first a) T s := by
  refine bf_get rfl ?_
  refine bf_bind (bf_when hs (bf_incIndent hs)) fun _ s hs _ => ?_
  split
  · exact bf_bind (bf_popIndent hs) fun _ s hs _ => bf_popState hs
  · exact bf_bind (bf_writeIndent hs) fun _ s hs _ => bf_bind (bf_ind hs (by decide)) fun _ s hs _ => bf_bind (bf_pushState hs) fun _ s hs _ => bf_node hs h

theorem bf_blockMap {ev : Event} {first : Bool} {a : Analysis} (hs : J s) (h : AFine a) : BF b (emitBlockMappingKey ev first a) T s := by
  refine bf_bind (bf_when hs (bf_incIndent hs)) fun _ s hs _ => ?_
  split
  · exact bf_bind (bf_popIndent hs) fun _ s hs _ => bf_popState hs
  · refine bf_bind (bf_writeIndent hs) fun _ s hs _ => bf_bind (bf_simple hs) fun simple s hs _ => ?_
    split
    · exact bf_bind (bf_pushState hs) fun _ s hs _ => bf_node hs h
    · exact bf_bind (bf_ind hs (by decide)) fun _ s hs _ => bf_bind (bf_pushState hs) fun _ s hs _ => bf_node hs h

theorem bf_blockVal {ev : Event} {simple : Bool} {a : Analysis} (hs : J s) (h : AFine a) : BF b (emitBlockMappingValue ev simple a) T s := by
  unfold emitBlockMappingValue
  split
  · exact bf_bind (bf_ind hs (by decide)) fun _ s hs _ => bf_bind (bf_pushState hs) fun _ s hs _ => bf_node hs h
  · exact bf_bind (bf_writeIndent hs) fun _ s hs _ => bf_bind (bf_ind hs (by decide)) fun _ s hs _ => bf_bind (bf_pushState hs) fun _ s hs _ => bf_node hs h

theorem bf_machine (hb : b ≠ .any) {ev : Event} {a : Analysis} (hs : J s) (h : AFine a) : BF b (stateMachine ev a) T s := by
  refine bf_get rfl ?_
  cases s.state with
  | streamStart => exact bf_streamStart hb hs
  | firstDocumentStart => exact bf_documentStart hs
  | documentStart => exact bf_documentStart hs
  | documentContent => exact bf_content hs h
  | documentEnd => exact bf_documentEnd hs
  | flowSequenceFirstItem => exact bf_flowSeq hs h
  | flowSequenceItem => exact bf_flowSeq hs h
  | flowMappingFirstKey => exact bf_flowMap hs h
  | flowMappingKey => exact bf_flowMap hs h
  | flowMappingSimpleValue => exact bf_flowVal hs h
  | flowMappingValue => exact bf_flowVal hs h
  | blockSequenceFirstItem => exact bf_blockSeq hs h
  | blockSequenceItem => exact bf_blockSeq hs h
  | blockMappingFirstKey => exact bf_blockMap hs h
  | blockMappingKey => exact bf_blockMap hs h
  | blockMappingSimpleValue => exact bf_blockVal hs h
  | blockMappingValue => exact bf_blockVal hs h
  | end_ => exact bf_error hs

theorem bf_process (hb : b ≠ .any) {ev : Event} (hs : J s) : BF b (process ev) T s := by
  have hd := hs.tags
  refine bf_get rfl ?_
  dsimp only
  generalize s.tagDirectives = ds at hd
  refine bf_bind (Q := T) (bf_modify rfl ⟨hs.brk, by simp⟩) fun _ s hs _ => ?_
  refine bf_bind (bf_analyze hd hs) fun a s hs ha => bf_bind (bf_machine hb hs ha) fun _ s hs _ => bf_modify rfl ⟨hs.brk, ?_⟩
  intro d h
  dsimp only at h
  split at h
  · exact hd d h
  · exact hs.tags d h

theorem bf_emitLoop (hb : b ≠ .any) {F : Nat} (hs : J s) : BF b (emitLoop F) T s := by
  induction F generalizing s with
  | zero => exact bf_fuel hs
  | succ F ih =>
    unfold emitLoop
    refine bf_get rfl ?_
    split
    · split
      · exact bf_bind (Q := T) (by bfm hs) fun _ s hs _ => bf_bind (bf_process hb hs) fun _ s hs _ => ih hs
      · exact bf_unit hs
    · exact bf_unit hs

theorem bf_emit (hb : b ≠ .any) {ev : Event} (hs : J s) : BF b (Emitter.emit ev) T s := by
  refine bf_bind (Q := T) (by bfm hs) fun _ s hs _ => bf_get rfl ?_
  exact bf_emitLoop hb hs

end Yaml.Eb
