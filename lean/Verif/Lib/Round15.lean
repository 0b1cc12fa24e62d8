import Verif.Lib.Round14

/-
Reading back: block collections as nodes.
-/

namespace Yaml.Rt
open Yaml Emitter Lx Spec
set_option linter.unusedSimpArgs false
set_option linter.unusedVariables false

/-- The indentation of a block collection. -/
def grow (il : Bool) (s : EState) : EState :=
  { s with indents := s.indent :: s.indents, indent := if s.indent < 0 then 0 else if il then s.indent else s.indent + s.bestIndent }

theorem writes_grow (il : Bool) (s : EState) : Writes (increaseIndent false il) s () (grow il s) [] := by
  unfold increaseIndent
  exact Writes.modify _ s

/-- A block collection is over. -/
theorem read_blockEnd {F : Nat} {s : EState} {A : Cfg} {n m : Int} {rest : Str} (hf : A.flow = 0) {i0 : Int} {l : List Int} (hi : A.indents = i0 :: l) (hm : A.indent = m) (hnm : n < m) (hm0 : 0 ≤ m)
    (hl : s.lineBreak ≠ .any) (hfol : Fol n s.lineBreak s.indention rest) (hx : Exit s) (ha : After s A) :
    Reach F A rest { A with indent := i0, indents := l, toks := A.toks ++ [.blockEnd] } rest := by
  have hc : A.close = { A with indent := i0, indents := l, toks := A.toks ++ [.blockEnd] } := by
    unfold Cfg.close; rw [hi]
  rw [← hc]
  refine .close hf (by rw [hi]; simp) (by omega) ?_ (.refl _ _)
  intro g t'' ht hg hs
  obtain ⟨j, t, h1, h2, h3⟩ := hfol
  have hb : Blanks ((if s.indention then [] else breakChars s.lineBreak) ++ List.replicate j ' ') := by
    refine Blanks.append ?_ (replicate_blanks j)
    split
    · exact .nil
    · exact breakChars_blanks
  rw [ht, ← List.append_assoc] at h1
  obtain ⟨rfl, rfl⟩ := ws_unique h1 hg (hb.wsT _) hs h2
  have hcol : ((Spec.advance A.mark ((if s.indention then [] else breakChars s.lineBreak) ++ List.replicate j ' ')).column : Int) = j := by
    rw [colAfter_advance, colAfter_append, colAfter_spaces]
    cases hin : s.indention with
    | true =>
      have : ((A.mark.column : Nat) : Int) = s.column := ha.sync
      rw [this, (hx hin).1]
      show (0 : Int) + j = j
      omega
    | false =>
      simp only [Bool.false_eq_true, if_false]
      rw [colAfter_break hl]; omega
  rcases h3 with h3 | ⟨rfl, h3⟩
  · left; rw [hcol]; omega
  · right
    rcases h3 with h3 | h3
    · exact Or.inl h3
    · exact Or.inr ⟨Or.inl h3, by omega⟩

theorem items_ne {D : List TagDirective} {ts : List TokenData} {es : List EventData} (h : Derives false D .items ts es) (hne : es ≠ []) : ts ≠ [] := by
  cases h with
  | noItems => exact absurd rfl hne
  | item => simp

section
variable {P : Par} {F : Nat} {k : CollKind} {e f1 : Event} {q q1 : List Event} {ns : Evs} {an tg : Option Str} {im : Bool} {sty : CollStyle}

/-- In block context, written in block style. -/
theorem coll_B_block (hD : DirsOk P.tags) (h : IsColl P k e q ns f1 an tg im sty) (hb : ClaimBlock P F k.bf k.fk.fin k.bd k.bph ns)
    (hin : inFlow P sty ns = false) (il : EState → Bool) (hil : ∀ s, il s = true → k = seqColl ∧ s.mappingContext = true ∧ s.indention = false)
    (hcong : ∀ s q, il { s with events := q } = il s)
    (hfirst : ∀ e a s s' w, Writes (k.bf e false a) (grow (il s) s) () s' w → Writes (k.bf e true a) s () s' w) : ClaimB P F ((e, q) :: (ns ++ [(f1, q1)])) := by
  intro s root sq mp st sts hE hfl hR hst
  have hns : ns ≠ [] := by
    rintro rfl
    unfold inFlow at hin
    simp at hin
  obtain ⟨a, s2, wp, ps, ha, h1, h2, h3, h4, h5, h6, h7, h8, hne⟩ := h.begins hD F 0 s.indent s root sq mp false
  have hif : (s.flowLevel != 0 || s.canonical || sty == .flow || k.empty (ctx s q root sq mp false) e) = false :=
    (h.inFlow (s := ctx s q root sq mp false) rfl hE.canon hfl).trans hin
  rw [hif, if_neg (by decide)] at h1
  obtain ⟨s3, hs3⟩ : ∃ s3, s3 = grow (il { s2 with state := k.K2 }) { s2 with state := k.K2 } := ⟨_, rfl⟩
  have hc2 : core { s2 with state := k.K2 } = core s := (core_wrote h2).trans rfl
  have hi2 : s2.indent = s.indent := core_indent hc2
  have hii2 : s2.indents = s.indents := core_indents hc2
  have hb2 : s2.bestIndent = s.bestIndent := core_bestIndent hc2
  have e1 : s3.indent = if s.indent < 0 then 0 else if il { s2 with state := k.K2 } then s.indent else s.indent + s.bestIndent := by
    rw [hs3]; show (if s2.indent < 0 then _ else if _ then s2.indent else s2.indent + s2.bestIndent) = _; rw [hi2, hb2]
  have e2 : s3.indents = s.indent :: s.indents := by rw [hs3]; show s2.indent :: s2.indents = _; rw [hi2, hii2]
  have e3 : s3.column = s2.column := by rw [hs3]; rfl
  have e4 : s3.whitespace = s2.whitespace := by rw [hs3]; rfl
  have e5 : s3.indention = s2.indention := by rw [hs3]; rfl
  have e6 : s3.lineBreak = s.lineBreak := by
    have e : ({ s2 with state := k.K2 } : EState).lineBreak = s.lineBreak := core_lineBreak hc2
    rw [hs3]; exact e
  have hbest := hE.best
  have hEi := hE.indent
  have hge : 0 ≤ s3.indent ∧ s.indent ≤ s3.indent := by rw [e1]; split <;> (try split) <;> omega
  have hE3 : Env P s3 := by
    refine ⟨?_, ?_, ?_, ?_, by omega, ?_⟩ <;> rw [hs3]
    · exact (hE.core hc2).canon
    · exact (hE.core hc2).uni
    · exact (hE.core hc2).brk
    · exact (hE.core hc2).best
    · exact (hE.core hc2).tags
  have hline : Line s3 := by
    intro hi
    rw [e5] at hi
    by_cases hps : ps = []
    · obtain ⟨hs2, _⟩ := h5 hps
      have hi' : s.indention = true := by rw [hs2] at hi; exact hi
      have hnil : il { s2 with state := k.K2 } = false := by
        cases hh : il { s2 with state := k.K2 } with
        | false => rfl
        | true => have := (hil _ hh).2.2; rw [show ({ s2 with state := k.K2 } : EState).indention = s2.indention from rfl, hi] at this; cases this
      rw [e1, e3, e4, hnil, hs2]
      rcases hR hi' with ⟨x1, x2, x3⟩ | ⟨x1, x2, x3⟩
      · right
        rw [if_pos (by omega)]
        exact ⟨x2, x3⟩
      · left
        rw [if_neg (by omega), if_neg (by decide)]
        show s.column < _
        omega
    · rw [(h6 hps).2] at hi; cases hi
  obtain ⟨s', w, b1, b2, b3, b4, b5, b6⟩ := hb s3 s.indent s.indent s.indents st sts f1 q1 h.fin hE3 (by rw [hs3]; exact (core_flowLevel hc2).trans hfl) hge.1 hEi hge.2 hge.2 e2
    (by rw [hs3]; show s2.states = _; rw [h2.frame]; exact hst) hline
  have hx := b5 (Or.inl hns)
  have hcs : core s' = core s := by
    rw [b2, hs3]
    have e : core { grow (il { s2 with state := k.K2 }) { s2 with state := k.K2 } with indent := s.indent, indents := s.indents } =
      { core { s2 with state := k.K2 } with indent := s.indent, indents := s.indents } := rfl
    rw [e, hc2]; rfl
  refine ⟨s', wp ++ w, ?_, hcs, b3, b4, hx, fun rest _ hcan => by unfold inFlow at hin; rw [hcan] at hin; simp at hin, ?_⟩
  · refine run_node ha h1 (hE.kept hc2) (Run.puts (f := fun e a => k.bf e true a) ?_ (fun e a q => k.machine2 e a _ rfl))
    have := Run.before (f := fun e a => k.bf e true a) (s := { s2 with state := k.K2 }) (w0 := []) b1 (by
      intro e a q s5 w5 he hw
      refine hfirst _ _ _ _ _ ?_
      rw [hcong { s2 with state := k.K2 } q]
      rw [hs3] at hw
      exact hw)
    rw [List.nil_append] at this; exact this
  intro rest hrest
  obtain ⟨y1, y2, y3, y4⟩ := b6 rest (by rw [e6]; exact hrest)
  refine ⟨?_, ?_⟩
  · intro hw
    by_cases hps : ps = []
    · obtain ⟨hs2, hwp⟩ := h5 hps
      rw [hwp, List.nil_append]
      exact y2 hns (by rw [e4, hs2]; exact hw)
    · rw [List.append_assoc]; exact prop_endsTag h3 hps hw _
  · intro A hA
    rw [List.append_assoc]
    obtain ⟨B, c1, c2, c3, c4, c5, c6, c7⟩ := props_read h3 h8 (T := w ++ rest) (fun hps => y2 hns (by rw [e4]; exact (h6 hps).1)) hA.cool hA.flow hA.ind (fun _ => hA.after)
    have hBf : B.flow = 0 := c2.flow.trans hA.flow
    have hBi : B.indent = s.indent := c2.indent.trans hA.ind
    have hsy : Sync s3 B := by
      have : ((B.mark.column : Nat) : Int) = s3.column := by rw [c5, colAfter_advance, hA.sync, e3, h2.col]; rfl
      exact this
    obtain ⟨C, ts, evs, d1, d2, d3, d4, d5⟩ := y4 B hBf c2.cool hBi hsy (by
      intro hi
      rw [e5] at hi
      by_cases hps : ps = []
      · obtain ⟨hs2, _⟩ := h5 hps
        rw [c4 hps]
        exact hA.fresh (by rw [hs2] at hi; exact hi)
      · rw [(h6 hps).2] at hi; cases hi)
    have haf := d3 (Or.inl hns)
    rw [if_neg hns] at d2
    by_cases hlt : s.indent < s3.indent
    · have hbase : B.base k.bd s3.indent = { B with indents := B.indent :: B.indents, indent := s3.indent, toks := B.toks ++ [k.bd] } := by
        unfold Cfg.base; rw [if_pos ⟨hBf, by rw [hBi]; exact hlt⟩]
      rw [hbase] at d2
      have hcl := read_blockEnd (F := F) (s := s') (rest := rest) (n := s.indent) (m := s3.indent) (d2.flow.trans hBf) (i0 := B.indent) (l := B.indents) d2.indents d2.indent hlt hge.1
        (by rw [core_lineBreak hcs]; exact hE.brk) (by rw [core_lineBreak hcs]; exact hrest) hx haf
      refine ⟨_, ps ++ (k.bd :: (ts ++ [.blockEnd])), _, c1.trans (d1.trans hcl), c2.trans ⟨d2.flow, rfl, rfl, ?_, d2.cool.same rfl rfl (Nat.le_refl _), d2.tail⟩,
        ⟨haf.sync, haf.fresh⟩, Or.inl (k.derBlock _ _ _ _ _ _ _ h7 d4), h.same hne d5 .block⟩
      show C.toks ++ [.blockEnd] = _
      rw [d2.toks]; simp
    · have heq : s3.indent = s.indent := by omega
      have hil' : il { s2 with state := k.K2 } = true := by
        cases hh : il { s2 with state := k.K2 } with
        | true => rfl
        | false =>
          rw [hh] at e1
          rw [e1] at hlt
          exfalso
          apply hlt
          split <;> (try rw [if_neg (by decide)]) <;> omega
      obtain ⟨rfl, hmp, _⟩ := hil _ hil'
      have hmp' : mp = true := by
        have : s2.mappingContext = mp := by rw [h2.frame]; rfl
        rw [← this]; exact hmp
      rw [base_eq _ _ (by rw [hBi, heq])] at d2
      have hevs : evs ≠ [] := by
        rintro rfl
        cases ns with
        | nil => exact hns rfl
        | cons x xs => exact d5.elim
      refine ⟨C, ps ++ ts, _, c1.trans d1, c2.trans d2, haf, Or.inl ?_, h.same hne d5 .block⟩
      rw [hmp']
      exact .indentless h7 d4 (items_ne d4 hevs)

theorem seq_first (e : Event) (a : Analysis) (s s' : EState) (w : Str)
    (h : Writes (emitBlockSequenceItem e false a) (grow (s.mappingContext && !s.indention) s) () s' w) : Writes (emitBlockSequenceItem e true a) s () s' w := by
  unfold emitBlockSequenceItem at h ⊢
  refine Writes.bind_get ?_
  refine Writes.bind0 (a := ()) (s' := grow (s.mappingContext && !s.indention) s) (Writes.when_true rfl (writes_grow _ s)) ?_
  intro W
  exact h W

theorem map_first (e : Event) (a : Analysis) (s s' : EState) (w : Str)
    (h : Writes (emitBlockMappingKey e false a) (grow false s) () s' w) : Writes (emitBlockMappingKey e true a) s () s' w := by
  unfold emitBlockMappingKey at h ⊢
  refine Writes.bind0 (a := ()) (s' := grow false s) (Writes.when_true rfl (writes_grow _ s)) ?_
  intro W
  exact h W

end

/-! ### All nodes -/

/-- Nodes, items and pairs. -/
inductive Kind where
  | node | nodes | pairs

/-- Events with the queues behind them: nodes, the items of a sequence and the pairs of a mapping. -/
inductive Tr (P : Par) : Kind → Evs → Prop
  | alias {e : Event} {q : List Event} {n : Str} (he : e.data = .alias n) (hg : NodeGood P e.data) : Tr P .node [(e, q)]
  | scalar {e : Event} {q : List Event} {an tg : Option Str} {v : Str} {p qi : Bool} {sty : ScalarStyle} (he : e.data = .scalar an tg v p qi sty)
      (hg : NodeGood P e.data) : Tr P .node [(e, q)]
  | seq {e f1 : Event} {q q1 : List Event} {ns : Evs} {an tg : Option Str} {im : Bool} {sty : CollStyle} (h : IsColl P seqColl e q ns f1 an tg im sty) (hn : Tr P .nodes ns) :
      Tr P .node ((e, q) :: (ns ++ [(f1, q1)]))
  | map {e f1 : Event} {q q1 : List Event} {ns : Evs} {an tg : Option Str} {im : Bool} {sty : CollStyle} (h : IsColl P mapColl e q ns f1 an tg im sty) (hn : Tr P .pairs ns) :
      Tr P .node ((e, q) :: (ns ++ [(f1, q1)]))
  | nil : Tr P .nodes []
  | cons {es ns : Evs} (h : Tr P .node es) (hn : Tr P .nodes ns) : Tr P .nodes (es ++ ns)
  | nilP : Tr P .pairs []
  | consP {kes ves ns : Evs} (h : Tr P .node kes) (hv : Tr P .node ves) (hn : Tr P .pairs ns) : Tr P .pairs ((kes ++ ves) ++ ns)

/-- What is claimed. -/
def ClaimAll (P : Par) (F : Nat) : Kind → Evs → Prop
  | .node, es => ClaimB P F es ∧ ClaimF P F es ∧ ClaimS P F es
  | .nodes, ns => ClaimBlock P F seqColl.bf seqColl.fk.fin seqColl.bd seqColl.bph ns ∧
      ClaimFlow P F seqKind.f seqKind.fin seqKind.d seqKind.ph1 seqKind.ph ns ∧ ClaimColl P F seqKind.f seqKind.fin seqKind.d0 seqKind.d seqKind.ph ns
  | .pairs, ns => ClaimBlock P F mapColl.bf mapColl.fk.fin mapColl.bd mapColl.bph ns ∧
      ClaimFlow P F mapKind.f mapKind.fin mapKind.d mapKind.ph1 mapKind.ph ns ∧ ClaimColl P F mapKind.f mapKind.fin mapKind.d0 mapKind.d mapKind.ph ns

/-- The first event of a node. -/
theorem Tr.first {P : Par} (hD : DirsOk P.tags) {es : Evs} (h : Tr P .node es) : ∃ e q es' a, es = (e, q) :: es' ∧ Ana P e a ∧ (∀ s, checkSimpleKey s e a ≠ none) ∧
    e.data ≠ .sequenceEnd ∧ e.data ≠ .mappingEnd := by
  generalize hk : Kind.node = k at h
  cases h with
  | alias he hg =>
    obtain ⟨a, ha, hs⟩ := analysed hD hg (Or.inl ⟨_, he⟩)
    refine ⟨_, _, _, a, rfl, ha, ?_, by rw [he]; simp, by rw [he]; simp⟩
    intro s; unfold checkSimpleKey; rw [he]; simp
  | scalar he hg =>
    obtain ⟨a, ha, hs⟩ := analysed hD hg (Or.inr (Or.inl ⟨_, _, _, _, _, _, he⟩))
    refine ⟨_, _, _, a, rfl, ha, ?_, by rw [he]; simp, by rw [he]; simp⟩
    rw [he] at hs
    obtain ⟨_, hsc, _⟩ := hs
    intro s; unfold checkSimpleKey; rw [he, hsc]; simp
  | seq hc hn =>
    obtain ⟨a, ha, hs⟩ := hc.seen hD
    have he := hc.start
    refine ⟨_, _, _, a, rfl, ha, ?_, by rw [he]; simp [seqColl], by rw [he]; simp [seqColl]⟩
    intro s; rw [seqColl.simple s _ a _ _ _ _ he]; simp
  | map hc hn =>
    obtain ⟨a, ha, hs⟩ := hc.seen hD
    have he := hc.start
    refine ⟨_, _, _, a, rfl, ha, ?_, by rw [he]; simp [mapColl], by rw [he]; simp [mapColl]⟩
    intro s; rw [mapColl.simple s _ a _ _ _ _ he]; simp
  | nil => cases hk
  | cons => cases hk
  | nilP => cases hk
  | consP => cases hk

/-- Everything written for nodes is read back. -/
theorem claims {P : Par} (F : Nat) (hD : DirsOk P.tags) {k : Kind} {es : Evs} (h : Tr P k es) : ClaimAll P F k es := by
  induction h with
  | alias he hg => exact ⟨alias_B hD he hg, alias_F hD he hg, alias_S hD he hg⟩
  | scalar he hg => exact ⟨scalar_B hD he hg, scalar_F hD he hg, scalar_S hD he hg⟩
  | @seq e f1 q q1 ns an tg im sty h hn ih =>
    refine ⟨?_, coll_F hD h ih.2.2, coll_S hD (Or.inl rfl) h⟩
    cases hin : inFlow P sty ns with
    | true => exact coll_B_flow hD h ih.2.2 hin
    | false =>
      refine coll_B_block hD h ih.1 hin (fun s => s.mappingContext && !s.indention) ?_ (fun _ _ => rfl) seq_first
      intro s hs
      simp only [Bool.and_eq_true, Bool.not_eq_true'] at hs
      exact ⟨rfl, hs.1, hs.2⟩
  | @map e f1 q q1 ns an tg im sty h hn ih =>
    refine ⟨?_, coll_F hD h ih.2.2, coll_S hD (Or.inr rfl) h⟩
    cases hin : inFlow P sty ns with
    | true => exact coll_B_flow hD h ih.2.2 hin
    | false => exact coll_B_block hD h ih.1 hin (fun _ => false) (fun s hs => by cases hs) (fun _ _ => rfl) map_first
  | nil =>
    refine ⟨block_nil hD ?_ .noItems, flow_nil hD, coll_nil hD⟩
    intro e a h
    show emitBlockSequenceItem e false a = _
    unfold emitBlockSequenceItem
    rw [show e.data = .sequenceEnd from h]
    rfl
  | cons h hn ih ihn =>
    obtain ⟨e, q, es', a, he, ha, hck, h1, h2⟩ := h.first hD
    refine ⟨block_cons (K := .blockSequenceItem) ?_ (by rw [he]; simp) (entry_seq ih.1 he h1) ihn.1, flow_cons (one_seq ih.2.1) he h1 ihn.2.1, coll_cons (one_seq ih.2.1) he h1 ihn.2.1⟩
    intro e a s h; cases s; cases h; rfl
  | nilP =>
    refine ⟨block_nil hD ?_ .noEntries, flow_nil hD, coll_nil hD⟩
    intro e a h
    show emitBlockMappingKey e false a = _
    unfold emitBlockMappingKey
    rw [show e.data = .mappingEnd from h]
    rfl
  | @consP kes ves ns h hv hn ih ihv ihn =>
    obtain ⟨e, q, es', a, he, ha, hck, h1, h2⟩ := h.first hD
    obtain ⟨e', q', es'', a', he', ha', hck', h1', h2'⟩ := hv.first hD
    have hone : ClaimOne P F mapKind (kes ++ ves) := one_map ih.2.1 ih.2.2 ihv.2.1 he ha hck he'
    have hcat : kes ++ ves = (e, q) :: (es' ++ ves) := by rw [he]; rfl
    refine ⟨block_cons (K := .blockMappingKey) ?_ (by rw [he]; simp) (entry_map ih.1 ih.2.2 ihv.1 he h2 ha hck he') ihn.1, flow_cons hone hcat h2 ihn.2.1, coll_cons hone hcat h2 ihn.2.1⟩
    intro e a s h; cases s; cases h; rfl

end Yaml.Rt
