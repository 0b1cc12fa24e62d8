import Verif.Lib.Docs6
import Verif.Spec.Behind
import Verif.Props.LineBreaks
import Verif.Props.Scanner
import Verif.Props.Loader

/-
C60: documents behind an explicit document end do not depend on what came before.
-/

namespace Yaml.Dx
open Yaml Yaml.Spec Yaml.Tw

variable {L : Nat}

theorem tk_lower {t t' : Token} (h : Tk L t t') : TokenLower L t t' := ⟨h.data, Or.inl h.start, Or.inl h.stop⟩

theorem er_lower {e e' : Err} (h : Er L e e') : ErrLower L e e' := by
  cases h with
  | same e h => exact .same e h
  | scanner c p h h' => exact .scanner c p h h'
  | parser c p h h' => exact .parser c p h h'
  | composer c p h h' => exact .composer c p h h'

theorem rs_lower {x x' : Out Token} (h : Rs L x x') : ResultLower L (TokenLower L) x x' := by
  cases h with
  | ok h => exact .ok (tk_lower h)
  | err h => exact .err (er_lower h)
  | panic p => exact .panic p
  | fuel => exact .fuel

theorem rt_lower {α : Type} {R R' : α → α → Prop} (hR : ∀ a b, R a b → R' a b) {x x' : Out α} (h : Rt L R x x') : ResultLower L R' x x' := by
  cases x <;> cases x' <;> first
    | exact h.elim
    | exact .ok (hR _ _ h)
    | exact .err (er_lower h)
    | (have h : _ = _ := h; subst h; exact .panic _)
    | exact .fuel

theorem ev_lower {e e' : Event} (h : Ev' L e e') : EventLower L e e' := by
  obtain ⟨h1, h2, h3⟩ := h.mz
  exact ⟨h1, h2, h3⟩

theorem zip_all2 {A B : Type} {R R' : A → B → Prop} {l : List A} {l' : List B} (h : Tw.Zip R l l') (hR : ∀ a b, R a b → R' a b) : All2 R' l l' := by
  induction h with
  | nil => exact .nil
  | cons h _ ih => exact .cons (hR _ _ h) ih

theorem dc_lower {d d' : Document} (h : Dc L d d') : DocumentLower L d d' :=
  ⟨zip_all2 h.nodes (fun _ _ h => ⟨h.data, h.tag, h.start, h.stop⟩), h.version, h.tags, h.si, h.ei, h.start, h.stop⟩

theorem pair_results {K : Nat} {enc : Encoding} {n F : Nat} (hF : n + 2 < F) : ∀ (k : Nat) {o1 o2 : ScannerObj}, Pair L K enc o1 o2 n →
    All2 (ResultLower L (TokenLower L)) (upToFailure (o1.scans F k)) (upToFailure (o2.scans F k)) := by
  intro k
  induction k with
  | zero => intros; exact .nil
  | succ k ih =>
    intro o1 o2 h
    unfold ScannerObj.scans
    by_cases he : o1.s.streamEndProduced = true
    · have he2 : o2.s.streamEndProduced = true := by
        obtain ⟨⟨b1, b2, _, _, hst, _⟩, _⟩ := h
        rw [← hst.se]; exact he
      rw [scan_ended he, scan_ended he2]
      exact .cons (.ok ⟨rfl, Or.inr ⟨rfl, rfl⟩, Or.inr ⟨rfl, rfl⟩⟩) (ih h)
    · obtain ⟨g1, g2⟩ := h.scan hF (by simpa using he)
      generalize o1.scan F = q1 at g1 g2 ⊢
      generalize o2.scan F = q2 at g1 g2 ⊢
      obtain ⟨x1, o1'⟩ := q1
      obtain ⟨x2, o2'⟩ := q2
      have g1 : Rs L x1 x2 := g1
      have hp := rs_lower g1
      cases g1 with
      | ok g => exact .cons hp (ih (g2 ⟨_, rfl⟩))
      | err g => exact .cons hp .nil
      | panic => exact .cons hp .nil
      | fuel => exact .cons hp .nil

theorem sy_results {F : Nat} {α : Type} {m : Pars α} {R R' : α → α → Prop} (hm : Sy L F m m R) (hR : ∀ a b, R a b → R' a b) :
    ∀ (k : Nat) {o1 o2 : ParserObj}, Bo L F o1 o2 →
      All2 (ResultLower L R') (ParserObj.results (fun o => o.run F m) k o1) (ParserObj.results (fun o => o.run F m) k o2) := by
  intro k
  induction k with
  | zero => intros; exact .nil
  | succ k ih =>
    intro o1 o2 h
    obtain ⟨g1, g2⟩ := hm.run h
    unfold ParserObj.results
    generalize o1.run F m = q1 at g1 g2 ⊢
    generalize o2.run F m = q2 at g1 g2 ⊢
    obtain ⟨x1, o1'⟩ := q1
    obtain ⟨x2, o2'⟩ := q2
    have g1 : Rt L R x1 x2 := g1
    have hp := rt_lower hR g1
    cases x1 with
    | ok a =>
      cases x2 with
      | ok b => exact .cons hp (ih (g2 ⟨_, rfl⟩))
      | _ => exact g1.elim
    | _ =>
      cases x2 with
      | ok b => exact g1.elim
      | _ => exact .cons hp .nil

theorem ro_rt {F : Nat} {α : Type} {m : Pars α} {R : α → α → Prop} {o1 o2 : ParserObj}
    (h : Ro L R (Bo L F) (execA (Parser.handle F o1.p (m o1.p) o1.s) o1.r) (execA (Parser.handle F o2.p (m o2.p) o2.s) o2.r)) :
    Rt L R (o1.run F m).1 (o2.run F m).1 ∧ ((∃ a, (o1.run F m).1 = .ok a) → Bo L F (o1.run F m).2 (o2.run F m).2) := by
  unfold ParserObj.run runA Parser.onScanner
  dsimp only
  generalize execA (Parser.handle F o1.p (m o1.p) o1.s) o1.r = q1 at h ⊢
  generalize execA (Parser.handle F o2.p (m o2.p) o2.s) o2.r = q2 at h ⊢
  obtain ⟨⟨out1, p1, t1⟩, r1⟩ := q1
  obtain ⟨⟨out2, p2, t2⟩, r2⟩ := q2
  cases out1 <;> cases out2 <;> first
    | exact h.elim
    | exact ⟨h.1, fun _ => h.2⟩
    | exact ⟨h, fun h => absurd h (by simp)⟩

/-- The results of calls of which the first is related in its own way. -/
theorem first_results {F : Nat} {α : Type} {m : Pars α} {R R' : α → α → Prop} (hm : Sy L F m m R) (hR : ∀ a b, R a b → R' a b) {o1 o2 : ParserObj}
    (h1 : Rt L R (o1.run F m).1 (o2.run F m).1) (h2 : (∃ a, (o1.run F m).1 = .ok a) → Bo L F (o1.run F m).2 (o2.run F m).2) (k : Nat) :
    All2 (ResultLower L R') (ParserObj.results (fun o => o.run F m) k o1) (ParserObj.results (fun o => o.run F m) k o2) := by
  cases k with
  | zero => exact .nil
  | succ k =>
    unfold ParserObj.results
    generalize o1.run F m = q1 at h1 h2 ⊢
    generalize o2.run F m = q2 at h1 h2 ⊢
    obtain ⟨x1, o1'⟩ := q1
    obtain ⟨x2, o2'⟩ := q2
    have h1 : Rt L R x1 x2 := h1
    have hp := rt_lower hR h1
    cases x1 with
    | ok a =>
      cases x2 with
      | ok b => exact .cons hp (sy_results hm hR k (h2 ⟨_, rfl⟩))
      | _ => exact h1.elim
    | _ =>
      cases x2 with
      | ok b => exact h1.elim
      | _ => exact .cons hp .nil

/-- The first call of `parse` on a new parser. -/
theorem fresh_parse {T : Str} {enc e : Encoding} {items : List SrcItem} {F : Nat} (c : Clean enc items e T) (hs : 4 * srcSize items < Reader.maxInput) (hF : 4 * srcSize items + 4 < F)
    (hl : T.length + 2 < F) :
    ∃ o2, (ParserObj.new items enc).parse F = (.ok ⟨.streamStart e, Mark.zero, Mark.zero⟩, o2) ∧ o2.s.streamStartProduced = true := by
  obtain ⟨ts2, f2, g2, _, k2, q2⟩ := Props.tokens_of_input c.future hF
  obtain ⟨os, b2, v1, v2, v3, v4, v5⟩ := fresh_scan (F := F) c hs hl
  obtain ⟨ts2', rfl⟩ : ∃ ts2', ts2 = ⟨.streamStart e, Mark.zero, Mark.zero⟩ :: ts2' := by
    cases g2 with
    | stop hx hn => rw [v1] at hx; exact absurd hx.symm (hn _)
    | last hs ht => rw [v1] at hs; simp only [Prod.mk.injEq, Out.ok.injEq] at hs; rw [← hs.1] at ht; simp at ht
    | cons hs _ _ _ _ _ h =>
      rw [v1] at hs
      simp only [Prod.mk.injEq, Out.ok.injEq] at hs
      obtain ⟨rfl, rfl⟩ := hs
      exact ⟨_, rfl⟩
  obtain ⟨o2', y1, y2, y3⟩ := new_parse g2 (by simpa using k2)
  exact ⟨o2', y1, y3.flags.1⟩

end Yaml.Dx

namespace Yaml.Props
open Yaml Yaml.Spec Yaml.Tw Yaml.Dx
set_option linter.unusedVariables false

variable {T B : Str} {enc1 enc2 e : Encoding} {items1 items2 : List SrcItem} {F : Nat}

/-- C60, tokens.  `T` is a text of allowed characters.  After calls of `scan` that returned the tokens `ts` and then a `DocumentEnd` `d`, with only
blanks and perhaps a comment on the line behind it and with no flow collection open, the results of all further calls, up to the first failure, are those
of a new scanner for the text below that line, after its `StreamStart`, only that many lines further down. -/
theorem C60_tokens_partial (ha : ∀ c ∈ T, Allowed c) (hd1 : TextSent items1 T enc1 e) (hd2 : TextSent items2 B enc2 e)
    (hs1 : 4 * srcSize items1 < Reader.maxInput) (hs2 : 4 * srcSize items2 < Reader.maxInput) (hF : srcSize items1 + 2 < F)
    {ts : List Token} {d : Token} {o : ScannerObj} (h : ScannerObj.Reads F (ScannerObj.new items1 enc1) (ts ++ [d]) o) (hd : d.data = .documentEnd)
    (hb : Behind T d.endMark B) (hfl : flowDepth (ts ++ [d]) = 0) (k : Nat) :
    ∃ o2, (ScannerObj.new items2 enc2).scan F = (.ok ⟨.streamStart e, Mark.zero, Mark.zero⟩, o2) ∧
      All2 (ResultLower (d.endMark.line + 1) (TokenLower (d.endMark.line + 1))) (upToFailure (o.scans F k)) (upToFailure (o2.scans F k)) := by
  obtain ⟨A, w, t0, v, hT, hA, hw, hbr⟩ := hb
  have hBl : B.length ≤ t0.length := by
    cases hbr with
    | crlf t => simp; omega
    | one c t => simp
  have hsub : ∀ c ∈ B, c ∈ T := by
    intro c hc
    rw [hT]
    refine List.mem_append_right _ (List.mem_append_right _ ?_)
    cases hbr with
    | crlf t => simp [hc]
    | one c t => simp [hc]
  obtain ⟨c1, l1⟩ := hd1.clean ha
  obtain ⟨c2, l2⟩ := hd2.clean (fun c hc => ha c (hsub c hc))
  have b1 := bytesOf_length items1
  have hlen : T.length = A.length + (w.length + t0.length) := by rw [hT]; simp
  have hTF : T.length + 2 < F := by omega
  obtain ⟨b, hst⟩ := reads_stop c1 hs1 hTF h hd (no_end_before c1.future hF h hd)
  rw [hfl] at hst
  obtain ⟨o2, b2, g1, g2, g3, g4, g5⟩ := fresh_scan (F := F) c2 hs2 (by omega)
  refine ⟨o2, g1, ?_⟩
  obtain ⟨x1, x2⟩ := stop_scan hst hT hA hw hbr hTF g2 g3 g4 g5
  cases k with
  | zero => exact .nil
  | succ k =>
    unfold ScannerObj.scans
    generalize o.scan F = q1 at x1 x2 ⊢
    generalize o2.scan F = q2 at x1 x2 ⊢
    obtain ⟨y1, o1'⟩ := q1
    obtain ⟨y2, o2'⟩ := q2
    have x1 : Rs _ y1 y2 := x1
    have hp := rs_lower x1
    cases x1 with
    | ok g => exact .cons hp (pair_results hTF k (x2 ⟨_, rfl⟩))
    | err g => exact .cons hp .nil
    | panic => exact .cons hp .nil
    | fuel => exact .cons hp .nil

theorem behind_sub (hb : Behind T m B) : (∀ c ∈ B, c ∈ T) ∧ B.length ≤ T.length := by
  obtain ⟨A, w, t0, v, rfl, hA, hw, hbr⟩ := hb
  cases hbr with
  | crlf t => exact ⟨fun c hc => by simp [hc], by simp; omega⟩
  | one c t => exact ⟨fun c hc => by simp [hc], by simp; omega⟩

theorem bd_of (ha : ∀ c ∈ T, Allowed c) (hd1 : TextSent items1 T enc1 e) (hd2 : TextSent items2 B enc2 e)
    (hs1 : 4 * srcSize items1 < Reader.maxInput) (hs2 : 4 * srcSize items2 < Reader.maxInput) (hF1 : 4 * srcSize items1 + 4 < F) (hF2 : 4 * srcSize items2 + 4 < F)
    {evs : List Event} {ev : Event} {o : ParserObj} (h : ParserObj.Parses F (ParserObj.new items1 enc1) (evs ++ [ev]) o) (he : ev.data = .documentEnd false)
    (hb : Behind T ev.endMark B)
    (hx : ∀ s o2 ev o3, (ParserObj.new items2 enc2).parse F = (.ok s, o2) → o2.parse F = (.ok ev, o3) → ∀ v tags, ev.data ≠ .documentStart v tags true) :
    ∃ o2, (ParserObj.new items2 enc2).parse F = (.ok ⟨.streamStart e, Mark.zero, Mark.zero⟩, o2) ∧ o2.s.streamStartProduced = true ∧ Bd (ev.endMark.line + 1) F o o2 := by
  obtain ⟨hsub, hle⟩ := behind_sub hb
  obtain ⟨c1, l1⟩ := hd1.clean ha
  obtain ⟨c2, l2⟩ := hd2.clean (fun c hc => ha c (hsub c hc))
  have b1 := bytesOf_length items1
  have b2 := bytesOf_length items2
  obtain ⟨o2, g1, g2⟩ := fresh_parse (F := F) c2 hs2 hF2 (by omega)
  exact ⟨o2, g1, g2, (bd_start c1 c2 hs1 hs2 hF1 hF2 (by omega) h he hb g1 fun ev o' h => hx _ _ _ _ g1 h).1⟩

/-- C60, events.  After calls of `parse` that returned `evs` and then the end `ev` of a document by an explicit `...`, with only blanks and perhaps a comment
behind it on its line, the results of all further calls, up to the first failure, are those of a new parser for the text below
that line, after its `StreamStart`, only that many lines further down; unless that text starts with an implicit document. -/
theorem C60_events_partial (ha : ∀ c ∈ T, Allowed c) (hd1 : TextSent items1 T enc1 e) (hd2 : TextSent items2 B enc2 e)
    (hs1 : 4 * srcSize items1 < Reader.maxInput) (hs2 : 4 * srcSize items2 < Reader.maxInput) (hF1 : 4 * srcSize items1 + 4 < F) (hF2 : 4 * srcSize items2 + 4 < F)
    {evs : List Event} {ev : Event} {o : ParserObj} (h : ParserObj.Parses F (ParserObj.new items1 enc1) (evs ++ [ev]) o) (he : ev.data = .documentEnd false)
    (hb : Behind T ev.endMark B)
    (hx : ∀ s o2 ev o3, (ParserObj.new items2 enc2).parse F = (.ok s, o2) → o2.parse F = (.ok ev, o3) → ∀ v tags, ev.data ≠ .documentStart v tags true) (k : Nat) :
    ∃ o2, (ParserObj.new items2 enc2).parse F = (.ok ⟨.streamStart e, Mark.zero, Mark.zero⟩, o2) ∧
      All2 (ResultLower (ev.endMark.line + 1) (EventLower (ev.endMark.line + 1))) (ParserObj.results (ParserObj.parse F) k o) (ParserObj.results (ParserObj.parse F) k o2) := by
  obtain ⟨o2, g1, _, g2⟩ := bd_of ha hd1 hd2 hs1 hs2 hF1 hF2 h he hb hx
  obtain ⟨x1, x2⟩ := ro_rt (bd_parse g2)
  exact ⟨o2, g1, first_results Sy.parse (fun _ _ h => ev_lower h) x1 x2 k⟩

theorem load_last {items : List SrcItem} {enc : Encoding} (hF : 16 * srcSize items + 10 < F) {ds : List Document} {dc : Document} {o : ParserObj}
    (h : ParserObj.Loads F (ParserObj.new items enc) (ds ++ [dc]) o) (hn : dc.nodes ≠ []) :
    ∃ evs ev, ParserObj.Parses F (ParserObj.new items enc) (evs ++ [ev]) o ∧ ev.data = .documentEnd dc.endImplicit ∧ ev.endMark = dc.endMark := by
  obtain ⟨_, _, _, evs, _, _, _, _, _, h1, _, s, body, tail, ds1, n, rfl, hb, hds, hn', _, _⟩ := loads_inv hF h
  have hn0 : n = 0 := by
    cases n with
    | zero => rfl
    | succ n =>
      rw [List.replicate_succ', ← List.append_assoc] at hds
      have := (List.append_inj' hds rfl).2
      simp only [List.cons.injEq, and_true] at this
      rw [this] at hn
      exact absurd rfl hn
  obtain ⟨rfl, rfl⟩ : n = 0 ∧ tail = [] := hn'.resolve_right (fun h => h.1 hn0)
  simp only [List.replicate_zero, List.append_nil] at hds h1
  subst hds
  generalize hq : ds ++ [dc] = q at hb
  cases hb with
  | nil => simp at hq
  | @snoc ev1 devs ds' d' hb hdd =>
    obtain ⟨_, h2⟩ := List.append_inj' hq rfl
    simp only [List.cons.injEq, and_true] at h2
    subst h2
    obtain ⟨first, last, root, v, tags, i, j, names, rfl, _, _, hl, _, _, _, _, hj, _, hm⟩ := hdd
    refine ⟨s ++ (ev1 ++ first :: root.events), last, ?_, by rw [hl, hj], hm.symm⟩
    have e : s ++ (ev1 ++ first :: root.events) ++ [last] = s ++ (ev1 ++ first :: (root.events ++ [last])) := by simp
    rw [e]
    exact h1

/-- C60, documents.  After calls of `load` that returned the documents `ds` and then a document `dc` with an explicit end, the results of all further calls, up to the
first failure, are those of a new parser for the text below the line of that end, only that many lines further down.  The conditions are those of `C60_events_partial`. -/
theorem C60_documents_partial (ha : ∀ c ∈ T, Allowed c) (hd1 : TextSent items1 T enc1 e) (hd2 : TextSent items2 B enc2 e)
    (hs1 : 4 * srcSize items1 < Reader.maxInput) (hs2 : 4 * srcSize items2 < Reader.maxInput) (hF1 : 16 * srcSize items1 + 10 < F) (hF2 : 4 * srcSize items2 + 4 < F)
    {ds : List Document} {dc : Document} {o : ParserObj} (h : ParserObj.Loads F (ParserObj.new items1 enc1) (ds ++ [dc]) o) (hn : dc.nodes ≠ []) (he : dc.endImplicit = false)
    (hb : Behind T dc.endMark B)
    (hx : ∀ s o2 ev o3, (ParserObj.new items2 enc2).parse F = (.ok s, o2) → o2.parse F = (.ok ev, o3) → ∀ v tags, ev.data ≠ .documentStart v tags true) (k : Nat) :
    All2 (ResultLower (dc.endMark.line + 1) (DocumentLower (dc.endMark.line + 1))) (ParserObj.results (ParserObj.load F) k o)
      (ParserObj.results (ParserObj.load F) k (ParserObj.new items2 enc2)) := by
  obtain ⟨evs, ev, p1, p2, p3⟩ := load_last hF1 h hn
  rw [he] at p2
  rw [← p3] at hb ⊢
  obtain ⟨o2, g1, g3, g2⟩ := bd_of ha hd1 hd2 hs1 hs2 (by omega) hF2 p1 p2 hb hx
  obtain ⟨x1, x2⟩ := ro_rt (bd_load g2)
  obtain ⟨y1, y2⟩ := load_new rfl g1 rfl g3
  refine first_results Sy.load (fun _ _ h => dc_lower h) ?_ ?_ k
  · exact (show _ = _ from y1) ▸ x1
  · intro ⟨a, h⟩
    have e2 : ∃ d, (o2.load F).1 = .ok d := by
      show ∃ d, (o2.run F (Document.load F)).1 = .ok d
      rw [h] at x1
      generalize (o2.run F (Document.load F)).1 = q at x1
      cases q with
      | ok d => exact ⟨d, rfl⟩
      | _ => exact x1.elim
    have := y2 e2
    have z : ((ParserObj.new items2 enc2).run F (Document.load F)).2 = (o2.run F (Document.load F)).2 := this
    rw [z]
    exact x2 ⟨a, h⟩

/-! ### Concrete cases -/

/-- Two documents: the first defines a `%TAG` handle and an anchor; the second uses the same anchor for another node and has a `%YAML` directive. -/
def behindText : Str := cs! "%TAG !e! tag:e,2000:\n--- &a !e!x [b, c]\n... # end\n%YAML 1.1\n--- {k: &a v, w: *a}\n"
def behindRest : Str := cs! "%YAML 1.1\n--- {k: &a v, w: *a}\n"
def sent (T : Str) : List SrcItem := [.data (utf8Encode T)]

theorem sent_text (T : Str) : TextSent (sent T) T .utf8 .utf8 := .utf8 (by simp [Quiet, sent]) (by simp [bytesOf, sent])

theorem behind_rest : Behind behindText ⟨43, 2, 3⟩ behindRest :=
  ⟨cs! "%TAG !e! tag:e,2000:\n--- &a !e!x [b, c]\n...", cs! " # end", '\n' :: behindRest, '\n', by decide +kernel, by decide +kernel,
    .comment (sp := [' ']) (com := cs! " end") (by simp [IsBlank]) (by decide +kernel), .one '\n' _ (by decide) (by simp)⟩

/-- The hypotheses of C60 are met by this text, and what is behind the end of the first document is a document and then the end. -/
theorem C60_sample : (∀ c ∈ behindText, Allowed c) ∧ 4 * srcSize (sent behindText) < Reader.maxInput ∧ 16 * srcSize (sent behindText) + 10 < 1500 ∧
    (∃ dc o, ParserObj.Loads 1500 (ParserObj.new (sent behindText) .utf8) ([] ++ [dc]) o ∧ dc.nodes ≠ [] ∧ dc.endImplicit = false ∧ dc.endMark = ⟨43, 2, 3⟩ ∧
      (ParserObj.results (ParserObj.load 1500) 3 o).length = 3) ∧
    (∃ evs ev o, ParserObj.Parses 1500 (ParserObj.new (sent behindText) .utf8) (evs ++ [ev]) o ∧ ev.data = .documentEnd false ∧ ev.endMark = ⟨43, 2, 3⟩) ∧
    (∃ ts d o, ScannerObj.Reads 1500 (ScannerObj.new (sent behindText) .utf8) (ts ++ [d]) o ∧ d.data = .documentEnd ∧ d.endMark = ⟨43, 2, 3⟩ ∧ flowDepth (ts ++ [d]) = 0) ∧
    (∀ s o2 ev o3, (ParserObj.new (sent behindRest) .utf8).parse 1500 = (.ok s, o2) → o2.parse 1500 = (.ok ev, o3) → ∀ v tags, ev.data ≠ .documentStart v tags true) := by
  refine ⟨by decide +kernel, by decide +kernel, by decide +kernel, ?_, ?_, ?_, ?_⟩
  · have h := loadN_loads (F := 1500) 1 (ParserObj.new (sent behindText) .utf8) (by decide +kernel)
    generalize hq : (loadN 1500 1 (ParserObj.new (sent behindText) .utf8)).1 = q at h
    have h1 : (q.map fun d => (d.nodes.length, d.endImplicit, d.endMark)) = [(3, false, ⟨43, 2, 3⟩)] := by rw [← hq]; decide +kernel
    obtain ⟨dc, rfl, h2⟩ := List.map_eq_singleton_iff.1 h1
    have h1 := Prod.mk.inj h2
    have h1 := And.intro h1.1 (Prod.mk.inj h1.2)
    exact ⟨dc, _, h, fun hn => by rw [hn] at h1; simp at h1, h1.2.1, h1.2.2, by decide +kernel⟩
  · have h := parseN_parses (F := 1500) 7 (ParserObj.new (sent behindText) .utf8) (by decide +kernel)
    have e : (parseN 1500 7 (ParserObj.new (sent behindText) .utf8)).1 =
        (parseN 1500 6 (ParserObj.new (sent behindText) .utf8)).1 ++ [⟨.documentEnd false, ⟨40, 2, 0⟩, ⟨43, 2, 3⟩⟩] := by decide +kernel
    rw [e] at h
    exact ⟨_, _, _, h, rfl, rfl⟩
  · have h := readN_reads (F := 1500) 11 (ScannerObj.new (sent behindText) .utf8) (by decide +kernel)
    have e : (readN 1500 11 (ScannerObj.new (sent behindText) .utf8)).1 =
        (readN 1500 10 (ScannerObj.new (sent behindText) .utf8)).1 ++ [⟨.documentEnd, ⟨40, 2, 0⟩, ⟨43, 2, 3⟩⟩] := by decide +kernel
    rw [e] at h
    exact ⟨_, _, _, h, rfl, rfl, by decide +kernel⟩
  · intro s o2 ev o3 h1 h2
    have e1 : o2 = ((ParserObj.new (sent behindRest) .utf8).parse 1500).2 := by rw [h1]
    have e2 : (o2.parse 1500).1 = .ok ev := by rw [h2]
    rw [e1] at e2
    have e3 : (((ParserObj.new (sent behindRest) .utf8).parse 1500).2.parse 1500).1 = .ok ⟨.documentStart (some ⟨1, 1⟩) [] false, ⟨0, 0, 0⟩, ⟨13, 1, 3⟩⟩ := by decide +kernel
    rw [e3] at e2
    simp only [Out.ok.injEq] at e2
    rw [← e2]
    intro v tags
    simp

/-! ### Refutations -/

/-- C60 as stated, for documents: behind an explicit document end, the results are those of the rest of the text alone. -/
def RestAlone : Prop := ∀ (T B : Str) (F : Nat) (ds : List Document) (dc : Document) (o : ParserObj) (k : Nat), (∀ c ∈ T, Allowed c) → 16 * srcSize (sent T) + 10 < F →
  4 * srcSize (sent T) < Reader.maxInput → ParserObj.Loads F (ParserObj.new (sent T) .utf8) (ds ++ [dc]) o → dc.nodes ≠ [] → dc.endImplicit = false → Behind T dc.endMark B →
  All2 (ResultLower (dc.endMark.line + 1) (DocumentLower (dc.endMark.line + 1))) (ParserObj.results (ParserObj.load F) k o)
    (ParserObj.results (ParserObj.load F) k (ParserObj.new (sent B) .utf8))

/-- C60 as stated is false: a document without `---` is refused behind `...`, although YAML allows it there and the same text alone is accepted. -/
theorem C60_refuted : ¬ RestAlone := by
  intro h
  have hl := loadN_loads (F := 500) 1 (ParserObj.new (sent (cs! "a\n...\nb\n")) .utf8) (by decide +kernel)
  generalize hq : (loadN 500 1 (ParserObj.new (sent (cs! "a\n...\nb\n")) .utf8)).1 = q at hl
  have h1 : (q.map fun d => (d.nodes.length, d.endImplicit, d.endMark)) = [(1, false, ⟨5, 1, 3⟩)] := by rw [← hq]; decide +kernel
  obtain ⟨dc, rfl, h2⟩ := List.map_eq_singleton_iff.1 h1
  have h1 := Prod.mk.inj h2
  have h1 := And.intro h1.1 (Prod.mk.inj h1.2)
  have hb : Behind (cs! "a\n...\nb\n") dc.endMark (cs! "b\n") := by
    rw [h1.2.2]
    exact ⟨cs! "a\n...", [], cs! "\nb\n", '\n', by decide +kernel, by decide +kernel, LineRest.blanks (sp := []) (by simp), .one '\n' _ (by decide) (by simp)⟩
  have := h _ (cs! "b\n") 500 [] dc _ 1 (by decide +kernel) (by decide +kernel) (by decide +kernel) hl (fun hn => by rw [hn] at h1; simp at h1) h1.2.1 hb
  generalize hx : ParserObj.results (ParserObj.load 500) 1 (loadN 500 1 (ParserObj.new (sent (cs! "a\n...\nb\n")) .utf8)).2.2 = x at this
  generalize hy : ParserObj.results (ParserObj.load 500) 1 (ParserObj.new (sent (cs! "b\n")) .utf8) = y at this
  have hx' : (x.map fun r => match r with | .ok _ => true | _ => false) = [false] := by rw [← hx]; decide +kernel
  have hy' : (y.map fun r => match r with | .ok _ => true | _ => false) = [true] := by rw [← hy]; decide +kernel
  cases this with
  | nil => simp at hx'
  | cons hr _ => cases hr <;> simp at hx' hy'

/-- What the scanner alone does: behind a `...` inside a flow collection, it stays in the flow collection, so that a `- ` there starts no block sequence. -/
theorem C60_flow_stays : (((readN 99 20 (ScannerObj.new (sent (cs! "[\n...\n- a\n")) .utf8)).1.drop 3).map (·.data)).head? = some .blockEntry ∧
    (((readN 99 20 (ScannerObj.new (sent (cs! "- a\n")) .utf8)).1.drop 1).map (·.data)).head? = some .blockSequenceStart := by
  decide +kernel

end Yaml.Props
