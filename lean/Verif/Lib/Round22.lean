import Verif.Lib.Round21
import Verif.Props.Emitter

/-
Reading back: the events emitted, and the text.
-/

namespace Yaml.Rt
open Yaml Emitter Lx Spec
set_option linter.unusedSimpArgs false
set_option linter.unusedVariables false

/-! ### From the event grammar to trees -/

theorem isNode_head {ds : List EventData} (h : IsNode ds) : ∃ d r, ds = d :: r ∧ d ≠ .sequenceEnd ∧ d ≠ .mappingEnd := by
  cases h <;> exact ⟨_, _, rfl, by simp, by simp⟩

theorem isNodes_head {ds : List EventData} (h : IsNodes ds) : ds.head? ≠ some .sequenceEnd := by
  cases h with
  | nil => simp
  | cons h _ => obtain ⟨d, r, rfl, h1, _⟩ := isNode_head h; simpa using h1

theorem isPairs_head {ds : List EventData} (h : IsPairs ds) : ds.head? ≠ some .mappingEnd := by
  cases h with
  | nil => simp
  | cons h _ _ => obtain ⟨d, r, rfl, _, h1⟩ := isNode_head h; simpa using h1

/-- The look-ahead at the start of a collection. -/
theorem peek_of {e f1 : Event} {q q1 : List Event} {ns : Evs} {r : List Event} {fin : EventData} (hr : ready (e :: q) = true)
    (hc : (∃ a b c d, e.data = .sequenceStart a b c d) ∨ ∃ a b c d, e.data = .mappingStart a b c d)
    (hp : q <+: ((ns ++ [(f1, q1)]).map (·.1) ++ r)) (hf : f1.data = fin) (hn : (datas ns).head? ≠ some fin) :
    q.head?.map (·.data) = some fin ↔ ns = [] := by
  have hq : q ≠ [] := by
    rintro rfl
    obtain ⟨d, m1, m2⟩ := e
    rcases hc with ⟨a, b, c, d', he⟩ | ⟨a, b, c, d', he⟩ <;> simp only at he <;> subst he <;> simp [ready, levelReturns, levelDelta] at hr
  have hh : q.head? = ((ns ++ [(f1, q1)]).map (·.1) ++ r).head? := by
    obtain ⟨t, ht⟩ := hp
    rw [← ht]
    cases q with
    | nil => exact absurd rfl hq
    | cons x q => rfl
  rw [hh]
  cases ns with
  | nil => simp [hf]
  | cons x ns => simpa [datas] using hn

theorem datas_eq_append {xs : Evs} {a b : List EventData} (h : datas xs = a ++ b) : ∃ x y, xs = x ++ y ∧ datas x = a ∧ datas y = b := by
  unfold datas at h
  obtain ⟨x, y, h1, h2, h3⟩ := List.map_eq_append_iff.1 h
  exact ⟨x, y, h1, h2, h3⟩

theorem datas_eq_cons {xs : Evs} {a : EventData} {b : List EventData} (h : datas xs = a :: b) : ∃ e q y, xs = (e, q) :: y ∧ e.data = a ∧ datas y = b := by
  cases xs with
  | nil => cases h
  | cons x xs =>
    obtain ⟨e, q⟩ := x
    simp only [datas, List.map_cons, List.cons.injEq] at h
    exact ⟨e, q, xs, rfl, h.1, h.2⟩

theorem datas_eq_single {xs : Evs} {a : EventData} (h : datas xs = [a]) : ∃ e q, xs = [(e, q)] ∧ e.data = a := by
  obtain ⟨e, q, y, rfl, h1, h2⟩ := datas_eq_cons h
  cases y with
  | nil => exact ⟨e, q, rfl, h1⟩
  | cons => cases h2

section
variable {P : Par}

mutual
theorem tr_node : ∀ {ds : List EventData}, IsNode ds → ∀ {xs : Evs} {r : List Event}, datas xs = ds → Ahead xs r → (∀ d ∈ ds, NodeGood P d) → Tr P .node xs
  | _, .alias n, xs, r, hx, ha, hg => by
    obtain ⟨e, q, rfl, he⟩ := datas_eq_single hx
    exact .alias he (he ▸ hg _ (by simp))
  | _, .scalar an tg v p qi sty, xs, r, hx, ha, hg => by
    obtain ⟨e, q, rfl, he⟩ := datas_eq_single hx
    exact .scalar he (he ▸ hg _ (by simp))
  | _, .sequence an tg im sty (ns := ns) hn, xs, r, hx, ha, hg => by
    obtain ⟨e, q, y, rfl, he, hy⟩ := datas_eq_cons hx
    obtain ⟨zs, f, rfl, hz, hf0⟩ := datas_eq_append hy
    obtain ⟨f1, q1, rfl, hf⟩ := datas_eq_single hf0
    obtain ⟨hr, hp, ha⟩ := ha
    have ha' := (Ahead.append.1 ha).1
    refine .seq ⟨he, he ▸ hg _ (by simp), hf, peek_of hr (Or.inl ⟨_, _, _, _, he⟩) hp hf ?_⟩ (tr_nodes hn hz ha' (fun d hd => hg d (by simp [hd])))
    rw [hz]; exact isNodes_head hn
  | _, .mapping an tg im sty (ps := ns) hn, xs, r, hx, ha, hg => by
    obtain ⟨e, q, y, rfl, he, hy⟩ := datas_eq_cons hx
    obtain ⟨zs, f, rfl, hz, hf0⟩ := datas_eq_append hy
    obtain ⟨f1, q1, rfl, hf⟩ := datas_eq_single hf0
    obtain ⟨hr, hp, ha⟩ := ha
    have ha' := (Ahead.append.1 ha).1
    refine .map ⟨he, he ▸ hg _ (by simp), hf, peek_of hr (Or.inr ⟨_, _, _, _, he⟩) hp hf ?_⟩ (tr_pairs hn hz ha' (fun d hd => hg d (by simp [hd])))
    rw [hz]; exact isPairs_head hn

theorem tr_nodes : ∀ {ds : List EventData}, IsNodes ds → ∀ {xs : Evs} {r : List Event}, datas xs = ds → Ahead xs r → (∀ d ∈ ds, NodeGood P d) → Tr P .nodes xs
  | _, .nil, xs, r, hx, ha, hg => by
    cases xs with
    | nil => exact .nil
    | cons => cases hx
  | _, .cons h hs, xs, r, hx, ha, hg => by
    obtain ⟨x, y, rfl, hx, hy⟩ := datas_eq_append hx
    obtain ⟨ha1, ha2⟩ := Ahead.append.1 ha
    exact .cons (tr_node h hx ha1 (fun d hd => hg d (by simp [hd]))) (tr_nodes hs hy ha2 (fun d hd => hg d (by simp [hd])))

theorem tr_pairs : ∀ {ds : List EventData}, IsPairs ds → ∀ {xs : Evs} {r : List Event}, datas xs = ds → Ahead xs r → (∀ d ∈ ds, NodeGood P d) → Tr P .pairs xs
  | _, .nil, xs, r, hx, ha, hg => by
    cases xs with
    | nil => exact .nilP
    | cons => cases hx
  | _, .cons h hv hs, xs, r, hx, ha, hg => by
    obtain ⟨xv, z, rfl, hxv, hz⟩ := datas_eq_append hx
    obtain ⟨x, y, rfl, hx, hy⟩ := datas_eq_append hxv
    obtain ⟨ha1, ha3⟩ := Ahead.append.1 ha
    obtain ⟨ha1, ha2⟩ := Ahead.append.1 ha1
    exact .consP (tr_node h hx ha1 (fun d hd => hg d (by simp [hd]))) (tr_node hv hy ha2 (fun d hd => hg d (by simp [hd])))
      (tr_pairs hs hz ha3 (fun d hd => hg d (by simp [hd])))
end
end

/-! ### Documents -/

/-- The event is not the start of a document. -/
def NoDoc (d : EventData) : Prop := ∀ v t i, d ≠ .documentStart v t i

mutual
theorem isNode_noDoc : ∀ {ds : List EventData}, IsNode ds → ∀ d ∈ ds, NoDoc d
  | _, .alias .. => by intro d hd; simp at hd; subst hd; intro v t i; simp
  | _, .scalar .. => by intro d hd; simp at hd; subst hd; intro v t i; simp
  | _, .sequence an tg im sty hn => by
    intro d hd
    simp at hd
    rcases hd with rfl | hd | rfl
    · intro v t i; simp
    · exact isNodes_noDoc hn d hd
    · intro v t i; simp
  | _, .mapping an tg im sty hn => by
    intro d hd
    simp at hd
    rcases hd with rfl | hd | rfl
    · intro v t i; simp
    · exact isPairs_noDoc hn d hd
    · intro v t i; simp
theorem isNodes_noDoc : ∀ {ds : List EventData}, IsNodes ds → ∀ d ∈ ds, NoDoc d
  | _, .nil => by simp
  | _, .cons h hs => by
    intro d hd
    rcases List.mem_append.1 hd with hd | hd
    · exact isNode_noDoc h d hd
    · exact isNodes_noDoc hs d hd
theorem isPairs_noDoc : ∀ {ds : List EventData}, IsPairs ds → ∀ d ∈ ds, NoDoc d
  | _, .nil => by simp
  | _, .cons h hv hs => by
    intro d hd
    rcases List.mem_append.1 hd with hd | hd
    · rcases List.mem_append.1 hd with hd | hd
      · exact isNode_noDoc h d hd
      · exact isNode_noDoc hv d hd
    · exact isPairs_noDoc hs d hd
end

theorem readable_split {canon : Bool} {D : List TagDirective} {ds es : List EventData} (h : Readable canon D (ds ++ es)) (hn : ∀ d ∈ ds, NoDoc d) :
    (∀ d ∈ ds, (∀ t, writtenTag canon d = some t → TagReadable D t) ∧ ∀ anchor tag v p q, d = .scalar anchor tag v p q .folded → FoldReadable v) ∧ Readable canon D es := by
  induction ds with
  | nil => exact ⟨by simp, h⟩
  | cons x ds ih =>
    obtain ⟨_, h2, h3, h4⟩ := h
    have : Readable canon D (ds ++ es) := by
      cases x <;> first | exact h4 | exact absurd rfl (hn _ (List.mem_cons_self ..) _ _ _)
    obtain ⟨k1, k2⟩ := ih this (fun d hd => hn d (by simp [hd]))
    refine ⟨fun d hd => ?_, k2⟩
    rcases List.mem_cons.1 hd with rfl | hd
    · exact ⟨h2, h3⟩
    · exact k1 d hd

theorem docs_of {canon uni : Bool} {ds : List EventData} (h : IsDocuments ds) : ∀ {xs : Evs} {r : List Event} {D : List TagDirective}, datas xs = ds ++ [.streamEnd] →
    Ahead xs r → (∀ d ∈ ds, EventOk canon d) → Readable canon D (ds ++ [.streamEnd]) → Docs canon uni xs := by
  induction h with
  | nil =>
    intro xs r D hx _ _ _
    obtain ⟨e, q, rfl, he⟩ := datas_eq_single hx
    exact .fin he
  | @cons v tags i j n ds hn _ ih =>
    intro xs r D hx ha hok hr
    obtain ⟨e, q, y, rfl, he, hy⟩ := datas_eq_cons hx
    have hy : datas y = n ++ (.documentEnd j :: (ds ++ [.streamEnd])) := by simpa using hy
    obtain ⟨ns, z, rfl, hns, hz⟩ := datas_eq_append hy
    obtain ⟨e', q', zs, rfl, he', hzs⟩ := datas_eq_cons hz
    obtain ⟨_, _, ha⟩ := ha
    obtain ⟨ha1, _, _, ha2⟩ := Ahead.append.1 ha
    obtain ⟨r1, r2, _, r3⟩ := hr
    have r3 : Readable canon tags (n ++ (.documentEnd j :: (ds ++ [.streamEnd]))) := by simpa using r3
    obtain ⟨r4, r5⟩ := readable_split r3 (isNode_noDoc hn)
    obtain ⟨_, _, _, r6⟩ := r5
    refine .doc he ⟨hok _ (by simp), r1 v tags i rfl⟩ (tr_node hn hns ha1 (fun d hd => ⟨hok d (by simp [hd]), (r4 d hd).1, (r4 d hd).2⟩)) he'
      (ih hzs ha2 (fun d hd => hok d (by simp [hd])) r6)

/-! ### The beginning of the stream -/

theorem writes_bom (s : EState) : Writes writeBom s () s ['\uFEFF'] := fun W => rfl

/-- The start of a stream. -/
theorem process_streamStart {e : Event} {enc : Encoding} {s : EState} (he : e.data = .streamStart enc) (hst : s.state = .streamStart) (hfl : s.flowLevel = 0) (ht : s.tagDirectives = []) :
    ∃ s', Writes (process e) s () s' (if resolveEnc s.encoding enc = .utf8 then [] else ['\uFEFF']) ∧ Sett s.canonical s.unicode s' ∧ Bol s' ∧ s'.state = .firstDocumentStart ∧
      s'.states = s.states ∧ s'.openEnded = 0 := by
  obtain ⟨s0, hs0⟩ : ∃ s0 : EState, s0 = normalise enc { s with openEnded := 0 } := ⟨_, rfl⟩
  have henc : s0.encoding = resolveEnc s.encoding enc := by
    rw [hs0]; unfold normalise resolveEnc; dsimp only
    cases s.encoding <;> cases enc <;> rfl
  have hbest : 2 ≤ s0.bestIndent ∧ s0.bestIndent ≤ 9 := by
    rw [hs0]; unfold normalise; dsimp only
    split <;> omega
  have hbrk : s0.lineBreak ≠ .any := by
    rw [hs0]; unfold normalise; dsimp only
    split
    · simp
    · assumption
  have h1 : Writes (emitStreamStart e) s () { s0 with state := .firstDocumentStart } (if resolveEnc s.encoding enc = .utf8 then [] else ['\uFEFF']) := by
    unfold emitStreamStart
    refine Writes.bind_modify ?_
    rw [he]
    refine Writes.bind_modify (Writes.bind_get ?_)
    rw [← hs0]
    by_cases hu : resolveEnc s.encoding enc = .utf8
    · rw [if_pos hu]
      exact (Writes.when_false (by rw [henc, hu]; rfl)).bind0 (Writes.modify _ _)
    · rw [if_neg hu]
      exact ((Writes.when_true (by rw [henc]; simpa using hu) (writes_bom s0)).bind (Writes.modify _ _)).cast rfl (by simp)
  have hm : ∀ a, stateMachine e a s = emitStreamStart e s := by
    intro a; obtain ⟨⟩ := s; cases hst; rfl
  have hcl : ({ s with tagDirectives := [] } : EState) = s := by obtain ⟨⟩ := s; cases ht; rfl
  have ha : Writes (analyzeEvent e s.tagDirectives) { s with tagDirectives := [] } {} { s with tagDirectives := [] } [] := by
    intro W; unfold analyzeEvent; rw [he]; simp; rfl
  have := writes_process (e := e) (s := s) (s1 := { s0 with state := .firstDocumentStart }) ha (by
    rw [hcl]; intro W; rw [hm]; exact h1 W)
  refine ⟨_, this, ⟨?_, ?_, hbrk, hbest, ?_, ?_⟩, ⟨hbrk, ?_, ?_, ?_, ?_⟩, rfl, ?_, ?_⟩ <;> (rw [hs0]; first | rfl | exact hfl)

/-! ### Everything together -/

theorem new_flow (enc : Encoding) (cfg : List Setting) (w : Writer) : (EmitterObj.new enc cfg w).s.flowLevel = 0 := by
  have key : ∀ (cfg : List Setting) (o : EmitterObj), o.s.flowLevel = 0 → (cfg.foldl EmitterObj.set o).s.flowLevel = 0 := by
    intro cfg
    induction cfg with
    | nil => intro o h; exact h
    | cons x cfg ih => intro o h; exact ih _ (by cases x <;> exact h)
  unfold EmitterObj.new
  simp only [setOutput]
  split
  · exact key _ _ (by cases enc <;> rfl)
  · exact key _ _ (by cases enc <;> rfl)


theorem lost_first {canon : Bool} {e0 : Event} {q0 : List Event} {enc : Encoding} {xs : Evs} (he0 : e0.data = .streamStart enc) (h : Lost canon xs) : FirstLost canon (datas ((e0, q0) :: xs)) := by
  cases xs with
  | nil => exact h.elim
  | cons x xs =>
    obtain ⟨e, q⟩ := x
    obtain ⟨h1, h2, ns, e', q', es', rfl, e1, q1, tg, qi, sty, rfl, h3, h4⟩ := h
    exact ⟨h2, enc, tg, qi, sty, _, h4, by simp [datas, he0, h1, h3]; rfl⟩

/-- The text of a stream, and what is read from it. -/
theorem stream_text {enc : Encoding} {cfg : List Setting} {w : Writer} {evs : List Event} {o : EmitterObj} (h : EmitterObj.Emits (EmitterObj.new enc cfg w) evs o)
    (hs : IsStream (evs.map (·.data))) (hr : Readable (cfgCanonical cfg) [] (evs.map (·.data))) (hl : ¬ FirstLost (cfgCanonical cfg) (evs.map (·.data))) :
    ∃ T, o.written = w.bytes ++ encodeText (streamEnc enc evs) ((if streamEnc enc evs = .utf8 then [] else ['\uFEFF']) ++ T) ∧ (∀ c ∈ T, OutChar (cfgUnicode cfg) c) ∧
      ∀ F e, ∃ toks evs', Runs F (start e) T toks ∧ DerivesStream false toks (.streamStart e :: evs') ∧ SameEvents (cfgCanonical cfg) (evs.map (·.data)) (.streamStart e :: evs') := by
  -- a perfect writer
  obtain ⟨o1, h1, h2, h3⟩ := emits_beside (w := w) (w' := ⟨w.bytes, []⟩) rfl (by intro x hx; cases hx) h
  obtain ⟨hev, hbuf, hok⟩ := Props.C26_complete enc cfg _ evs o1 h1 hs
  obtain ⟨_, b, hb, hU⟩ := emits_unbuffered (w := ⟨w.bytes, []⟩) (by intro x hx; cases hx) h1 []
  rw [List.append_nil] at hb
  have hF := fresh_new enc cfg ⟨w.bytes, []⟩
  obtain ⟨xs, s, t, k1, k2, k3, k4, _⟩ := sched_of_emits (o0 := ⟨(EmitterObj.new enc cfg ⟨w.bytes, []⟩).s, []⟩) (live_fresh hF) hF.evs hU
  have k1 : Sched evs xs o1.s.events := k1
  rw [hev] at k1
  obtain ⟨ha1, ha2⟩ := k1.ahead
  rw [List.append_nil] at ha1
  have hdat : datas xs = evs.map (·.data) := by rw [ha1]; simp [datas]
  have k4 : b.text = t := by simpa using k4
  -- the events
  generalize hD : evs.map (·.data) = D at hs hr hl hdat
  obtain ⟨e0, ds, hds⟩ : ∃ e0 ds, D = .streamStart e0 :: ds ++ [.streamEnd] ∧ IsDocuments ds := by cases hs with | mk e h => exact ⟨e, _, rfl, h⟩
  obtain ⟨rfl, hds⟩ := hds
  obtain ⟨x0, q0, ys, rfl, hx0, hys⟩ := datas_eq_cons hdat
  have hys : datas ys = ds ++ [.streamEnd] := hys
  have hdocs : Docs (cfgCanonical cfg) (cfgUnicode cfg) ys := by
    refine docs_of hds hys (ha2 []).2.2 ?_ (D := []) hr.2.2.2
    intro d hd
    have : d ∈ evs.map (·.data) := by rw [hD]; simp [hd]
    obtain ⟨x, hx, rfl⟩ := List.mem_map.1 this
    exact hok x hx
  -- the start of the stream
  have hfl : (EmitterObj.new enc cfg ⟨w.bytes, []⟩).s.flowLevel = 0 := new_flow enc cfg _
  obtain ⟨s1, a1, a2, a3, a4, a5, a6⟩ := process_streamStart (e := x0) (s := { (EmitterObj.new enc cfg ⟨w.bytes, []⟩).s with events := q0 }) hx0 hF.st hfl hF.tags
  have hse : streamEnc enc evs = resolveEnc (EmitterObj.new enc cfg ⟨w.bytes, []⟩).s.encoding e0 := by
    rw [hF.enc, ha1]
    obtain ⟨d, m1, m2⟩ := x0
    simp only at hx0
    subst hx0
    rfl
  have a1 : Writes (process x0) { (EmitterObj.new enc cfg ⟨w.bytes, []⟩).s with events := q0 } () s1 (if streamEnc enc evs = .utf8 then [] else ['\uFEFF']) := by rw [hse]; exact a1
  have a2 : Sett (cfgCanonical cfg) (cfgUnicode cfg) s1 := by rw [← hF.can, ← hF.uni]; exact a2
  have hstream := fun F => docs_stream F hdocs (fun h => hl (by rw [← hdat]; exact lost_first hx0 h)) a2 a3 a4 (a5.trans hF.sts) a6
  obtain ⟨s2, T, b1, _, _⟩ := hstream 0
  have hfeed := Feed.cons a1 b1
  obtain ⟨_, hT⟩ := k2.det hfeed
  rw [hT] at k4
  refine ⟨T, ?_, ?_, ?_⟩
  · have := hb.sink.writer
    obtain ⟨v, v1, v2⟩ := this
    rw [beside_written h3]
    unfold EmitterObj.written
    rw [v1]
    rw [hbuf, k4] at v2
    have e0 : ∀ e, encodeText e [] = [] := by intro e; cases e <;> rfl
    rw [e0, List.append_nil] at v2
    exact v2
  · have := hb.sink.text
    rw [k4] at this
    unfold OutText at this
    by_cases hu : streamEnc enc evs = .utf8
    · rw [if_pos hu, if_pos hu] at this
      exact this
    · rw [if_neg hu, if_neg hu] at this
      rcases this with h | ⟨r, h, h'⟩
      · cases h
      · cases h; exact h'
  · intro F e
    obtain ⟨s3, T', c1, _, c2⟩ := hstream F
    obtain ⟨_, rfl⟩ := b1.det c1
    obtain ⟨toks, evs', d1, d2, d3⟩ := c2 e
    refine ⟨toks, _, d1, d2, ?_⟩
    rw [← hdat]
    show SameEvents _ (x0.data :: datas ys) _
    rw [hx0]
    exact ⟨trivial, d3⟩

end Yaml.Rt
