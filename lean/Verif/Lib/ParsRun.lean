import Verif.Lib.ParsBoth

/-
Calls of `parse` on a parser object.
-/

namespace Yaml
open Spec
set_option linter.unusedSimpArgs false
set_option linter.unusedVariables false

/-- What was proved with the rules holds of a call on the object. -/
theorem run_of_wp {α : Type} {F : Nat} {m : Pars α} {o : ParserObj} {g : Toks} {E : Err → PState → Toks → Prop} {Q : α → PState → Toks → Prop}
    (hw : M.wp stepL NoP E m Q o.p g) (hr : Rel F g o.s o.r) (hfin : (∃ e, g.fin = .err e) ∨ ∃ x, g.fin = .panic x) :
    match o.run F m with
    | (.ok a, o') => ∃ g', Q a o'.p g' ∧ Rel F g' o'.s o'.r
    | (.err e, o') => ∃ g', E e o'.p g' ∧ Rel F g' o'.s o'.r
    | (.panic x, _) => g.fin = .panic x
    | (.fuel, _) => False := by
  obtain ⟨s', r', h1, h2⟩ := exec_list F o.p (m o.p) hw hr
  have h3 := execL_of_wp o.p (m o.p) hw
  have e : o.run F m = ((execL o.p (m o.p) g).1.1, ⟨(execL o.p (m o.p) g).1.2, s', r'⟩) := by
    unfold ParserObj.run runA Parser.onScanner
    dsimp only
    rw [h1]
  rw [e]
  generalize execL o.p (m o.p) g = q at h2 h3
  obtain ⟨⟨out, p'⟩, g'⟩ := q
  dsimp only at h3
  cases out with
  | ok a =>
    rcases h3 with h3 | ⟨x, h3, _⟩ | ⟨h3, _⟩
    · exact ⟨g', h3, h2⟩
    · simp at h3
    · simp at h3
  | err e =>
    rcases h3 with h3 | ⟨x, h3, _⟩ | ⟨h3, _⟩
    · exact ⟨g', h3, h2⟩
    · simp at h3
    · simp at h3
  | panic x =>
    rcases h3 with h3 | ⟨y, h3, h4⟩ | ⟨h3, _⟩
    · exact h3.elim
    · cases h3; exact h4
    · simp at h3
  | fuel =>
    rcases h3 with h3 | ⟨x, h3, _⟩ | ⟨_, h3⟩
    · exact h3
    · simp at h3
    · rcases hfin with ⟨e, he⟩ | ⟨x, hx⟩
      · rw [he] at h3; simp at h3
      · rw [hx] at h3; simp at h3

/-- A parser after the events `evs`, over a scanner with the tokens `ts` and then `fin`. -/
structure PInv (F : Nat) (ts : List Token) (fin : Out Token) (evs : List Event) (o : ParserObj) (G : GSt) (D : List TagDirective) (c toks : List Token)
    (st pk : Bool) : Prop where
  rel : Rel F ⟨toks, fin, st, o.p.state == .end_, pk, false⟩ o.s o.r
  good : PGood G D o.p toks
  split : ts = c ++ toks
  run : GRun .start (evs.map (·.data)) G
  made : Made c evs
  dirs : D = inForce evs
  pot : evs.length + potential o.p toks ≤ 4 * ts.length
  impl : ∀ es d v tags, evs = es ++ [d] → d.data = .documentStart v tags true → o.p.state = .blockNode
  root : ∀ es d e es' v tags value pi qi style, evs = es ++ d :: e :: es' → d.data = .documentStart v tags true →
    e.data = .scalar none none value pi qi style → ∃ t ∈ ts, t.data = .scalar value style

theorem wpA_parse_any {F : Nat} {ts c toks : List Token} {fin : Out Token} {G : GSt} {D : List TagDirective} {p : PState} {st pk : Bool} (hg : PGood G D p toks)
    (hF : ts.length < F) (hs : ts = c ++ toks) (hne : p.state ≠ .end_) : wpA (Parser.parse F) (fun _ _ _ => True) p (lv toks fin st pk) := by
  have el := congrArg List.length hs
  simp only [List.length_append] at el
  refine Free.wp_mono stepL_mono ?_ (wp_parse (F := F) (fin := fin) (st := st) (pk := pk) (by omega) hg hne)
  rintro ⟨o, p'⟩ g' h
  cases o with
  | ok r => trivial
  | err e => exact h
  | panic x => trivial
  | fuel => exact h

/-- One call, with whatever else is known of it. -/
theorem PInv.parse_with {F : Nat} {ts : List Token} {fin : Out Token} {evs : List Event} {o : ParserObj} {G : GSt} {D : List TagDirective} {c toks : List Token}
    {st pk : Bool} (h : PInv F ts fin evs o G D c toks st pk) (hF : ts.length < F) (hfin : (∃ e, fin = .err e) ∨ ∃ x, fin = .panic x)
    (hne : o.p.state ≠ .end_) {R : Event → PState → Toks → Prop} (hR : wpA (Parser.parse F) R o.p (lv toks fin st pk)) :
    match o.parse F with
    | (.ok e, o') => ∃ G' D' c' toks' pk', PInv F ts fin (evs ++ [e]) o' G' D' c' toks' true pk' ∧ ∃ g', g'.toks = toks' ∧ R e o'.p g'
    | (.err _, _) => True
    | (.panic x, _) => fin = .panic x
    | (.fuel, _) => False := by
  have hend : (o.p.state == .end_) = false := by simpa using hne
  have hrel := h.rel
  rw [hend] at hrel
  have el := congrArg List.length h.split
  simp only [List.length_append] at el
  have := run_of_wp (F := F) (m := Parser.parse F) (o := o) (wpA_and (wp_parse (by omega) h.good hne) hR) hrel hfin
  have side := run_of_wp (F := F) (m := Parser.parse F) (o := o) (wp_parse_side (by omega) h.good hne) hrel hfin
  have e : o.parse F = o.run F (Parser.parse F) := rfl
  rw [e]
  generalize o.run F (Parser.parse F) = q at this side
  obtain ⟨out, o'⟩ := q
  cases out with
  | ok e =>
    obtain ⟨g', ⟨⟨c1, G', toks', pk', rfl, hs⟩, hRes⟩, hrel'⟩ := this
    obtain ⟨_, ⟨side1, side2⟩, _⟩ := side
    refine ⟨G', _, c ++ c1, toks', pk', ⟨hrel', hs.good, by rw [h.split, hs.split, List.append_assoc], ?_, h.made.snoc (by rw [← h.dirs]; exact hs.carries), ?_, ?_, ?_, ?_⟩, _, rfl, hRes⟩
    · rw [List.map_append]; exact h.run.snoc hs.step
    · unfold inForce; rw [List.foldl_append, h.dirs]; rfl
    · have h1 := h.pot
      have h2 := hs.less
      rw [List.length_append]
      simp only [List.length_cons, List.length_nil]
      omega
    · intro es d v tags he hd
      obtain ⟨_, h2⟩ := List.append_inj' he rfl
      cases h2
      exact side1 _ _ hd
    · intro es d x es' v tags value pi qi style he hd hx
      rcases List.eq_nil_or_concat es' with rfl | ⟨es2, y, rfl⟩
      · have he : evs ++ [e] = (es ++ [d]) ++ [x] := by simpa using he
        obtain ⟨h1, h2⟩ := List.append_inj' he rfl
        cases h2
        obtain ⟨t, ht, htd⟩ := side2 (h.impl _ _ _ _ h1 hd) _ _ _ _ hx
        exact ⟨t, by rw [h.split]; simp [ht], htd⟩
      · have he : evs ++ [e] = (es ++ d :: x :: es2) ++ [y] := by simpa using he
        obtain ⟨h1, _⟩ := List.append_inj' he rfl
        exact h.root _ _ _ _ _ _ _ _ _ _ h1 hd hx
  | err e => trivial
  | panic x => exact this
  | fuel => exact this

theorem PInv.parse {F : Nat} {ts : List Token} {fin : Out Token} {evs : List Event} {o : ParserObj} {G : GSt} {D : List TagDirective} {c toks : List Token}
    {st pk : Bool} (h : PInv F ts fin evs o G D c toks st pk) (hF : ts.length < F) (hfin : (∃ e, fin = .err e) ∨ ∃ x, fin = .panic x)
    (hne : o.p.state ≠ .end_) :
    match o.parse F with
    | (.ok e, o') => ∃ G' D' c' toks' pk', PInv F ts fin (evs ++ [e]) o' G' D' c' toks' true pk'
    | (.err _, _) => True
    | (.panic x, _) => fin = .panic x
    | (.fuel, _) => False := by
  have := h.parse_with hF hfin hne (R := fun _ _ _ => True) (wpA_parse_any h.good hF h.split hne)
  generalize o.parse F = q at this
  obtain ⟨out, o'⟩ := q
  cases out with
  | ok e => obtain ⟨G', D', c', toks', pk', this, _⟩ := this; exact ⟨G', D', c', toks', pk', this⟩
  | err e => trivial
  | panic x => exact this
  | fuel => exact this

/-- After the end: `parse` repeats the stream end. -/
theorem PInv.ended {F : Nat} {o : ParserObj} (hend : o.p.state = .end_) :
    o.parse F = (.ok ⟨.streamEnd, Mark.zero, Mark.zero⟩, o) := by
  obtain ⟨p, s, r⟩ := o
  have hend : p.state = .end_ := hend
  unfold ParserObj.parse ParserObj.run Parser.parse runA Parser.onScanner
  show (_, _) = _
  have : execA (Parser.handle F p ((do
    let ended ← (M.prim TokOp.streamEnded : Pars Bool)
    let p ← M.get
    if ended || p.state == .end_ then pure (Event.new .streamEnd)
    else Parser.stateMachine F p.state : Pars Event) p) s) r = ((.ok (Event.new .streamEnd), (p, s)), r) := by
    show execA (Parser.handle F p ((if s.streamEndProduced || p.state == .end_ then pure (Event.new .streamEnd)
    else Parser.stateMachine F p.state : Pars Event) p) s) r = _
    have : (s.streamEndProduced || p.state == .end_) = true := by rw [hend]; simp
    rw [if_pos this]; rfl
  dsimp only
  rw [this]; rfl

/-- Before the first call. -/
theorem PInv.start {F : Nat} {items : List SrcItem} {enc : Encoding} {ts : List Token} {fin : Out Token}
    (h : Scans F (ScannerObj.new items enc) ts fin) : PInv F ts fin [] (ParserObj.new items enc) .start [] [] ts false false where
  rel := .fresh rfl rfl rfl rfl h
  good := ⟨.streamStart, rfl, fun _ => rfl⟩
  split := rfl
  run := .nil _
  made := .nil
  dirs := rfl
  pot := by simp [potential, ParserObj.new, PState.new, rank]
  impl := by intro es d v tags h; simp at h
  root := by intro es d e es' v tags value pi qi style h; simp at h

theorem At.done_iff {x : PSt} {r : List PSt} {ts : List Token} {G : GSt} {m : Nat} (h : At x r ts G m) : x = .end_ ↔ G = .done := by
  cases h with
  | done => simp
  | @after _ _ f _ _ h =>
    constructor
    · rintro rfl; cases h
    · intro h'
      match f with
      | [] => simp [GSt.after] at h'
      | .seq :: _ => simp [GSt.after] at h'
      | .mapK :: _ => simp [GSt.after] at h'
      | .mapV :: _ => simp [GSt.after] at h'
  | _ => simp

theorem after_ne_done {f : List Coll} (h : GSt.after f = .done) : False := by
  match f, h with
  | [], h => simp [GSt.after] at h
  | .seq :: _, h => simp [GSt.after] at h
  | .mapK :: _, h => simp [GSt.after] at h
  | .mapV :: _, h => simp [GSt.after] at h

/-- After `StreamEnd` nothing follows. -/
theorem GRun.ended {s s' : GSt} {es : List EventData} (h : GRun s es s') : (.streamEnd ∈ es → s' = .done) ∧ (s = .done → es = []) ∧
    (s' = .done → s ≠ .done → ∃ es', es = es' ++ [.streamEnd]) := by
  induction h with
  | nil s => exact ⟨by simp, fun _ => rfl, fun h h' => absurd h h'⟩
  | @cons s s1 s2 e es h hr ih =>
    have hs : s ≠ .done := by rintro rfl; simp [gstep] at h
    have he : e = .streamEnd ↔ s1 = .done := by
      constructor
      · rintro rfl; unfold gstep at h; split at h <;> simp_all
      · rintro rfl
        unfold gstep at h
        split at h <;> simp_all
        all_goals exact after_ne_done h
    refine ⟨?_, fun h => absurd h hs, ?_⟩
    · intro hm
      rcases List.mem_cons.1 hm with hm | hm
      · have h1 := he.1 hm.symm
        have := ih.2.1 h1
        subst this
        cases hr
        exact h1
      · exact ih.1 hm
    · intro h2 _
      by_cases h1 : s1 = .done
      · have := ih.2.1 h1
        subst this
        exact ⟨[], by rw [he.2 h1]; rfl⟩
      · obtain ⟨es', rfl⟩ := ih.2.2 h2 h1
        exact ⟨e :: es', rfl⟩

/-- Any history of calls that returned `Ok`. -/
theorem ParserObj.Parses.inv {F : Nat} {items : List SrcItem} {enc : Encoding} {ts : List Token} {fin : Out Token} {evs : List Event} {o : ParserObj}
    (h : ParserObj.Parses F (ParserObj.new items enc) evs o) (hs : Scans F (ScannerObj.new items enc) ts fin)
    (hF : ts.length < F) (hfin : (∃ e, fin = .err e) ∨ ∃ x, fin = .panic x) :
    ∃ evs1 n G D c toks st pk, evs = evs1 ++ List.replicate n ⟨.streamEnd, Mark.zero, Mark.zero⟩ ∧ PInv F ts fin evs1 o G D c toks st pk ∧
      (n ≠ 0 → o.p.state = .end_) := by
  induction h with
  | nil => exact ⟨[], 0, _, _, _, _, _, _, rfl, PInv.start hs, by simp⟩
  | @snoc evs e o1 o2 h hstep ih =>
    obtain ⟨evs1, n, G, D, c, toks, st, pk, rfl, hp, hn⟩ := ih
    by_cases hend : o1.p.state = .end_
    · rw [PInv.ended hend] at hstep
      simp at hstep
      obtain ⟨rfl, rfl⟩ := hstep
      exact ⟨evs1, n + 1, G, D, c, toks, st, pk, by rw [List.append_assoc, List.replicate_succ'], hp, fun _ => hend⟩
    · have hn0 : n = 0 := by
        by_cases h : n = 0
        · exact h
        · exact absurd (hn h) hend
      subst hn0
      have := hp.parse hF hfin hend
      rw [hstep] at this
      obtain ⟨G', D', c', toks', pk', this⟩ := this
      exact ⟨evs1 ++ [e], 0, G', D', c', toks', true, pk', by simp, this, by simp⟩

theorem Scans.reads {F : Nat} {o : ScannerObj} {ts c toks : List Token} {fin : Out Token} (h : Scans F o ts fin) (hc : ts = c ++ toks) :
    ∃ o', ScannerObj.Reads F o c o' := by
  induction h generalizing c with
  | stop => exact ⟨_, by have : c = [] := by simp_all
                         subst this; exact .nil⟩
  | @last o o' t hs ht =>
    cases c with
    | nil => exact ⟨_, .nil⟩
    | cons t' c =>
      have : t' = t ∧ c = [] := by simp at hc; exact ⟨hc.1.symm, hc.2.1⟩
      obtain ⟨rfl, rfl⟩ := this
      exact ⟨o', .snoc .nil hs⟩
  | @cons o o' t ts x hs ht _ _ _ _ h ih =>
    cases c with
    | nil => exact ⟨_, .nil⟩
    | cons t' c =>
      simp at hc
      obtain ⟨rfl, hc⟩ := hc
      obtain ⟨o2, h2⟩ := ih hc
      refine ⟨o2, ?_⟩
      clear hc ih h
      induction h2 with
      | nil => exact .snoc .nil hs
      | snoc h' hs' ih => exact .snoc (ts := t :: _) ih hs'

/-- The failing call, if the token list does not end with the stream end. -/
theorem Scans.fails {F : Nat} {o : ScannerObj} {ts : List Token} {fin : Out Token} (h : Scans F o ts fin) :
    ((∃ us t, ts = us ++ [t] ∧ t.data = .streamEnd) ∧ fin = .err (.io .unexpectedEof)) ∨ ∃ o', ScannerObj.Reads F o ts o' ∧ (o'.scan F).1 = fin := by
  induction h with
  | stop hx => exact Or.inr ⟨_, .nil, hx⟩
  | @last o o' t hs ht => exact Or.inl ⟨⟨[], t, rfl, ht⟩, rfl⟩
  | @cons o o' t ts x hs ht _ _ _ _ h ih =>
    rcases ih with ⟨⟨us, t', rfl, ht'⟩, hf⟩ | ⟨o2, h2, hf⟩
    · exact Or.inl ⟨⟨t :: us, t', rfl, ht'⟩, hf⟩
    · refine Or.inr ⟨o2, ?_, hf⟩
      clear hf h
      induction h2 with
      | nil => exact .snoc .nil hs
      | snoc h' hs' ih => exact .snoc (ts := t :: _) ih hs'

end Yaml
