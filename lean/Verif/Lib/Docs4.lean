import Verif.Lib.Twin8
import Verif.Lib.Aliases

/-
The parser behind an explicit document end and a new parser.
-/

namespace Yaml.Dx
open Yaml Yaml.Tw
set_option linter.unusedSimpArgs false
set_option linter.unusedVariables false

variable {L F : Nat}

/-- The parser with another state. -/
def withState (x : PSt) (p : PState) : PState := { p with state := x }

/-- The method neither reads nor changes the state. -/
def SF {α : Type} (m : Pars α) : Prop := ∀ p x, m (withState x p) = (m p).map fun q => (q.1, withState x q.2)

namespace SF
variable {α β σ : Type}

theorem pure (a : α) : SF (pure a : Pars α) := fun _ _ => rfl
theorem throw (e : Err) : SF (M.throw e : Pars α) := fun _ _ => rfl
theorem fuel : SF (M.outOfFuel : Pars α) := fun _ _ => rfl
theorem prim (o : TokOp) : SF (M.prim o : Pars (TokOp.Ans o)) := fun _ _ => rfl

theorem bind {m : Pars α} {f : α → Pars β} (hm : SF m) (hf : ∀ a, SF (f a)) : SF (m >>= f) := by
  intro p x
  show (m (withState x p)).bind (M.cont f) = ((m p).bind (M.cont f)).map _
  rw [hm]
  unfold Free.map
  rw [Free.bind_assoc, Free.bind_assoc]
  congr 1
  funext q
  obtain ⟨out, p'⟩ := q
  cases out with
  | ok a => exact hf a p' x
  | err e => rfl
  | panic e => rfl
  | fuel => rfl

theorem loop {body : σ → Pars (σ ⊕ α)} (hb : ∀ x, SF (body x)) : ∀ (F : Nat) (x : σ), SF (M.loop F body x) := by
  intro F
  induction F with
  | zero => intro x; exact fuel
  | succ F ih =>
    intro x
    rw [M.loop]
    refine bind (hb x) ?_
    intro r
    cases r with
    | inl y => exact ih y
    | inr a => exact pure a

theorem peek : SF Parser.peek := by
  unfold Parser.peek
  refine bind (prim _) ?_
  intro r
  cases r with
  | ok t => exact pure t
  | error e => exact throw e

theorem append (v : TagDirective) (b : Bool) (m : Mark) : SF (Parser.appendTagDirective v b m) := by
  intro p x
  unfold Parser.appendTagDirective Parser.parserError
  show (if (withState x p).tagDirectives.any _ = true then _ else _ : Pars Unit) (withState x p) = ((if p.tagDirectives.any _ = true then _ else _ : Pars Unit) p).map _
  have e : (withState x p).tagDirectives = p.tagDirectives := rfl
  rw [e]
  split
  · split <;> rfl
  · rfl

theorem directiveLoop (F : Nat) : SF (Parser.directiveLoop F) := by
  unfold Parser.directiveLoop
  refine loop ?_ F _
  rintro ⟨v, tags⟩
  dsimp only
  refine bind peek ?_
  intro t
  split
  · split
    · exact throw _
    · split
      · exact throw _
      · exact bind (prim _) fun _ => pure _
  · exact bind (prim _) fun _ => bind (append _ _ _) fun _ => bind (prim _) fun _ => pure _
  · exact pure _

theorem processDirectives (F : Nat) : SF (Parser.processDirectives F) := by
  unfold Parser.processDirectives
  refine bind (directiveLoop F) ?_
  rintro ⟨v, tags, t⟩
  dsimp only
  exact bind (append _ _ _) fun _ => bind (append _ _ _) fun _ => pure _

end SF

/-- What `parse_document_start` does with a token that starts an explicit document or ends the stream. -/
def docHead (F : Nat) (token : Token) : Pars Event :=
  if token.data != .streamEnd then do
    let startMark := token.startMark
    let (version, tags) ← Parser.processDirectives F
    let token ← Parser.peek
    if token.data == .documentStart then do
      Parser.pushState .documentEnd
      Parser.setState .documentContent
      Parser.skip
      pure ⟨.documentStart version tags false, startMark, token.endMark⟩
    else Parser.parserError "" Mark.zero "did not find expected <document start>" token.startMark
  else do
    Parser.setState .end_
    Parser.skip
    pure ⟨.streamEnd, token.startMark, token.endMark⟩

/-- Related but for their states. -/
def PSx (L : Nat) (p p' : PState) : Prop := PS L (withState p'.state p) p'

theorem sm_docHead {t t' : Token} (ht : Tk L t t') {p p' : PState} (h : PSx L p p') : Sm L (PO L (Ev' L)) (docHead F t p) (docHead F t' p') := by
  obtain ⟨d, a, z⟩ := t
  obtain ⟨d', a', z'⟩ := t'
  obtain ⟨hd, ha, hz⟩ := ht
  dsimp only at hd ha hz
  subst hd
  unfold docHead
  dsimp only
  by_cases hs : (d != .streamEnd) = true
  · rw [if_pos hs, if_pos hs]
    have hD : Sm L (PO L Eq) (Parser.processDirectives F (withState p'.state p)) (Parser.processDirectives F p') := p2_processDirectives h
    have e := SF.processDirectives F (withState p'.state p) p.state
    have e2 : withState p.state (withState p'.state p) = p := rfl
    rw [e2] at e
    show Sm L _ ((Parser.processDirectives F p).bind (M.cont _)) ((Parser.processDirectives F p').bind (M.cont _))
    rw [e]
    unfold Free.map
    rw [Free.bind_assoc]
    refine Sm.bind hD ?_
    rintro ⟨x, q⟩ ⟨y, q'⟩ hxy
    cases x with
    | ok x =>
      cases y with
      | ok y =>
        obtain ⟨rfl, hq⟩ := hxy
        obtain ⟨v, tags⟩ := x
        dsimp only [Free.bind, M.cont]
        refine Sm.op .peek ?_
        intro x y hxy
        have hxy : An L .peek x y := hxy
        cases x with
        | error e =>
          cases y with
          | error e' => exact .ret hxy
          | ok _ => exact hxy.elim
        | ok t =>
          cases y with
          | error e' => exact hxy.elim
          | ok t' =>
            obtain ⟨d1, a1, z1⟩ := t
            obtain ⟨d2, a2, z2⟩ := t'
            obtain ⟨hd, ha1, hz1⟩ := hxy
            dsimp only at hd ha1 hz1
            subst hd
            dsimp only [Free.bind, M.cont]
            show Sm L _ ((if (d1 == TokenData.documentStart) = true then _ else _ : Pars Event) _) ((if (d1 == TokenData.documentStart) = true then _ else _ : Pars Event) _)
            split
            · refine Sm.op .skip fun _ _ _ => .ret ⟨Or.inl ⟨rfl, ha, hz1⟩, ?_⟩
              exact ⟨congrArg (PSt.documentEnd :: ·) hq.states, rfl, hq.marks, hq.tags, hq.aliases⟩
            · exact .ret (.parser _ _ mz_zero (Or.inl ha1))
      | _ => exact hxy.elim
    | _ => cases y <;> first | exact .ret hxy | exact hxy.elim
  · rw [if_neg hs, if_neg hs]
    refine Sm.op .skip fun _ _ _ => .ret ⟨Or.inl ⟨rfl, ha, hz⟩, ?_⟩
    exact ⟨h.states, rfl, h.marks, h.tags, h.aliases⟩

/-- The parser behind an explicit document end. -/
def pEnd : PState := ⟨[], .documentStart, [], [], []⟩
/-- A new parser after the start of the stream. -/
def pNew : PState := ⟨[], .implicitDocumentStart, [], [], []⟩

theorem loopP_succ {σ α : Type} {body : σ → Pars (σ ⊕ α)} (n : Nat) (x : σ) (s : PState) :
    M.loop (n + 1) body x s = (body x s).bind (M.cont (Sum.elim (M.loop n body) pure)) := by
  rw [M.loop]
  show (body x s).bind (M.cont _) = _
  congr 1
  congr 1
  funext r
  cases r <;> rfl

/-- The body of the loop that skips document ends. -/
def endsBody (_ : Unit) : Pars (Unit ⊕ Token) := do
  let token ← Parser.peek
  if token.data == .documentEnd then do
    Parser.skip
    pure (.inl ())
  else pure (.inr token)

theorem exec_end {n : Nat} {p0 : PState} {t : Token} {r : List Token} {fin : Out Token} {pk : Bool} (h : (t.data == .documentEnd) = false) :
    execL p0 (Parser.parse (n + 1) pEnd) ⟨t :: r, fin, true, false, pk, false⟩ = execL p0 (docHead (n + 1) t pEnd) ⟨t :: r, fin, true, false, true, false⟩ := by
  have e : execL p0 (Parser.parse (n + 1) pEnd) ⟨t :: r, fin, true, false, pk, false⟩ =
      execL p0 ((M.loop (n + 1) endsBody () pEnd).bind (M.cont (docHead (n + 1)))) ⟨t :: r, fin, true, false, pk, false⟩ := rfl
  rw [e, loopP_succ]
  have e2 : execL p0 (((endsBody () pEnd).bind (M.cont (Sum.elim (M.loop n endsBody) pure))).bind (M.cont (docHead (n + 1)))) ⟨t :: r, fin, true, false, pk, false⟩ =
    execL p0 ((((if (t.data == .documentEnd) = true then (do Parser.skip; pure (.inl ())) else pure (.inr t) : Pars (Unit ⊕ Token)) pEnd).bind
      (M.cont (Sum.elim (M.loop n endsBody) pure))).bind (M.cont (docHead (n + 1)))) ⟨t :: r, fin, true, false, true, false⟩ := rfl
  rw [e2, h]
  rfl

theorem exec_new {n : Nat} {p0 : PState} {t : Token} {r : List Token} {fin : Out Token} {pk : Bool} (h : Parser.startsExplicitDocument t.data = true) :
    execL p0 (Parser.parse (n + 1) pNew) ⟨t :: r, fin, true, false, pk, false⟩ = execL p0 (docHead (n + 1) t pNew) ⟨t :: r, fin, true, false, true, false⟩ := by
  have e : execL p0 (Parser.parse (n + 1) pNew) ⟨t :: r, fin, true, false, pk, false⟩ =
      execL p0 ((if (true && !Parser.startsExplicitDocument t.data) = true then (do
        let _ ← Parser.processDirectives (n + 1)
        Parser.pushState .documentEnd
        Parser.setState .blockNode
        pure ⟨.documentStart none [] true, t.startMark, t.endMark⟩) else docHead (n + 1) t : Pars Event) pNew) ⟨t :: r, fin, true, false, true, false⟩ := rfl
  rw [e, h]
  rfl

theorem exec_implicit {n : Nat} {p0 : PState} {t : Token} {r : List Token} {fin : Out Token} {pk : Bool} (h : Parser.startsExplicitDocument t.data = false) :
    (execL p0 (Parser.parse (n + 1) pNew) ⟨t :: r, fin, true, false, pk, false⟩).1.1 = .ok ⟨.documentStart none [] true, t.startMark, t.endMark⟩ := by
  have e : execL p0 (Parser.parse (n + 1) pNew) ⟨t :: r, fin, true, false, pk, false⟩ =
      execL p0 ((if (true && !Parser.startsExplicitDocument t.data) = true then (do
        let _ ← Parser.processDirectives (n + 1)
        Parser.pushState .documentEnd
        Parser.setState .blockNode
        pure ⟨.documentStart none [] true, t.startMark, t.endMark⟩) else docHead (n + 1) t : Pars Event) pNew) ⟨t :: r, fin, true, false, true, false⟩ := rfl
  rw [e, h]
  obtain ⟨d, a, z⟩ := t
  cases d <;> first | rfl | simp [Parser.startsExplicitDocument] at h

/-- A parser behind an explicit document end, and a new parser, over scanners that will yield related tokens, the first of which starts an explicit document or
ends the stream. -/
structure Bd (L F : Nat) (o1 o2 : ParserObj) : Prop where
  p1 : o1.p = pEnd
  p2 : o2.p = pNew
  g : ∃ toks1 toks2 fin1 fin2 pk1 pk2, Rel F ⟨toks1, fin1, true, false, pk1, false⟩ o1.s o1.r ∧ Rel F ⟨toks2, fin2, true, false, pk2, false⟩ o2.s o2.r ∧
    toks1.length < F ∧ Zip (Tk L) toks1 toks2 ∧ Rs L fin1 fin2 ∧ ∀ t, toks2.head? = some t → Parser.startsExplicitDocument t.data = true

theorem good_end {toks : List Token} : PGood .docs [] pEnd toks := ⟨.docStart, rfl, fun _ => rfl⟩
theorem good_new {toks : List Token} : PGood .docs [] pNew toks := ⟨.implicitDoc, rfl, fun _ => rfl⟩

theorem exec_pair {n : Nat} {toks1 toks2 : List Token} {fin1 fin2 : Out Token} {pk1 pk2 : Bool} (hz : Zip (Tk L) toks1 toks2) (hf : Rs L fin1 fin2)
    (hx : ∀ t, toks2.head? = some t → Parser.startsExplicitDocument t.data = true) :
    PO L (Ev' L) (execL pEnd (Parser.parse (n + 1) pEnd) ⟨toks1, fin1, true, false, pk1, false⟩).1 (execL pNew (Parser.parse (n + 1) pNew) ⟨toks2, fin2, true, false, pk2, false⟩).1 ∧
      Tl L (execL pEnd (Parser.parse (n + 1) pEnd) ⟨toks1, fin1, true, false, pk1, false⟩).2 (execL pNew (Parser.parse (n + 1) pNew) ⟨toks2, fin2, true, false, pk2, false⟩).2 := by
  cases hz with
  | nil =>
    cases hf with
    | ok h => exact ⟨trivial, .nil, .ok h, rfl, rfl⟩
    | err h => exact ⟨h, .nil, .err h, rfl, rfl⟩
    | panic x => exact ⟨rfl, .nil, .panic x, rfl, rfl⟩
    | fuel => exact ⟨trivial, .nil, .fuel, rfl, rfl⟩
  | @cons t t' r r' ht hr =>
    have h1 := hx t' rfl
    have h2 : (t.data == .documentEnd) = false := by
      rw [ht.data]
      cases hd : t'.data <;> first | rfl | (rw [hd] at h1; cases h1)
    rw [exec_end h2, exec_new h1]
    exact execL_pair (sm_docHead ht (p := pEnd) (p' := pNew) ⟨rfl, rfl, .nil, rfl, .nil⟩) _ _ ⟨.cons ht hr, hf, rfl, rfl⟩

theorem bd_parse {o1 o2 : ParserObj} (h : Bd L F o1 o2) :
    Ro L (Ev' L) (Bo L F) (execA (Parser.handle F o1.p (Parser.parse F o1.p) o1.s) o1.r) (execA (Parser.handle F o2.p (Parser.parse F o2.p) o2.s) o2.r) := by
  obtain ⟨hp1, hp2, toks1, toks2, fin1, fin2, pk1, pk2, h1, h2, h4, hz, hfin, hx⟩ := h
  obtain ⟨p1, s1, r1⟩ := o1
  obtain ⟨p2, s2, r2⟩ := o2
  dsimp only at hp1 hp2 h1 h2
  subst hp1 hp2
  have h4' : toks2.length < F := by rw [← hz.length]; exact h4
  obtain ⟨n, rfl⟩ : ∃ n, F = n + 1 := ⟨F - 1, by omega⟩
  have hw1 : (Parser.parse (n + 1) pEnd).wp stepL (post NoP AnyE (Res .docs [] pEnd toks1 fin1)) ⟨toks1, fin1, true, false, pk1, false⟩ := wp_parse h4 good_end (by simp [pEnd])
  have hw2 : (Parser.parse (n + 1) pNew).wp stepL (post NoP AnyE (Res .docs [] pNew toks2 fin2)) ⟨toks2, fin2, true, false, pk2, false⟩ := wp_parse h4' good_new (by simp [pNew])
  obtain ⟨s1, r1, k1, k2⟩ := exec_list (n + 1) pEnd _ hw1 h1
  obtain ⟨s2, r2, m1, m2⟩ := exec_list (n + 1) pNew _ hw2 h2
  have h6 := execL_of_wp pEnd _ hw1
  have h7 := execL_of_wp pNew _ hw2
  have hx := exec_pair (n := n) (pk1 := pk1) (pk2 := pk2) hz hfin hx
  dsimp only
  rw [k1, m1]
  have hlen : ∀ G' toks' c ev p', PStep .docs [] pEnd toks1 ev c G' p' toks' → toks'.length < n + 1 := by
    intro G' toks' c ev p' hs
    have := congrArg List.length hs.split
    simp at this
    omega
  generalize execL pEnd (Parser.parse (n + 1) pEnd) ⟨toks1, fin1, true, false, pk1, false⟩ = q1 at k2 h6 hx ⊢
  generalize execL pNew (Parser.parse (n + 1) pNew) ⟨toks2, fin2, true, false, pk2, false⟩ = q2 at m2 h7 hx ⊢
  obtain ⟨⟨out1, p1⟩, g1⟩ := q1
  obtain ⟨⟨out2, p2⟩, g2⟩ := q2
  obtain ⟨hx1, hx2⟩ := hx
  cases out1 with
  | ok a =>
    cases out2 with
    | ok b =>
      have h6 := h6.resolve_right (by rintro (⟨x, h, _⟩ | ⟨h, _⟩) <;> cases h)
      have h7 := h7.resolve_right (by rintro (⟨x, h, _⟩ | ⟨h, _⟩) <;> cases h)
      obtain ⟨c, G', toks', pk', rfl, hs⟩ := h6
      obtain ⟨c2, G2', toks2', pk2', rfl, hs2⟩ := h7
      exact ⟨hx1.1, hx1.2, toks', toks2', fin1, fin2, true, pk', pk2', G', _, G2', _, k2, m2, hs.good, hs2.good, hlen _ _ _ _ _ hs, hx2.toks, hfin⟩
    | _ => exact hx1.elim
  | err e =>
    cases out2 with
    | err e' => exact hx1
    | _ => exact hx1.elim
  | panic e =>
    cases out2 with
    | panic e' => exact hx1
    | _ => exact hx1.elim
  | fuel =>
    cases out2 with
    | fuel => exact hx1
    | _ => exact hx1.elim

/-- One program after another, on two given parsers. -/
theorem seq_at {α β γ δ : Type} {o1 o2 : ParserObj} {m : Pars α} {m' : Pars β} {R : α → β → Prop} {R' : γ → δ → Prop} (g : Out α × PState → Free TokOp TokOp.Ans (Out γ × PState))
    (g' : Out β × PState → Free TokOp TokOp.Ans (Out δ × PState))
    (hp : ∀ x p, g (.panic x, p) = .ret (.panic x, p)) (hf : ∀ p, g (.fuel, p) = .ret (.fuel, p))
    (hp' : ∀ x p, g' (.panic x, p) = .ret (.panic x, p)) (hf' : ∀ p, g' (.fuel, p) = .ret (.fuel, p))
    (h0 : Ro L R (Bo L F) (execA (Parser.handle F o1.p (m o1.p) o1.s) o1.r) (execA (Parser.handle F o2.p (m' o2.p) o2.s) o2.r))
    (hok : ∀ a b, R a b → Sy L F (fun p => g (.ok a, p)) (fun p => g' (.ok b, p)) R') (herr : ∀ e e' (o1 o2 : ParserObj), Er L e e' →
      Ro L R' (Bo L F) (execA (Parser.handle F o1.p (g (.err e, o1.p)) o1.s) o1.r) (execA (Parser.handle F o2.p (g' (.err e', o2.p)) o2.s) o2.r)) :
    Ro L R' (Bo L F) (execA (Parser.handle F o1.p ((m o1.p).bind g) o1.s) o1.r) (execA (Parser.handle F o2.p ((m' o2.p).bind g') o2.s) o2.r) := by
  have s1 := handle_seq (F := F) o1.p g hp hf (m o1.p) o1.s o1.r
  have s2 := handle_seq (F := F) o2.p g' hp' hf' (m' o2.p) o2.s o2.r
  generalize execA (Parser.handle F o1.p (m o1.p) o1.s) o1.r = q1 at h0 s1
  generalize execA (Parser.handle F o2.p (m' o2.p) o2.s) o2.r = q2 at h0 s2
  obtain ⟨⟨out1, p1, t1⟩, r1⟩ := q1
  obtain ⟨⟨out2, p2, t2⟩, r2⟩ := q2
  cases out1 with
  | ok a =>
    cases out2 with
    | ok b =>
      obtain ⟨hr, h0⟩ := h0
      dsimp only at s1 s2
      rw [s1, s2, (ro_p0 o1.p p1 _ _ _ _), (ro_p0' o2.p p2 _ _ _ _)]
      exact hok a b hr _ _ h0
    | _ => exact h0.elim
  | err a =>
    cases out2 with
    | err b =>
      have h0 : Er L a b := h0
      dsimp only at s1 s2
      rw [s1, s2, (ro_p0 o1.p p1 _ _ _ _), (ro_p0' o2.p p2 _ _ _ _)]
      exact herr a b ⟨p1, t1, r1⟩ ⟨p2, t2, r2⟩ h0
    | _ => exact h0.elim
  | panic x =>
    cases out2 with
    | panic y =>
      obtain rfl : x = y := h0
      obtain ⟨w1, s1⟩ := s1
      obtain ⟨w2, s2⟩ := s2
      rw [s1, s2]
      exact rfl
    | _ => exact h0.elim
  | fuel =>
    cases out2 with
    | fuel =>
      obtain ⟨w1, s1⟩ := s1
      obtain ⟨w2, s2⟩ := s2
      rw [s1, s2]
      exact trivial
    | _ => exact h0.elim

/-- What `cleaningErr` does after the call. -/
def cleanK {α : Type} : Out α × PState → Free TokOp TokOp.Ans (Out α × PState)
  | (.ok a, p) => .ret (.ok a, p)
  | (.err e, p) => .ret (.err e, { p with aliases := [] })
  | (.panic x, p) => .ret (.panic x, p)
  | (.fuel, p) => .ret (.fuel, p)

theorem cleaningErr_eq {α : Type} (m : Pars α) : Document.cleaningErr m = fun p => (m p).bind cleanK := by
  funext p
  unfold Document.cleaningErr Document.deleteAliases
  show Free.bind (M.catchErr m p) _ = _
  unfold M.catchErr
  rw [Free.bind_assoc]
  congr 1
  funext q
  obtain ⟨out, p⟩ := q
  cases out <;> rfl

theorem bd_cleaning {o1 o2 : ParserObj} (h : Bd L F o1 o2) :
    Ro L (Ev' L) (Bo L F) (execA (Parser.handle F o1.p (Document.cleaningErr (Parser.parse F) o1.p) o1.s) o1.r)
      (execA (Parser.handle F o2.p (Document.cleaningErr (Parser.parse F) o2.p) o2.s) o2.r) := by
  rw [cleaningErr_eq]
  exact seq_at _ _ (fun _ _ => rfl) (fun _ => rfl) (fun _ _ => rfl) (fun _ => rfl) (bd_parse h) (fun a b h => Sy.pure h) fun e e' o1 o2 h => h

/-- What `load` does with the first event of a document. -/
def loadRest (F : Nat) (event : Event) : Pars Document :=
  match event.data with
  | .streamEnd => pure (Document.new none [] false false)
  | _ => do
    let d ← Document.cleaningErr (Document.loadDocument F (Document.new none [] false false) event)
    Document.deleteAliases
    pure d

theorem sy_loadRest {ev ev' : Event} (he : Ev' L ev ev') : Sy L F (loadRest F ev) (loadRest F ev') (Dc L) := by
  have hnew : Dc L (Document.new none [] false false) (Document.new none [] false false) := ⟨.nil, rfl, rfl, rfl, rfl, mz_zero, mz_zero⟩
  have hrest : Sy L F (do
      let d ← Document.cleaningErr (Document.loadDocument F (Document.new none [] false false) ev)
      Document.deleteAliases
      pure d : Pars Document) (do
      let d ← Document.cleaningErr (Document.loadDocument F (Document.new none [] false false) ev')
      Document.deleteAliases
      pure d : Pars Document) (Dc L) :=
    .bind (.cleaningErr (Sy.loadDocument hnew he)) fun d d' hd => .bind (Sy.aliases (fun _ => []) (fun _ => []) fun _ _ _ => .nil) fun _ _ _ => .pure hd
  unfold loadRest
  rw [he.mz.1]
  cases ev'.data with
  | streamEnd => exact .pure hnew
  | _ => exact hrest

/-- `load` behind the check for the start of the stream. -/
def loadMain (F : Nat) : Pars Document := do
  let ended ← (M.prim TokOp.streamEnded : Pars Bool)
  if ended then pure (Document.new none [] false false)
  else do
    let event ← Document.cleaningErr (Parser.parse F)
    loadRest F event

/-- The check of the first event. -/
def firstK (event : Event) : Pars Unit :=
  match event.data with
  | .streamStart _ => pure ()
  | _ => M.panic .loadNoStreamStart

/-- The start of the stream. -/
def loadFirst (F : Nat) : Pars Unit := do
  let event ← Document.cleaningErr (Parser.parse F)
  firstK event

theorem load_eq (F : Nat) : Document.load F = (do
    let started ← (M.prim TokOp.streamStarted : Pars Bool)
    M.when (!started) (loadFirst F)
    loadMain F) := rfl

theorem main_going {F : Nat} {o : ParserObj} (h : o.s.streamEndProduced = false) (p0 : PState) :
    execA (Parser.handle F p0 (loadMain F o.p) o.s) o.r =
      execA (Parser.handle F p0 ((Document.cleaningErr (Parser.parse F) o.p).bind (M.cont (loadRest F))) o.s) o.r := by
  show execA (Parser.handle F p0 ((if o.s.streamEndProduced = true then _ else _ : Pars Document) o.p) o.s) o.r = _
  rw [h]
  rfl

theorem load_going {F : Nat} {o : ParserObj} (h : o.s.streamStartProduced = true) (p0 : PState) :
    execA (Parser.handle F p0 (Document.load F o.p) o.s) o.r = execA (Parser.handle F p0 (loadMain F o.p) o.s) o.r := by
  rw [load_eq]
  show execA (Parser.handle F p0 ((M.when (!o.s.streamStartProduced) (loadFirst F) o.p).bind (M.cont fun _ => loadMain F)) o.s) o.r = _
  rw [h]
  rfl

theorem load_started {F : Nat} {o : ParserObj} {toks : List Token} {fin : Out Token} {pk : Bool} (h : Rel F ⟨toks, fin, true, false, pk, false⟩ o.s o.r) :
    execA (Parser.handle F o.p (Document.load F o.p) o.s) o.r =
      execA (Parser.handle F o.p ((Document.cleaningErr (Parser.parse F) o.p).bind (M.cont (loadRest F))) o.s) o.r := by
  have hf := h.flags
  rw [load_going hf.1, main_going hf.2]

theorem p0_same {α : Type} {F : Nat} (p0 p1 : PState) (t : Free TokOp TokOp.Ans (Out α × PState)) (s : SState) (r : Rd) :
    (execA (Parser.handle F p0 t s) r).1.1 = (execA (Parser.handle F p1 t s) r).1.1 ∧
      ((∃ a, (execA (Parser.handle F p0 t s) r).1.1 = .ok a) → execA (Parser.handle F p0 t s) r = execA (Parser.handle F p1 t s) r) := by
  induction t generalizing s r with
  | ret a => exact ⟨rfl, fun _ => rfl⟩
  | op o k ih =>
    cases o with
    | peek =>
      simp only [Parser.handle, execA_bind]
      generalize execA (Scanner.peek F s) r = q1
      obtain ⟨⟨out, s'⟩, r'⟩ := q1
      cases out with
      | ok t => exact ih _ _ _
      | err e => exact ih _ _ _
      | panic x => exact ⟨rfl, fun ⟨a, h⟩ => by cases h⟩
      | fuel => exact ⟨rfl, fun ⟨a, h⟩ => by cases h⟩
    | setFront d =>
      simp only [Parser.handle, execA_bind]
      exact ih _ _ _
    | skip =>
      simp only [Parser.handle, execA_bind]
      rcases skipToken_ret s with ⟨s', h⟩ | ⟨x, s', h⟩ <;> rw [h]
      · exact ih _ _ _
      · exact ⟨rfl, fun ⟨a, h⟩ => by cases h⟩
    | streamEnded => exact ih _ _ _
    | streamStarted => exact ih _ _ _

/-- The first call of `load` on a new parser: the start of the stream, then as on a parser that has it behind it. -/
theorem load_new {F : Nat} {o o2 : ParserObj} {ev : Event} {x : Encoding} (h0 : o.s.streamStartProduced = false) (h : o.parse F = (.ok ev, o2)) (he : ev.data = .streamStart x)
    (h1 : o2.s.streamStartProduced = true) :
    (o.load F).1 = (o2.load F).1 ∧ ((∃ d, (o2.load F).1 = .ok d) → (o.load F).2 = (o2.load F).2) := by
  have e1 : execA (Parser.handle F o.p (Document.load F o.p) o.s) o.r = execA (Parser.handle F o.p (loadMain F o2.p) o2.s) o2.r := by
    have e : execA (Parser.handle F o.p (Document.load F o.p) o.s) o.r =
        execA (Parser.handle F o.p ((loadFirst F o.p).bind (M.cont fun _ => loadMain F)) o.s) o.r := by
      rw [load_eq]
      show execA (Parser.handle F o.p ((M.when (!o.s.streamStartProduced) (loadFirst F) o.p).bind (M.cont fun _ => loadMain F)) o.s) o.r = _
      rw [h0]
      rfl
    rw [e]
    have e2 : loadFirst F o.p = (Document.cleaningErr (Parser.parse F) o.p).bind (M.cont firstK) := rfl
    rw [e2, cleaningErr_eq, Free.bind_assoc, Free.bind_assoc]
    have e4 : ∀ a, ((cleanK a).bind fun a => (M.cont firstK a).bind (M.cont fun x => loadMain F)) = ((cleanK a).bind (M.cont firstK)).bind (M.cont fun x => loadMain F) := fun a => (Free.bind_assoc _ _ _).symm
    simp only [e4]
    have hs := handle_seq (F := F) o.p (fun a : Out Event × PState => ((cleanK a).bind (M.cont firstK)).bind (M.cont fun _ => loadMain F)) (fun _ _ => rfl) (fun _ => rfl) (Parser.parse F o.p) o.s o.r
    unfold ParserObj.parse ParserObj.run runA Parser.onScanner at h
    dsimp only at h
    generalize execA (Parser.handle F o.p (Parser.parse F o.p) o.s) o.r = q at h hs
    obtain ⟨⟨out, p', s'⟩, r'⟩ := q
    simp only [Prod.mk.injEq] at h
    obtain ⟨rfl, rfl⟩ := h
    refine Eq.trans hs ?_
    have e3 : ((cleanK (.ok ev, p')).bind (M.cont firstK)).bind (M.cont fun _ => loadMain F) = (firstK ev p').bind (M.cont fun _ => loadMain F) := rfl
    dsimp only
    rw [e3]
    unfold firstK
    rw [he]
    rfl
  unfold ParserObj.load ParserObj.run runA Parser.onScanner
  dsimp only
  rw [load_going h1, e1]
  obtain ⟨g1, g2⟩ := p0_same (F := F) o.p o2.p (loadMain F o2.p) o2.s o2.r
  refine ⟨g1, fun h => ?_⟩
  rw [g2 (by rw [g1]; exact h)]

theorem bd_load {o1 o2 : ParserObj} (h : Bd L F o1 o2) :
    Ro L (Dc L) (Bo L F) (execA (Parser.handle F o1.p (Document.load F o1.p) o1.s) o1.r) (execA (Parser.handle F o2.p (Document.load F o2.p) o2.s) o2.r) := by
  obtain ⟨hp1, hp2, toks1, toks2, fin1, fin2, pk1, pk2, h1, h2, h4, hz, hfin, hx⟩ := id h
  rw [load_started h1, load_started h2]
  exact seq_at _ _ (fun _ _ => rfl) (fun _ => rfl) (fun _ _ => rfl) (fun _ => rfl) (bd_cleaning h) (fun a b h => sy_loadRest h) fun e e' o1 o2 h => h

end Yaml.Dx
