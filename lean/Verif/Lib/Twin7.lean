import Verif.Lib.Twin6
import Verif.Lib.ParsRun

/-
Two parsers side by side: related tokens give related events.
-/

namespace Yaml
open Reader Scanner
set_option linter.unusedSimpArgs false
set_option linter.unusedVariables false

namespace Tw

/-- Related answers of the scanner. -/
def An (L : Nat) : (o : TokOp) → TokOp.Ans o → TokOp.Ans o → Prop
  | .peek => fun x y => match x, y with
    | .ok t, .ok t' => Tk L t t'
    | .error e, .error e' => Er L e e'
    | _, _ => False
  | .setFront _ => fun _ _ => True
  | .skip => fun _ _ => True
  | .streamEnded => fun x y => x = y
  | .streamStarted => fun x y => x = y

/-- Trees that ask the same questions, whatever the (related) answers are. -/
inductive Sm (L : Nat) {A B : Type} (R : A → B → Prop) : Free TokOp TokOp.Ans A → Free TokOp TokOp.Ans B → Prop
  | ret {a : A} {b : B} (h : R a b) : Sm L R (.ret a) (.ret b)
  | op (o : TokOp) {k : TokOp.Ans o → Free TokOp TokOp.Ans A} {k' : TokOp.Ans o → Free TokOp TokOp.Ans B}
      (h : ∀ x y, An L o x y → Sm L R (k x) (k' y)) : Sm L R (.op o k) (.op o k')

theorem Sm.bind {L : Nat} {A B C D : Type} {R : A → B → Prop} {R' : C → D → Prop} {t : Free TokOp TokOp.Ans A} {t' : Free TokOp TokOp.Ans B}
    {f : A → Free TokOp TokOp.Ans C} {f' : B → Free TokOp TokOp.Ans D} (h : Sm L R t t') (hf : ∀ a b, R a b → Sm L R' (f a) (f' b)) :
    Sm L R' (t.bind f) (t'.bind f') := by
  induction h with
  | ret h => exact hf _ _ h
  | op o h ih => exact .op o fun x y hxy => ih x y hxy

/-- Related anchors. -/
structure Al (L : Nat) (x y : AliasData) : Prop where
  anchor : x.anchor = y.anchor
  index : x.index = y.index
  mark : Mz L x.mark y.mark

/-- Related parser states. -/
structure PS (L : Nat) (p p' : PState) : Prop where
  states : p.states = p'.states
  state : p.state = p'.state
  marks : Zip (Mk L) p.marks p'.marks
  tags : p.tagDirectives = p'.tagDirectives
  aliases : Zip (Al L) p.aliases p'.aliases

/-- Related outcomes. -/
def PO (L : Nat) {α β : Type} (R : α → β → Prop) : Out α × PState → Out β × PState → Prop
  | (.ok a, p), (.ok b, p') => R a b ∧ PS L p p'
  | (.err e, _), (.err e', _) => Er L e e'
  | (.panic x, _), (.panic x', _) => x = x'
  | (.fuel, _), (.fuel, _) => True
  | _, _ => False

/-- The two methods do the same. -/
def P2 (L : Nat) {α β : Type} (m : Pars α) (m' : Pars β) (R : α → β → Prop) (p p' : PState) : Prop := Sm L (PO L R) (m p) (m' p')

section
variable {L : Nat} {α β γ δ σ τ : Type} {p p' : PState}

theorem p2_bind {m : Pars α} {m' : Pars β} {f : α → Pars γ} {f' : β → Pars δ} {R : α → β → Prop} {R' : γ → δ → Prop}
    (h : P2 L m m' R p p') (hf : ∀ a b q q', R a b → PS L q q' → P2 L (f a) (f' b) R' q q') : P2 L (m >>= f) (m' >>= f') R' p p' := by
  refine Sm.bind h ?_
  rintro ⟨x, q⟩ ⟨y, q'⟩ hxy
  cases x <;> cases y <;> first | exact hf _ _ _ _ hxy.1 hxy.2 | exact .ret hxy | exact hxy.elim

theorem p2_pure {a : α} {b : β} {R : α → β → Prop} (h : PS L p p') (hr : R a b) : P2 L (pure a) (pure b) R p p' := .ret ⟨hr, h⟩

theorem p2_throw {e e' : Err} {R : α → β → Prop} (h : Er L e e') : P2 L (M.throw e : Pars α) (M.throw e' : Pars β) R p p' := .ret h

theorem p2_panic {x : PanicSite} {R : α → β → Prop} : P2 L (M.panic x : Pars α) (M.panic x : Pars β) R p p' := .ret rfl

theorem p2_get (h : PS L p p') : P2 L (M.get : Pars PState) (M.get : Pars PState) (fun q q' => PS L q q') p p' := .ret ⟨h, h⟩

theorem p2_modify {f f' : PState → PState} (h : PS L (f p) (f' p')) : P2 L (M.modify f : Pars Unit) (M.modify f' : Pars Unit) Eq p p' :=
  .ret ⟨rfl, h⟩

theorem p2_prim {o : TokOp} (h : PS L p p') : P2 L (M.prim o : Pars _) (M.prim o : Pars _) (An L o) p p' :=
  .op o fun x y hxy => .ret ⟨hxy, h⟩

theorem p2_loop {body : σ → Pars (σ ⊕ α)} {body' : τ → Pars (τ ⊕ β)} {R : α → β → Prop} (I : σ → τ → Prop)
    (hb : ∀ x y q q', I x y → PS L q q' → P2 L (body x) (body' y) (fun r r' => match r, r' with
        | .inl x, .inl y => I x y
        | .inr a, .inr b => R a b
        | _, _ => False) q q') (F : Nat) {x : σ} {y : τ} (hx : I x y) (h : PS L p p') :
    P2 L (M.loop F body x) (M.loop F body' y) R p p' := by
  induction F generalizing x y p p' with
  | zero => exact .ret trivial
  | succ F ih =>
    rw [M.loop, M.loop]
    refine p2_bind (hb _ _ _ _ hx h) ?_
    intro r r' q q' hr hq
    cases r with
    | inl x =>
      cases r' with
      | inl y => exact ih hr hq
      | inr b => exact hr.elim
    | inr a =>
      cases r' with
      | inl y => exact hr.elim
      | inr b => exact p2_pure hq hr

theorem p2_ite {c c' : Prop} [Decidable c] [Decidable c'] {a b : Pars α} {a' b' : Pars β} {R : α → β → Prop} (hc : c ↔ c')
    (ha : c → P2 L a a' R p p') (hb : ¬ c → P2 L b b' R p p') : P2 L (if c then a else b) (if c' then a' else b') R p p' := by
  by_cases h : c
  · rw [if_pos h, if_pos (hc.1 h)]; exact ha h
  · rw [if_neg h, if_neg (fun h' => h (hc.2 h'))]; exact hb h

theorem p2_when {c : Bool} {a a' : Pars Unit} (h : PS L p p') (ha : P2 L a a' Eq p p') : P2 L (M.when c a) (M.when c a') Eq p p' := by
  cases c
  · exact p2_pure h rfl
  · exact ha

end

/-- The same event at related positions. -/
structure Ev (L : Nat) (e e' : Event) : Prop where
  data : e.data = e'.data
  start : Mk L e.startMark e'.startMark
  stop : Mk L e.endMark e'.endMark

namespace PS
variable {L : Nat} {p p' : PState}
theorem set (h : PS L p p') (s : PSt) : PS L { p with state := s } { p' with state := s } := ⟨h.states, rfl, h.marks, h.tags, h.aliases⟩
theorem push (h : PS L p p') (s : PSt) : PS L { p with states := s :: p.states } { p' with states := s :: p'.states } :=
  ⟨by show s :: p.states = s :: p'.states; rw [h.states], h.state, h.marks, h.tags, h.aliases⟩
end PS

section
variable {L : Nat} {p p' : PState} {F : Nat}

theorem p2_peek (h : PS L p p') : P2 L Parser.peek Parser.peek (Tk L) p p' := by
  unfold Parser.peek
  refine p2_bind (p2_prim h) ?_
  intro x y q q' hxy hq
  have hxy : An L .peek x y := hxy
  cases x with
  | ok t =>
    cases y with
    | ok t' => exact p2_pure hq hxy
    | error e => exact hxy.elim
  | error e =>
    cases y with
    | ok t' => exact hxy.elim
    | error e' => exact p2_throw hxy

theorem p2_skip (h : PS L p p') : P2 L Parser.skip Parser.skip Eq p p' := .op .skip fun _ _ _ => .ret ⟨rfl, h⟩

theorem p2_setState (h : PS L p p') (s : PSt) : P2 L (Parser.setState s) (Parser.setState s) Eq p p' := p2_modify (h.set s)
theorem p2_pushState (h : PS L p p') (s : PSt) : P2 L (Parser.pushState s) (Parser.pushState s) Eq p p' := p2_modify (h.push s)

theorem p2_popState (h : PS L p p') : P2 L Parser.popState Parser.popState Eq p p' := by
  unfold Parser.popState
  refine p2_bind (p2_get h) ?_
  intro q q' r r' hq hr
  rw [hq.states]
  cases hs : q'.states with
  | nil => exact p2_panic
  | cons s rest => exact p2_modify ⟨rfl, rfl, hr.marks, hr.tags, hr.aliases⟩

theorem p2_pushMark {m m' : Mark} (h : PS L p p') (hm : Mk L m m') : P2 L (Parser.pushMark m) (Parser.pushMark m') Eq p p' :=
  p2_modify ⟨h.states, h.state, .cons hm h.marks, h.tags, h.aliases⟩

theorem p2_dropMark (h : PS L p p') : P2 L Parser.dropMark Parser.dropMark Eq p p' := p2_modify ⟨h.states, h.state, h.marks.tail, h.tags, h.aliases⟩

theorem p2_popMark (h : PS L p p') : P2 L Parser.popMark Parser.popMark (Mk L) p p' := by
  unfold Parser.popMark
  refine p2_bind (p2_get h) ?_
  intro q q' r r' hq hr
  have := hq.marks
  generalize q.marks = a at this
  generalize q'.marks = b at this
  cases this with
  | nil => exact p2_panic
  | cons h hs =>
    refine p2_bind (R := Eq) (p2_modify ⟨hr.states, hr.state, hs, hr.tags, hr.aliases⟩) ?_
    intro _ _ q q' _ hq
    exact p2_pure hq h

theorem p2_err {α β : Type} {R : α → β → Prop} {c q : String} {m m' n n' : Mark} (h : Mz L m m') (h' : Mk L n n') :
    P2 L (Parser.parserError c m q n : Pars α) (Parser.parserError c m' q n' : Pars β) R p p' := p2_throw (.parser c q h (Or.inl h'))

theorem mz_zero : Mz L Mark.zero Mark.zero := Or.inr ⟨rfl, rfl⟩

theorem ev_empty {m m' : Mark} (h : Mk L m m') : Ev L (Parser.emptyScalar m) (Parser.emptyScalar m') := ⟨rfl, h, h⟩

theorem p2_append {v : TagDirective} {b : Bool} {m m' : Mark} (h : PS L p p') (hm : Mk L m m') :
    P2 L (Parser.appendTagDirective v b m) (Parser.appendTagDirective v b m') Eq p p' := by
  unfold Parser.appendTagDirective
  refine p2_bind (p2_get h) ?_
  intro q q' r r' hq hr
  rw [hq.tags]
  refine p2_ite Iff.rfl (fun _ => p2_ite Iff.rfl (fun _ => p2_pure hr rfl) fun _ => p2_err mz_zero hm) fun _ => ?_
  exact p2_modify ⟨hr.states, hr.state, hr.marks, by show r.tagDirectives ++ _ = r'.tagDirectives ++ _; rw [hr.tags], hr.aliases⟩


set_option hygiene false in
macro "tk" : tactic => `(tactic| (
  rintro ⟨d, a, z⟩ ⟨d', a', z'⟩ q q' ⟨hd, ha, hz⟩ hq
  dsimp only at hd ha hz
  subst hd
  dsimp only))

theorem p2_directiveLoop (h : PS L p p') : P2 L (Parser.directiveLoop F) (Parser.directiveLoop F)
    (fun x y => x.1 = y.1 ∧ x.2.1 = y.2.1 ∧ Tk L x.2.2 y.2.2) p p' := by
  unfold Parser.directiveLoop
  refine p2_loop Eq ?_ F rfl h
  rintro ⟨v, tags⟩ ⟨_, _⟩ q q' ⟨⟩ hq
  dsimp only
  refine p2_bind (p2_peek hq) ?_
  tk
  split
  · refine p2_ite Iff.rfl (fun _ => p2_err mz_zero ha) fun _ => p2_ite Iff.rfl (fun _ => p2_err mz_zero ha) fun _ => ?_
    refine p2_bind (p2_skip hq) fun _ _ q q' _ hq => ?_
    exact p2_pure hq rfl
  · refine p2_bind (p2_prim hq) fun _ _ q q' _ hq => ?_
    refine p2_bind (p2_append hq ha) fun _ _ q q' _ hq => ?_
    refine p2_bind (p2_skip hq) fun _ _ q q' _ hq => ?_
    exact p2_pure hq rfl
  · exact p2_pure hq ⟨rfl, rfl, rfl, ha, hz⟩

theorem p2_processDirectives (h : PS L p p') : P2 L (Parser.processDirectives F) (Parser.processDirectives F) Eq p p' := by
  unfold Parser.processDirectives
  refine p2_bind (p2_directiveLoop h) ?_
  rintro ⟨v, tags, t⟩ ⟨_, _, t'⟩ q q' ⟨h1, h2, h3⟩ hq
  dsimp only at h1 h2 h3
  subst h1 h2
  dsimp only
  refine p2_bind (p2_append hq h3.start) fun _ _ q q' _ hq => ?_
  refine p2_bind (p2_append hq h3.start) fun _ _ q q' _ hq => ?_
  exact p2_pure hq rfl

theorem p2_streamStart (h : PS L p p') : P2 L Parser.parseStreamStart Parser.parseStreamStart (Ev L) p p' := by
  unfold Parser.parseStreamStart
  refine p2_bind (p2_peek h) ?_
  tk
  split
  · refine p2_bind (p2_setState hq _) fun _ _ q q' _ hq => ?_
    refine p2_bind (p2_skip hq) fun _ _ q q' _ hq => ?_
    exact p2_pure hq ⟨rfl, ha, hz⟩
  · exact p2_err mz_zero ha

theorem p2_skipDocumentEnds (h : PS L p p') (b : Bool) : P2 L (Parser.skipDocumentEnds F b) (Parser.skipDocumentEnds F b) (Tk L) p p' := by
  unfold Parser.skipDocumentEnds
  refine p2_ite Iff.rfl (fun _ => p2_peek h) fun _ => ?_
  refine p2_loop (fun _ _ => True) ?_ F trivial h
  intro _ _ q q' _ hq
  refine p2_bind (p2_peek hq) ?_
  tk
  refine p2_ite Iff.rfl (fun _ => ?_) fun _ => p2_pure hq ⟨rfl, ha, hz⟩
  refine p2_bind (p2_skip hq) fun _ _ q q' _ hq => ?_
  exact p2_pure hq trivial

theorem p2_documentStart (h : PS L p p') (b : Bool) : P2 L (Parser.parseDocumentStart F b) (Parser.parseDocumentStart F b) (Ev L) p p' := by
  unfold Parser.parseDocumentStart
  refine p2_bind (p2_skipDocumentEnds h b) ?_
  tk
  refine p2_ite Iff.rfl (fun _ => ?_) fun _ => p2_ite Iff.rfl (fun _ => ?_) fun _ => ?_
  · refine p2_bind (p2_processDirectives hq) fun _ _ q q' _ hq => ?_
    refine p2_bind (p2_pushState hq _) fun _ _ q q' _ hq => ?_
    refine p2_bind (p2_setState hq _) fun _ _ q q' _ hq => ?_
    exact p2_pure hq ⟨rfl, ha, hz⟩
  · refine p2_bind (p2_processDirectives hq) ?_
    rintro ⟨v, tags⟩ ⟨_, _⟩ q q' ⟨⟩ hq
    dsimp only
    have ha0 := ha
    clear hz
    refine p2_bind (p2_peek hq) ?_
    clear ha
    tk
    refine p2_ite Iff.rfl (fun _ => ?_) fun _ => p2_err mz_zero ha
    refine p2_bind (p2_pushState hq _) fun _ _ q q' _ hq => ?_
    refine p2_bind (p2_setState hq _) fun _ _ q q' _ hq => ?_
    refine p2_bind (p2_skip hq) fun _ _ q q' _ hq => ?_
    exact p2_pure hq ⟨rfl, ha0, hz⟩
  · refine p2_bind (p2_setState hq _) fun _ _ q q' _ hq => ?_
    refine p2_bind (p2_skip hq) fun _ _ q q' _ hq => ?_
    exact p2_pure hq ⟨rfl, ha, hz⟩

/-- Related node properties. -/
structure Pr (L : Nat) (x y : Parser.Props) : Prop where
  anchor : x.anchor = y.anchor
  tag : match x.tag, y.tag with
    | none, none => True
    | some (h, s, m), some (h', s', m') => h = h' ∧ s = s' ∧ Mk L m m'
    | _, _ => False
  start : Mk L x.startMark y.startMark
  stop : Mk L x.endMark y.endMark

theorem p2_nodeProperties {t t' : Token} (h : PS L p p') (ht : Tk L t t') :
    P2 L (Parser.nodeProperties t) (Parser.nodeProperties t') (Pr L) p p' := by
  obtain ⟨d, a, z⟩ := t
  obtain ⟨d', a', z'⟩ := t'
  obtain ⟨hd, ha, hz⟩ := ht
  dsimp only at hd ha hz
  subst hd
  unfold Parser.nodeProperties
  dsimp only
  cases d <;> dsimp only
  case anchor v =>
    refine p2_bind (p2_skip h) fun _ _ q q' _ hq => ?_
    have ha0 := ha; have hz0 := hz; clear ha hz
    refine p2_bind (p2_peek hq) ?_
    tk
    cases d <;> dsimp only
    case tag =>
      refine p2_bind (p2_skip hq) fun _ _ q q' _ hq => ?_
      exact p2_pure hq ⟨rfl, ⟨rfl, rfl, ha⟩, ha0, hz⟩
    all_goals exact p2_pure hq ⟨rfl, trivial, ha0, hz0⟩
  case tag v w =>
    refine p2_bind (p2_skip h) fun _ _ q q' _ hq => ?_
    have ha0 := ha; have hz0 := hz; clear ha hz
    refine p2_bind (p2_peek hq) ?_
    tk
    cases d <;> dsimp only
    case anchor =>
      refine p2_bind (p2_skip hq) fun _ _ q q' _ hq => ?_
      exact p2_pure hq ⟨rfl, ⟨rfl, rfl, ha0⟩, ha0, hz⟩
    all_goals exact p2_pure hq ⟨rfl, ⟨rfl, rfl, ha0⟩, ha0, hz0⟩
  all_goals exact p2_pure h ⟨rfl, trivial, ha, ha⟩

theorem p2_resolveTag {x y : Parser.Props} (h : PS L p p') (hx : Pr L x y) : P2 L (Parser.resolveTag x) (Parser.resolveTag y) Eq p p' := by
  obtain ⟨an, tg, m, n⟩ := x
  obtain ⟨an', tg', m', n'⟩ := y
  obtain ⟨h1, h2, h3, h4⟩ := hx
  unfold Parser.resolveTag
  dsimp only at *
  match tg, tg', h2 with
  | none, none, _ => exact p2_pure h rfl
  | some (hh, ss, mm), some (hh', ss', mm'), ⟨e1, e2, e3⟩ =>
    subst e1 e2
    dsimp only
    refine p2_ite Iff.rfl (fun _ => p2_pure h rfl) fun _ => ?_
    refine p2_bind (p2_get h) ?_
    intro q q' r r' hq hr
    rw [hq.tags]
    cases List.find? (fun d => d.handle == hh) q'.tagDirectives with
    | none => exact p2_err (Or.inl h3) e3
    | some d => exact p2_pure hr rfl

theorem p2_nodeContent {b i : Bool} {x y : Parser.Props} {tag : Option Str} (h : PS L p p') (hx : Pr L x y) :
    P2 L (Parser.nodeContent b i x tag) (Parser.nodeContent b i y tag) (Ev L) p p' := by
  obtain ⟨an, tg, m, n⟩ := x
  obtain ⟨an', tg', m', n'⟩ := y
  obtain ⟨h1, h2, h3, h4⟩ := hx
  dsimp only at h1 h3 h4
  subst h1
  clear h2
  unfold Parser.nodeContent
  refine p2_bind (p2_peek h) ?_
  tk
  refine p2_ite Iff.rfl (fun _ => ?_) fun _ => ?_
  · refine p2_bind (p2_setState hq _) fun _ _ q q' _ hq => ?_
    exact p2_pure hq ⟨rfl, h3, hz⟩
  · split
    · refine p2_bind (p2_popState hq) fun _ _ q q' _ hq => ?_
      refine p2_bind (p2_skip hq) fun _ _ q q' _ hq => ?_
      exact p2_pure hq ⟨rfl, h3, hz⟩
    · refine p2_bind (p2_setState hq _) fun _ _ q q' _ hq => ?_
      exact p2_pure hq ⟨rfl, h3, hz⟩
    · refine p2_bind (p2_setState hq _) fun _ _ q q' _ hq => ?_
      exact p2_pure hq ⟨rfl, h3, hz⟩
    · refine p2_ite Iff.rfl (fun _ => ?_) fun _ => p2_ite Iff.rfl (fun _ => ?_) fun _ => p2_ite Iff.rfl (fun _ => ?_) fun _ => ?_
      · refine p2_bind (p2_setState hq _) fun _ _ q q' _ hq => ?_
        exact p2_pure hq ⟨rfl, h3, hz⟩
      · refine p2_bind (p2_setState hq _) fun _ _ q q' _ hq => ?_
        exact p2_pure hq ⟨rfl, h3, hz⟩
      · refine p2_bind (p2_popState hq) fun _ _ q q' _ hq => ?_
        exact p2_pure hq ⟨rfl, h3, h4⟩
      · exact p2_err (Or.inl h3) ha

theorem p2_node {b i : Bool} (h : PS L p p') : P2 L (Parser.parseNode b i) (Parser.parseNode b i) (Ev L) p p' := by
  unfold Parser.parseNode
  refine p2_bind (p2_peek h) ?_
  tk
  split
  · refine p2_bind (p2_popState hq) fun _ _ q q' _ hq => ?_
    refine p2_bind (p2_skip hq) fun _ _ q q' _ hq => ?_
    exact p2_pure hq ⟨rfl, ha, hz⟩
  · refine p2_bind (p2_nodeProperties hq ⟨rfl, ha, hz⟩) fun x y q q' hx hq => ?_
    refine p2_bind (p2_resolveTag hq hx) ?_
    rintro t _ q q' rfl hq
    exact p2_nodeContent hq hx

theorem p2_content (h : PS L p p') : P2 L Parser.parseDocumentContent Parser.parseDocumentContent (Ev L) p p' := by
  unfold Parser.parseDocumentContent
  refine p2_bind (p2_peek h) ?_
  tk
  refine p2_ite Iff.rfl (fun _ => ?_) fun _ => p2_node hq
  refine p2_bind (p2_popState hq) fun _ _ q q' _ hq => ?_
  exact p2_pure hq (ev_empty ha)

theorem p2_documentEnd (h : PS L p p') : P2 L Parser.parseDocumentEnd Parser.parseDocumentEnd (Ev L) p p' := by
  unfold Parser.parseDocumentEnd
  refine p2_bind (p2_peek h) ?_
  tk
  refine p2_bind (p2_when hq (a := Parser.skip) ?_) fun _ _ q q' _ hq => ?_
  · exact p2_skip hq
  refine p2_bind (R := Eq) (p2_modify ⟨hq.states, hq.state, hq.marks, rfl, hq.aliases⟩) fun _ _ q q' _ hq => ?_
  refine p2_bind (p2_setState hq _) fun _ _ q q' _ hq => ?_
  refine p2_pure hq ⟨rfl, ha, ?_⟩
  dsimp only
  split
  · exact hz
  · exact ha

theorem p2_enter {b : Bool} (h : PS L p p') : P2 L (Parser.enterCollection b) (Parser.enterCollection b) Eq p p' := by
  unfold Parser.enterCollection
  refine p2_when h ?_
  refine p2_bind (p2_peek h) ?_
  tk
  refine p2_bind (p2_pushMark hq ha) fun _ _ q q' _ hq => ?_
  exact p2_skip hq

theorem p2_leave {d : EventData} {t t' : Token} (h : PS L p p') (ht : Tk L t t') :
    P2 L (Parser.leaveCollection d t) (Parser.leaveCollection d t') (Ev L) p p' := by
  unfold Parser.leaveCollection
  refine p2_bind (p2_popState h) fun _ _ q q' _ hq => ?_
  refine p2_bind (p2_dropMark hq) fun _ _ q q' _ hq => ?_
  refine p2_bind (p2_skip hq) fun _ _ q q' _ hq => ?_
  exact p2_pure hq ⟨rfl, ht.start, ht.stop⟩

/-- A node or an omitted node, depending on the next token. -/
theorem p2_next {c : TokenData → Bool} {st st' : PSt} {m m' : Mark} {b i : Bool} (h : PS L p p') (hm : Mk L m m') :
    P2 L (Parser.peek >>= fun token => if c token.data then (Parser.setState st >>= fun _ => pure (Parser.emptyScalar m))
        else (Parser.pushState st' >>= fun _ => Parser.parseNode b i))
      (Parser.peek >>= fun token => if c token.data then (Parser.setState st >>= fun _ => pure (Parser.emptyScalar m'))
        else (Parser.pushState st' >>= fun _ => Parser.parseNode b i)) (Ev L) p p' := by
  refine p2_bind (p2_peek h) ?_
  tk
  refine p2_ite Iff.rfl (fun _ => ?_) fun _ => ?_
  · refine p2_bind (p2_setState hq _) fun _ _ q q' _ hq => ?_
    exact p2_pure hq (ev_empty hm)
  · refine p2_bind (p2_pushState hq _) fun _ _ q q' _ hq => ?_
    exact p2_node hq

theorem p2_next' {c : TokenData → Bool} {st st' : PSt} {b i : Bool} (h : PS L p p') :
    P2 L (Parser.peek >>= fun token => if c token.data then (Parser.setState st >>= fun _ => pure (Parser.emptyScalar token.startMark))
        else (Parser.pushState st' >>= fun _ => Parser.parseNode b i))
      (Parser.peek >>= fun token => if c token.data then (Parser.setState st >>= fun _ => pure (Parser.emptyScalar token.startMark))
        else (Parser.pushState st' >>= fun _ => Parser.parseNode b i)) (Ev L) p p' := by
  refine p2_bind (p2_peek h) ?_
  tk
  refine p2_ite Iff.rfl (fun _ => ?_) fun _ => ?_
  · refine p2_bind (p2_setState hq _) fun _ _ q q' _ hq => ?_
    exact p2_pure hq (ev_empty ha)
  · refine p2_bind (p2_pushState hq _) fun _ _ q q' _ hq => ?_
    exact p2_node hq

theorem p2_blockSequence {b : Bool} (h : PS L p p') : P2 L (Parser.parseBlockSequenceEntry b) (Parser.parseBlockSequenceEntry b) (Ev L) p p' := by
  unfold Parser.parseBlockSequenceEntry
  refine p2_bind (p2_enter h) fun _ _ q q' _ hq => ?_
  refine p2_bind (p2_peek hq) ?_
  tk
  split
  · refine p2_bind (p2_skip hq) fun _ _ q q' _ hq => ?_
    exact p2_next (c := fun d => d == .blockEntry || d == .blockEnd) hq hz
  · exact p2_leave hq ⟨rfl, ha, hz⟩
  · refine p2_bind (p2_popMark hq) fun m m' q q' hm hq => ?_
    exact p2_err (Or.inl hm) ha

theorem p2_indentless (h : PS L p p') : P2 L Parser.parseIndentlessSequenceEntry Parser.parseIndentlessSequenceEntry (Ev L) p p' := by
  unfold Parser.parseIndentlessSequenceEntry
  refine p2_bind (p2_peek h) ?_
  tk
  refine p2_ite Iff.rfl (fun _ => ?_) fun _ => ?_
  · refine p2_bind (p2_skip hq) fun _ _ q q' _ hq => ?_
    exact p2_next (c := fun d => d == .blockEntry || d == .key || d == .value || d == .blockEnd) hq hz
  · refine p2_bind (p2_popState hq) fun _ _ q q' _ hq => ?_
    exact p2_pure hq ⟨rfl, ha, hz⟩

theorem p2_blockKey {b : Bool} (h : PS L p p') : P2 L (Parser.parseBlockMappingKey b) (Parser.parseBlockMappingKey b) (Ev L) p p' := by
  unfold Parser.parseBlockMappingKey
  refine p2_bind (p2_enter h) fun _ _ q q' _ hq => ?_
  refine p2_bind (p2_peek hq) ?_
  tk
  split
  · refine p2_bind (p2_skip hq) fun _ _ q q' _ hq => ?_
    exact p2_next (c := fun d => d == .key || d == .value || d == .blockEnd) hq hz
  · exact p2_leave hq ⟨rfl, ha, hz⟩
  · refine p2_bind (p2_popMark hq) fun m m' q q' hm hq => ?_
    exact p2_err (Or.inl hm) ha

theorem p2_blockValue (h : PS L p p') : P2 L Parser.parseBlockMappingValue Parser.parseBlockMappingValue (Ev L) p p' := by
  unfold Parser.parseBlockMappingValue
  refine p2_bind (p2_peek h) ?_
  tk
  refine p2_ite Iff.rfl (fun _ => ?_) fun _ => ?_
  · refine p2_bind (p2_skip hq) fun _ _ q q' _ hq => ?_
    exact p2_next (c := fun d => d == .key || d == .value || d == .blockEnd) hq hz
  · refine p2_bind (p2_setState hq _) fun _ _ q q' _ hq => ?_
    exact p2_pure hq (ev_empty ha)

theorem p2_separator {b : Bool} {t t' : Token} {c r : String} (h : PS L p p') (ht : Tk L t t') :
    P2 L (Parser.flowSeparator b t c r) (Parser.flowSeparator b t' c r) (Tk L) p p' := by
  obtain ⟨d, a, z⟩ := t
  obtain ⟨d', a', z'⟩ := t'
  obtain ⟨hd, ha, hz⟩ := ht
  dsimp only at hd ha hz
  subst hd
  unfold Parser.flowSeparator
  dsimp only
  refine p2_ite Iff.rfl (fun _ => p2_pure h ⟨rfl, ha, hz⟩) fun _ => p2_ite Iff.rfl (fun _ => ?_) fun _ => ?_
  · refine p2_bind (p2_skip h) fun _ _ q q' _ hq => ?_
    exact p2_peek hq
  · refine p2_bind (p2_popMark h) fun m m' q q' hm hq => ?_
    exact p2_err (Or.inl hm) ha

theorem p2_flowSequence {b : Bool} (h : PS L p p') : P2 L (Parser.parseFlowSequenceEntry b) (Parser.parseFlowSequenceEntry b) (Ev L) p p' := by
  unfold Parser.parseFlowSequenceEntry
  refine p2_bind (p2_enter h) fun _ _ q q' _ hq => ?_
  refine p2_bind (p2_peek hq) ?_
  tk
  refine p2_ite Iff.rfl (fun _ => p2_leave hq ⟨rfl, ha, hz⟩) fun _ => ?_
  refine p2_bind (p2_separator hq ⟨rfl, ha, hz⟩) ?_
  clear ha hz
  tk
  refine p2_ite Iff.rfl (fun _ => ?_) fun _ => p2_ite Iff.rfl (fun _ => p2_leave hq ⟨rfl, ha, hz⟩) fun _ => ?_
  · refine p2_bind (p2_setState hq _) fun _ _ q q' _ hq => ?_
    refine p2_bind (p2_skip hq) fun _ _ q q' _ hq => ?_
    exact p2_pure hq ⟨rfl, ha, hz⟩
  · refine p2_bind (p2_pushState hq _) fun _ _ q q' _ hq => ?_
    exact p2_node hq

theorem p2_flowEntryKey (h : PS L p p') : P2 L Parser.parseFlowSequenceEntryMappingKey Parser.parseFlowSequenceEntryMappingKey (Ev L) p p' := by
  unfold Parser.parseFlowSequenceEntryMappingKey
  refine p2_bind (p2_peek h) ?_
  tk
  refine p2_ite Iff.rfl (fun _ => ?_) fun _ => ?_
  · refine p2_bind (p2_skip hq) fun _ _ q q' _ hq => ?_
    refine p2_bind (p2_setState hq _) fun _ _ q q' _ hq => ?_
    exact p2_pure hq (ev_empty hz)
  · refine p2_bind (p2_pushState hq _) fun _ _ q q' _ hq => ?_
    exact p2_node hq

theorem p2_flowEntryValue (h : PS L p p') :
    P2 L Parser.parseFlowSequenceEntryMappingValue Parser.parseFlowSequenceEntryMappingValue (Ev L) p p' := by
  unfold Parser.parseFlowSequenceEntryMappingValue
  refine p2_bind (p2_peek h) ?_
  tk
  refine p2_ite Iff.rfl (fun _ => ?_) fun _ => ?_
  · refine p2_bind (p2_skip hq) fun _ _ q q' _ hq => ?_
    exact p2_next' (c := fun d => d == .flowEntry || d == .flowSequenceEnd) hq
  · refine p2_bind (p2_setState hq _) fun _ _ q q' _ hq => ?_
    exact p2_pure hq (ev_empty ha)

theorem p2_flowEntryEnd (h : PS L p p') :
    P2 L Parser.parseFlowSequenceEntryMappingEnd Parser.parseFlowSequenceEntryMappingEnd (Ev L) p p' := by
  unfold Parser.parseFlowSequenceEntryMappingEnd
  refine p2_bind (p2_peek h) ?_
  tk
  refine p2_bind (p2_setState hq _) fun _ _ q q' _ hq => ?_
  exact p2_pure hq ⟨rfl, ha, hz⟩

theorem p2_flowKey {b : Bool} (h : PS L p p') : P2 L (Parser.parseFlowMappingKey b) (Parser.parseFlowMappingKey b) (Ev L) p p' := by
  unfold Parser.parseFlowMappingKey
  refine p2_bind (p2_enter h) fun _ _ q q' _ hq => ?_
  refine p2_bind (p2_peek hq) ?_
  tk
  refine p2_ite Iff.rfl (fun _ => p2_leave hq ⟨rfl, ha, hz⟩) fun _ => ?_
  refine p2_bind (p2_separator hq ⟨rfl, ha, hz⟩) ?_
  clear ha hz
  tk
  refine p2_ite Iff.rfl (fun _ => ?_) fun _ => p2_ite Iff.rfl (fun _ => p2_leave hq ⟨rfl, ha, hz⟩) fun _ => ?_
  · refine p2_bind (p2_skip hq) fun _ _ q q' _ hq => ?_
    exact p2_next' (c := fun d => d == .value || d == .flowEntry || d == .flowMappingEnd) hq
  · refine p2_bind (p2_pushState hq _) fun _ _ q q' _ hq => ?_
    exact p2_node hq

theorem p2_flowValue {b : Bool} (h : PS L p p') : P2 L (Parser.parseFlowMappingValue b) (Parser.parseFlowMappingValue b) (Ev L) p p' := by
  unfold Parser.parseFlowMappingValue
  refine p2_bind (p2_peek h) ?_
  tk
  refine p2_ite Iff.rfl (fun _ => ?_) fun _ => p2_ite Iff.rfl (fun _ => ?_) fun _ => ?_
  · refine p2_bind (p2_setState hq _) fun _ _ q q' _ hq => ?_
    exact p2_pure hq (ev_empty ha)
  · refine p2_bind (p2_skip hq) fun _ _ q q' _ hq => ?_
    exact p2_next' (c := fun d => d == .flowEntry || d == .flowMappingEnd) hq
  · refine p2_bind (p2_setState hq _) fun _ _ q q' _ hq => ?_
    exact p2_pure hq (ev_empty ha)

theorem p2_machine (h : PS L p p') (s : PSt) : P2 L (Parser.stateMachine F s) (Parser.stateMachine F s) (Ev L) p p' := by
  cases s <;> unfold Parser.stateMachine
  case streamStart => exact p2_streamStart h
  case implicitDocumentStart => exact p2_documentStart h _
  case documentStart => exact p2_documentStart h _
  case documentContent => exact p2_content h
  case documentEnd => exact p2_documentEnd h
  case blockNode => exact p2_node h
  case blockNodeOrIndentlessSequence => exact p2_node h
  case flowNode => exact p2_node h
  case blockSequenceFirstEntry => exact p2_blockSequence h
  case blockSequenceEntry => exact p2_blockSequence h
  case indentlessSequenceEntry => exact p2_indentless h
  case blockMappingFirstKey => exact p2_blockKey h
  case blockMappingKey => exact p2_blockKey h
  case blockMappingValue => exact p2_blockValue h
  case flowSequenceFirstEntry => exact p2_flowSequence h
  case flowSequenceEntry => exact p2_flowSequence h
  case flowSequenceEntryMappingKey => exact p2_flowEntryKey h
  case flowSequenceEntryMappingValue => exact p2_flowEntryValue h
  case flowSequenceEntryMappingEnd => exact p2_flowEntryEnd h
  case flowMappingFirstKey => exact p2_flowKey h
  case flowMappingKey => exact p2_flowKey h
  case flowMappingValue => exact p2_flowValue h
  case flowMappingEmptyValue => exact p2_flowValue h
  case end_ => exact p2_panic

/-- The same event at related positions, or the repeated stream end. -/
def Ev' (L : Nat) (e e' : Event) : Prop := Ev L e e' ∨ (e = Event.new .streamEnd ∧ e' = Event.new .streamEnd)

theorem p2_parse (h : PS L p p') : P2 L (Parser.parse F) (Parser.parse F) (Ev' L) p p' := by
  unfold Parser.parse
  refine p2_bind (p2_prim h) ?_
  intro x y q q' hxy hq
  have hxy : x = y := hxy
  subst hxy
  refine p2_bind (p2_get hq) ?_
  intro r r' q q' hr hq
  rw [hr.state]
  refine p2_ite Iff.rfl (fun _ => p2_pure hq (Or.inr ⟨rfl, rfl⟩)) fun _ => ?_
  have : ∀ {m : Pars Event} {m' : Pars Event}, P2 L m m' (Ev L) q q' → P2 L m m' (Ev' L) q q' := by
    intro m m' hm
    unfold P2 at hm ⊢
    generalize m q = a at hm
    generalize m' q' = b at hm
    clear m m'
    induction hm with
    | @ret a b h =>
      refine .ret ?_
      obtain ⟨a, s⟩ := a
      obtain ⟨b, s'⟩ := b
      cases a <;> cases b <;> first | exact ⟨Or.inl h.1, h.2⟩ | exact h
    | op o h ih => exact .op o ih
  exact this (p2_machine hq _)

/-- Related token lists. -/
structure Tl (L : Nat) (g g' : Toks) : Prop where
  toks : Zip (Tk L) g.toks g'.toks
  fin : Rs L g.fin g'.fin
  started : g.started = g'.started
  ended : g.ended = g'.ended

/-- Programs that do the same, over related lists. -/
theorem execL_pair {α β : Type} {R : α → β → Prop} {t : Free TokOp TokOp.Ans (Out α × PState)} {t' : Free TokOp TokOp.Ans (Out β × PState)}
    (h : Sm L (PO L R) t t') (p0 p0' : PState) {g g' : Toks} (hg : Tl L g g') :
    PO L R (execL p0 t g).1 (execL p0' t' g').1 ∧ Tl L (execL p0 t g).2 (execL p0' t' g').2 := by
  induction h generalizing g g' with
  | ret h => exact ⟨h, hg⟩
  | op o h ih =>
    obtain ⟨ts, fin, st, en, pk, br⟩ := g
    obtain ⟨ts', fin', st', en', pk', br'⟩ := g'
    obtain ⟨h1, h2, h3, h4⟩ := hg
    dsimp only at h1 h2 h3 h4
    subst h3 h4
    cases o with
    | peek =>
      cases h1 with
      | cons ht hts => exact ih (.ok _) (.ok _) ht ⟨.cons ht hts, h2, rfl, rfl⟩
      | nil =>
        cases h2 with
        | ok ht => exact ⟨trivial, .nil, .ok ht, rfl, rfl⟩
        | err he => exact ih (.error _) (.error _) he ⟨.nil, .err he, rfl, rfl⟩
        | panic x => exact ⟨rfl, .nil, .panic x, rfl, rfl⟩
        | fuel => exact ⟨trivial, .nil, .fuel, rfl, rfl⟩
    | setFront d =>
      refine ih () () trivial ⟨?_, h2, rfl, rfl⟩
      cases h1 with
      | nil => exact .nil
      | cons ht hts => exact .cons ⟨rfl, ht.start, ht.stop⟩ hts
    | skip =>
      refine ih () () trivial ⟨h1.tail, h2, rfl, ?_⟩
      cases h1 with
      | nil => rfl
      | cons ht hts =>
        have := ht.data
        simp [this]
    | streamEnded => exact ih _ _ rfl ⟨h1, h2, rfl, rfl⟩
    | streamStarted => exact ih _ _ rfl ⟨h1, h2, rfl, rfl⟩

/-- The result of a run is the result of the run over the list. -/
theorem wp_execL {β : Type} (p0 : PState) (t : Free TokOp TokOp.Ans (Out β × PState)) {Q : Out β × PState → Toks → Prop}
    {g : Toks} (hw : t.wp stepL Q g) : t.wp stepL (fun a g' => execL p0 t g = (a, g')) g := by
  induction t generalizing g with
  | ret a => exact rfl
  | op o k ih =>
    cases o with
    | peek =>
      obtain ⟨h1, h2, h3⟩ := hw
      refine ⟨h1, h2, ?_⟩
      obtain ⟨toks, fin, st, en, pk, br⟩ := g
      cases toks with
      | cons t ts => exact ih _ h3
      | nil =>
        intro e he
        have he : fin = .err e := he
        subst he
        exact ih _ (h3 e rfl)
    | setFront d =>
      obtain ⟨h1, h2, h3, t, ts, h4, h5, h6⟩ := hw
      refine ⟨h1, h2, h3, t, ts, h4, h5, ?_⟩
      have := ih _ h6
      unfold execL
      rw [h4]; exact this
    | skip =>
      obtain ⟨h1, h2, h3, t, ts, h4, h5⟩ := hw
      refine ⟨h1, h2, h3, t, ts, h4, ?_⟩
      have := ih _ h5
      unfold execL
      rw [h4]
      simpa using this
    | streamEnded => exact ⟨hw.1, ih _ hw.2⟩
    | streamStarted => exact ⟨hw.1, ih _ hw.2⟩

/-- Related results of a call of `parse`. -/
inductive Re (L : Nat) : Out Event → Out Event → Prop
  | ok {e e' : Event} (h : Ev' L e e') : Re L (.ok e) (.ok e')
  | err {e e' : Err} (h : Er L e e') : Re L (.err e) (.err e')
  | panic (p : PanicSite) : Re L (.panic p) (.panic p)
  | fuel : Re L .fuel .fuel

end
end Tw
end Yaml
