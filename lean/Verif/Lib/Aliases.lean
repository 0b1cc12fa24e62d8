import Verif.Lib.ParsRun

/-
`Parser::parse` neither reads nor changes the table of anchors, which only the loader uses.
-/

namespace Yaml
open Parser
set_option linter.unusedSimpArgs false
set_option linter.unusedVariables false

/-- The parser with another table of anchors. -/
def PState.withAliases (x : List AliasData) (p : PState) : PState := { p with aliases := x }

/-- `Free.bind` with a pure function. -/
def Free.map {Op : Type} {Ans : Op → Type} {α β : Type} (f : α → β) (t : Free Op Ans α) : Free Op Ans β :=
  t.bind fun a => .ret (f a)

theorem Free.bind_assoc {Op : Type} {Ans : Op → Type} {α β γ : Type} (t : Free Op Ans α) (f : α → Free Op Ans β) (g : β → Free Op Ans γ) :
    (t.bind f).bind g = t.bind fun a => (f a).bind g := by
  induction t with
  | ret a => rfl
  | op o k ih => simp only [Free.bind, ih]

/-- The method neither reads nor changes the table of anchors. -/
def AF {α : Type} (m : Pars α) : Prop :=
  ∀ p x, m (p.withAliases x) = (m p).map fun q => (q.1, q.2.withAliases x)

namespace AF
variable {α β σ : Type}

theorem pure (a : α) : AF (pure a : Pars α) := fun _ _ => rfl
theorem throw (e : Err) : AF (M.throw e : Pars α) := fun _ _ => rfl
theorem panic (e : PanicSite) : AF (M.panic e : Pars α) := fun _ _ => rfl
theorem fuel : AF (M.outOfFuel : Pars α) := fun _ _ => rfl
theorem prim (o : TokOp) : AF (M.prim o : Pars (TokOp.Ans o)) := fun _ _ => rfl
theorem modify {f : PState → PState} (h : ∀ p x, f (p.withAliases x) = (f p).withAliases x) : AF (M.modify f) := by
  intro p x
  unfold M.modify
  rw [h]; rfl

theorem bind {m : Pars α} {f : α → Pars β} (hm : AF m) (hf : ∀ a, AF (f a)) : AF (m >>= f) := by
  intro p x
  show (m (p.withAliases x)).bind (M.cont f) = ((m p).bind (M.cont f)).map _
  rw [hm]
  unfold Free.map
  rw [Free.bind_assoc, Free.bind_assoc]
  congr 1
  funext q
  obtain ⟨out, p'⟩ := q
  cases out with
  | ok a => exact hf a p' x
  | err e => rfl
  | panic e => rfl
  | fuel => rfl

theorem getBind {f : PState → Pars β} (h : ∀ p x, f (p.withAliases x) = f p) (hf : ∀ p, AF (f p)) : AF (M.get >>= f) := by
  intro p x
  show f (p.withAliases x) (p.withAliases x) = (f p p).map _
  rw [h]
  exact hf p p x

theorem when {c : Bool} {m : Pars Unit} (hm : AF m) : AF (M.when c m) := by
  unfold M.when
  split
  · exact hm
  · exact pure ()

theorem loop {body : σ → Pars (σ ⊕ α)} (hb : ∀ x, AF (body x)) : ∀ (F : Nat) (x : σ), AF (M.loop F body x) := by
  intro F
  induction F with
  | zero => intro x; exact fuel
  | succ F ih =>
    intro x
    refine bind (hb x) ?_
    intro r
    cases r with
    | inl y => exact ih y
    | inr a => exact pure a

theorem catchErr {m : Pars α} (hm : AF m) : AF (M.catchErr m) := by
  intro p x
  show (m (p.withAliases x)).bind _ = ((m p).bind _).map _
  rw [hm]
  unfold Free.map
  rw [Free.bind_assoc, Free.bind_assoc]
  congr 1
  funext q
  obtain ⟨out, p'⟩ := q
  cases out <;> rfl

theorem peek : AF Parser.peek := by
  refine bind (prim _) ?_
  intro r
  cases r with
  | ok t => exact pure t
  | error e => exact throw e
theorem skip : AF Parser.skip := prim _
theorem setState (st : PSt) : AF (Parser.setState st) := modify fun _ _ => rfl
theorem pushState (st : PSt) : AF (Parser.pushState st) := modify fun _ _ => rfl
theorem pushMark (m : Mark) : AF (Parser.pushMark m) := modify fun _ _ => rfl
theorem dropMark : AF Parser.dropMark := modify fun _ _ => rfl
theorem popState : AF Parser.popState := by
  refine getBind (fun _ _ => rfl) ?_
  intro p
  split
  · exact panic _
  · exact modify fun _ _ => rfl
theorem popMark : AF Parser.popMark := by
  refine getBind (fun _ _ => rfl) ?_
  intro p
  split
  · exact panic _
  · exact bind (modify fun _ _ => rfl) fun _ => pure _
theorem parserError (c : String) (m : Mark) (q : String) (m' : Mark) : AF (Parser.parserError c m q m' : Pars α) := throw _
theorem appendTagDirective (v : TagDirective) (b : Bool) (m : Mark) : AF (Parser.appendTagDirective v b m) := by
  refine getBind (fun _ _ => rfl) ?_
  intro p
  split
  · split
    · exact pure _
    · exact parserError _ _ _ _
  · exact modify fun _ _ => rfl

/-- Close goals `AF m` by following the structure of `m`. -/
macro "af" : tactic => `(tactic|
  repeat' (first
    | with_reducible exact AF.peek | with_reducible exact AF.skip | with_reducible exact AF.popState
    | with_reducible exact AF.popMark | with_reducible exact AF.dropMark
    | with_reducible exact AF.setState _ | with_reducible exact AF.pushState _ | with_reducible exact AF.pushMark _
    | with_reducible exact AF.parserError _ _ _ _ | with_reducible exact AF.appendTagDirective _ _ _ | with_reducible exact AF.pure _
    | with_reducible exact AF.throw _ | with_reducible exact AF.panic _
    | with_reducible apply AF.when
    | (with_reducible apply AF.loop; intro _)
    | (with_reducible apply AF.modify; exact fun _ _ => rfl)
    | (with_reducible apply AF.getBind; exact fun _ _ => rfl; intro _)
    | (with_reducible apply AF.bind; rotate_left; intro _; rotate_right)
    | split
    | exact AF.prim (.setFront _)
    | dsimp only))

theorem directiveLoop (F : Nat) : AF (Parser.directiveLoop F) := by unfold Parser.directiveLoop; af
theorem processDirectives (F : Nat) : AF (Parser.processDirectives F) := by
  unfold Parser.processDirectives
  refine bind (directiveLoop F) ?_
  rintro ⟨v, t, tk⟩
  af
theorem parseStreamStart : AF Parser.parseStreamStart := by unfold Parser.parseStreamStart; af
theorem skipDocumentEnds (F : Nat) (i : Bool) : AF (Parser.skipDocumentEnds F i) := by unfold Parser.skipDocumentEnds; af
theorem parseDocumentStart (F : Nat) (i : Bool) : AF (Parser.parseDocumentStart F i) := by
  unfold Parser.parseDocumentStart
  refine bind (skipDocumentEnds F i) ?_
  intro t
  have := processDirectives F
  split
  · refine bind this ?_
    intro a; af
  · split
    · refine bind this ?_
      intro a; af
    · af
theorem nodeProperties (t : Token) : AF (Parser.nodeProperties t) := by unfold Parser.nodeProperties; af
theorem resolveTag (q : Parser.Props) : AF (Parser.resolveTag q) := by
  unfold Parser.resolveTag
  split
  · exact pure _
  · split
    · exact pure _
    · refine getBind (fun _ _ => rfl) ?_
      intro p
      af
theorem nodeContent (b i : Bool) (q : Parser.Props) (t : Option Str) : AF (Parser.nodeContent b i q t) := by unfold Parser.nodeContent; af
theorem parseNode (b i : Bool) : AF (Parser.parseNode b i) := by
  unfold Parser.parseNode
  refine bind peek ?_
  intro t
  split
  · af
  · exact bind (nodeProperties _) fun _ => bind (resolveTag _) fun _ => nodeContent _ _ _ _

macro "afn" : tactic => `(tactic|
  repeat' (first
    | with_reducible exact AF.parseNode _ _
    | with_reducible exact AF.peek | with_reducible exact AF.skip | with_reducible exact AF.popState
    | with_reducible exact AF.popMark | with_reducible exact AF.dropMark
    | with_reducible exact AF.setState _ | with_reducible exact AF.pushState _ | with_reducible exact AF.pushMark _
    | with_reducible exact AF.parserError _ _ _ _ | with_reducible exact AF.pure _
    | with_reducible apply AF.when
    | (with_reducible apply AF.modify; exact fun _ _ => rfl)
    | (with_reducible apply AF.bind; rotate_left; intro _; rotate_right)
    | split))

theorem parse (F : Nat) : AF (Parser.parse F) := by
  unfold Parser.parse
  refine bind (prim _) ?_
  intro b
  refine getBind (fun _ _ => rfl) ?_
  intro p
  split
  · exact pure _
  · unfold Parser.stateMachine
    split
    · exact parseStreamStart
    · exact parseDocumentStart _ _
    · exact parseDocumentStart _ _
    · unfold Parser.parseDocumentContent; afn
    · unfold Parser.parseDocumentEnd
      refine bind peek fun t => bind (when skip) fun _ => bind (modify fun _ _ => rfl) fun _ => ?_
      afn
    · exact parseNode _ _
    · exact parseNode _ _
    · exact parseNode _ _
    · unfold Parser.parseBlockSequenceEntry Parser.enterCollection Parser.leaveCollection; afn
    · unfold Parser.parseBlockSequenceEntry Parser.enterCollection Parser.leaveCollection; afn
    · unfold Parser.parseIndentlessSequenceEntry; afn
    · unfold Parser.parseBlockMappingKey Parser.enterCollection Parser.leaveCollection; afn
    · unfold Parser.parseBlockMappingKey Parser.enterCollection Parser.leaveCollection; afn
    · unfold Parser.parseBlockMappingValue; afn
    · unfold Parser.parseFlowSequenceEntry Parser.enterCollection Parser.leaveCollection Parser.flowSeparator; afn
    · unfold Parser.parseFlowSequenceEntry Parser.enterCollection Parser.leaveCollection Parser.flowSeparator; afn
    · unfold Parser.parseFlowSequenceEntryMappingKey; afn
    · unfold Parser.parseFlowSequenceEntryMappingValue; afn
    · unfold Parser.parseFlowSequenceEntryMappingEnd; afn
    · unfold Parser.parseFlowMappingKey Parser.enterCollection Parser.leaveCollection Parser.flowSeparator; afn
    · unfold Parser.parseFlowMappingKey Parser.enterCollection Parser.leaveCollection Parser.flowSeparator; afn
    · unfold Parser.parseFlowMappingValue; afn
    · unfold Parser.parseFlowMappingValue; afn
    · exact panic _

end AF

/-! ### On the object -/

/-- The object with another table of anchors. -/
def ParserObj.withAliases (x : List AliasData) (o : ParserObj) : ParserObj := { o with p := o.p.withAliases x }

theorem handle_map {β : Type} (F : Nat) (p0 : PState) (x : List AliasData) (t : Free TokOp TokOp.Ans (Out β × PState)) (s : SState) :
    Parser.handle F (p0.withAliases x) (t.map fun q => (q.1, q.2.withAliases x)) s =
      (Parser.handle F p0 t s).map fun q => (q.1, (q.2.1.withAliases x, q.2.2)) := by
  induction t generalizing s with
  | ret a => rfl
  | op o k ih =>
    cases o with
    | peek =>
      simp only [Free.map, Free.bind, Parser.handle, Free.bind_assoc]
      congr 1
      funext q
      obtain ⟨out, s'⟩ := q
      cases out with
      | ok t => exact ih _ _
      | err e => exact ih _ _
      | panic e => rfl
      | fuel => rfl
    | setFront d =>
      simp only [Free.map, Free.bind, Parser.handle, Free.bind_assoc]
      congr 1
      funext q
      exact ih _ _
    | skip =>
      simp only [Free.map, Free.bind, Parser.handle, Free.bind_assoc]
      congr 1
      funext q
      obtain ⟨out, s'⟩ := q
      cases out with
      | ok t => exact ih _ _
      | err e => rfl
      | panic e => rfl
      | fuel => rfl
    | streamEnded => exact ih _ _
    | streamStarted => exact ih _ _

theorem execA_map {α β : Type} (f : α → β) (t : Free CharOp CharOp.Ans α) (r : Rd) :
    execA (t.map f) r = (f (execA t r).1, (execA t r).2) := by
  unfold Free.map
  rw [execA_bind]; rfl

/-- `parse` with another table of anchors. -/
theorem AF.run {α : Type} {m : Pars α} (hm : AF m) (F : Nat) (o : ParserObj) (x : List AliasData) :
    (o.withAliases x).run F m = ((o.run F m).1, (o.run F m).2.withAliases x) := by
  unfold ParserObj.run runA Parser.onScanner ParserObj.withAliases
  dsimp only
  rw [hm, handle_map, execA_map]

theorem ParserObj.parse_aliases (F : Nat) (o : ParserObj) (x : List AliasData) :
    (o.withAliases x).parse F = ((o.parse F).1, (o.parse F).2.withAliases x) := (AF.parse F).run F o x

end Yaml
