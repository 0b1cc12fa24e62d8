import Verif.Lib.Honest
import Verif.Lib.Culprit2

/-
Errors that are handed on: the parser and the composer, and runs over a reader.
-/

namespace Yaml.Cu
open Yaml Parser Spec
set_option linter.unusedSimpArgs false
set_option linter.unusedVariables false

instance : Honest Parser.peek := by
  constructor
  intro s
  refine ⟨rfl, fun a => ?_⟩
  cases a with
  | ok t => rfl
  | error e => exact .inl rfl

instance : Honest Parser.skip := ⟨fun s => ⟨rfl, fun a => rfl⟩⟩
instance : Honest (M.prim TokOp.streamEnded : Pars Bool) := ⟨fun s => ⟨rfl, fun a => rfl⟩⟩
instance : Honest (M.prim TokOp.streamStarted : Pars Bool) := ⟨fun s => ⟨rfl, fun a => rfl⟩⟩
instance {d : TokenData} : Honest (M.prim (TokOp.setFront d) : Pars Unit) := ⟨fun s => ⟨rfl, fun a => rfl⟩⟩
instance {x : PSt} : Honest (setState x) := by unfold setState; infer_instance
instance {x : PSt} : Honest (pushState x) := by unfold pushState; infer_instance
instance : Honest popState := by unfold popState; hon
instance {x : Mark} : Honest (pushMark x) := by unfold pushMark; infer_instance
instance : Honest dropMark := by unfold dropMark; infer_instance
instance : Honest popMark := by unfold popMark; hon
instance {α : Type} {a : String} {m : Mark} {b : String} {n : Mark} : Honest (parserError a m b n : Pars α) := Honest.throw trivial
instance {α : Type} {a : String} {m : Mark} {b : String} {n : Mark} : Honest (Document.composerError a m b n : Pars α) := Honest.throw trivial
instance {v : TagDirective} {a : Bool} {m : Mark} : Honest (appendTagDirective v a m) := by unfold appendTagDirective; hon
instance {F : Nat} : Honest (processDirectives F) := by unfold processDirectives; hon
instance : Honest parseStreamStart := by unfold parseStreamStart; hon
instance {F : Nat} {a : Bool} : Honest (skipDocumentEnds F a) := by unfold skipDocumentEnds; hon
instance {F : Nat} {a : Bool} : Honest (parseDocumentStart F a) := by unfold parseDocumentStart; hon
instance {t : Token} : Honest (nodeProperties t) := by unfold nodeProperties; hon
instance {p : Props} : Honest (resolveTag p) := by unfold resolveTag; hon
instance {a b : Bool} {p : Props} {t : Option Str} : Honest (nodeContent a b p t) := by unfold nodeContent; hon
instance {a b : Bool} : Honest (parseNode a b) := by unfold parseNode; hon
instance : Honest parseDocumentContent := by unfold parseDocumentContent; hon
instance : Honest parseDocumentEnd := by unfold parseDocumentEnd; hon
instance {a : Bool} : Honest (enterCollection a) := by unfold enterCollection; hon
instance {a : EventData} {t : Token} : Honest (leaveCollection a t) := by unfold leaveCollection; hon
instance {a : Bool} : Honest (parseBlockSequenceEntry a) := by unfold parseBlockSequenceEntry; hon
instance : Honest parseIndentlessSequenceEntry := by unfold parseIndentlessSequenceEntry; hon
instance {a : Bool} : Honest (parseBlockMappingKey a) := by unfold parseBlockMappingKey; hon
instance : Honest parseBlockMappingValue := by unfold parseBlockMappingValue; hon
instance {a : Bool} {t : Token} {x y : String} : Honest (flowSeparator a t x y) := by unfold flowSeparator; hon
instance {a : Bool} : Honest (parseFlowSequenceEntry a) := by unfold parseFlowSequenceEntry; hon
instance : Honest parseFlowSequenceEntryMappingKey := by unfold parseFlowSequenceEntryMappingKey; hon
instance : Honest parseFlowSequenceEntryMappingValue := by unfold parseFlowSequenceEntryMappingValue; hon
instance : Honest parseFlowSequenceEntryMappingEnd := by unfold parseFlowSequenceEntryMappingEnd; hon
instance {a : Bool} : Honest (parseFlowMappingKey a) := by unfold parseFlowMappingKey; hon
instance {a : Bool} : Honest (parseFlowMappingValue a) := by unfold parseFlowMappingValue; hon
instance {F : Nat} {x : PSt} : Honest (stateMachine F x) := by cases x <;> (unfold stateMachine; hon)
instance {F : Nat} : Honest (Parser.parse F) := by unfold Parser.parse; hon

instance {d : Document} {i : Nat} {a : Option Str} : Honest (Document.registerAnchor d i a) := by unfold Document.registerAnchor; hon
instance {d : Document} {c : List Nat} {i : Nat} : Honest (Document.loadNodeAdd d c i) := by unfold Document.loadNodeAdd; hon
instance {d : Document} {c : List Nat} {i : Str} {m : Mark} : Honest (Document.loadAlias d c i m) := by unfold Document.loadAlias; hon
instance {d : Document} {c : List Nat} {n : Node} {m : Option Str} : Honest (Document.loadNode d c n m) := by unfold Document.loadNode; hon
instance {d : Document} {c : List Nat} {n : Bool} {m : Mark} : Honest (Document.loadEnd d c n m) := by unfold Document.loadEnd; hon
instance {d : Document} {c : List Nat} {e : Event} : Honest (Document.loadStep d c e) := by unfold Document.loadStep; hon
instance {F : Nat} {d : Document} : Honest (Document.loadNodes F d) := by unfold Document.loadNodes; hon
instance {F : Nat} {d : Document} {e : Event} : Honest (Document.loadDocument F d e) := by unfold Document.loadDocument; hon
instance : Honest Document.deleteAliases := by unfold Document.deleteAliases; hon

instance {α : Type} {m : Pars α} [hm : Honest m] : Honest (Document.cleaningErr m) := by
  constructor
  intro s
  unfold Document.cleaningErr M.catchErr
  show (Free.bind (Free.bind _ _) _).wp _ Told none
  rw [Free.wp_bind, Free.wp_bind]
  refine Free.wp_mono stepF_mono ?_ (hm.told s)
  rintro ⟨o, s'⟩ b hb
  cases o with
  | ok a => exact hb
  | err e => exact hb
  | panic => exact hb
  | fuel => exact hb

instance {F : Nat} : Honest (Document.load F) := by
  have when : ∀ {b : Bool} {m : Pars Unit}, Honest m → Honest (M.when b m) := fun h => inferInstance
  unfold Document.load
  refine Honest.then inferInstance fun _ => Honest.then (when (by hon)) fun _ => ?_
  hon

/-! ### The scanner below the parser -/

/-- After a failure nothing is done. -/
theorem wp_failed {Op : Type} {Ans : Op → Type} [Fails Op Ans] {α : Type} {t : Free Op Ans α} {Q : α → Option Err → Prop} {e : Err}
    (h : t.wp (stepF Op Ans) Q (some e)) : ∃ a, t = .ret a ∧ Q a (some e) := by
  cases t with
  | ret a => exact ⟨a, rfl, h⟩
  | op o k => exact absurd h.1 (by simp)

theorem handle_told {β : Type} {F : Nat} {p0 : PState} (t : Free TokOp TokOp.Ans (Out β × PState)) :
    t.wp (stepF TokOp TokOp.Ans) Told none → ∀ s, (handle F p0 t s).wp (stepF CharOp CharOp.Ans) Told none := by
  induction t with
  | ret a =>
    intro h s
    obtain ⟨o, p⟩ := a
    cases o <;> exact h
  | op o k ih =>
    rintro ⟨_, h⟩ s
    cases o with
    | peek =>
      unfold handle
      rw [Free.wp_bind]
      refine Free.wp_mono stepF_mono ?_ ((inferInstance : Honest (Scanner.peek F)).told s)
      rintro ⟨o, s'⟩ b hb
      cases o with
      | ok t =>
        have hb : b = none := hb
        subst hb
        exact ih (.ok t) (h (.ok t)) s'
      | err e =>
        obtain ⟨⟨o', p'⟩, ha, hq⟩ := wp_failed (h (.error e))
        show (handle F p0 (k (.error e)) s').wp _ _ _
        rw [ha]
        show Told (o', (p', s')) b
        cases o' with
        | ok a => have hq : some e = none := hq
                  simp at hq
        | err e' =>
          rcases hq with hq | hq
          · have hq : some e = some e' := hq
            simp only [Option.some.injEq] at hq
            subst hq
            exact hb
          · simp at hq
        | panic => have hq : some e = none := hq
                   simp at hq
        | fuel => have hq : some e = none := hq
                  simp at hq
      | panic => exact hb
      | fuel => exact hb
    | setFront d =>
      unfold handle
      rw [Free.wp_bind]
      exact ih () (h ()) _
    | skip =>
      unfold handle
      rw [Free.wp_bind]
      refine Free.wp_mono stepF_mono ?_ ((inferInstance : Honest Scanner.skipToken).told s)
      rintro ⟨o, s'⟩ b hb
      cases o with
      | ok t =>
        have hb : b = none := hb
        subst hb
        exact ih () (h ()) s'
      | err e => exact hb
      | panic => exact hb
      | fuel => exact hb
    | streamEnded =>
      unfold handle
      exact ih _ (h _) s
    | streamStarted =>
      unfold handle
      exact ih _ (h _) s

instance {β : Type} {F : Nat} {m : Pars β} [hm : Honest m] : Honest (onScanner F m) := ⟨fun ps => handle_told _ (hm.told ps.1) ps.2⟩

/-! ### Runs -/

/-- Over a reader: if the request for characters never failed, the reader is still at a place in the text; if it did,
there was a reason. -/
theorem exec_told {α S : Type} {items0 : List SrcItem} {enc : Encoding} (h8 : Utf8Stream enc (bytesOf items0))
    (t : Free CharOp CharOp.Ans (Out α × S)) : ∀ {r : Rd} {T : List Char}, t.wp (stepF CharOp CharOp.Ans) Told none → Here items0 enc T r →
      (∃ T', Here items0 enc T' (execA t r).2 ∧ Told (execA t r).1 none) ∨
      ∃ e, ReadFault items0 enc e ∧ (execA t r).1.1 = .err e := by
  induction t with
  | ret a => exact fun hw h => .inl ⟨_, h, hw⟩
  | op o k ih =>
    rintro r T ⟨_, hw⟩ h
    cases o with
    | cache n =>
      simp only [execA]
      have hc := cache_here h8 h n
      generalize Reader.cache n r = q at hc
      obtain ⟨x, r'⟩ := q
      cases x with
      | none => exact ih none (hw none) hc.1
      | some e =>
        obtain ⟨⟨o', p'⟩, ha, hq⟩ := wp_failed (hw (some e))
        refine .inr ⟨e, hc, ?_⟩
        show (execA (k (some e)) r').1.1 = _
        rw [ha]
        show o' = _
        cases o' with
        | err e' =>
          rcases hq with hq | hq
          · simp only [Option.some.injEq] at hq
            rw [hq]
          · simp at hq
        | _ => have hq : some e = none := hq
               simp at hq
    | get i => exact ih _ (hw _) h
    | pop =>
      have := h.take 1
      have e : r.buffer.drop 1 = r.buffer.tail := by cases r.buffer <;> rfl
      rw [e] at this
      exact ih _ (hw _) this
    | enc => exact ih _ (hw _) h

/-- What a run says about its error. -/
theorem run_told {α S : Type} {items0 : List SrcItem} {enc : Encoding} (h8 : Utf8Stream enc (bytesOf items0)) {m : M CharOp CharOp.Ans S α} [hm : Honest m]
    {s : S} {r : Rd} {T : List Char} (h : Here items0 enc T r) :
    (∀ a, (runA m s r).1.1 = .ok a → ∃ T', Here items0 enc T' (runA m s r).2) ∧
    ∀ e, (runA m s r).1.1 = .err e → ReadFault items0 enc e ∨ Own e := by
  have := exec_told h8 (m s) (hm.told s) h
  unfold runA
  refine ⟨?_, ?_⟩
  · intro a ha
    rcases this with ⟨T', h1, _⟩ | ⟨e, _, he⟩
    · exact ⟨T', h1⟩
    · rw [ha] at he; simp at he
  · intro e he
    rcases this with ⟨T', h1, h2⟩ | ⟨e', h1, he'⟩
    · right
      generalize (execA (m s) r).1 = q at h2 he
      obtain ⟨o, s'⟩ := q
      dsimp only at he
      subst he
      rcases h2 with h2 | h2
      · simp at h2
      · exact h2.2
    · rw [he] at he'
      simp only [Out.err.injEq] at he'
      subst he'
      exact .inl h1

end Yaml.Cu
