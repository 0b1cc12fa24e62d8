import Verif.Spec.Settings
import Verif.Lib.EmitText

/-
C63: the settings are used only in the form `normalise` gives them.
-/

namespace Yaml.St
open Yaml Yaml.Emitter Yaml.Spec

def B0 (x : Option Int) (d : Int) : Int := match x with | some i => if 1 < i ∧ i < 10 then i else 2 | none => d
def W0 (x : Option Int) (d : Int) : Int := match x with | some w => if w ≥ 0 then w else -1 | none => d

theorem fold_set (cfg : List Setting) (o : EmitterObj) :
    (cfg.foldl EmitterObj.set o) = { o with s := { o.s with
      canonical := (lastSet canonicalArg cfg).getD o.s.canonical
      unicode := (lastSet unicodeArg cfg).getD o.s.unicode
      bestIndent := B0 (lastSet indentArg cfg) o.s.bestIndent
      bestWidth := W0 (lastSet widthArg cfg) o.s.bestWidth
      lineBreak := (lastSet breakArg cfg).getD o.s.lineBreak } } := by
  induction cfg generalizing o with
  | nil => rfl
  | cons x xs ih =>
    rw [List.foldl_cons, ih]
    obtain ⟨s, k⟩ := o
    simp only [lastSet]
    generalize lastSet canonicalArg xs = a1
    generalize lastSet unicodeArg xs = a2
    generalize lastSet indentArg xs = a3
    generalize lastSet widthArg xs = a4
    generalize lastSet breakArg xs = a5
    cases x <;> cases a1 <;> cases a2 <;> cases a3 <;> cases a4 <;> cases a5 <;> rfl

/-- The settings after `normalise`. -/
def nf (i w : Int) (b : Break) : Int × Int × Break :=
  let i := if i < 2 ∨ i > 9 then 2 else i
  let w := if w ≥ 0 ∧ w ≤ i * 2 then 80 else w
  (i, if w < 0 then Emitter.i32Max else w, if b = .any then .ln else b)

/-- Other raw settings. -/
def ov (i w : Int) (b : Break) (s : EState) : EState := { s with bestIndent := i, bestWidth := w, lineBreak := b }

/-- The two states of a new emitter: they differ in raw settings that are normalised to the same. -/
def S0 (s s' : EState) : Prop :=
  s.state = .streamStart ∧ ∃ i w b, s' = ov i w b s ∧ nf i w b = nf s.bestIndent s.bestWidth s.lineBreak

theorem norm_eq {e : Encoding} {s s' : EState} (h : S0 s s') : normalise e s = normalise e s' := by
  obtain ⟨_, i, w, b, rfl, h⟩ := h
  simp only [nf, Prod.mk.injEq] at h
  obtain ⟨h1, h2, h3⟩ := h
  unfold normalise ov
  simp only [EState.mk.injEq, true_and, and_true]
  exact ⟨h1.symm, h2.symm, h3.symm⟩

inductive TR {α : Type} : Free EmitOp EmitAns (Out α × EState) → Free EmitOp EmitAns (Out α × EState) → Prop
  | same (t) : TR t t
  | ret (r : Out α) {s s' : EState} (h : S0 s s') : TR (.ret (r, s)) (.ret (r, s'))

/-- A method run from both. -/
def TM {α : Type} (m : Emit α) (s s' : EState) : Prop := TR (m s) (m s')

theorem TM.bind {α β : Type} {m : Emit α} {f : α → Emit β} {s s' : EState} (h : TM m s s') (hf : ∀ a s s', S0 s s' → TM (f a) s s') :
    TM (m >>= f) s s' := by
  unfold TM at h
  show TR ((m s).bind (M.cont f)) ((m s').bind (M.cont f))
  generalize m s = t at h
  generalize m s' = t' at h
  cases h with
  | same => exact .same _
  | ret r h =>
    show TR (M.cont f (r, _)) (M.cont f (r, _))
    cases r with
    | ok a => exact hf a _ _ h
    | err e => exact .ret _ h
    | panic p => exact .ret _ h
    | fuel => exact .ret _ h

theorem TM.get {β : Type} {f : EState → Emit β} {s s' : EState} (h0 : S0 s s') (e : ∀ i w b, f (ov i w b s) = f s) (h : TM (f s) s s') : TM (M.get >>= f) s s' := by
  show TR (f s s) (f s' s')
  have e' : f s' = f s := by obtain ⟨_, i, w, b, rfl, _⟩ := h0; exact e i w b
  rw [e']; exact h

variable {s s' : EState}

theorem S0.mod (f : EState → EState) (h : S0 s s') (h1 : (f s).state = s.state) (hb : (f s).bestIndent = s.bestIndent)
    (hw : (f s).bestWidth = s.bestWidth) (hl : (f s).lineBreak = s.lineBreak)
    (h2 : ∀ i w b, f (ov i w b s) = ov i w b (f s)) : S0 (f s) (f s') := by
  obtain ⟨hs, i, w, b, rfl, hn⟩ := h
  exact ⟨h1.trans hs, i, w, b, h2 _ _ _, by rw [hb, hw, hl]; exact hn⟩

theorem TM.modify (f : EState → EState) (h : S0 s s') (h1 : (f s).state = s.state) (hb : (f s).bestIndent = s.bestIndent)
    (hw : (f s).bestWidth = s.bestWidth) (hl : (f s).lineBreak = s.lineBreak)
    (h2 : ∀ i w b, f (ov i w b s) = ov i w b (f s)) : TM (M.modify f : Emit Unit) s s' :=
  .ret (.ok ()) (h.mod f h1 hb hw hl h2)

theorem TM.pure {α : Type} {a : α} (h : S0 s s') : TM (Pure.pure a : Emit α) s s' := .ret (.ok a) h
theorem TM.error {α : Type} {p : String} (h : S0 s s') : TM (emitterError p : Emit α) s s' := .ret _ h

theorem tr_anchor {x : Str} {b : Bool} (h : S0 s s') : TM (analyzeAnchor x b) s s' := by
  unfold analyzeAnchor
  split
  · exact .error h
  · split
    · exact .error h
    · exact .pure h

theorem tr_tagLoop {x : Str} {ds : List TagDirective} (h : S0 s s') : TM (analyzeTagLoop x ds) s s' := by
  induction ds with
  | nil => exact .pure h
  | cons d ds ih =>
    unfold analyzeTagLoop
    split
    · split
      · exact .ret _ h
      · split
        · exact .pure h
        · exact ih
    · exact ih

theorem tr_optAnchor {x : Option Str} (h : S0 s s') : TM (analyzeOptAnchor x) s s' := by
  cases x with
  | none => exact .pure h
  | some a => exact .bind (tr_anchor h) fun _ _ _ h => .pure h

theorem tr_optTag {x : Option Str} {w : Bool} {ds : List TagDirective} (h : S0 s s') : TM (analyzeOptTag w ds x) s s' := by
  cases x with
  | none => exact .pure h
  | some a =>
    unfold analyzeOptTag
    dsimp only
    split
    · refine .bind ?_ fun _ _ _ h => .pure h
      unfold analyzeTag
      split
      · exact .error h
      · exact tr_tagLoop h
    · exact .pure h

theorem tr_analyze {ev : Event} {ds : List TagDirective} (h : S0 s s') : TM (analyzeEvent ev ds) s s' := by
  unfold analyzeEvent
  refine TM.get h (fun _ _ _ => rfl) ?_
  split
  · exact .bind (tr_anchor h) fun _ _ _ h => .pure h
  · exact .bind (tr_optAnchor h) fun _ _ _ h => .bind (tr_optTag h) fun _ _ _ h => .pure h
  · exact .bind (tr_optAnchor h) fun _ _ _ h => .bind (tr_optTag h) fun _ _ _ h => .pure h
  · exact .bind (tr_optAnchor h) fun _ _ _ h => .bind (tr_optTag h) fun _ _ _ h => .pure h
  · exact .pure h

theorem tr_start {ev : Event} (h : S0 s s') : TM (emitStreamStart ev) s s' := by
  unfold emitStreamStart
  refine .bind (TM.modify _ h rfl rfl rfl rfl fun _ _ _ => rfl) fun _ s s' h => ?_
  split
  · have e : ∀ {β : Type} {e : Encoding} (f : Unit → Emit β), (M.modify (normalise e) >>= f) s = (M.modify (normalise e) >>= f) s' := by
      intro β e f
      show (f ()) (normalise e s) = (f ()) (normalise e s')
      rw [norm_eq h]
    unfold TM; rw [e]; exact .same _
  · exact .error h

theorem tr_process {ev : Event} (h : S0 s s') : TM (process ev) s s' := by
  unfold process
  refine TM.get h (fun _ _ _ => rfl) ?_
  dsimp only
  generalize s.tagDirectives = ds
  refine .bind (TM.modify _ h rfl rfl rfl rfl fun _ _ _ => rfl) fun _ s s' h => ?_
  refine .bind (tr_analyze h) fun a s s' h => ?_
  refine .bind ?_ fun _ s s' h => TM.modify _ h rfl rfl rfl rfl fun _ _ _ => rfl
  unfold stateMachine
  refine TM.get h (fun _ _ _ => rfl) ?_
  rw [h.1]
  exact tr_start h

theorem tr_loop {F : Nat} (h : S0 s s') : TM (emitLoop F) s s' := by
  induction F generalizing s s' with
  | zero => exact .ret _ h
  | succ F ih =>
    unfold emitLoop
    refine TM.get h (fun _ _ _ => rfl) ?_
    split
    · split
      · exact .bind (TM.modify _ h rfl rfl rfl rfl fun _ _ _ => rfl) fun _ s s' h => .bind (tr_process h) fun _ s s' h => ih h
      · exact .pure h
    · exact .pure h

theorem tr_emit {ev : Event} (h : S0 s s') : TM (Emitter.emit ev) s s' := by
  unfold Emitter.emit
  refine .bind (TM.modify _ h rfl rfl rfl rfl fun _ _ _ => rfl) fun _ s s' h => TM.get h (fun _ _ _ => rfl) ?_
  exact tr_loop h

/-- Two objects that behave alike. -/
structure Like (o o' : EmitterObj) : Prop where
  k : o'.k = o.k
  s : o.s = o'.s ∨ S0 o.s o'.s

theorem Like.emit {o o' : EmitterObj} (h : Like o o') (ev : Event) :
    (o'.emit ev).1 = (o.emit ev).1 ∧ Like (o.emit ev).2 (o'.emit ev).2 := by
  obtain ⟨s, k⟩ := o
  obtain ⟨s', k'⟩ := o'
  obtain ⟨h1, h2⟩ := h
  dsimp only at h1 h2
  subst h1
  rcases h2 with rfl | h2
  · exact ⟨rfl, rfl, Or.inl rfl⟩
  · have h3 : TR _ _ := tr_emit (ev := ev) h2
    unfold EmitterObj.emit EmitterObj.run
    dsimp only
    generalize Emitter.emit ev s = t at h3
    generalize Emitter.emit ev s' = t' at h3
    cases h3 with
    | same => exact ⟨rfl, rfl, Or.inl rfl⟩
    | ret r h4 => exact ⟨rfl, rfl, Or.inr h4⟩

theorem exec_flush (s : EState) (k : Sink) : Sink.exec (Emitter.flush s) k = (((k.flush s.encoding).1, s), (k.flush s.encoding).2) := by
  show Sink.exec ((M.ofOut (k.flush s.encoding).1 : Emit Unit) s) (k.flush s.encoding).2 = _
  generalize k.flush s.encoding = q
  obtain ⟨r, k'⟩ := q
  cases r <;> rfl

theorem Like.flush {o o' : EmitterObj} (h : Like o o') : o'.flush.1 = o.flush.1 ∧ Like o.flush.2 o'.flush.2 := by
  obtain ⟨s, k⟩ := o
  obtain ⟨s', k'⟩ := o'
  obtain ⟨h1, h2⟩ := h
  dsimp only at h1 h2
  subst h1
  rcases h2 with rfl | h2
  · exact ⟨rfl, rfl, Or.inl rfl⟩
  · have e : s'.encoding = s.encoding := by obtain ⟨_, _, _, _, rfl, _⟩ := id h2; rfl
    unfold EmitterObj.flush EmitterObj.run
    simp only [exec_flush, e]
    exact ⟨trivial, rfl, Or.inr h2⟩

theorem nf_settings (a : Option Int) (b : Option Int) (c : Option Break) :
    nf (B0 a 0) (W0 b 0) (c.getD .any) = (indentOf a, widthOf (indentOf a) b, breakOf c) := by
  unfold nf B0 W0 indentOf widthOf breakOf Emitter.i32Max
  simp only [Prod.mk.injEq]
  refine ⟨?_, ?_, ?_⟩
  · cases a with
    | none => rfl
    | some i => dsimp only; split <;> split <;> omega
  · cases a with
    | none =>
      cases b with
      | none => rfl
      | some w => dsimp only; repeat' split
                  all_goals omega
    | some i =>
      cases b with
      | none => dsimp only; repeat' split
                all_goals omega
      | some w => dsimp only; repeat' split
                  all_goals omega
  · cases c with
    | none => rfl
    | some b => cases b <;> rfl

theorem Like.new {enc : Encoding} {cfg cfg' : List Setting} {w : Writer} (h : settings cfg = settings cfg') :
    Like (EmitterObj.new enc cfg w) (EmitterObj.new enc cfg' w) := by
  unfold settings at h
  simp only [InForce.mk.injEq] at h
  obtain ⟨h1, h2, h3, h4, h5⟩ := h
  have hn := nf_settings (lastSet indentArg cfg) (lastSet widthArg cfg)
    (lastSet breakArg cfg)
  have hn' := nf_settings (lastSet indentArg cfg') (lastSet widthArg cfg')
    (lastSet breakArg cfg')
  rw [h4, h3, h5, ← hn'] at hn
  unfold EmitterObj.new
  simp only [fold_set]
  generalize B0 (lastSet indentArg cfg) = f1, W0 (lastSet widthArg cfg) = f2, (lastSet breakArg cfg) = f3 at hn ⊢
  generalize B0 (lastSet indentArg cfg') = g1, W0 (lastSet widthArg cfg') = g2, (lastSet breakArg cfg') = g3 at hn ⊢
  generalize lastSet canonicalArg cfg = c at h1 ⊢
  generalize lastSet canonicalArg cfg' = c' at h1 ⊢
  generalize lastSet unicodeArg cfg = u at h2 ⊢
  generalize lastSet unicodeArg cfg' = u' at h2 ⊢
  have e1 : (Emitter.setEncoding enc newState).2 = { newState with encoding := enc } := by
    unfold setEncoding; rw [if_pos (show newState.encoding = .any from rfl)]
  rw [e1]
  have e2 : ∀ s : EState, (setOutput w (s, newSink)).2 = (s, ⟨some w, [], []⟩) := fun s => rfl
  rw [e2, e2]
  refine ⟨rfl, Or.inr ⟨rfl, g1 0, g2 0, g3.getD .any, ?_, hn.symm⟩⟩
  have k1 : c.getD newState.canonical = c'.getD newState.canonical := h1
  have k2 : u.getD newState.unicode = u'.getD newState.unicode := h2
  unfold ov
  dsimp only
  rw [k1, k2]
  rfl

end Yaml.St
