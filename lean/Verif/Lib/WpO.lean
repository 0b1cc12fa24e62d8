import Verif.Lib.Aliases

/-
Rules for parser methods run on a parser object (the real scanner and reader below).
-/

namespace Yaml
open Parser
set_option linter.unusedSimpArgs false
set_option linter.unusedVariables false

/-- Acceptable outcomes of a run. -/
def postA {α : Type} (P : PanicSite → Prop) (E : Err → ParserObj → Prop) (Q : α → ParserObj → Prop) : (Out α × (PState × SState)) × Rd → Prop
  | ((.ok a, (p, s)), r) => Q a ⟨p, s, r⟩
  | ((.err e, (p, s)), r) => E e ⟨p, s, r⟩
  | ((.panic x, _), _) => P x
  | ((.fuel, _), _) => False

/-- The call `m` on the object `o` ends with an `Ok` satisfying `Q`, an `Err` satisfying `E` or a panic allowed by `P`. -/
def wpO {α : Type} (F : Nat) (P : PanicSite → Prop) (E : Err → ParserObj → Prop) (m : Pars α) (Q : α → ParserObj → Prop) (o : ParserObj) : Prop :=
  match o.run F m with
  | (.ok a, o') => Q a o'
  | (.err e, o') => E e o'
  | (.panic x, _) => P x
  | (.fuel, _) => False

theorem wpO_iff {α : Type} {F : Nat} {P : PanicSite → Prop} {E : Err → ParserObj → Prop} {m : Pars α} {Q : α → ParserObj → Prop} {o : ParserObj} :
    wpO F P E m Q o ↔ postA P E Q (execA (handle F o.p (m o.p) o.s) o.r) := by
  unfold wpO ParserObj.run runA Parser.onScanner
  dsimp only
  generalize execA (handle F o.p (m o.p) o.s) o.r = q
  obtain ⟨⟨out, p, s⟩, r⟩ := q
  cases out <;> exact Iff.rfl

theorem skipToken_ret (s : SState) : (∃ s', Scanner.skipToken s = .ret (.ok (), s')) ∨ ∃ x s', Scanner.skipToken s = .ret (.panic x, s') := by
  obtain ⟨mk, st, en, fl, tk, tp, av, ins, ind, ska, sk⟩ := s
  cases tk with
  | nil => exact Or.inr ⟨_, _, rfl⟩
  | cons t ts => exact Or.inl ⟨_, rfl⟩

section
variable {α β : Type} {F : Nat} {P : PanicSite → Prop} {E : Err → ParserObj → Prop}

theorem handle_p0 {Q : α → ParserObj → Prop} (p0 p1 : PState) (t : Free TokOp TokOp.Ans (Out α × PState)) (s : SState) (r : Rd) :
    postA P E Q (execA (handle F p0 t s) r) ↔ postA P E Q (execA (handle F p1 t s) r) := by
  induction t generalizing s r with
  | ret a => exact Iff.rfl
  | op o k ih =>
    cases o with
    | peek =>
      simp only [handle, execA_bind]
      generalize execA (Scanner.peek F s) r = q
      obtain ⟨⟨out, s'⟩, r'⟩ := q
      cases out with
      | ok t => exact ih _ _ _
      | err e => exact ih _ _ _
      | panic x => exact Iff.rfl
      | fuel => exact Iff.rfl
    | setFront d =>
      simp only [handle, execA_bind]
      exact ih _ _ _
    | skip =>
      simp only [handle, execA_bind]
      rcases skipToken_ret s with ⟨s', h⟩ | ⟨x, s', h⟩ <;> rw [h]
      · exact ih _ _ _
      · exact Iff.rfl
    | streamEnded => exact ih _ _ _
    | streamStarted => exact ih _ _ _

theorem handle_bind {Q : β → ParserObj → Prop} (p0 : PState) (g : Out α × PState → Free TokOp TokOp.Ans (Out β × PState))
    (hp : ∀ x p, g (.panic x, p) = .ret (.panic x, p)) (hf : ∀ p, g (.fuel, p) = .ret (.fuel, p))
    (t : Free TokOp TokOp.Ans (Out α × PState)) (s : SState) (r : Rd) :
    postA P E Q (execA (handle F p0 (t.bind g) s) r) ↔
      postA P (fun e o => postA P E Q (execA (handle F o.p (g (.err e, o.p)) o.s) o.r)) (fun a o => postA P E Q (execA (handle F o.p (g (.ok a, o.p)) o.s) o.r))
        (execA (handle F p0 t s) r) := by
  induction t generalizing s r with
  | ret a =>
    obtain ⟨out, p⟩ := a
    simp only [Free.bind]
    cases out with
    | ok a => exact handle_p0 _ _ _ _ _
    | err e => exact handle_p0 _ _ _ _ _
    | panic x => rw [hp]; exact Iff.rfl
    | fuel => rw [hf]; exact Iff.rfl
  | op o k ih =>
    cases o with
    | peek =>
      simp only [Free.bind, handle, execA_bind]
      generalize execA (Scanner.peek F s) r = q
      obtain ⟨⟨out, s'⟩, r'⟩ := q
      cases out with
      | ok t => exact ih _ _ _
      | err e => exact ih _ _ _
      | panic x => exact Iff.rfl
      | fuel => exact Iff.rfl
    | setFront d =>
      simp only [Free.bind, handle, execA_bind]
      exact ih _ _ _
    | skip =>
      simp only [Free.bind, handle, execA_bind]
      rcases skipToken_ret s with ⟨s', h⟩ | ⟨x, s', h⟩ <;> rw [h]
      · exact ih _ _ _
      · exact Iff.rfl
    | streamEnded => exact ih _ _ _
    | streamStarted => exact ih _ _ _

theorem postA_congr {Q Q' : α → ParserObj → Prop} {E' : Err → ParserObj → Prop} {q : (Out α × (PState × SState)) × Rd} (hE : ∀ e o, E e o ↔ E' e o) (hQ : ∀ a o, Q a o ↔ Q' a o) :
    postA P E Q q ↔ postA P E' Q' q := by
  obtain ⟨⟨out, p, s⟩, r⟩ := q
  cases out with
  | ok a => exact hQ _ _
  | err e => exact hE _ _
  | panic x => exact Iff.rfl
  | fuel => exact Iff.rfl

@[simp] theorem wpO_bind {m : Pars α} {f : α → Pars β} {Q : β → ParserObj → Prop} {o : ParserObj} :
    wpO F P E (m >>= f) Q o ↔ wpO F P E m (fun a o' => wpO F P E (f a) Q o') o := by
  rw [wpO_iff, wpO_iff]
  show postA P E Q (execA (handle F o.p ((m o.p).bind (M.cont f)) o.s) o.r) ↔ _
  exact (handle_bind o.p (M.cont f) (fun _ _ => rfl) (fun _ => rfl) (m o.p) o.s o.r).trans (postA_congr (fun e o => Iff.rfl) (fun a o => wpO_iff.symm))

@[simp] theorem wpO_pure {a : α} {Q : α → ParserObj → Prop} {o : ParserObj} : wpO F P E (pure a : Pars α) Q o ↔ Q a o := Iff.rfl
@[simp] theorem wpO_throw {e : Err} {Q : α → ParserObj → Prop} {o : ParserObj} : wpO F P E (M.throw e : Pars α) Q o ↔ E e o := Iff.rfl
@[simp] theorem wpO_panic {e : PanicSite} {Q : α → ParserObj → Prop} {o : ParserObj} : wpO F P E (M.panic e : Pars α) Q o ↔ P e := Iff.rfl
@[simp] theorem wpO_get {Q : PState → ParserObj → Prop} {o : ParserObj} : wpO F P E (M.get : Pars PState) Q o ↔ Q o.p o := Iff.rfl
@[simp] theorem wpO_modify {f : PState → PState} {Q : Unit → ParserObj → Prop} {o : ParserObj} : wpO F P E (M.modify f : Pars Unit) Q o ↔ Q () { o with p := f o.p } := Iff.rfl
@[simp] theorem wpO_started {Q : Bool → ParserObj → Prop} {o : ParserObj} : wpO F P E (M.prim TokOp.streamStarted : Pars Bool) Q o ↔ Q o.s.streamStartProduced o := Iff.rfl
@[simp] theorem wpO_ended {Q : Bool → ParserObj → Prop} {o : ParserObj} : wpO F P E (M.prim TokOp.streamEnded : Pars Bool) Q o ↔ Q o.s.streamEndProduced o := Iff.rfl

theorem wpO_when {c : Bool} {m : Pars Unit} {Q : Unit → ParserObj → Prop} {o : ParserObj} :
    wpO F P E (M.when c m) Q o ↔ if c = true then wpO F P E m Q o else Q () o := by
  cases c <;> exact Iff.rfl

/-- What follows a caught outcome. -/
def caught : Out α × PState → Free TokOp TokOp.Ans (Out (Except Err α) × PState)
  | (.ok a, s) => .ret (.ok (.ok a), s)
  | (.err e, s) => .ret (.ok (.error e), s)
  | (.panic p, s) => .ret (.panic p, s)
  | (.fuel, s) => .ret (.fuel, s)

theorem catchErr_eq (m : Pars α) (p : PState) : M.catchErr m p = Free.bind (m p) caught := by
  unfold M.catchErr
  congr 1
  funext q
  obtain ⟨out, p⟩ := q
  cases out <;> rfl

@[simp] theorem wpO_catchErr {m : Pars α} {Q : Except Err α → ParserObj → Prop} {o : ParserObj} :
    wpO F P E (M.catchErr m) Q o ↔ wpO F P (fun e o => Q (.error e) o) m (fun a o => Q (.ok a) o) o := by
  rw [wpO_iff, wpO_iff, catchErr_eq]
  refine Iff.trans (handle_bind (P := P) (E := E) (Q := Q) (F := F) o.p caught (fun _ _ => rfl) (fun _ => rfl) (m o.p) o.s o.r) ?_
  generalize execA (handle F o.p (m o.p) o.s) o.r = q
  obtain ⟨⟨out, p, s⟩, r⟩ := q
  cases out <;> exact Iff.rfl

theorem wpO_cleaningErr {m : Pars α} {Q : α → ParserObj → Prop} {o : ParserObj} :
    wpO F P E (Document.cleaningErr m) Q o ↔ wpO F P (fun e o => E e (o.withAliases [])) m Q o := by
  unfold Document.cleaningErr Document.deleteAliases
  rw [wpO_bind, wpO_catchErr]
  exact Iff.rfl

theorem wpO_mono {P' : PanicSite → Prop} {E' : Err → ParserObj → Prop} {m : Pars α} {Q Q' : α → ParserObj → Prop} {o : ParserObj} (h : wpO F P E m Q o)
    (hQ : ∀ a o, Q a o → Q' a o) (hE : ∀ e o, E e o → E' e o) (hP : ∀ x, P x → P' x) : wpO F P' E' m Q' o := by
  unfold wpO at h ⊢
  generalize o.run F m = q at h
  obtain ⟨out, o'⟩ := q
  cases out with
  | ok a => exact hQ _ _ h
  | err e => exact hE _ _ h
  | panic x => exact hP _ h
  | fuel => exact h

end

end Yaml
