import Verif.EmitApi
import Verif.Spec.Ascii
import Verif.Lib.Emit

/-
The emitter with the other setting of `set_unicode`, when the scalars are ASCII: the same calls with the same answers, whatever the writer does.
(The structure of EmitEnc.lean, over the program itself instead of the text.)
-/

namespace Yaml.Eu
open Yaml Emitter Spec
set_option linter.unusedSimpArgs false
set_option linter.unusedVariables false

variable {α β : Type} {b : Bool} {s : EState}

/-- The state with another value of `unicode`. -/
def wb (b : Bool) (s : EState) : EState := { s with unicode := b }

/-- The events waiting are ASCII. -/
def J (s : EState) : Prop := ∀ ev ∈ s.events, AsciiEvent ev

/-- The same operations, and results that differ only in `unicode`. -/
inductive Sim (b : Bool) (Q : α → Prop) : Free EmitOp EmitAns (Out α × EState) → Free EmitOp EmitAns (Out α × EState) → Prop
  | ret {x : Out α} {s : EState} (hs : J s) (h : ∀ a, x = .ok a → Q a) : Sim b Q (.ret (x, s)) (.ret (x, wb b s))
  | op (o : EmitOp) {f g : EmitAns o → Free EmitOp EmitAns (Out α × EState)} (h : ∀ a, Sim b Q (f a) (g a)) : Sim b Q (.op o f) (.op o g)

/-- `m` from `s`, and with the other setting. -/
def BF (b : Bool) (m : Emit α) (Q : α → Prop) (s : EState) : Prop := Sim b Q (m s) (m (wb b s))

def T (_ : α) : Prop := True

theorem Sim.bind {m n : Free EmitOp EmitAns (Out α × EState)} {f : α → Emit β} {Q : α → Prop} {R : β → Prop} (h : Sim b Q m n)
    (hf : ∀ a s', J s' → Q a → BF b (f a) R s') : Sim b R (m.bind (M.cont f)) (n.bind (M.cont f)) := by
  induction h with
  | @ret x s hs h =>
    cases x with
    | ok a => exact hf a s hs (h a rfl)
    | err e => exact .ret hs (by intro a h; cases h)
    | panic e => exact .ret hs (by intro a h; cases h)
    | fuel => exact .ret hs (by intro a h; cases h)
  | op o h ih => exact .op o ih

theorem bf_bind {m : Emit α} {f : α → Emit β} {Q : α → Prop} {R : β → Prop} (h : BF b m Q s) (hf : ∀ a s', J s' → Q a → BF b (f a) R s') : BF b (m >>= f) R s :=
  Sim.bind h hf

theorem bf_get {f : EState → Emit β} {R : β → Prop} (e : f (wb b s) = f s) (h : BF b (f s) R s) : BF b (M.get >>= f) R s := by
  have h1 : ∀ s, (M.get >>= f) s = f s s := fun _ => rfl
  unfold BF
  rw [h1, h1, e]
  exact h

theorem bf_pure {a : α} {Q : α → Prop} (hs : J s) (h : Q a) : BF b (pure a : Emit α) Q s := .ret hs (by intro x hx; cases hx; exact h)
theorem bf_unit (hs : J s) : BF b (pure () : Emit Unit) T s := bf_pure hs trivial

theorem bf_throw {e : Err} {Q : α → Prop} (hs : J s) : BF b (M.throw e : Emit α) Q s := .ret hs (by intro x hx; cases hx)
theorem bf_error {e : String} {Q : α → Prop} (hs : J s) : BF b (emitterError e : Emit α) Q s := bf_throw hs
theorem bf_panic {e : PanicSite} {Q : α → Prop} (hs : J s) : BF b (M.panic e : Emit α) Q s := .ret hs (by intro x hx; cases hx)
theorem bf_fuel {Q : α → Prop} (hs : J s) : BF b (M.outOfFuel : Emit α) Q s := .ret hs (by intro x hx; cases hx)
theorem bf_modify {f : EState → EState} (e : f (wb b s) = wb b (f s)) (hs : J (f s)) : BF b (M.modify f : Emit Unit) T s := by
  show Sim b T (.ret (.ok (), f s)) (.ret (.ok (), f (wb b s)))
  rw [e]
  exact .ret hs fun _ _ => trivial
theorem bf_when {c : Bool} {m : Emit Unit} (hs : J s) (h : BF b m T s) : BF b (M.when c m) T s := by
  cases c with
  | true => exact h
  | false => exact bf_unit hs
theorem bf_mono {m : Emit α} {Q R : α → Prop} (h : BF b m Q s) (hq : ∀ a, Q a → R a) : BF b m R s := by
  unfold BF at h ⊢
  generalize m s = x at h
  generalize m (wb b s) = y at h
  induction h with
  | ret hs h => exact .ret hs fun a e => hq a (h a e)
  | op o h ih => exact .op o ih

theorem bf_out {o : Out Unit} (hs : J s) : BF b (M.ofOut o) T s := by
  cases o <;> exact .ret hs fun _ _ => trivial
theorem bf_flush1 (hs : J s) : BF b flushIfNeeded T s := .op _ fun _ => bf_out hs
theorem bf_flush (hs : J s) : BF b Emitter.flush T s := .op _ fun _ => bf_out hs

theorem bf_prim {o : EmitOp} (hs : J s) : BF b (M.prim o : Emit (EmitAns o)) T s := .op _ fun _ => .ret hs fun _ _ => trivial

theorem bf_push {c : Char} (hs : J s) : BF b (push c) T s := .op _ fun _ => .ret hs fun _ _ => trivial

theorem bf_pushAll {X : Str} (hs : J s) : BF b (pushAll X) T s := by
  induction X generalizing s with
  | nil => exact bf_unit hs
  | cons c X ih => exact bf_bind (bf_push hs) fun _ s' hs' _ => ih hs'

theorem J.same {s s' : EState} (h : J s) (h1 : s'.events = s.events) : J s' := by unfold J; rw [h1]; exact h

theorem bf_mod {f : EState → EState} (hs : J s) (e : f (wb b s) = wb b (f s)) (h1 : (f s).events = s.events) :
    BF b (M.modify f : Emit Unit) T s := bf_modify e (hs.same h1)

macro "bfm" hs:term : tactic => `(tactic| exact bf_mod $hs rfl rfl)

theorem bf_addColumn {n : Int} (hs : J s) : BF b (addColumn n) T s := by bfm hs
theorem bf_nextLine (hs : J s) : BF b nextLine T s := by bfm hs
theorem bf_setWI {w i : Bool} (hs : J s) : BF b (setWI w i) T s := by bfm hs
theorem bf_setIndention {i : Bool} (hs : J s) : BF b (setIndention i) T s := by bfm hs

theorem bf_put {c : Char} (hs : J s) : BF b (put c) T s :=
  bf_bind (bf_flush1 hs) fun _ _ hs _ => bf_bind (bf_push hs) fun _ _ hs _ => bf_addColumn hs

theorem bf_writeChar {c : Char} (hs : J s) : BF b (writeChar c) T s :=
  bf_bind (bf_flush1 hs) fun _ _ hs _ => bf_bind (bf_push hs) fun _ _ hs _ => bf_addColumn hs

theorem bf_putBreak (hs : J s) : BF b putBreak T s :=
  bf_bind (bf_flush1 hs) fun _ s hs _ => bf_get rfl (bf_bind (bf_pushAll hs) fun _ s hs _ => bf_nextLine hs)

theorem bf_writeBreak {c : Char} (hs : J s) : BF b (writeBreak c) T s := by
  refine bf_bind (bf_flush1 hs) fun _ s hs _ => ?_
  split
  · exact bf_putBreak hs
  · exact bf_bind (bf_writeChar hs) fun _ _ hs _ => bf_nextLine hs

theorem bf_writeStr {X : Str} (hs : J s) : BF b (writeStr X) T s :=
  bf_get rfl (bf_bind (bf_prim hs) fun _ s hs _ => bf_bind (bf_out hs) fun _ s hs _ => bf_bind (bf_addColumn hs) fun _ s hs _ => bf_pushAll hs)

theorem bf_putSpaces {n : Nat} (hs : J s) : BF b (putSpaces n) T s := by
  induction n generalizing s with
  | zero => exact bf_unit hs
  | succ n ih => exact bf_bind (bf_put hs) fun _ _ hs _ => ih hs

theorem bf_writeIndent (hs : J s) : BF b writeIndent T s := by
  refine bf_get rfl ?_
  refine bf_bind (bf_when hs (bf_putBreak hs)) fun _ s hs _ => ?_
  refine bf_get rfl ?_
  exact bf_bind (bf_putSpaces hs) fun _ s hs _ => bf_setWI hs

theorem bf_writeBom (hs : J s) : BF b writeBom T s := bf_bind (bf_flush1 hs) fun _ _ hs _ => bf_push hs

theorem bf_ind {X : Str} {x y z : Bool} (hs : J s) : BF b (writeIndicator X x y z) T s := by
  refine bf_get rfl ?_
  refine bf_bind (bf_when hs (bf_put hs)) fun _ s hs _ => ?_
  exact bf_bind (bf_writeStr hs) fun _ s hs _ => by bfm hs

theorem bf_writeAnchor {X : Str} (hs : J s) : BF b (writeAnchor X) T s := bf_bind (bf_writeStr hs) fun _ s hs _ => bf_setWI hs

theorem bf_writeTagHandle {X : Str} (hs : J s) : BF b (writeTagHandle X) T s := by
  refine bf_get rfl ?_
  refine bf_bind (bf_when hs (bf_put hs)) fun _ s hs _ => ?_
  exact bf_bind (bf_writeStr hs) fun _ s hs _ => bf_setWI hs

theorem bf_putAll {X : Str} (hs : J s) : BF b (putAll X) T s := by
  induction X generalizing s with
  | nil => exact bf_unit hs
  | cons c X ih =>
    exact bf_bind (bf_put hs) fun _ s' hs' _ => ih hs'

theorem bf_tagContent {X : Str} (hs : J s) : BF b (tagContentLoop X) T s := by
  induction X generalizing s with
  | nil => exact bf_unit hs
  | cons c X ih =>
    unfold tagContentLoop
    split
    · exact bf_bind (bf_writeChar hs) fun _ s hs _ => ih hs
    · exact bf_bind (bf_putAll hs) fun _ s hs _ => ih hs

theorem bf_writeTagContent {X : Str} {n : Bool} (hs : J s) : BF b (writeTagContent X n) T s := by
  refine bf_get rfl ?_
  refine bf_bind (bf_when hs (bf_put hs)) fun _ s hs _ => ?_
  exact bf_bind (bf_tagContent hs) fun _ s hs _ => bf_setWI hs

/-! ### Scalars -/

theorem bf_plainLoop {al : Bool} {X : Str} {x y : Bool} (hs : J s) : BF b (plainLoop al X x y) T s := by
  induction X generalizing s x y with
  | nil => exact bf_unit hs
  | cons c X ih =>
    unfold plainLoop
    split
    · rename_i h
      refine bf_get rfl ?_
      split
      · exact bf_bind (bf_writeIndent hs) fun _ s hs _ => ih hs
      · exact bf_bind (bf_writeChar hs) fun _ s hs _ => ih hs
    · split
      · exact bf_bind (bf_when hs (bf_putBreak hs)) fun _ s hs _ => bf_bind (bf_writeBreak hs) fun _ s hs _ => bf_bind (bf_setIndention hs) fun _ s hs _ => ih hs
      · rename_i h
        exact bf_bind (bf_when hs (bf_writeIndent hs)) fun _ s hs _ => bf_bind (bf_writeChar hs) fun _ s hs _ => bf_bind (bf_setIndention hs) fun _ s hs _ => ih hs

theorem bf_writePlain {X : Str} {al : Bool} (hs : J s) : BF b (writePlain X al) T s := by
  refine bf_get rfl ?_
  refine bf_bind (bf_when hs (bf_put hs)) fun _ s hs _ => ?_
  exact bf_bind (bf_plainLoop hs) fun _ s hs _ => bf_setWI hs

theorem bf_singleLoop {al : Bool} {X : Str} {x y z : Bool} (hs : J s) : BF b (singleLoop al X x y z) T s := by
  induction X generalizing s x y z with
  | nil => exact bf_pure hs trivial
  | cons c X ih =>
    unfold singleLoop
    split
    · rename_i h
      refine bf_get rfl ?_
      split
      · exact bf_bind (bf_writeIndent hs) fun _ s hs _ => ih hs
      · exact bf_bind (bf_writeChar hs) fun _ s hs _ => ih hs
    · split
      · exact bf_bind (bf_when hs (bf_putBreak hs)) fun _ s hs _ => bf_bind (bf_writeBreak hs) fun _ s hs _ => bf_bind (bf_setIndention hs) fun _ s hs _ => ih hs
      · rename_i h
        exact bf_bind (bf_when hs (bf_writeIndent hs)) fun _ s hs _ => bf_bind (bf_when hs (bf_put hs)) fun _ s hs _ => bf_bind (bf_writeChar hs) fun _ s hs _ =>
          bf_bind (bf_setIndention hs) fun _ s hs _ => ih hs

theorem bf_writeSingle {X : Str} {al : Bool} (hs : J s) : BF b (writeSingleQuoted X al) T s :=
  bf_bind (bf_ind hs) fun _ s hs _ => bf_bind (bf_singleLoop hs) fun _ s hs _ => bf_bind (bf_when hs (bf_writeIndent hs)) fun _ s hs _ =>
    bf_bind (bf_ind hs) fun _ s hs _ => bf_setWI hs

/-- The characters of an ASCII scalar. -/
def Asc (X : Str) : Prop := ∀ c ∈ X, c.toNat < 128

theorem isAscii_of {c : Char} (h : c.toNat < 128) : isAscii c = true := decide_eq_true h

theorem mustEscape_eq {c : Char} (h : c.toNat < 128) (u v : Bool) : mustEscape u c = mustEscape v c := by
  unfold mustEscape
  rw [isAscii_of h]
  simp

theorem bf_doubleLoop {al : Bool} {X : Str} {x y : Bool} (hs : J s) (hv : Asc X) : BF b (doubleLoop al X x y) T s := by
  induction X generalizing s x y with
  | nil => exact bf_unit hs
  | cons c X ih =>
    have hx : Asc X := fun c hc => hv c (List.mem_cons_of_mem _ hc)
    unfold doubleLoop
    refine bf_get ?_ ?_
    · dsimp only
      rw [mustEscape_eq (hv c (List.mem_cons_self ..)) (wb b s).unicode s.unicode]
      rfl
    split
    · exact bf_bind (bf_put hs) fun _ s hs _ => bf_bind (bf_putAll hs) fun _ s hs _ => ih hs hx
    · split
      · split
        · exact bf_bind (bf_writeIndent hs) fun _ s hs _ => bf_bind (bf_when hs (bf_put hs)) fun _ s hs _ => ih hs hx
        · exact bf_bind (bf_writeChar hs) fun _ s hs _ => ih hs hx
      · exact bf_bind (bf_writeChar hs) fun _ s hs _ => ih hs hx

theorem bf_writeDouble {X : Str} {al : Bool} (hs : J s) (hv : Asc X) : BF b (writeDoubleQuoted X al) T s :=
  bf_bind (bf_ind hs) fun _ s hs _ => bf_bind (bf_doubleLoop hs hv) fun _ s hs _ => bf_bind (bf_ind hs) fun _ s hs _ => bf_setWI hs

theorem bf_blockHints {X : Str} (hs : J s) : BF b (writeBlockHints X) T s := by
  refine bf_get rfl ?_
  refine bf_bind (bf_when hs ?_) fun _ s hs _ => ?_
  · split
    · rename_i h
      exact bf_ind hs
    · exact bf_panic hs
  refine bf_bind (Q := T) (by bfm hs) fun _ s hs _ => ?_
  split
  · exact bf_ind hs
  · split
    · exact bf_ind hs
    · split
      · exact bf_bind (Q := T) (by bfm hs) fun _ s hs _ => bf_ind hs
      · exact bf_unit hs

theorem bf_literalLoop {X : Str} {x : Bool} (hs : J s) : BF b (literalLoop X x) T s := by
  induction X generalizing s x with
  | nil => exact bf_unit hs
  | cons c X ih =>
    unfold literalLoop
    split
    · exact bf_bind (bf_writeBreak hs) fun _ s hs _ => bf_bind (bf_setIndention hs) fun _ s hs _ => ih hs
    · rename_i h
      exact bf_bind (bf_when hs (bf_writeIndent hs)) fun _ s hs _ => bf_bind (bf_writeChar hs) fun _ s hs _ => bf_bind (bf_setIndention hs) fun _ s hs _ => ih hs

theorem bf_writeLiteral {X : Str} (hs : J s) : BF b (writeLiteral X) T s :=
  bf_bind (bf_ind hs) fun _ s hs _ => bf_bind (bf_blockHints hs) fun _ s hs _ => bf_bind (bf_putBreak hs) fun _ s hs _ =>
    bf_bind (bf_setWI hs) fun _ s hs _ => bf_literalLoop hs

theorem bf_foldedLoop {X : Str} {x y : Bool} (hs : J s) : BF b (foldedLoop X x y) T s := by
  induction X generalizing s x y with
  | nil => exact bf_unit hs
  | cons c X ih =>
    unfold foldedLoop
    split
    · exact bf_bind (bf_when hs (bf_putBreak hs)) fun _ s hs _ => bf_bind (bf_writeBreak hs) fun _ s hs _ => bf_bind (bf_setIndention hs) fun _ s hs _ => ih hs
    · rename_i h
      refine bf_bind (bf_when hs (bf_writeIndent hs)) fun _ s hs _ => ?_
      dsimp only
      refine bf_get rfl ?_
      split
      · exact bf_bind (bf_writeIndent hs) fun _ s hs _ => bf_bind (bf_setIndention hs) fun _ s hs _ => ih hs
      · exact bf_bind (bf_writeChar hs) fun _ s hs _ => bf_bind (bf_setIndention hs) fun _ s hs _ => ih hs

theorem bf_writeFolded {X : Str} (hs : J s) : BF b (writeFolded X) T s :=
  bf_bind (bf_ind hs) fun _ s hs _ => bf_bind (bf_blockHints hs) fun _ s hs _ => bf_bind (bf_putBreak hs) fun _ s hs _ =>
    bf_bind (bf_setWI hs) fun _ s hs _ => bf_foldedLoop hs

end Yaml.Eu
