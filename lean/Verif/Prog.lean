import Verif.Basic

/-
Programs as trees.  Not a model of code by itself: this is the small language in which the
scanner, parser and emitter models are written.

`Free Op Ans α` is a tree whose nodes are the primitive operations a function performs on
the object below it (input buffer, token queue, output buffer) and whose leaves are
results.  A `&mut self` method returning `Result<T>` is a Lean function from the state of
`self` to such a tree; its leaves carry the outcome *and* the final state, so the state
left behind by a failing call is modelled too.
-/

namespace Yaml

/-- A tree of primitive operations. -/
inductive Free (Op : Type) (Ans : Op → Type) (α : Type) : Type where
  | ret (a : α)
  | op (o : Op) (k : Ans o → Free Op Ans α)

/-- Sequencing of trees. -/
def Free.bind {Op : Type} {Ans : Op → Type} {α β : Type} :
    Free Op Ans α → (α → Free Op Ans β) → Free Op Ans β
  | .ret a, f => f a
  | .op o k, f => .op o (fun x => (k x).bind f)

/-- The outcome of a call: `Ok`, `Err`, a Rust panic, or an exhausted step budget of the
model (which the theorems exclude). -/
inductive Out (α : Type) where
  | ok (a : α)
  | err (e : Err)
  | panic (p : PanicSite)
  | fuel
deriving Repr, DecidableEq

/-- A method on a state `S` using primitive operations `Op`. -/
def M (Op : Type) (Ans : Op → Type) (S : Type) (α : Type) : Type :=
  S → Free Op Ans (Out α × S)

namespace M
variable {Op : Type} {Ans : Op → Type} {S α β σ : Type}

/-- What happens after an outcome: continue on `ok`, stop otherwise (the `?` operator, and
unwinding for panics). -/
def cont (f : α → M Op Ans S β) : Out α × S → Free Op Ans (Out β × S)
  | (.ok a, s) => f a s
  | (.err e, s) => .ret (.err e, s)
  | (.panic p, s) => .ret (.panic p, s)
  | (.fuel, s) => .ret (.fuel, s)

/-- `Ok(a)`. -/
protected def pure (a : α) : M Op Ans S α := fun s => .ret (.ok a, s)
/-- Sequencing with `?`. -/
protected def bind (m : M Op Ans S α) (f : α → M Op Ans S β) : M Op Ans S β :=
  fun s => (m s).bind (cont f)

instance : Monad (M Op Ans S) where
  pure := M.pure
  bind := M.bind

/-- A primitive operation. -/
def prim (o : Op) : M Op Ans S (Ans o) := fun s => .op o (fun a => .ret (.ok a, s))
/-- Read the state. -/
def get : M Op Ans S S := fun s => .ret (.ok s, s)
/-- Change the state. -/
def modify (f : S → S) : M Op Ans S Unit := fun s => .ret (.ok (), f s)
/-- `return Err(e)`. -/
def throw (e : Err) : M Op Ans S α := fun s => .ret (.err e, s)
/-- A Rust panic. -/
def panic (p : PanicSite) : M Op Ans S α := fun s => .ret (.panic p, s)
/-- Step budget exhausted. -/
def outOfFuel : M Op Ans S α := fun s => .ret (.fuel, s)

/-- `if c { m }`. -/
def when (c : Bool) (m : M Op Ans S Unit) : M Op Ans S Unit := if c then m else pure ()

/-- `loop { .. }` with loop variables `x`; the body answers `inl x'` to continue and `inr a`
to `break` with `a`.  At most `F` iterations. -/
def loop (F : Nat) (body : σ → M Op Ans S (σ ⊕ α)) (x : σ) : M Op Ans S α :=
  match F with
  | 0 => outOfFuel
  | F + 1 => do
    match ← body x with
    | .inl x' => loop F body x'
    | .inr a => pure a

/-- Catch an `Err`. -/
def catchErr (m : M Op Ans S α) : M Op Ans S (Except Err α) := fun s =>
  (m s).bind fun
    | (.ok a, s) => .ret (.ok (.ok a), s)
    | (.err e, s) => .ret (.ok (.error e), s)
    | (.panic p, s) => .ret (.panic p, s)
    | (.fuel, s) => .ret (.fuel, s)

end M
end Yaml
