import Verif.Prog

/-
Weakest preconditions for programs (`Free` trees and `M` methods).  Proof infrastructure, not a
model of code.  An interpretation of the operations is a predicate transformer `Step`; it may be
deterministic (running against a concrete object) or demonic (any answer the object might give).
-/

namespace Yaml

variable {Op : Type} {Ans : Op → Type} {A B S α β σ : Type}

/-- Meaning of the operations over an object with states `B`. -/
abbrev Step (Op : Type) (Ans : Op → Type) (B : Type) := (o : Op) → (Ans o → B → Prop) → B → Prop

/-- A larger set of acceptable results is easier to guarantee. -/
def Step.Mono (step : Step Op Ans B) : Prop :=
  ∀ (o : Op) (K K' : Ans o → B → Prop) (b : B), (∀ a b, K a b → K' a b) → step o K b → step o K' b

namespace Free

/-- All executions of the tree from `b` end in `Q`. -/
def wp (step : Step Op Ans B) : Free Op Ans α → (α → B → Prop) → B → Prop
  | .ret a, Q, b => Q a b
  | .op o k, Q, b => step o (fun a b' => (k a).wp step Q b') b

theorem wp_bind (step : Step Op Ans B) (t : Free Op Ans α) (f : α → Free Op Ans β)
    (Q : β → B → Prop) (b : B) :
    (t.bind f).wp step Q b ↔ t.wp step (fun a b' => (f a).wp step Q b') b := by
  induction t generalizing b with
  | ret a => exact Iff.rfl
  | op o k ih =>
    simp only [Free.bind, wp]
    have : (fun a b' => ((k a).bind f).wp step Q b')
        = (fun a b' => (k a).wp step (fun a b' => (f a).wp step Q b') b') := by
      funext a b'; exact propext (ih a b')
    rw [this]

theorem wp_mono {step : Step Op Ans B} (hm : step.Mono) {t : Free Op Ans α} {Q Q' : α → B → Prop}
    {b : B} (h : ∀ a b, Q a b → Q' a b) (hw : t.wp step Q b) : t.wp step Q' b := by
  induction t generalizing b with
  | ret a => exact h _ _ hw
  | op o k ih => exact hm o _ _ b (fun a b' hk => ih a hk) hw

/-- Simulation: `stepA` only does what `stepB` allows, along the relation `R`. -/
theorem wp_sim {stepA : Step Op Ans A} {stepB : Step Op Ans B} (R : B → A → Prop)
    (hs : ∀ (o : Op) (b : B) (a : A) (KB : Ans o → B → Prop) (KA : Ans o → A → Prop), R b a →
      (∀ x b' a', R b' a' → KB x b' → KA x a') → stepB o KB b → stepA o KA a)
    {t : Free Op Ans α} {Q : α → B → Prop} {b : B} {a : A} (hR : R b a) (hw : t.wp stepB Q b) :
    t.wp stepA (fun x a' => ∃ b', R b' a' ∧ Q x b') a := by
  induction t generalizing b a with
  | ret x => exact ⟨b, hR, hw⟩
  | op o k ih =>
    exact hs o b a _ _ hR (fun x b' a' hR' hk => ih x hR' hk) hw

end Free

/-- The three kinds of acceptable outcome; running out of fuel is never acceptable. -/
def post (P : PanicSite → Prop) (E : Err → S → B → Prop) (Q : α → S → B → Prop) :
    Out α × S → B → Prop
  | (.ok a, s), b => Q a s b
  | (.err e, s), b => E e s b
  | (.panic p, _), _ => P p
  | (.fuel, _), _ => False

namespace M

/-- From `s` and `b` the method ends with an `Ok` satisfying `Q`, an `Err` satisfying `E` or a
panic allowed by `P`. -/
def wp (step : Step Op Ans B) (P : PanicSite → Prop) (E : Err → S → B → Prop)
    (m : M Op Ans S α) (Q : α → S → B → Prop) (s : S) (b : B) : Prop :=
  (m s).wp step (post P E Q) b

variable {step : Step Op Ans B} {P P' : PanicSite → Prop} {E E' : Err → S → B → Prop}
  {Q Q' : α → S → B → Prop} {s : S} {b : B}

@[simp] theorem wp_pure (a : α) : wp step P E (pure a : M Op Ans S α) Q s b ↔ Q a s b := Iff.rfl
@[simp] theorem wp_get {Q : S → S → B → Prop} : wp step P E (M.get : M Op Ans S S) Q s b ↔ Q s s b := Iff.rfl
@[simp] theorem wp_modify {Q : Unit → S → B → Prop} (f : S → S) :
    wp step P E (M.modify f : M Op Ans S Unit) Q s b ↔ Q () (f s) b := Iff.rfl
@[simp] theorem wp_throw (e : Err) : wp step P E (M.throw e : M Op Ans S α) Q s b ↔ E e s b := Iff.rfl
@[simp] theorem wp_panic (p : PanicSite) : wp step P E (M.panic p : M Op Ans S α) Q s b ↔ P p := Iff.rfl
@[simp] theorem wp_outOfFuel : wp step P E (M.outOfFuel : M Op Ans S α) Q s b ↔ False := Iff.rfl
@[simp] theorem wp_prim (o : Op) {Q : Ans o → S → B → Prop} :
    wp step P E (M.prim o : M Op Ans S (Ans o)) Q s b ↔ step o (fun a b' => Q a s b') b := Iff.rfl

@[simp] theorem wp_bind (m : M Op Ans S α) (f : α → M Op Ans S β) {Q : β → S → B → Prop} :
    wp step P E (m >>= f) Q s b ↔ wp step P E m (fun a s b => wp step P E (f a) Q s b) s b := by
  show ((m s).bind (M.cont f)).wp step _ b ↔ _
  rw [Free.wp_bind]
  have : (fun a b' => (M.cont f a).wp step (post P E Q) b')
      = post P E (fun a s b => wp step P E (f a) Q s b) := by
    funext r b'
    obtain ⟨o, s'⟩ := r
    cases o <;> rfl
  rw [this]; exact Iff.rfl

@[simp] theorem wp_when (c : Bool) (m : M Op Ans S Unit) {Q : Unit → S → B → Prop} :
    wp step P E (M.when c m) Q s b ↔ if c = true then wp step P E m Q s b else Q () s b := by
  cases c <;> exact Iff.rfl

theorem wp_ite (c : Prop) [Decidable c] (m n : M Op Ans S α) :
    wp step P E (if c then m else n) Q s b ↔ if c then wp step P E m Q s b else wp step P E n Q s b := by
  split <;> exact Iff.rfl

@[simp] theorem wp_catchErr (m : M Op Ans S α) {Q : Except Err α → S → B → Prop} :
    wp step P E (M.catchErr m) Q s b ↔
      wp step P (fun e s b => Q (.error e) s b) m (fun a s b => Q (.ok a) s b) s b := by
  show ((m s).bind _).wp step _ b ↔ _
  rw [Free.wp_bind]
  unfold wp
  apply iff_of_eq; congr 1
  funext r b'
  obtain ⟨o, s'⟩ := r
  cases o <;> rfl

theorem wp_mono (hm : step.Mono) {m : M Op Ans S α} (h : wp step P E m Q s b)
    (hQ : ∀ a s b, Q a s b → Q' a s b) (hE : ∀ e s b, E e s b → E' e s b) (hP : ∀ p, P p → P' p) :
    wp step P' E' m Q' s b := by
  refine Free.wp_mono hm ?_ h
  rintro ⟨o, s'⟩ b' h'
  cases o with
  | ok a => exact hQ _ _ _ h'
  | err e => exact hE _ _ _ h'
  | panic p => exact hP _ h'
  | fuel => exact h'.elim

/-- Replace the rest of a program by an intermediate assertion. -/
theorem wp_cut (hm : step.Mono) (R : α → S → B → Prop) {m : M Op Ans S α}
    (h : wp step P E m R s b) (hR : ∀ a s b, R a s b → Q a s b) : wp step P E m Q s b :=
  wp_mono hm h hR (fun _ _ _ h => h) (fun _ h => h)

/-- `if c { m }` with an intermediate assertion. -/
theorem wp_when_cut (hm : step.Mono) (R : S → B → Prop) {c : Bool} {m : M Op Ans S Unit}
    {Q : Unit → S → B → Prop}
    (h1 : c = true → wp step P E m (fun _ s b => R s b) s b) (h2 : c = false → R s b)
    (hR : ∀ s b, R s b → Q () s b) : wp step P E (M.when c m) Q s b := by
  rw [wp_when]
  split
  · rename_i h; exact wp_cut hm _ (h1 h) (fun _ => hR)
  · rename_i h; exact hR _ _ (h2 (by simpa using h))

/-- What a loop body has to establish: `K` to continue, `Q` to stop. -/
def next (K : σ → S → B → Prop) (Q : α → S → B → Prop) : σ ⊕ α → S → B → Prop
  | .inl x, s, b => K x s b
  | .inr a, s, b => Q a s b

@[simp] theorem next_inl (K : σ → S → B → Prop) (Q : α → S → B → Prop) (x : σ) :
    next K Q (.inl x) s b = K x s b := rfl
@[simp] theorem next_inr (K : σ → S → B → Prop) (Q : α → S → B → Prop) (a : α) :
    next K Q (.inr a) s b = Q a s b := rfl

/-- Loop rule: an invariant and a measure that decreases with each pass. -/
theorem wp_loop (hm : step.Mono) {body : σ → M Op Ans S (σ ⊕ α)} (I : σ → S → B → Prop)
    (μ : σ → S → B → Nat)
    (hbody : ∀ x s b, I x s b → wp step P E (body x)
      (next (fun x' s' b' => I x' s' b' ∧ μ x' s' b' < μ x s b) Q) s b) :
    ∀ (F : Nat) (x : σ) (s : S) (b : B), I x s b → μ x s b < F → wp step P E (M.loop F body x) Q s b := by
  intro F
  induction F with
  | zero => intro x s b _ h; exact absurd h (Nat.not_lt_zero _)
  | succ F ih =>
    intro x s b hI hF
    unfold M.loop
    rw [wp_bind]
    refine wp_mono hm (hbody x s b hI) ?_ (fun _ _ _ h => h) (fun _ h => h)
    intro r s' b' hr
    cases r with
    | inl x' => exact ih x' s' b' hr.1 (by have := hr.2; omega)
    | inr a => exact hr

end M
end Yaml
