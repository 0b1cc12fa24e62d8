import Verif.Lib.TextScan
import Verif.Lib.Quoted

/-
Partial correctness of scanner methods over a text: what holds if the call succeeds.  Combined with the
rules over the demonic input (`wpB_and`), which show that it does or fails in a known way.
-/

namespace Yaml
open Scanner
set_option linter.unusedSimpArgs false
set_option linter.unusedVariables false

/-- Any answer a reader of the text may give. -/
def stepC : Step CharOp CharOp.Ans Str
  | .cache _, K, t => K none t ∧ ∀ e t', K (some e) t'
  | .get i, K, t => K t[i]? t
  | .pop, K, t => K t.head? t.tail
  | .enc, K, t => ∀ e, K e t

theorem stepC_mono : stepC.Mono := by
  intro o K K' b h
  cases o with
  | cache n => exact fun ⟨h1, h2⟩ => ⟨h _ _ h1, fun e b' => h _ _ (h2 e b')⟩
  | get i => exact h _ _
  | pop => exact h _ _
  | enc => exact fun h1 e => h _ _ (h1 e)

/-- Only successful calls count. -/
def postC {α : Type} (Q : α → SState → Str → Prop) : Out α × SState → Str → Prop
  | (.ok a, s), t => Q a s t
  | _, _ => True

/-- If the call succeeds from `s` on the text `t`, then with `Q`. -/
def wpC {α : Type} (m : Scan α) (Q : α → SState → Str → Prop) (s : SState) (t : Str) : Prop := (m s).wp stepC (postC Q) t

theorem wp_andC {α : Type} (x : Free CharOp CharOp.Ans α) (Q : α → Inp → Prop) (Q' : α → Str → Prop) (b : Inp)
    (h : x.wp stepB Q b) (h' : x.wp stepC Q' b.text) : x.wp stepB (fun a b' => Q a b' ∧ Q' a b'.text) b := by
  induction x generalizing b with
  | ret a => exact ⟨h, h'⟩
  | op o k ih =>
    cases o with
    | cache n => exact ⟨ih _ _ h.1 h'.1, fun e b' he => ih _ _ (h.2 e b' he) (h'.2 e b'.text)⟩
    | get i => exact ⟨h.1, ih _ _ h.2 h'⟩
    | pop => exact ⟨h.1, ih _ ⟨b.text.tail, b.cached - 1⟩ h.2 h'⟩
    | enc => exact ⟨h.1, fun e => ih _ _ (h.2 e) (h' e)⟩

/-- Both rules together. -/
theorem wpB_and {α : Type} {P : PanicSite → Prop} {E : Err → SState → Inp → Prop} {m : Scan α} {Q : α → SState → Inp → Prop} {Q' : α → SState → Str → Prop}
    {s : SState} {b : Inp} (h : M.wp stepB P E m Q s b) (h' : wpC m Q' s b.text) : M.wp stepB P E m (fun a s' b' => Q a s' b' ∧ Q' a s' b'.text) s b := by
  refine Free.wp_mono stepB_mono ?_ (wp_andC _ _ _ _ h h')
  rintro ⟨o, s'⟩ b' ⟨h1, h2⟩
  cases o with
  | ok a => exact ⟨h1, h2⟩
  | err e => exact h1
  | panic p => exact h1
  | fuel => exact h1

section
variable {α β σ : Type} {Q : α → SState → Str → Prop} {s : SState} {t : Str}

@[simp] theorem wpC_pure (a : α) : wpC (pure a : Scan α) Q s t ↔ Q a s t := Iff.rfl
@[simp] theorem wpC_get {Q : SState → SState → Str → Prop} : wpC (M.get : Scan SState) Q s t ↔ Q s s t := Iff.rfl
@[simp] theorem wpC_modify {Q : Unit → SState → Str → Prop} (f : SState → SState) : wpC (M.modify f : Scan Unit) Q s t ↔ Q () (f s) t := Iff.rfl
@[simp] theorem wpC_throw (e : Err) : wpC (M.throw e : Scan α) Q s t ↔ True := Iff.rfl
@[simp] theorem wpC_panic (p : PanicSite) : wpC (M.panic p : Scan α) Q s t ↔ True := Iff.rfl
@[simp] theorem wpC_at {Q : Option Char → SState → Str → Prop} (i : Nat) : wpC (at_ i) Q s t ↔ Q t[i]? s t := Iff.rfl
@[simp] theorem wpC_pop {Q : Option Char → SState → Str → Prop} : wpC popChar Q s t ↔ Q t.head? s t.tail := Iff.rfl
@[simp] theorem wpC_getMark {Q : Mark → SState → Str → Prop} : wpC getMark Q s t ↔ Q s.mark s t := Iff.rfl
@[simp] theorem wpC_setMark {Q : Unit → SState → Str → Prop} (f : Mark → Mark) : wpC (setMark f) Q s t ↔ Q () { s with mark := f s.mark } t := Iff.rfl
@[simp] theorem wpC_scannerError (c : String) (cm : Mark) (p : String) : wpC (scannerError c cm p : Scan α) Q s t ↔ True := Iff.rfl
@[simp] theorem wpC_allow {Q : Unit → SState → Str → Prop} (x : Bool) : wpC (allowSimpleKey x) Q s t ↔ Q () { s with simpleKeyAllowed := x } t := Iff.rfl

@[simp] theorem wpC_bind (m : Scan α) (f : α → Scan β) {Q : β → SState → Str → Prop} :
    wpC (m >>= f) Q s t ↔ wpC m (fun a s t => wpC (f a) Q s t) s t := by
  show ((m s).bind (M.cont f)).wp stepC _ t ↔ _
  rw [Free.wp_bind]
  have : (fun a b' => (M.cont f a).wp stepC (postC Q) b') = postC (fun a s b => wpC (f a) Q s b) := by
    funext r b'
    obtain ⟨o, s'⟩ := r
    cases o <;> rfl
  rw [this]; exact Iff.rfl

theorem wpC_when {c : Bool} {m : Scan Unit} {Q : Unit → SState → Str → Prop} :
    wpC (M.when c m) Q s t ↔ if c = true then wpC m Q s t else Q () s t := by
  cases c <;> exact Iff.rfl

theorem wpC_mono {m : Scan α} {Q' : α → SState → Str → Prop} (h : wpC m Q s t) (hQ : ∀ a s t, Q a s t → Q' a s t) : wpC m Q' s t := by
  refine Free.wp_mono stepC_mono ?_ h
  rintro ⟨o, s'⟩ b' h'
  cases o with
  | ok a => exact hQ _ _ _ h'
  | err e => trivial
  | panic p => trivial
  | fuel => trivial

@[simp] theorem wpC_cache {Q : Unit → SState → Str → Prop} (n : Nat) : wpC (cache n) Q s t ↔ Q () s t := by
  simp only [cache, wpC_bind]
  exact ⟨fun h => h.1, fun h => ⟨h, fun _ _ => trivial⟩⟩

theorem wpC_loop {body : σ → Scan (σ ⊕ α)} (I : σ → SState → Str → Prop)
    (hbody : ∀ x s t, I x s t → wpC (body x) (M.next I Q) s t) :
    ∀ (F : Nat) (x : σ) (s : SState) (t : Str), I x s t → wpC (M.loop F body x) Q s t := by
  intro F
  induction F with
  | zero => intro x s t _; trivial
  | succ F ih =>
    intro x s t hI
    rw [M.loop, wpC_bind]
    refine wpC_mono (hbody x s t hI) ?_
    intro r s' t' hr
    cases r with
    | inl x' => exact ih _ _ _ hr
    | inr a => exact hr

/-- Unfold the basic program constructs. -/
macro "wpc" loc:(Lean.Parser.Tactic.location)? : tactic => `(tactic| try simp only [wpC_bind, wpC_pure, wpC_get, wpC_modify, wpC_throw,
  wpC_panic, M.next_inl, M.next_inr, wpC_cache, wpC_at, wpC_getMark, wpC_setMark, wpC_scannerError, wpC_allow, implies_true] $[$loc]?)

theorem wpC_skipChar {Q : Unit → SState → Str → Prop} (hQ : ∀ c r, t = c :: r → Q () { s with mark := bumpMark c s.mark } r) : wpC skipChar Q s t := by
  simp only [skipChar, wpC_bind, wpC_pop]
  cases t with
  | nil => trivial
  | cons c r => exact hQ c r rfl

/-- `skip_char` on a character that is not a line break. -/
theorem wpC_skip {Q : Unit → SState → Str → Prop} {c : Char} {r : Str} (ht : t = c :: r) (hc : isBreak c = false)
    (hQ : ∀ s', Mv s (c :: r) s' r → Q () s' r) : wpC skipChar Q s t := by
  refine wpC_skipChar ?_
  intro c' r' h
  rw [ht] at h
  obtain ⟨rfl, rfl⟩ := List.cons.inj h
  exact hQ _ (Mv.mark (Adv.char hc))

theorem wpC_read {Q : Str → SState → Str → Prop} {c : Char} {r str : Str} (ht : t = c :: r) (hc : isBreak c = false)
    (hQ : ∀ s', Mv s (c :: r) s' r → Q (str ++ [c]) s' r) : wpC (readChar str) Q s t := by
  subst ht
  simp only [readChar, wpC_bind, wpC_pop, List.head?_cons, List.tail_cons]
  exact hQ _ (Mv.mark (Adv.char hc))

theorem wpC_skipLineBreak {Q : Unit → SState → Str → Prop} {c : Char} {r : Str} (ht : t = c :: r) (hb : isBreak c = true)
    (hQ : ∀ v s' t', Spec.BreakAt t v t' → Mv s t s' t' → s'.mark.column = 0 → Q () s' t') : wpC skipLineBreak Q s t := by
  subst ht
  simp only [skipLineBreak, wpC_bind, wpC_at, List.getElem?_cons_zero, List.getElem?_cons_succ]
  split
  · rename_i h
    simp only [Bool.and_eq_true, beq_iff_eq] at h
    obtain ⟨rfl, h2⟩ := h
    cases r with
    | nil => simp at h2
    | cons d r =>
      simp at h2; subst h2
      simp only [wpC_bind, wpC_pop, wpC_setMark, List.tail_cons]
      exact hQ _ _ _ (.crlf r) (Mv.mark Adv.crlf) rfl
  · rename_i h
    have hc : ¬ (c = '\r' ∧ r.head? = some '\n') := by
      rintro ⟨rfl, h2⟩
      simp [List.head?_eq_getElem?] at h2
      simp [h2] at h
    simp only [wpC_bind, wpC_pop, wpC_setMark, List.tail_cons]
    exact hQ _ _ _ (.one c r (by rw [isLineBreak_eq]; exact hb) hc) (Mv.mark (Adv.brk hb hc)) rfl

theorem wpC_readLineBreak {Q : Str → SState → Str → Prop} {c : Char} {r str : Str} (ht : t = c :: r) (hb : isBreak c = true)
    (hQ : ∀ v s' t', Spec.BreakAt t v t' → Mv s t s' t' → s'.mark.column = 0 → Q (str ++ [v]) s' t') : wpC (readLineBreak str) Q s t := by
  subst ht
  simp only [readLineBreak, wpC_bind, wpC_at, List.getElem?_cons_zero, List.getElem?_cons_succ]
  split
  · rename_i h
    simp only [Bool.and_eq_true, beq_iff_eq] at h
    obtain ⟨rfl, h2⟩ := h
    cases r with
    | nil => simp at h2
    | cons d r =>
      simp at h2; subst h2
      simp only [wpC_bind, wpC_pop, wpC_setMark, List.tail_cons]
      exact hQ _ _ _ (.crlf r) (Mv.mark Adv.crlf) rfl
  · rename_i h
    have hc : ¬ (c = '\r' ∧ r.head? = some '\n') := by
      rintro ⟨rfl, h2⟩
      simp [List.head?_eq_getElem?] at h2
      simp [h2] at h
    simp only [wpC_bind, wpC_pop, wpC_setMark, List.tail_cons, wpC_pure]
    have := hQ _ _ _ (.one c r (by rw [isLineBreak_eq]; exact hb) hc) (Mv.mark (Adv.brk hb hc)) rfl
    rw [breakValue_eq hb] at this
    exact this

theorem wpC_skipWhile {F : Nat} {p : Option Char → Bool} {Q : Unit → SState → Str → Prop} (hp : p none = false)
    (hpb : ∀ c, p (some c) = true → isBreak c = false)
    (hQ : ∀ r s' t', t = r ++ t' → (∀ c ∈ r, p (some c) = true) → p t'[0]? = false → Mv s t s' t' → Q () s' t') : wpC (skipWhile F p) Q s t := by
  refine wpC_loop (I := fun _ s' t' => ∃ r, t = r ++ t' ∧ (∀ c ∈ r, p (some c) = true) ∧ Mv s t s' t') ?_ F () s t ⟨[], rfl, by simp, Mv.refl _ _⟩
  rintro _ s1 t1 ⟨r, hr, hrp, hm⟩
  wpc
  split
  · rename_i h
    obtain ⟨c, r1, ht, hd⟩ := head_of hp h
    subst ht
    wpc
    refine wpC_skip rfl (hpb c hd) ?_
    intro s2 hm2
    refine ⟨r ++ [c], by simp [hr], ?_, hm.trans hm2⟩
    intro c' hc'
    rcases List.mem_append.1 hc' with h' | h'
    · exact hrp c' h'
    · simp at h'; subst h'; exact hd
  · rename_i h
    exact hQ r s1 t1 hr hrp (by simpa using h) hm

theorem wpC_readWhile {F : Nat} {p : Option Char → Bool} {Q : Str → SState → Str → Prop} {str : Str} (hp : p none = false)
    (hpb : ∀ c, p (some c) = true → isBreak c = false)
    (hQ : ∀ r s' t', t = r ++ t' → (∀ c ∈ r, p (some c) = true) → p t'[0]? = false → Mv s t s' t' → Q (str ++ r) s' t') : wpC (readWhile F p str) Q s t := by
  refine wpC_loop (I := fun str' s' t' => ∃ r, str' = str ++ r ∧ t = r ++ t' ∧ (∀ c ∈ r, p (some c) = true) ∧ Mv s t s' t') ?_ F str s t ⟨[], by simp, rfl, by simp, Mv.refl _ _⟩
  rintro _ s1 t1 ⟨r, rfl, hr, hrp, hm⟩
  wpc
  split
  · rename_i h
    obtain ⟨c, r1, ht, hd⟩ := head_of hp h
    subst ht
    wpc
    refine wpC_read rfl (hpb c hd) ?_
    intro s2 hm2
    refine ⟨r ++ [c], by simp, by simp [hr], ?_, hm.trans hm2⟩
    intro c' hc'
    rcases List.mem_append.1 hc' with h' | h'
    · exact hrp c' h'
    · simp at h'; subst h'; exact hd
  · rename_i h
    exact hQ r s1 t1 hr hrp (by simpa using h) hm

end

/-! ### Separating text -/

/-- At the start of a line after `g`. -/
def endBol (b : Bool) (g : Str) : Bool := g.foldl (fun _ c => Spec.isLineBreak c) b

theorem advance_bol (m : Mark) (g : Str) : decide ((Spec.advance m g).column = 0) = endBol (decide (m.column = 0)) g := by
  induction hn : g.length using Nat.strongRecOn generalizing m g with
  | _ n ih =>
    match g with
    | [] => rfl
    | c :: r =>
      by_cases hc : c = '\r' ∧ r.head? = some '\n'
      · obtain ⟨rfl, h2⟩ := hc
        cases r with
        | nil => simp at h2
        | cons d r =>
          simp at h2; subst h2
          rw [advance_crlf, ih r.length (by simp at hn; omega) _ r rfl]
          have : Spec.isLineBreak '\n' = true := by decide
          simp [endBol, newlineMark, this]
      · rw [advance_cons m c r hc, ih r.length (by simp at hn; omega) _ r rfl]
        cases hb : isBreak c <;> simp [endBol, newlineMark, bumpMark, isLineBreak_eq, hb]

end Yaml
