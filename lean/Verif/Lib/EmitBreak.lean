import Verif.Spec.Unbuffered
import Verif.Lib.Emit

/-
The emitter with another line break: the same calls, with every LF of the output replaced.
-/

namespace Yaml.Eb
open Yaml Emitter
set_option linter.unusedSimpArgs false
set_option linter.unusedVariables false

variable {α β : Type} {b : Break} {s : EState}

/-- The state with another line break. -/
def wb (b : Break) (s : EState) : EState := { s with lineBreak := b }

/-- The text with another line break. -/
def sub (b : Break) (W : Str) : Str := W.flatMap fun c => if c = '\n' then breakChars b else [c]

theorem sub_app (W X : Str) : sub b (W ++ X) = sub b W ++ sub b X := by simp [sub]
theorem sub_same {X : Str} (h : '\n' ∉ X) : sub b X = X := by
  induction X with
  | nil => rfl
  | cons c X ih =>
    simp only [List.mem_cons, not_or] at h
    have e : sub b (c :: X) = (if c = '\n' then breakChars b else [c]) ++ sub b X := rfl
    rw [e, ih h.2, if_neg (fun hc => h.1 hc.symm)]; rfl

/-- The line break is LF, and no tag handle has one. -/
structure J (s : EState) : Prop where
  brk : s.lineBreak = .ln
  tags : ∀ d ∈ s.tagDirectives, '\n' ∉ d.handle

/-- `m` from `s`, and with the other line break. -/
def BF (b : Break) (m : Emit α) (Q : α → Prop) (s : EState) : Prop :=
  ∀ W, ∃ x s' W', execText (m s) W = ((x, s'), W') ∧ execText (m (wb b s)) (sub b W) = ((x, wb b s'), sub b W') ∧ J s' ∧ ∀ a, x = .ok a → Q a

def T (_ : α) : Prop := True

theorem bind_text (m : Emit α) (f : α → Emit β) (s : EState) (W : Str) :
    execText ((m >>= f) s) W = (match execText (m s) W with
      | ((.ok a, s'), W') => execText (f a s') W'
      | ((.err e, s'), W') => ((.err e, s'), W')
      | ((.panic p, s'), W') => ((.panic p, s'), W')
      | ((.fuel, s'), W') => ((.fuel, s'), W')) := by
  show execText ((m s).bind (M.cont f)) W = _
  have key : ∀ (t : Free EmitOp EmitAns (Out α × EState)) W, execText (t.bind (M.cont f)) W = execText (M.cont f (execText t W).1) (execText t W).2 := by
    intro t
    induction t with
    | ret a => intro W; rfl
    | op o k ih => intro W; exact ih _ _
  rw [key]
  generalize execText (m s) W = q
  obtain ⟨⟨x, s'⟩, W'⟩ := q
  cases x <;> rfl

theorem bf_bind {m : Emit α} {f : α → Emit β} {Q : α → Prop} {R : β → Prop} (h : BF b m Q s) (hf : ∀ a s', J s' → Q a → BF b (f a) R s') : BF b (m >>= f) R s := by
  intro W
  obtain ⟨x, s', W', h1, h2, h3, h4⟩ := h W
  rw [bind_text, bind_text, h1, h2]
  cases x with
  | ok a => exact hf a s' h3 (h4 a rfl) W'
  | err e => exact ⟨_, _, _, rfl, rfl, h3, by intro a h; cases h⟩
  | panic e => exact ⟨_, _, _, rfl, rfl, h3, by intro a h; cases h⟩
  | fuel => exact ⟨_, _, _, rfl, rfl, h3, by intro a h; cases h⟩

theorem bf_get {f : EState → Emit β} {R : β → Prop} (e : f (wb b s) = f s) (h : BF b (f s) R s) : BF b (M.get >>= f) R s := by
  intro W
  have h1 : ∀ s, (M.get >>= f) s = f s s := fun _ => rfl
  rw [h1, h1, e]
  exact h W

theorem bf_pure {a : α} {Q : α → Prop} (hs : J s) (h : Q a) : BF b (pure a : Emit α) Q s :=
  fun W => ⟨_, _, _, rfl, rfl, hs, by intro x hx; cases hx; exact h⟩
theorem bf_unit (hs : J s) : BF b (pure () : Emit Unit) T s := bf_pure hs trivial

theorem bf_throw {e : Err} {Q : α → Prop} (hs : J s) : BF b (M.throw e : Emit α) Q s := fun W => ⟨_, _, _, rfl, rfl, hs, by intro x hx; cases hx⟩
theorem bf_error {e : String} {Q : α → Prop} (hs : J s) : BF b (emitterError e : Emit α) Q s := bf_throw hs
theorem bf_panic {e : PanicSite} {Q : α → Prop} (hs : J s) : BF b (M.panic e : Emit α) Q s := fun W => ⟨_, _, _, rfl, rfl, hs, by intro x hx; cases hx⟩
theorem bf_fuel {Q : α → Prop} (hs : J s) : BF b (M.outOfFuel : Emit α) Q s := fun W => ⟨_, _, _, rfl, rfl, hs, by intro x hx; cases hx⟩
theorem bf_modify {f : EState → EState} (e : f (wb b s) = wb b (f s)) (hs : J (f s)) : BF b (M.modify f : Emit Unit) T s :=
  fun W => ⟨_, _, _, rfl, by show ((_, f (wb b s)), _) = _; rw [e], hs, fun _ _ => trivial⟩
theorem bf_when {c : Bool} {m : Emit Unit} (hs : J s) (h : BF b m T s) : BF b (M.when c m) T s := by
  cases c with
  | true => exact h
  | false => exact bf_unit hs
theorem bf_mono {m : Emit α} {Q R : α → Prop} (h : BF b m Q s) (hq : ∀ a, Q a → R a) : BF b m R s := by
  intro W
  obtain ⟨x, s', W', h1, h2, h3, h4⟩ := h W
  exact ⟨x, s', W', h1, h2, h3, fun a ha => hq a (h4 a ha)⟩

theorem bf_flush1 (hs : J s) : BF b flushIfNeeded T s := fun W => ⟨_, _, _, rfl, rfl, hs, fun _ _ => trivial⟩
theorem bf_flush (hs : J s) : BF b Emitter.flush T s := fun W => ⟨_, _, _, rfl, rfl, hs, fun _ _ => trivial⟩

theorem bf_push {c : Char} (hs : J s) (h : c ≠ '\n') : BF b (push c) T s := fun W =>
  ⟨_, _, _, rfl, by
    show ((_, wb b s), sub b W ++ [c]) = ((_, wb b s), sub b (W ++ [c]))
    rw [sub_app, sub_same (X := [c]) (by simpa using fun h' => h h'.symm)], hs, fun _ _ => trivial⟩

theorem bf_pushAll {X : Str} (hs : J s) (h : '\n' ∉ X) : BF b (pushAll X) T s := by
  induction X generalizing s with
  | nil => exact bf_unit hs
  | cons c X ih =>
    simp only [List.mem_cons, not_or] at h
    exact bf_bind (bf_push hs (fun e => h.1 e.symm)) fun _ s' hs' _ => ih hs' h.2

theorem J.same {s s' : EState} (h : J s) (h1 : s'.lineBreak = s.lineBreak) (h2 : s'.tagDirectives = s.tagDirectives) : J s' :=
  ⟨by rw [h1]; exact h.brk, by rw [h2]; exact h.tags⟩

theorem bf_mod {f : EState → EState} (hs : J s) (e : f (wb b s) = wb b (f s)) (h1 : (f s).lineBreak = s.lineBreak) (h2 : (f s).tagDirectives = s.tagDirectives) :
    BF b (M.modify f : Emit Unit) T s := bf_modify e (hs.same h1 h2)

macro "bfm" hs:term : tactic => `(tactic| exact bf_mod $hs rfl rfl rfl)

theorem bf_addColumn {n : Int} (hs : J s) : BF b (addColumn n) T s := by bfm hs
theorem bf_nextLine (hs : J s) : BF b nextLine T s := by bfm hs
theorem bf_setWI {w i : Bool} (hs : J s) : BF b (setWI w i) T s := by bfm hs
theorem bf_setIndention {i : Bool} (hs : J s) : BF b (setIndention i) T s := by bfm hs

theorem bf_put {c : Char} (hs : J s) (h : c ≠ '\n') : BF b (put c) T s :=
  bf_bind (bf_flush1 hs) fun _ _ hs _ => bf_bind (bf_push hs h) fun _ _ hs _ => bf_addColumn hs

theorem bf_writeChar {c : Char} (hs : J s) (h : c ≠ '\n') : BF b (writeChar c) T s :=
  bf_bind (bf_flush1 hs) fun _ _ hs _ => bf_bind (bf_push hs h) fun _ _ hs _ => bf_addColumn hs

theorem pushAll_text (X : Str) (s : EState) (W : Str) : execText (pushAll X s) W = ((.ok (), s), W ++ X) := by
  induction X generalizing W with
  | nil => rw [List.append_nil]; rfl
  | cons c X ih =>
    show execText ((push c >>= fun _ => pushAll X) s) W = _
    rw [bind_text]
    show execText (pushAll X s) (W ++ [c]) = _
    rw [ih, List.append_assoc]; rfl

theorem bf_putBreak (hs : J s) : BF b putBreak T s := by
  refine bf_bind (bf_flush1 hs) fun _ s hs _ => ?_
  intro W
  have e : ∀ (s : EState) W, execText ((M.get >>= fun s => pushAll (breakChars s.lineBreak) >>= fun _ => nextLine : Emit Unit) s) W =
      ((.ok (), { s with column := 0, line := s.line + 1 }), W ++ breakChars s.lineBreak) := by
    intro s W
    show execText ((pushAll (breakChars s.lineBreak) >>= fun _ => nextLine) s) W = _
    rw [bind_text, pushAll_text]
    rfl
  refine ⟨_, _, _, e s W, (e _ _).trans ?_, hs.same rfl rfl, fun _ _ => trivial⟩
  have : sub b (breakChars s.lineBreak) = breakChars b := by rw [hs.brk]; simp [sub, breakChars]
  rw [sub_app, this]
  rfl

theorem bf_writeBreak {c : Char} (hs : J s) : BF b (writeBreak c) T s := by
  refine bf_bind (bf_flush1 hs) fun _ s hs _ => ?_
  by_cases h : c = '\n'
  · subst h; exact bf_putBreak hs
  · rw [if_neg (by simpa using h)]
    exact bf_bind (bf_writeChar hs h) fun _ _ hs _ => bf_nextLine hs

theorem bf_writeStr {X : Str} (hs : J s) (h : '\n' ∉ X) : BF b (writeStr X) T s := by
  refine bf_get rfl ?_
  refine bf_bind (Q := fun o => o = .ok ()) (fun W => ⟨_, _, _, rfl, rfl, hs, ?_⟩) fun o s hs ho => ?_
  · intro a ha; cases ha; rfl
  · subst ho
    refine bf_bind (Q := T) (fun W => ⟨_, _, _, rfl, rfl, hs, fun _ _ => trivial⟩) fun _ s hs _ => ?_
    exact bf_bind (bf_addColumn hs) fun _ s hs _ => bf_pushAll hs h

theorem bf_putSpaces {n : Nat} (hs : J s) : BF b (putSpaces n) T s := by
  induction n generalizing s with
  | zero => exact bf_unit hs
  | succ n ih => exact bf_bind (bf_put hs (by decide)) fun _ _ hs _ => ih hs

theorem bf_writeIndent (hs : J s) : BF b writeIndent T s := by
  refine bf_get rfl ?_
  refine bf_bind (bf_when hs (bf_putBreak hs)) fun _ s hs _ => ?_
  refine bf_get rfl ?_
  exact bf_bind (bf_putSpaces hs) fun _ s hs _ => bf_setWI hs

theorem bf_writeBom (hs : J s) : BF b writeBom T s := bf_bind (bf_flush1 hs) fun _ _ hs _ => bf_push hs (by decide)

theorem bf_ind {X : Str} {x y z : Bool} (hs : J s) (h : '\n' ∉ X) : BF b (writeIndicator X x y z) T s := by
  refine bf_get rfl ?_
  refine bf_bind (bf_when hs (bf_put hs (by decide))) fun _ s hs _ => ?_
  exact bf_bind (bf_writeStr hs h) fun _ s hs _ => by bfm hs

theorem bf_writeAnchor {X : Str} (hs : J s) (h : '\n' ∉ X) : BF b (writeAnchor X) T s := bf_bind (bf_writeStr hs h) fun _ s hs _ => bf_setWI hs

theorem bf_writeTagHandle {X : Str} (hs : J s) (h : '\n' ∉ X) : BF b (writeTagHandle X) T s := by
  refine bf_get rfl ?_
  refine bf_bind (bf_when hs (bf_put hs (by decide))) fun _ s hs _ => ?_
  exact bf_bind (bf_writeStr hs h) fun _ s hs _ => bf_setWI hs

theorem bf_putAll {X : Str} (hs : J s) (h : '\n' ∉ X) : BF b (putAll X) T s := by
  induction X generalizing s with
  | nil => exact bf_unit hs
  | cons c X ih =>
    simp only [List.mem_cons, not_or] at h
    exact bf_bind (bf_put hs (fun e => h.1 e.symm)) fun _ s' hs' _ => ih hs' h.2

theorem hex_ne {n : Nat} (h : n < 16) : hexUpper n ≠ '\n' := by
  have : ∀ n < 16, hexUpper n ≠ '\n' := by decide
  exact this n h

theorem uri_ne (x : UInt8) : '\n' ∉ uriEscape x := by
  have h : x.toNat < 256 := x.toNat_lt
  simp only [uriEscape, List.mem_cons, not_or]
  exact ⟨by decide, fun e => hex_ne (by omega) e.symm, fun e => hex_ne (by omega) e.symm, by simp⟩

theorem bf_tagContent {X : Str} (hs : J s) : BF b (tagContentLoop X) T s := by
  induction X generalizing s with
  | nil => exact bf_unit hs
  | cons c X ih =>
    unfold tagContentLoop
    split
    · rename_i h
      refine bf_bind (bf_writeChar hs ?_) fun _ s hs _ => ih hs
      rintro rfl; revert h; decide
    · refine bf_bind (bf_putAll hs ?_) fun _ s hs _ => ih hs
      intro h
      obtain ⟨x, _, hx⟩ := List.mem_flatMap.1 h
      exact uri_ne x hx

theorem bf_writeTagContent {X : Str} {n : Bool} (hs : J s) : BF b (writeTagContent X n) T s := by
  refine bf_get rfl ?_
  refine bf_bind (bf_when hs (bf_put hs (by decide))) fun _ s hs _ => ?_
  exact bf_bind (bf_tagContent hs) fun _ s hs _ => bf_setWI hs

/-! ### Scalars -/

theorem nb {c : Char} (h : ¬ isBreak c = true) : c ≠ '\n' := by rintro rfl; exact h (by decide)
theorem sp {c : Char} (h : isSpace c = true) : c ≠ '\n' := by rintro rfl; revert h; decide

theorem bf_plainLoop {al : Bool} {X : Str} {x y : Bool} (hs : J s) : BF b (plainLoop al X x y) T s := by
  induction X generalizing s x y with
  | nil => exact bf_unit hs
  | cons c X ih =>
    unfold plainLoop
    split
    · rename_i h
      refine bf_get rfl ?_
      split
      · exact bf_bind (bf_writeIndent hs) fun _ s hs _ => ih hs
      · exact bf_bind (bf_writeChar hs (sp h)) fun _ s hs _ => ih hs
    · split
      · exact bf_bind (bf_when hs (bf_putBreak hs)) fun _ s hs _ => bf_bind (bf_writeBreak hs) fun _ s hs _ => bf_bind (bf_setIndention hs) fun _ s hs _ => ih hs
      · rename_i h
        exact bf_bind (bf_when hs (bf_writeIndent hs)) fun _ s hs _ => bf_bind (bf_writeChar hs (nb h)) fun _ s hs _ => bf_bind (bf_setIndention hs) fun _ s hs _ => ih hs

theorem bf_writePlain {X : Str} {al : Bool} (hs : J s) : BF b (writePlain X al) T s := by
  refine bf_get rfl ?_
  refine bf_bind (bf_when hs (bf_put hs (by decide))) fun _ s hs _ => ?_
  exact bf_bind (bf_plainLoop hs) fun _ s hs _ => bf_setWI hs

theorem bf_singleLoop {al : Bool} {X : Str} {x y z : Bool} (hs : J s) : BF b (singleLoop al X x y z) T s := by
  induction X generalizing s x y z with
  | nil => exact bf_pure hs trivial
  | cons c X ih =>
    unfold singleLoop
    split
    · rename_i h
      refine bf_get rfl ?_
      split
      · exact bf_bind (bf_writeIndent hs) fun _ s hs _ => ih hs
      · exact bf_bind (bf_writeChar hs (sp h)) fun _ s hs _ => ih hs
    · split
      · exact bf_bind (bf_when hs (bf_putBreak hs)) fun _ s hs _ => bf_bind (bf_writeBreak hs) fun _ s hs _ => bf_bind (bf_setIndention hs) fun _ s hs _ => ih hs
      · rename_i h
        exact bf_bind (bf_when hs (bf_writeIndent hs)) fun _ s hs _ => bf_bind (bf_when hs (bf_put hs (by decide))) fun _ s hs _ => bf_bind (bf_writeChar hs (nb h)) fun _ s hs _ =>
          bf_bind (bf_setIndention hs) fun _ s hs _ => ih hs

theorem bf_writeSingle {X : Str} {al : Bool} (hs : J s) : BF b (writeSingleQuoted X al) T s :=
  bf_bind (bf_ind hs (by decide)) fun _ s hs _ => bf_bind (bf_singleLoop hs) fun _ s hs _ => bf_bind (bf_when hs (bf_writeIndent hs)) fun _ s hs _ =>
    bf_bind (bf_ind hs (by decide)) fun _ s hs _ => bf_setWI hs

theorem hexDigits_ne (k n : Nat) : '\n' ∉ hexDigits k n := by
  induction k with
  | zero => simp [hexDigits]
  | succ k ih =>
    simp only [hexDigits, List.mem_cons, not_or]
    exact ⟨fun e => hex_ne (Nat.mod_lt _ (by omega)) e.symm, ih⟩

theorem escape_ne (c : Char) : '\n' ∉ escapeText c := by
  have key : ∀ {p : Prop} [Decidable p] {x y : Str}, '\n' ∉ x → '\n' ∉ y → '\n' ∉ (if p then x else y) := by
    intro p _ x y h1 h2
    by_cases hp : p
    · rw [if_pos hp]; exact h1
    · rw [if_neg hp]; exact h2
  have hx : ∀ (c : Char) k n, c ≠ '\n' → '\n' ∉ c :: hexDigits k n := by
    intro c k n hc h
    rcases List.mem_cons.1 h with h | h
    · exact hc h.symm
    · exact hexDigits_ne _ _ h
  unfold escapeText
  iterate 15 refine key (by decide) ?_
  exact key (hx _ _ _ (by decide)) (key (hx _ _ _ (by decide)) (hx _ _ _ (by decide)))

theorem bf_doubleLoop {al : Bool} {X : Str} {x y : Bool} (hs : J s) : BF b (doubleLoop al X x y) T s := by
  induction X generalizing s x y with
  | nil => exact bf_unit hs
  | cons c X ih =>
    unfold doubleLoop
    refine bf_get rfl ?_
    split
    · exact bf_bind (bf_put hs (by decide)) fun _ s hs _ => bf_bind (bf_putAll hs (escape_ne c)) fun _ s hs _ => ih hs
    · rename_i hm
      have hc : c ≠ '\n' := by
        rintro rfl
        apply hm
        simp [mustEscape, isBreak]
      split
      · split
        · exact bf_bind (bf_writeIndent hs) fun _ s hs _ => bf_bind (bf_when hs (bf_put hs (by decide))) fun _ s hs _ => ih hs
        · exact bf_bind (bf_writeChar hs hc) fun _ s hs _ => ih hs
      · exact bf_bind (bf_writeChar hs hc) fun _ s hs _ => ih hs

theorem bf_writeDouble {X : Str} {al : Bool} (hs : J s) : BF b (writeDoubleQuoted X al) T s :=
  bf_bind (bf_ind hs (by decide)) fun _ s hs _ => bf_bind (bf_doubleLoop hs) fun _ s hs _ => bf_bind (bf_ind hs (by decide)) fun _ s hs _ => bf_setWI hs

theorem digit_ne {n : Nat} (h : n ≤ 9) : '\n' ∉ [Char.ofNat (48 + n)] := by
  have : ∀ n < 10, '\n' ∉ [Char.ofNat (48 + n)] := by decide
  exact this n (by omega)

theorem bf_blockHints {X : Str} (hs : J s) : BF b (writeBlockHints X) T s := by
  refine bf_get rfl ?_
  refine bf_bind (bf_when hs ?_) fun _ s hs _ => ?_
  · split
    · rename_i h
      exact bf_ind hs (digit_ne (by omega))
    · exact bf_panic hs
  refine bf_bind (Q := T) (by bfm hs) fun _ s hs _ => ?_
  split
  · exact bf_ind hs (by decide)
  · split
    · exact bf_ind hs (by decide)
    · split
      · exact bf_bind (Q := T) (by bfm hs) fun _ s hs _ => bf_ind hs (by decide)
      · exact bf_unit hs

theorem bf_literalLoop {X : Str} {x : Bool} (hs : J s) : BF b (literalLoop X x) T s := by
  induction X generalizing s x with
  | nil => exact bf_unit hs
  | cons c X ih =>
    unfold literalLoop
    split
    · exact bf_bind (bf_writeBreak hs) fun _ s hs _ => bf_bind (bf_setIndention hs) fun _ s hs _ => ih hs
    · rename_i h
      exact bf_bind (bf_when hs (bf_writeIndent hs)) fun _ s hs _ => bf_bind (bf_writeChar hs (nb h)) fun _ s hs _ => bf_bind (bf_setIndention hs) fun _ s hs _ => ih hs

theorem bf_writeLiteral {X : Str} (hs : J s) : BF b (writeLiteral X) T s :=
  bf_bind (bf_ind hs (by decide)) fun _ s hs _ => bf_bind (bf_blockHints hs) fun _ s hs _ => bf_bind (bf_putBreak hs) fun _ s hs _ =>
    bf_bind (bf_setWI hs) fun _ s hs _ => bf_literalLoop hs

theorem bf_foldedLoop {X : Str} {x y : Bool} (hs : J s) : BF b (foldedLoop X x y) T s := by
  induction X generalizing s x y with
  | nil => exact bf_unit hs
  | cons c X ih =>
    unfold foldedLoop
    split
    · exact bf_bind (bf_when hs (bf_putBreak hs)) fun _ s hs _ => bf_bind (bf_writeBreak hs) fun _ s hs _ => bf_bind (bf_setIndention hs) fun _ s hs _ => ih hs
    · rename_i h
      refine bf_bind (bf_when hs (bf_writeIndent hs)) fun _ s hs _ => ?_
      dsimp only
      refine bf_get rfl ?_
      split
      · exact bf_bind (bf_writeIndent hs) fun _ s hs _ => bf_bind (bf_setIndention hs) fun _ s hs _ => ih hs
      · exact bf_bind (bf_writeChar hs (nb h)) fun _ s hs _ => bf_bind (bf_setIndention hs) fun _ s hs _ => ih hs

theorem bf_writeFolded {X : Str} (hs : J s) : BF b (writeFolded X) T s :=
  bf_bind (bf_ind hs (by decide)) fun _ s hs _ => bf_bind (bf_blockHints hs) fun _ s hs _ => bf_bind (bf_putBreak hs) fun _ s hs _ =>
    bf_bind (bf_setWI hs) fun _ s hs _ => bf_foldedLoop hs

end Yaml.Eb
