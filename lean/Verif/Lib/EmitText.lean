import Verif.Spec.Unbuffered
import Verif.Lib.Quoted
import Verif.Lib.Emit

/-
Running emitter functions with a perfect, unbuffered writer: which text they write.
-/

namespace Yaml.Emitter
open Yaml Spec
set_option linter.unusedSimpArgs false
set_option linter.unusedVariables false

variable {α β : Type}

theorem execText_bind (t : Free EmitOp EmitAns α) (f : α → Free EmitOp EmitAns β) (W : Str) :
    execText (t.bind f) W = execText (f (execText t W).1) (execText t W).2 := by
  induction t generalizing W with
  | ret a => rfl
  | op o k ih => exact ih _ _

/-- From `s`, `m` returns `a`, leaves `s'` and writes `w`. -/
def Writes (m : Emit α) (s : EState) (a : α) (s' : EState) (w : Str) : Prop :=
  ∀ W, execText (m s) W = ((.ok a, s'), W ++ w)

namespace Writes
variable {m : Emit α} {f : α → Emit β} {s s' s'' : EState} {a : α} {b : β} {w w' : Str}

theorem pure (a : α) (s : EState) : Writes (pure a : Emit α) s a s [] := fun W => by
  rw [List.append_nil]; rfl
theorem get (s : EState) : Writes (M.get : Emit EState) s s s [] := fun W => by
  rw [List.append_nil]; rfl
theorem modify (f : EState → EState) (s : EState) : Writes (M.modify f : Emit Unit) s () (f s) [] := fun W => by
  rw [List.append_nil]; rfl

theorem bind (h : Writes m s a s' w) (h' : Writes (f a) s' b s'' w') : Writes (m >>= f) s b s'' (w ++ w') := by
  intro W
  show execText ((m s).bind (M.cont f)) W = _
  rw [execText_bind, h W]
  show execText (f a s') (W ++ w) = _
  rw [h' (W ++ w), List.append_assoc]

theorem bind0 (h : Writes m s a s' []) (h' : Writes (f a) s' b s'' w') : Writes (m >>= f) s b s'' w' := h.bind h'

theorem bind_get {f : EState → Emit β} (h' : Writes (f s) s b s'' w') : Writes (M.get >>= f) s b s'' w' := (get s).bind h'
theorem bind_modify {g : EState → EState} {f : Unit → Emit β} (h' : Writes (f ()) (g s) b s'' w') : Writes (M.modify g >>= f) s b s'' w' :=
  (modify g s).bind h'

theorem when_true {c : Bool} {m : Emit Unit} (hc : c = true) (h : Writes m s () s' w) : Writes (M.when c m) s () s' w := by
  subst hc; exact h
theorem when_false {c : Bool} {m : Emit Unit} (hc : c = false) : Writes (M.when c m) s () s [] := by
  subst hc; exact pure () s

theorem det {a' : α} (h : Writes m s a s' w) (h' : Writes m s a' s'' w') : a = a' ∧ s' = s'' ∧ w = w' := by
  have h1 := h []
  have h2 := h' []
  rw [h1] at h2
  simp at h2
  exact ⟨h2.1.1, h2.1.2, h2.2⟩

theorem cast (h : Writes m s a s' w) (hs : s' = s'') (hw : w = w') : Writes m s a s'' w' := by subst hs; subst hw; exact h

end Writes

/-! ### Columns -/

/-- The column after writing a text. -/
def colAfter : Int → Str → Int
  | c, [] => c
  | c, x :: r => if isBreak x then colAfter 0 r else colAfter (c + 1) r

theorem colAfter_append (c : Int) (a b : Str) : colAfter c (a ++ b) = colAfter (colAfter c a) b := by
  induction a generalizing c with
  | nil => rfl
  | cons x a ih => simp only [List.cons_append, colAfter]; split <;> exact ih _

theorem colAfter_plain (c : Int) (a : Str) (h : ∀ x ∈ a, isBreak x = false) : colAfter c a = c + a.length := by
  induction a generalizing c with
  | nil => simp [colAfter]
  | cons x a ih =>
    simp only [colAfter, h x List.mem_cons_self, Bool.false_eq_true, if_false]
    rw [ih _ fun y hy => h y (List.mem_cons_of_mem _ hy)]
    simp; omega

theorem colAfter_advance (m : Mark) (t : Str) : ((Spec.advance m t).column : Int) = colAfter m.column t := by
  induction hn : t.length using Nat.strongRecOn generalizing m t with
  | _ n ih =>
    cases t with
    | nil => rfl
    | cons c r =>
      by_cases hc : c = '\r' ∧ r.head? = some '\n'
      · obtain ⟨rfl, h⟩ := hc
        cases r with
        | nil => simp at h
        | cons d r =>
          simp at h; subst h
          rw [advance_crlf, ih r.length (by simp at hn; omega) _ _ rfl]
          simp [colAfter, isBreak, Scanner.newlineMark]
      · rw [advance_cons _ _ _ hc, ih r.length (by simp at hn; omega) _ _ rfl]
        simp only [colAfter]
        split <;> simp [Scanner.newlineMark, Scanner.bumpMark]

/-- `s'` is `s` after writing `w`: only position and whitespace flags have changed. -/
structure Wrote (s : EState) (w : Str) (s' : EState) : Prop where
  frame : s' = { s with line := s'.line, column := s'.column, whitespace := s'.whitespace, indention := s'.indention }
  col : s'.column = colAfter s.column w

namespace Wrote
variable {s s' s'' : EState} {w w' : Str}

theorem refl (s : EState) : Wrote s [] s := ⟨rfl, rfl⟩
theorem trans (h : Wrote s w s') (h' : Wrote s' w' s'') : Wrote s (w ++ w') s'' := by
  refine ⟨?_, ?_⟩
  · rw [h'.frame]; rw [h.frame]
  · rw [h'.col, h.col, colAfter_append]
theorem indent (h : Wrote s w s') : s'.indent = s.indent := by rw [h.frame]
theorem lineBreak (h : Wrote s w s') : s'.lineBreak = s.lineBreak := by rw [h.frame]
theorem bestWidth (h : Wrote s w s') : s'.bestWidth = s.bestWidth := by rw [h.frame]
theorem bestIndent (h : Wrote s w s') : s'.bestIndent = s.bestIndent := by rw [h.frame]
theorem unicode (h : Wrote s w s') : s'.unicode = s.unicode := by rw [h.frame]
theorem flowLevel (h : Wrote s w s') : s'.flowLevel = s.flowLevel := by rw [h.frame]
theorem openEnded (h : Wrote s w s') : s'.openEnded = s.openEnded := by rw [h.frame]
theorem setWI (h : Wrote s w s') (a b : Bool) : Wrote s w { s' with whitespace := a, indention := b } := by
  refine ⟨?_, h.col⟩
  simp only []
  rw [h.frame]
theorem setI (h : Wrote s w s') (b : Bool) : Wrote s w { s' with indention := b } := by
  refine ⟨?_, h.col⟩
  simp only []
  rw [h.frame]
end Wrote

/-! ### Primitives -/

theorem writes_push (c : Char) (s : EState) : Writes (push c) s () s [c] := fun W => rfl

theorem writes_pushAll (t : Str) (s : EState) : Writes (pushAll t) s () s t := by
  induction t with
  | nil => exact Writes.pure () s
  | cons c t ih => exact (writes_push c s).bind ih

theorem writes_flushIfNeeded (s : EState) : Writes flushIfNeeded s () s [] := fun W => by
  rw [List.append_nil]; rfl
theorem writes_flush (s : EState) : Writes Emitter.flush s () s [] := fun W => by
  rw [List.append_nil]; rfl

theorem writes_put (c : Char) (s : EState) : Writes (put c) s () { s with column := s.column + 1 } [c] :=
  (writes_flushIfNeeded s).bind0 ((writes_push c s).bind (Writes.modify _ s))

theorem writes_writeChar (c : Char) (s : EState) : Writes (writeChar c) s () { s with column := s.column + 1 } [c] :=
  (writes_flushIfNeeded s).bind0 ((writes_push c s).bind (Writes.modify _ s))

theorem writes_putBreak (s : EState) : Writes putBreak s () { s with column := 0, line := s.line + 1 } (breakChars s.lineBreak) := by
  refine (writes_flushIfNeeded s).bind0 (Writes.bind_get ?_)
  have := (writes_pushAll (breakChars s.lineBreak) s).bind (f := fun _ => nextLine) (Writes.modify _ s)
  rwa [List.append_nil] at this

theorem writes_writeStr (t : Str) (s : EState) : Writes (writeStr t) s () { s with column := s.column + t.length } t := by
  refine Writes.bind_get (Writes.bind0 (a := .ok ()) (s' := s) (fun W => by rw [List.append_nil]; rfl) ?_)
  refine Writes.bind0 (a := ()) (s' := s) (fun W => by rw [List.append_nil]; rfl) ?_
  exact Writes.bind_modify (writes_pushAll t _)

theorem writes_putAll (t : Str) (s : EState) : Writes (putAll t) s () { s with column := s.column + t.length } t := by
  induction t generalizing s with
  | nil => exact (Writes.pure () s).cast (by simp) rfl
  | cons c t ih =>
    exact ((writes_put c s).bind (ih _)).cast (by simp; omega) rfl

theorem writes_putSpaces (n : Nat) (s : EState) : Writes (putSpaces n) s () { s with column := s.column + n } (List.replicate n ' ') := by
  induction n generalizing s with
  | zero => exact (Writes.pure () s).cast (by simp) rfl
  | succ n ih =>
    refine ((writes_put ' ' s).bind (ih _)).cast (by simp; omega) rfl

/-- A written line break is read as a line feed, unless a CR is followed by a LF. -/
theorem breakAt_chars {b : Break} (h : b ≠ .any) {t : Str} (ht : b ≠ .cr ∨ t.head? ≠ some '\n') : Spec.BreakAt (breakChars b ++ t) '\n' t := by
  cases b with
  | any => exact absurd rfl h
  | cr => exact Spec.BreakAt.one '\r' t (by decide) (by simpa using ht)
  | ln => exact Spec.BreakAt.one '\n' t (by decide) (by simp)
  | crln => exact Spec.BreakAt.crlf t

/-- The text `write_break` writes. -/
def breakText (b : Break) (c : Char) : Str := if c = '\n' then breakChars b else [c]

theorem writes_writeBreak (c : Char) (s : EState) :
    Writes (writeBreak c) s () { s with column := 0, line := s.line + 1 } (breakText s.lineBreak c) := by
  unfold writeBreak breakText
  refine (writes_flushIfNeeded s).bind0 ?_
  by_cases hc : c = '\n'
  · rw [if_pos (by simpa using hc), if_pos hc]; exact writes_putBreak s
  · rw [if_neg (by simpa using hc), if_neg hc]
    have := (writes_writeChar c s).bind (f := fun _ => nextLine) (Writes.modify _ _)
    exact this

/-- A written line break denotes itself. -/
theorem breakAt_text {b : Break} (h : b ≠ .any) {c : Char} (hc : c = '\n' ∨ c = '\u2028' ∨ c = '\u2029') {t : Str}
    (ht : b ≠ .cr ∨ t.head? ≠ some '\n') : Spec.BreakAt (breakText b c ++ t) c t := by
  unfold breakText
  rcases hc with rfl | rfl | rfl
  · exact breakAt_chars h ht
  · exact Spec.BreakAt.one '\u2028' t (by decide) (by simp)
  · exact Spec.BreakAt.one '\u2029' t (by decide) (by simp)

theorem breakText_head {b : Break} (h : b ≠ .any) {c : Char} (hc : c = '\n' ∨ c = '\u2028' ∨ c = '\u2029') (t : Str) :
    b ≠ .cr ∨ (breakText b c ++ t).head? ≠ some '\n' := by
  unfold breakText
  rcases hc with rfl | rfl | rfl
  · cases b <;> simp [breakChars] at h ⊢
  · right; simp
  · right; simp

theorem colAfter_break {b : Break} (h : b ≠ .any) (c : Int) : colAfter c (breakChars b) = 0 := by
  cases b <;> first | exact absurd rfl h | rfl

/-- Whether `write_indent` starts a new line. -/
def breaksLine (s : EState) : Bool :=
  !s.indention || decide (s.column > (if s.indent ≥ 0 then s.indent else 0))
    || (decide (s.column = (if s.indent ≥ 0 then s.indent else 0)) && !s.whitespace)

/-- `write_indent` starting a new line. -/
theorem writes_writeIndent_break {s : EState} (hb : breaksLine s = true) :
    Writes writeIndent s () { s with column := (if s.indent ≥ 0 then s.indent else 0), line := s.line + 1, whitespace := true, indention := true }
      (breakChars s.lineBreak ++ List.replicate s.indent.toNat ' ') := by
  unfold writeIndent
  refine Writes.bind_get ?_
  refine (Writes.when_true hb (writes_putBreak s)).bind (Writes.bind_get ?_)
  have h2 := (writes_putSpaces ((if s.indent ≥ 0 then s.indent else 0) - 0).toNat { s with column := 0, line := s.line + 1 }).bind
    (f := fun _ => setWI true true) (Writes.modify _ _)
  rw [List.append_nil] at h2
  refine h2.cast ?_ ?_
  · simp only []
    congr 1
    split <;> omega
  · congr 1
    split <;> omega

/-- `write_indent` on the current line. -/
theorem writes_writeIndent_stay {s : EState} (hb : breaksLine s = false) :
    Writes writeIndent s () { s with column := (if s.indent ≥ 0 then s.indent else 0), whitespace := true, indention := true }
      (List.replicate ((if s.indent ≥ 0 then s.indent else 0) - s.column).toNat ' ') := by
  unfold writeIndent
  refine Writes.bind_get ?_
  refine (Writes.when_false hb).bind0 (Writes.bind_get ?_)
  have h2 := (writes_putSpaces ((if s.indent ≥ 0 then s.indent else 0) - s.column).toNat s).bind
    (f := fun _ => setWI true true) (Writes.modify _ _)
  rw [List.append_nil] at h2
  refine h2.cast ?_ rfl
  simp only []
  congr 1
  simp only [breaksLine, Bool.or_eq_false_iff, decide_eq_false_iff_not] at hb
  have := hb.1.2
  split at this <;> split <;> omega

/-- `write_indicator`. -/
theorem writes_writeIndicator (t : Str) (n w i : Bool) (s : EState) :
    Writes (writeIndicator t n w i) s ()
      { s with column := s.column + (if n && !s.whitespace then 1 else 0) + t.length, whitespace := w, indention := s.indention && i }
      ((if n && !s.whitespace then [' '] else []) ++ t) := by
  unfold writeIndicator
  refine Writes.bind_get ?_
  cases h : n && !s.whitespace with
  | true =>
    refine (Writes.when_true rfl (writes_put ' ' s)).bind ?_
    have := (writes_writeStr t { s with column := s.column + 1 }).bind (f := fun _ => M.modify fun s => { s with whitespace := w, indention := s.indention && i })
      (Writes.modify _ _)
    rw [List.append_nil] at this
    exact this.cast (by simp) rfl
  | false =>
    refine (Writes.when_false rfl).bind ?_
    have := (writes_writeStr t s).bind (f := fun _ => M.modify fun s => { s with whitespace := w, indention := s.indention && i })
      (Writes.modify _ _)
    rw [List.append_nil] at this
    exact this.cast (by simp) rfl

theorem colAfter_spaces (c : Int) (n : Nat) : colAfter c (List.replicate n ' ') = c + n := by
  rw [colAfter_plain _ _ (fun x hx => by rw [List.eq_of_mem_replicate hx]; decide)]; simp

theorem wrote_indent_break {s : EState} (hl : s.lineBreak ≠ .any) :
    Wrote s (breakChars s.lineBreak ++ List.replicate s.indent.toNat ' ')
      { s with column := (if s.indent ≥ 0 then s.indent else 0), line := s.line + 1, whitespace := true, indention := true } := by
  refine ⟨rfl, ?_⟩
  rw [colAfter_append, colAfter_break hl, colAfter_spaces]
  simp only []; split <;> omega

theorem wrote_char {c : Char} (hc : isBreak c = false) (s : EState) : Wrote s [c] { s with column := s.column + 1 } :=
  ⟨rfl, by simp [colAfter, hc]⟩

theorem wrote_str {t : Str} (h : ∀ c ∈ t, isBreak c = false) (s : EState) : Wrote s t { s with column := s.column + t.length } :=
  ⟨rfl, by simp [colAfter_plain _ _ h]⟩

end Yaml.Emitter
