import Verif.Lib.Docs
import Verif.Lib.Aliases
import Verif.Spec.Directives

/-
The scanner behind a document end marker continues on the next line as a fresh one.
-/

namespace Yaml
open Scanner Spec
set_option linter.unusedSimpArgs false
set_option linter.unusedVariables false

namespace Dx

theorem M_bind_assoc {Op : Type} {Ans : Op → Type} {S α β γ : Type} (m : M Op Ans S α) (f : α → M Op Ans S β) (g : β → M Op Ans S γ) :
    ((m >>= f) >>= g) = (m >>= fun a => f a >>= g) := by
  funext s
  show ((m s).bind (M.cont f)).bind (M.cont g) = (m s).bind (M.cont fun a => f a >>= g)
  rw [Free.bind_assoc]
  congr 1
  funext ⟨a, s'⟩
  cases a <;> rfl

theorem M_pure_bind {Op : Type} {Ans : Op → Type} {S α β : Type} (a : α) (f : α → M Op Ans S β) : ((pure a : M Op Ans S α) >>= f) = f a := rfl

/-- What `fetch_next_token` does after `scan_to_next_token`. -/
def afterGap (F : Nat) : Scan Unit := do
  staleSimpleKeys
  unrollIndent (← getMark).column
  cache 4
  let c0 ← at_ 0
  let c1 ← at_ 1
  let c2 ← at_ 2
  let c3 ← at_ 3
  let s ← M.get
  dispatch F s.mark s.flowLevel c0 c1 c2 c3

/-- The body of the loop of `fetch_more_tokens`. -/
def moreBody (F : Nat) : Unit → Scan (Unit ⊕ Unit) := fun _ => do
    if (← M.get).tokens.isEmpty then do
      fetchNextToken F
      pure (.inl ())
    else do
      staleSimpleKeys
      if keyPending (← M.get) then do
        fetchNextToken F
        pure (.inl ())
      else pure (.inr ())

/-- The last part of `scan`. -/
def takeOne : Scan Token := do
    match (← M.get).tokens with
    | [] => M.panic .scanNoToken
    | t :: ts => do
      M.modify fun s => { s with
        tokens := ts, tokenAvailable := false, tokensParsed := s.tokensParsed + 1,
        streamEndProduced := s.streamEndProduced || (t.data == .streamEnd) }
      pure t

/-- What `scan` does after the first `scan_to_next_token`. -/
def restOf (n : Nat) : Scan Token := do
  afterGap (n + 1)
  M.loop n (moreBody (n + 1)) ()
  M.modify fun s => { s with tokenAvailable := true }
  takeOne

theorem scan_first {n : Nat} {s : SState} (h1 : s.streamEndProduced = false) (h2 : s.tokenAvailable = false) (h3 : s.tokens = [])
    (h4 : s.streamStartProduced = true) (t : Txt) :
    execT (Scanner.scan (n + 1) s) t = execT (((scanToNextToken (n + 1)) >>= fun _ => restOf n) s) t := by
  have e1 : Scanner.scan (n + 1) s = (if s.streamEndProduced then (pure ⟨.streamEnd, Mark.zero, Mark.zero⟩ : Scan Token) else
      (M.when (!s.tokenAvailable) (fetchMoreTokens (n + 1)) >>= fun _ => takeOne)) s := rfl
  rw [e1, h1, h2]
  have e2 : (M.when (!false) (fetchMoreTokens (n + 1)) : Scan Unit) = (M.loop (n + 1) (moreBody (n + 1)) () >>= fun _ => M.modify fun s => { s with tokenAvailable := true }) := rfl
  rw [if_neg (by simp), e2, M.loop, M_bind_assoc, M_bind_assoc]
  have e3 : moreBody (n + 1) () s = (if s.tokens.isEmpty then (do
      fetchNextToken (n + 1)
      pure (.inl ()) : Scan (Unit ⊕ Unit))
    else do
      staleSimpleKeys
      if keyPending (← M.get) then do
        fetchNextToken (n + 1)
        pure (.inl ())
      else pure (.inr ())) s := rfl
  have e4 : ∀ (f : Unit ⊕ Unit → Scan Token), (moreBody (n + 1) () >>= f) s = (fetchNextToken (n + 1) >>= fun _ => f (.inl ())) s := by
    intro f
    show (moreBody (n + 1) () s).bind (M.cont f) = _
    rw [e3, h3, if_pos (by rfl)]
    show ((fetchNextToken (n + 1) >>= fun _ => (pure (.inl ()) : Scan (Unit ⊕ Unit))) >>= f) s = _
    rw [M_bind_assoc]
    rfl
  rw [e4]
  have e5 : ∀ (f : Unit → Scan Token), execT ((fetchNextToken (n + 1) >>= f) s) t = execT (((scanToNextToken (n + 1) >>= fun _ => afterGap (n + 1)) >>= f) s) t := by
    intro f
    have : fetchNextToken (n + 1) = (cache 1 >>= fun _ => M.get >>= fun s => if !s.streamStartProduced then fetchStreamStart else (scanToNextToken (n + 1) >>= fun _ => afterGap (n + 1))) := rfl
    rw [this, M_bind_assoc]
    show execT ((M.get >>= fun s => if !s.streamStartProduced then fetchStreamStart else (scanToNextToken (n + 1) >>= fun _ => afterGap (n + 1))) s |>.bind (M.cont f)) t = _
    show execT (((if !s.streamStartProduced then fetchStreamStart else (scanToNextToken (n + 1) >>= fun _ => afterGap (n + 1))) s).bind (M.cont f)) t = _
    rw [h4]
    rfl
  rw [e5]
  unfold restOf
  simp only [M_bind_assoc]

theorem loop_succ {σ α : Type} {body : σ → Scan (σ ⊕ α)} (n : Nat) (x : σ) (s : SState) :
    M.loop (n + 1) body x s = (body x s).bind (M.cont (Sum.elim (M.loop n body) pure)) := by
  rw [M.loop]
  show (body x s).bind (M.cont _) = _
  congr 1
  congr 1
  funext r
  cases r <;> rfl

theorem loop_fuel {σ α : Type} {body : σ → Scan (σ ⊕ α)} : ∀ (n : Nat) (x : σ) (s : SState) (t : Txt),
    (execT (M.loop n body x s) t).1.1 ≠ .fuel → execT (M.loop (n + 1) body x s) t = execT (M.loop n body x s) t := by
  intro n
  induction n with
  | zero => intro x s t h; exact absurd rfl h
  | succ n ih =>
    intro x s t h
    rw [loop_succ, Tw.execT_bind] at h
    rw [loop_succ (n + 1), loop_succ n, Tw.execT_bind, Tw.execT_bind]
    revert h
    generalize execT (body x s) t = q
    obtain ⟨⟨o, s'⟩, t'⟩ := q
    cases o with
    | ok r =>
      cases r with
      | inl x' => exact fun h => ih x' s' t' h
      | inr a => exact fun _ => rfl
    | _ => exact fun _ => rfl

/-- The body of the loop of `scan_to_next_token`. -/
def gapBody (F : Nat) : Unit → Scan (Unit ⊕ Unit) := fun _ => do
    cache 1
    let c ← at_ 0
    let s ← M.get
    M.when (s.mark.column == 0 && isBomO c) skipChar
    cache 1
    let s ← M.get
    skipWhile F fun c => c == some ' ' || ((s.flowLevel != 0 || !s.simpleKeyAllowed) && c == some '\t')
    let c ← at_ 0
    M.when (c == some '#') (skipWhile F fun c => !isBreakzO c)
    let c ← at_ 0
    if !isBreakO c then pure (.inr ())
    else do
      cache 2
      skipLineBreak
      M.when (s.flowLevel == 0) (allowSimpleKey true)
      pure (.inl ())

theorem break_head {t B : Str} {v : Char} (h : BreakAt t v B) : ∃ c r, t = c :: r ∧ isBreak c = true := by
  cases h with
  | crlf t => exact ⟨_, _, rfl, by decide⟩
  | one c t hb hc => exact ⟨c, _, rfl, by rw [← isLineBreak_eq]; exact hb⟩

theorem when_false {m : Scan Unit} : M.when false m = pure () := rfl
theorem when_neg {c : Bool} {m : Scan Unit} (h : c = false) : M.when c m = pure () := by rw [h]; rfl
theorem when_pos {c : Bool} {m : Scan Unit} (h : c = true) : M.when c m = m := by rw [h]; rfl

theorem line_rest {w : Str} (h : LineRest w) :
    ∃ b c, w = b ++ c ∧ (∀ x ∈ b, x = ' ' ∨ x = '\t') ∧ (c = [] ∨ ∃ c', c = '#' :: c' ∧ ∀ x ∈ c', isLineBreak x = false) := by
  cases h with
  | blanks h => exact ⟨w, [], by simp, h, Or.inl rfl⟩
  | @comment sp com h hc => exact ⟨sp, '#' :: com, rfl, h.2, Or.inr ⟨com, rfl, hc⟩⟩

/-- The first pass of the loop takes the rest of the line. -/
theorem gap_line {F : Nat} {s : SState} {w t B : Str} {v : Char} {e : Encoding} (hw : LineRest w) (hb : BreakAt t v B) (hfl : s.flowLevel = 0)
    (hska : s.simpleKeyAllowed = false) (hF : w.length < F) : ∃ m', m'.line = s.mark.line + 1 ∧ m'.column = 0 ∧ s.mark.index ≤ m'.index ∧
      execT (gapBody F () s) ⟨w ++ t, e⟩ = ((.ok (.inl ()), { s with mark := m', simpleKeyAllowed := true }), ⟨B, e⟩) := by
  obtain ⟨b, c, rfl, hbl, hc⟩ := line_rest hw
  obtain ⟨x, r, ht, hx⟩ := break_head hb
  have hc' : ∀ y ∈ c, isBreak y = false := by
    intro y hy
    rcases hc with rfl | ⟨c', rfl, hc⟩
    · simp at hy
    · rcases List.mem_cons.1 hy with rfl | hy
      · decide
      · rw [← isLineBreak_eq]; exact hc y hy
  have hbom : isBomO ((b ++ c ++ t)[0]?) = false := by
    cases b with
    | cons y b =>
      rcases hbl y (by simp) with rfl | rfl <;> simp [isBomO]
    | nil =>
      rcases hc with rfl | ⟨c', rfl, _⟩
      · rw [ht]
        rcases Tw.break_cases hx with rfl | rfl | rfl | rfl | rfl <;> simp [isBomO]
      · simp [isBomO]
  have hw : M.wp stepT (fun _ => False) (fun _ _ _ => False) (gapBody F ()) (fun a s' t' => a = .inl () ∧
      (∃ m', m'.line = s.mark.line + 1 ∧ m'.column = 0 ∧ s.mark.index ≤ m'.index ∧ s' = { s with mark := m', simpleKeyAllowed := true }) ∧ t' = ⟨B, e⟩) s ⟨b ++ c ++ t, e⟩ := by
    unfold gapBody
    simp only [M.wp_bind, wpT_cache, wpT_at, M.wp_get, hbom, Bool.and_false, when_false, M.wp_pure]
    rw [List.append_assoc]
    simp only [List.length_append] at hF
    refine wpT_skipWhile ?_ ?_ (by omega) fun s1 h1 => ?_
    · intro y hy
      rcases hbl y hy with rfl | rfl
      · exact ⟨by simp, by decide⟩
      · exact ⟨by simp [hska], by decide⟩
    · rcases hc with rfl | ⟨c', rfl, _⟩
      · rw [ht]; rcases Tw.break_cases hx with rfl | rfl | rfl | rfl | rfl <;> simp
      · simp
    have fin : ∀ s2, Mv s1 (c ++ t) s2 t → M.wp stepT (fun _ => False) (fun _ _ _ => False) (if (!isBreakO t[0]?) = true then (pure (Sum.inr ()) : Scan (Unit ⊕ Unit))
        else do
          cache 2
          skipLineBreak
          M.when (s.flowLevel == 0) (allowSimpleKey true)
          pure (Sum.inl ())) (fun a s' t' => a = .inl () ∧
      (∃ m', m'.line = s.mark.line + 1 ∧ m'.column = 0 ∧ s.mark.index ≤ m'.index ∧ s' = { s with mark := m', simpleKeyAllowed := true }) ∧ t' = ⟨B, e⟩) s2 ⟨t, e⟩ := by
      intro s2 h2
      have hl2 : s2.mark.line = s1.mark.line := by rw [h2.line hc']
      have hl1 : s1.mark.line = s.mark.line := by rw [h1.line (by intro y hy; rcases hbl y hy with rfl | rfl <;> decide)]
      rw [if_neg (by rw [ht]; simp [isBreakO, hx])]
      simp only [M.wp_bind, wpT_cache]
      refine wpT_skipLineBreak hb fun s3 h3 h4 h5 => ?_
      rw [hfl]
      refine ⟨rfl, ⟨s3.mark, by omega, h4, ?_, ?_⟩, rfl⟩
      · have := (Adv.le (h1.trans (h2.trans h3)).2).1; exact this
      · have := ((h1.trans h2).trans h3).1
        rw [this, hfl]
    rcases hc with rfl | ⟨c', rfl, _⟩
    · rw [when_neg (by rw [ht]; rcases Tw.break_cases hx with rfl | rfl | rfl | rfl | rfl <;> simp)]
      exact fin s1 (Mv.refl _ _)
    · rw [when_pos (by simp)]
      refine wpT_skipWhile ?_ ?_ (by omega) fun s2 h2 => ?_
      · intro y hy
        have := hc' y hy
        exact ⟨by simp [isBreakzO, isBreakO, this], this⟩
      · rw [ht]; simp [isBreakzO, isBreakO, hx]
      · exact fin s2 h2
  unfold M.wp at hw
  rw [wp_stepT] at hw
  revert hw
  generalize execT (gapBody F () s) ⟨b ++ c ++ t, e⟩ = q
  obtain ⟨⟨o, s'⟩, t'⟩ := q
  intro hw
  cases o with
  | ok a =>
    obtain ⟨h1, ⟨m', h2, h3, h4, h5⟩, h6⟩ := hw
    dsimp only at h1 h5 h6
    subst h1 h5 h6
    exact ⟨m', h2, h3, h4, rfl⟩
  | _ => exact hw.elim

/-- The state of the scanner on the next line. -/
def nextLine (m : Mark) (s : SState) : SState := { s with mark := m, simpleKeyAllowed := true }

/-- From behind the document end marker, `scan` gives what it gives from the beginning of the next line. -/
theorem scan_line {n : Nat} {s : SState} {w t B : Str} {v : Char} {e : Encoding} (hw : LineRest w) (hb : BreakAt t v B) (hs : SOpen s) (ht : s.tokens = [])
    (hfl : s.flowLevel = 0) (hska : s.simpleKeyAllowed = false) (hF : w.length < n + 1) (hne : (execT (Scanner.scan (n + 1) s) ⟨w ++ t, e⟩).1.1 ≠ .fuel) :
    ∃ m', m'.line = s.mark.line + 1 ∧ m'.column = 0 ∧ execT (Scanner.scan (n + 1) s) ⟨w ++ t, e⟩ = execT (Scanner.scan (n + 1) (nextLine m' s)) ⟨B, e⟩ := by
  obtain ⟨m', h1, h2, h3, h4⟩ := gap_line (e := e) hw hb hfl hska hF
  refine ⟨m', h1, h2, ?_⟩
  have e1 : scanToNextToken (n + 1) = M.loop (n + 1) (gapBody (n + 1)) () := rfl
  rw [scan_first hs.notProduced hs.notAvail ht hs.started] at hne ⊢
  rw [scan_first (s := nextLine m' s) hs.notProduced hs.notAvail ht hs.started]
  have e2 : ∀ (s : SState) (x : Txt), execT ((scanToNextToken (n + 1) >>= fun _ => restOf n) s) x =
      execT (M.cont (fun _ => restOf n) (execT (scanToNextToken (n + 1) s) x).1) (execT (scanToNextToken (n + 1) s) x).2 :=
    fun s x => Tw.execT_bind _ _ _
  rw [e2] at hne
  rw [e2, e2]
  have e3 : execT (scanToNextToken (n + 1) s) ⟨w ++ t, e⟩ = execT (M.loop n (gapBody (n + 1)) () (nextLine m' s)) ⟨B, e⟩ := by
    rw [e1, loop_succ, Tw.execT_bind, h4]
    rfl
  have e4 : (execT (M.loop n (gapBody (n + 1)) () (nextLine m' s)) ⟨B, e⟩).1.1 ≠ .fuel := by
    intro hf
    rw [e3] at hne
    generalize execT (M.loop n (gapBody (n + 1)) () (nextLine m' s)) ⟨B, e⟩ = q at hne hf
    obtain ⟨⟨o, s'⟩, t'⟩ := q
    dsimp only at hf
    subst hf
    exact hne rfl
  rw [e3, e1, loop_fuel n () _ _ e4]

end Dx
end Yaml
