import Verif.Lib.Twin3

/-
Two runs of the scanner side by side: simple keys, indentation, the fetchers and `scan`.
-/

namespace Yaml
open Scanner
set_option linter.unusedSimpArgs false
set_option linter.unusedVariables false

namespace Tw

section
variable {L K : Nat} {s1 s2 : SState} {t1 t2 : Txt} {F : Nat}

theorem Ky.off {m m' : Mark} {k k' : SimpleKey} (h : Ky L K m m' k k') :
    Ky L K m m' { k with possible := false } { k' with possible := false } :=
  ⟨rfl, fun h => absurd h (by simp), fun h => absurd h (by simp), fun h => absurd h (by simp), fun h => absurd h (by simp), fun h => absurd h (by simp)⟩

theorem Ky.both {m m' : Mark} {k k' : SimpleKey} (h : Ky L K m m' k k') : (k.possible && k.required) = (k'.possible && k'.required) := by
  rw [← h.possible]
  cases hp : k.possible with
  | false => rfl
  | true => rw [h.required hp]

theorem Ky.empty {m m' : Mark} : Ky L K m m' emptyKey emptyKey :=
  ⟨rfl, fun h => absurd h (by decide), fun h => absurd h (by decide), fun h => absurd h (by decide), fun h => absurd h (by decide), fun h => absurd h (by decide)⟩

theorem St.keys_set (h : St L K s1 t1 s2 t2) {ks ks' : List SimpleKey} (hk : Zip (Ky L K s1.mark s2.mark) ks ks') :
    St L K { s1 with simpleKeys := ks } t1 { s2 with simpleKeys := ks' } t2 :=
  ⟨h.text, h.enc, h.mark, h.ss, h.se, h.fl, h.toks, h.tp, h.ta, h.is, h.i, h.ska, hk⟩

theorem St.allow' (h : St L K s1 t1 s2 t2) {b b' : Bool} (hb : b = b') :
    St L K { s1 with simpleKeyAllowed := b } t1 { s2 with simpleKeyAllowed := b' } t2 := by
  subst hb; exact h.allow b

theorem stale_tw {m m' : Mark} (hm : Mk L m m') {ks ks' : List SimpleKey} (h : Zip (Ky L K m m') ks ks') :
    Zip (Ky L K m m') (staleList m ks).1 (staleList m' ks').1 ∧
    ((staleList m ks).2 = none ∧ (staleList m' ks').2 = none ∨
      ∃ a b, (staleList m ks).2 = some a ∧ (staleList m' ks').2 = some b ∧ Mk L a b) := by
  induction h with
  | nil => exact ⟨.nil, Or.inl ⟨rfl, rfl⟩⟩
  | @cons k k' ks ks' hk hs ih =>
    have hc : (k.possible && (decide (k.mark.line < m.line) || decide (k.mark.index + 1024 < m.index))) =
        (k'.possible && (decide (k'.mark.line < m'.line) || decide (k'.mark.index + 1024 < m'.index))) := by
      rw [← hk.possible]
      cases hp : k.possible with
      | false => rfl
      | true =>
        have a1 := hk.mark hp
        have a2 := hk.line hp
        have a3 := hk.index hp
        have b1 := hm.1
        have b2 := a1.1
        rw [Bool.eq_iff_iff]
        simp only [Bool.true_and, Bool.or_eq_true, decide_eq_true_eq]
        by_cases hl : k.mark.line = m.line
        · have := a3 hl; omega
        · omega
    unfold staleList
    rw [hc]
    split
    · rename_i hx
      have hpo : k.possible = true := by
        rw [hk.possible]
        simp only [Bool.and_eq_true] at hx
        exact hx.1
      rw [hk.required hpo]
      split
      · refine ⟨.cons hk hs, Or.inr ⟨_, _, rfl, rfl, hk.mark ?_⟩⟩
        rw [hk.possible]
        simp only [Bool.and_eq_true] at hx
        exact hx.1
      · exact ⟨.cons (by have := hk.off; rw [hk.required hpo] at *; exact this) ih.1, ih.2⟩
    · exact ⟨.cons hk ih.1, ih.2⟩

theorem do_stale (h : St L K s1 t1 s2 t2) : Do L K staleSimpleKeys staleSimpleKeys Eq s1 t1 s2 t2 := by
  unfold staleSimpleKeys
  tws
  obtain ⟨hz, hr⟩ := stale_tw h.mark h.keys.reverse
  have h' := h.keys_set hz.reverse
  rcases hr with ⟨r1, r2⟩ | ⟨a, b, r1, r2, hab⟩
  · rw [r1, r2]
    exact ⟨rfl, h'⟩
  · rw [r1, r2]
    exact do_err h' (Or.inl hab)

theorem do_removeKey (h : St L K s1 t1 s2 t2) : Do L K removeSimpleKey removeSimpleKey Eq s1 t1 s2 t2 := by
  unfold removeSimpleKey
  tws
  have hk := h.keys
  revert hk
  cases hk1 : s1.simpleKeys with
  | nil =>
    cases hk2 : s2.simpleKeys with
    | nil => intro _; exact w2_panic
    | cons k ks => intro hk; cases hk
  | cons k ks =>
    cases hk2 : s2.simpleKeys with
    | nil => intro hk; cases hk
    | cons k' ks' =>
      intro hk
      cases hk with
      | cons hk hks =>
        refine w2_ite (by rw [hk.both]) (fun h1 h2 => do_err h ?_) (fun h1 h2 => ?_)
        · simp only [Bool.and_eq_true] at h1
          exact Or.inl (hk.mark h1.1)
        · exact ⟨rfl, h.keys_set (.cons hk.off hks)⟩

theorem do_saveKey (h : St L K s1 t1 s2 t2) : Do L K saveSimpleKey saveSimpleKey Eq s1 t1 s2 t2 := by
  unfold saveSimpleKey
  tws
  have h0 := h
  refine w2_ite (by rw [h.ska]) (fun h1 h2 => ?_) (fun h1 h2 => ⟨rfl, h⟩)
  refine w2_seq (Q' := fun _ s3 t3 _ s4 t4 => St L K s3 t3 s4 t4 ∧ s3.mark = s1.mark ∧ s4.mark = s2.mark) ?_ ?_
  · unfold removeSimpleKey
    tws
    have hk := h.keys
    revert hk
    cases hk1 : s1.simpleKeys with
    | nil =>
      cases hk2 : s2.simpleKeys with
      | nil => intro _; exact w2_panic
      | cons k ks => intro hk; cases hk
    | cons k ks =>
      cases hk2 : s2.simpleKeys with
      | nil => intro hk; cases hk
      | cons k' ks' =>
        intro hk
        cases hk with
        | cons hk hks =>
          refine w2_ite (by rw [hk.both]) (fun h1 h2 => do_err h ?_) (fun h1 h2 => ?_)
          · simp only [Bool.and_eq_true] at h1
            exact Or.inl (hk.mark h1.1)
          · exact ⟨h.keys_set (.cons hk.off hks), rfl, rfl⟩
  · rintro _ s3 t3 _ s4 t4 ⟨h, e1, e2⟩
    tws
    have hk := h.keys
    revert hk
    cases hk1 : s3.simpleKeys with
    | nil =>
      cases hk2 : s4.simpleKeys with
      | nil => intro _; exact w2_panic
      | cons k ks => intro hk; cases hk
    | cons k ks =>
      cases hk2 : s4.simpleKeys with
      | nil => intro hk; cases hk
      | cons k' ks' =>
        intro hk
        cases hk with
        | cons hk hks =>
          refine ⟨rfl, h.keys_set (.cons ⟨rfl, fun _ => ?_, fun _ => ?_, fun _ => ?_, fun _ => ?_, fun _ _ => ?_⟩ hks)⟩
          · show (s1.flowLevel == 0 && s1.indent == (s1.mark.column : Int)) = (s2.flowLevel == 0 && s2.indent == (s2.mark.column : Int))
            rw [h0.fl, h0.i, h0.col]
          · show s1.tokensParsed + s1.tokens.length = s2.tokensParsed + s2.tokens.length + K
            have := h0.tp; have := h0.toks.length; omega
          · exact h0.mark
          · show s1.mark.line ≤ s3.mark.line
            rw [e1]; exact Nat.le_refl _
          · show s1.mark.index + s4.mark.index = s2.mark.index + s3.mark.index
            rw [e1, e2]; omega

theorem St.flow (h : St L K s1 t1 s2 t2) (n : Nat) : St L K { s1 with flowLevel := n } t1 { s2 with flowLevel := n } t2 :=
  ⟨h.text, h.enc, h.mark, h.ss, h.se, rfl, h.toks, h.tp, h.ta, h.is, h.i, h.ska, h.keys⟩

theorem do_increase (h : St L K s1 t1 s2 t2) : Do L K increaseFlowLevel increaseFlowLevel Eq s1 t1 s2 t2 := by
  unfold increaseFlowLevel
  tws
  have h' := h.keys_set (.cons Ky.empty h.keys)
  refine w2_ite (by rw [h.fl]) (fun _ _ => w2_panic) (fun _ _ => ?_)
  refine w2_modify ⟨rfl, ?_⟩
  show St L K { s1 with simpleKeys := emptyKey :: s1.simpleKeys, flowLevel := s1.flowLevel + 1 } t1
    { s2 with simpleKeys := emptyKey :: s2.simpleKeys, flowLevel := s2.flowLevel + 1 } t2
  rw [h.fl]
  exact h'.flow _

theorem do_decrease (h : St L K s1 t1 s2 t2) : Do L K decreaseFlowLevel decreaseFlowLevel Eq s1 t1 s2 t2 := by
  unfold decreaseFlowLevel
  refine w2_modify ⟨rfl, ?_⟩
  have hfl := h.fl
  by_cases h0 : s1.flowLevel != 0
  · rw [if_pos h0, if_pos (by rw [← hfl]; exact h0), hfl]
    exact (h.keys_set h.keys.tail).flow _
  · rw [if_neg h0, if_neg (by rw [← hfl]; exact h0)]
    exact h

theorem do_push {k k' : Token} (h : St L K s1 t1 s2 t2) (hk : Tk L k k') : Do L K (pushToken k) (pushToken k') Eq s1 t1 s2 t2 :=
  ⟨rfl, h.push hk⟩

theorem do_insert {n n' : Nat} {k k' : Token} (h : St L K s1 t1 s2 t2) (hn : n = n' + K) (hk : Tk L k k') :
    Do L K (insertToken n k) (insertToken n' k') Eq s1 t1 s2 t2 := by
  unfold insertToken
  tws
  have htp := h.tp
  have hlen := h.toks.length
  refine w2_ite (by omega) (fun h1 h2 => ?_) (fun _ _ => w2_panic)
  refine w2_modify ⟨rfl, ?_⟩
  rw [show n - s1.tokensParsed = n' - s2.tokensParsed by omega]
  exact ⟨h.text, h.enc, h.mark, h.ss, h.se, h.fl, h.toks.insertIdx hk _, h.tp, h.ta, h.is, h.i, h.ska, h.keys⟩

/-- Related token numbers. -/
inductive Nu (K : Nat) : Option Nat → Option Nat → Prop
  | none : Nu K none none
  | some (n : Nat) : Nu K (some (n + K)) (some n)

theorem do_roll {c c' : Nat} {n n' : Option Nat} {d : TokenData} {m m' : Mark} (h : St L K s1 t1 s2 t2) (hc : c = c') (hn : Nu K n n')
    (hm : Mk L m m') : Do L K (rollIndent c n d m) (rollIndent c' n' d m') Eq s1 t1 s2 t2 := by
  subst hc
  unfold rollIndent
  tws
  refine w2_ite (by rw [h.fl]) (fun _ _ => ⟨rfl, h⟩) (fun _ _ => ?_)
  refine w2_ite (by rw [h.i]) (fun _ _ => ?_) (fun _ _ => ⟨rfl, h⟩)
  have h' : St L K { s1 with indents := s1.indent :: s1.indents } t1 { s2 with indents := s2.indent :: s2.indents } t2 :=
    ⟨h.text, h.enc, h.mark, h.ss, h.se, h.fl, h.toks, h.tp, h.ta, by show s1.indent :: s1.indents = _; rw [h.i, h.is], h.i, h.ska, h.keys⟩
  tws
  refine w2_ite Iff.rfl (fun _ _ => w2_panic) (fun _ _ => ?_)
  tws
  have h2 : St L K { s1 with indents := s1.indent :: s1.indents, indent := (c : Int) } t1
      { s2 with indents := s2.indent :: s2.indents, indent := (c : Int) } t2 :=
    ⟨h.text, h.enc, h.mark, h.ss, h.se, h.fl, h.toks, h.tp, h.ta, h'.is, rfl, h.ska, h.keys⟩
  cases hn with
  | none => exact do_push h2 ⟨rfl, hm, hm⟩
  | some n => exact do_insert h2 rfl ⟨rfl, hm, hm⟩

theorem unrollLoop_tw {col : Int} {m m' : Mark} (hm : Mk L m m') : ∀ (is : List Int) (i : Int) {ts ts' : List Token}, Zip (Tk L) ts ts' →
    (unrollLoop col m i is ts = none ∧ unrollLoop col m' i is ts' = none) ∨
    ∃ j js us us', unrollLoop col m i is ts = some (j, js, us) ∧ unrollLoop col m' i is ts' = some (j, js, us') ∧ Zip (Tk L) us us' := by
  intro is
  induction is with
  | nil =>
    intro i ts ts' h
    unfold unrollLoop
    split
    · exact Or.inl ⟨rfl, rfl⟩
    · exact Or.inr ⟨_, _, _, _, rfl, rfl, h⟩
  | cons j is ih =>
    intro i ts ts' h
    unfold unrollLoop
    split
    · exact ih j (h.append (.one ⟨rfl, hm, hm⟩))
    · exact Or.inr ⟨_, _, _, _, rfl, rfl, h⟩

theorem do_unroll {col col' : Int} (h : St L K s1 t1 s2 t2) (hc : col = col') : Do L K (unrollIndent col) (unrollIndent col') Eq s1 t1 s2 t2 := by
  subst hc
  unfold unrollIndent
  tws
  refine w2_ite (by rw [h.fl]) (fun _ _ => ⟨rfl, h⟩) (fun _ _ => ?_)
  rw [h.i, h.is]
  rcases unrollLoop_tw h.mark (col := col) s2.indents s2.indent h.toks with ⟨e1, e2⟩ | ⟨j, js, us, us', e1, e2, hz⟩
  · rw [e1, e2]; exact w2_panic
  · rw [e1, e2]
    exact ⟨rfl, ⟨h.text, h.enc, h.mark, h.ss, h.se, h.fl, hz, h.tp, h.ta, rfl, rfl, h.ska, h.keys⟩⟩

theorem do_indicator {n : Nat} {d : TokenData} (h : St L K s1 t1 s2 t2) (hb : ∀ j : Nat, j < n → isBreakO t1.text[j]? = false) :
    Do L K (fetchIndicator n d) (fetchIndicator n d) Eq s1 t1 s2 t2 := by
  unfold fetchIndicator
  have hm := h.mark
  tws
  refine w2_seq (do_skips n h hb) ?_
  rintro _ s3 t3 _ s4 t4 ⟨-, h⟩
  tws
  exact do_push h ⟨rfl, hm, h.mark⟩

/-- The text is not touched. -/
theorem W2.text {α β : Type} {E : Err → Err → Prop} {m1 : Scan α} {m2 : Scan β} {Q : α → SState → Txt → β → SState → Txt → Prop}
    (h : W2 E m1 m2 Q s1 t1 s2 t2) (hm : ∀ s t, (execT (m1 s) t).2 = t) :
    W2 E m1 m2 (fun a s3 t3 b s4 t4 => Q a s3 t3 b s4 t4 ∧ t1 = t3) s1 t1 s2 t2 := by
  unfold W2 at h ⊢
  have := hm s1 t1
  revert h this
  generalize execT (m1 s1) t1 = x
  generalize execT (m2 s2) t2 = y
  obtain ⟨⟨x, s⟩, t⟩ := x
  obtain ⟨⟨y, s'⟩, t'⟩ := y
  intro h hx
  cases x <;> cases y <;> first | exact ⟨h, hx.symm⟩ | exact h

theorem text_bind {α β : Type} {m : Scan α} {f : α → Scan β} (hm : ∀ s t, (execT (m s) t).2 = t)
    (hf : ∀ a s t, (execT (f a s) t).2 = t) (s : SState) (t : Txt) : (execT ((m >>= f) s) t).2 = t := by
  show (execT ((m s).bind (M.cont f)) t).2 = t
  rw [execT_bind]
  have := hm s t
  revert this
  generalize execT (m s) t = x
  obtain ⟨⟨x, s'⟩, t'⟩ := x
  intro hx
  dsimp only at hx
  subst hx
  cases x <;> first | exact hf _ _ _ | rfl

theorem text_when {c : Bool} {m : Scan Unit} (hm : ∀ s t, (execT (m s) t).2 = t) (s : SState) (t : Txt) : (execT (M.when c m s) t).2 = t := by
  cases c
  · rfl
  · exact hm s t

theorem text_remove (s : SState) (t : Txt) : (execT (removeSimpleKey s) t).2 = t := by
  unfold removeSimpleKey
  refine text_bind (fun _ _ => rfl) (fun a s t => ?_) s t
  cases a.simpleKeys with
  | nil => rfl
  | cons k ks =>
    dsimp only
    split <;> rfl

theorem text_save (s : SState) (t : Txt) : (execT (saveSimpleKey s) t).2 = t := by
  unfold saveSimpleKey
  refine text_bind (fun _ _ => rfl) (fun a s t => ?_) s t
  dsimp only
  split
  · refine text_bind text_remove (fun _ s t => ?_) s t
    refine text_bind (fun _ _ => rfl) (fun a s t => ?_) s t
    cases a.simpleKeys <;> rfl
  · rfl

theorem text_unroll (c : Int) (s : SState) (t : Txt) : (execT (unrollIndent c s) t).2 = t := by
  unfold unrollIndent
  refine text_bind (fun _ _ => rfl) (fun a s t => ?_) s t
  split
  · rfl
  · cases unrollLoop c a.mark a.indent a.indents a.tokens <;> rfl

theorem text_insert (n : Nat) (k : Token) (s : SState) (t : Txt) : (execT (insertToken n k s) t).2 = t := by
  unfold insertToken
  refine text_bind (fun _ _ => rfl) (fun a s t => ?_) s t
  split <;> rfl

theorem text_roll (c : Nat) (n : Option Nat) (d : TokenData) (m : Mark) (s : SState) (t : Txt) : (execT (rollIndent c n d m s) t).2 = t := by
  unfold rollIndent
  refine text_bind (fun _ _ => rfl) (fun a s t => ?_) s t
  split
  · rfl
  · split
    · refine text_bind (fun _ _ => rfl) (fun _ s t => ?_) s t
      split
      · rfl
      · refine text_bind (fun _ _ => rfl) (fun _ s t => ?_) s t
        split
        · rfl
        · exact text_insert _ _ _ _
    · rfl

theorem text_increase (s : SState) (t : Txt) : (execT (increaseFlowLevel s) t).2 = t := by
  unfold increaseFlowLevel
  refine text_bind (fun _ _ => rfl) (fun _ s t => ?_) s t
  refine text_bind (fun _ _ => rfl) (fun _ s t => ?_) s t
  split <;> rfl

theorem text_start (d : TokenData) (p : String) (s : SState) (t : Txt) : (execT (startBlockCollection d p s) t).2 = t := by
  unfold startBlockCollection
  refine text_bind (fun _ _ => rfl) (fun a s t => ?_) s t
  split
  · split
    · rfl
    · exact text_roll _ _ _ _ _ _
  · rfl

theorem do_streamStart (h : St L K s1 t1 s2 t2) : Do L K fetchStreamStart fetchStreamStart Eq s1 t1 s2 t2 := by
  unfold fetchStreamStart
  tws
  have h' : St L K { s1 with indent := -1, simpleKeys := emptyKey :: s1.simpleKeys, simpleKeyAllowed := true, streamStartProduced := true } t1
      { s2 with indent := -1, simpleKeys := emptyKey :: s2.simpleKeys, simpleKeyAllowed := true, streamStartProduced := true } t2 :=
    ⟨h.text, h.enc, h.mark, rfl, h.se, h.fl, h.toks, h.tp, h.ta, h.is, rfl, rfl, .cons Ky.empty h.keys⟩
  refine w2_bind ?_
  show W2 _ _ _ _ _ _ _ _
  tws
  exact do_push h' ⟨by rw [h.enc], h.mark, h.mark⟩

theorem do_streamEnd (h : St L K s1 t1 s2 t2) : Do L K fetchStreamEnd fetchStreamEnd Eq s1 t1 s2 t2 := by
  unfold fetchStreamEnd
  tws
  have h' : St L K (if s1.mark.column != 0 then { s1 with mark := { s1.mark with column := 0, line := s1.mark.line + 1 } } else s1) t1
      (if s2.mark.column != 0 then { s2 with mark := { s2.mark with column := 0, line := s2.mark.line + 1 } } else s2) t2 := by
    have hc := h.col
    by_cases h0 : s1.mark.column != 0
    · rw [if_pos h0, if_pos (by rw [← hc]; exact h0)]
      exact ⟨h.text, h.enc, ⟨by show s1.mark.line + 1 = s2.mark.line + 1 + L; have := h.mark.1; omega, rfl⟩, h.ss, h.se, h.fl, h.toks, h.tp, h.ta, h.is, h.i, h.ska,
        h.keys.mono fun a b hk => hk.later (Nat.lt_succ_self _)⟩
    · rw [if_neg h0, if_neg (by rw [← hc]; exact h0)]
      exact h
  refine w2_seq (do_unroll h' rfl) ?_
  rintro _ s3 t3 _ s4 t4 ⟨-, h⟩
  refine w2_seq (do_removeKey h) ?_
  rintro _ s3 t3 _ s4 t4 ⟨-, h⟩
  tws
  exact do_push (h.allow false) ⟨rfl, h.mark, h.mark⟩

/-- The three steps before a directive or document marker. -/
theorem do_docPrefix {m : Scan Unit} (h : St L K s1 t1 s2 t2) (hm : ∀ s1 s2 t2, St L K s1 t1 s2 t2 → Do L K m m Eq s1 t1 s2 t2) :
    Do L K (do unrollIndent (-1); removeSimpleKey; allowSimpleKey false; m) (do unrollIndent (-1); removeSimpleKey; allowSimpleKey false; m) Eq s1 t1 s2 t2 := by
  refine w2_seq ((do_unroll h rfl).text (text_unroll _)) ?_
  rintro _ s3 t3 _ s4 t4 ⟨⟨-, h⟩, rfl⟩
  refine w2_seq ((do_removeKey h).text text_remove) ?_
  rintro _ s3 t3 _ s4 t4 ⟨⟨-, h⟩, rfl⟩
  tws
  exact hm _ _ _ (h.allow false)

theorem do_fetchDirective (h : St L K s1 t1 s2 t2) (hb : isBreakO t1.text[0]? = false) :
    Do L K (fetchDirective F) (fetchDirective F) Eq s1 t1 s2 t2 := by
  refine do_docPrefix h fun s1 s2 t2 h => ?_
  refine w2_seq (do_directive h hb) ?_
  rintro k s3 t3 k' s4 t4 ⟨hk, h⟩
  exact do_push h hk

theorem do_docIndicator {d : TokenData} (h : St L K s1 t1 s2 t2) (hb : ∀ j : Nat, j < 3 → isBreakO t1.text[j]? = false) :
    Do L K (fetchDocumentIndicator d) (fetchDocumentIndicator d) Eq s1 t1 s2 t2 :=
  do_docPrefix h fun s1 s2 t2 h => do_indicator h hb

theorem lt1 {t : Txt} (hb : isBreakO t.text[0]? = false) : ∀ j : Nat, j < 1 → isBreakO t.text[j]? = false := by
  intro j hj
  have : j = 0 := by omega
  subst this; exact hb

theorem do_flowStart {d : TokenData} (h : St L K s1 t1 s2 t2) (hb : isBreakO t1.text[0]? = false) :
    Do L K (fetchFlowCollectionStart d) (fetchFlowCollectionStart d) Eq s1 t1 s2 t2 := by
  unfold fetchFlowCollectionStart
  refine w2_seq ((do_saveKey h).text text_save) ?_
  rintro _ s3 t3 _ s4 t4 ⟨⟨-, h⟩, rfl⟩
  refine w2_seq ((do_increase h).text text_increase) ?_
  rintro _ s3 t3 _ s4 t4 ⟨⟨-, h⟩, rfl⟩
  tws
  exact do_indicator (h.allow true) (lt1 hb)

theorem do_flowEnd {d : TokenData} (h : St L K s1 t1 s2 t2) (hb : isBreakO t1.text[0]? = false) :
    Do L K (fetchFlowCollectionEnd d) (fetchFlowCollectionEnd d) Eq s1 t1 s2 t2 := by
  unfold fetchFlowCollectionEnd
  refine w2_seq ((do_removeKey h).text text_remove) ?_
  rintro _ s3 t3 _ s4 t4 ⟨⟨-, h⟩, rfl⟩
  refine w2_seq ((do_decrease h).text (fun _ _ => rfl)) ?_
  rintro _ s3 t3 _ s4 t4 ⟨⟨-, h⟩, rfl⟩
  tws
  exact do_indicator (h.allow false) (lt1 hb)

theorem do_flowEntry (h : St L K s1 t1 s2 t2) (hb : isBreakO t1.text[0]? = false) :
    Do L K fetchFlowEntry fetchFlowEntry Eq s1 t1 s2 t2 := by
  unfold fetchFlowEntry
  refine w2_seq ((do_removeKey h).text text_remove) ?_
  rintro _ s3 t3 _ s4 t4 ⟨⟨-, h⟩, rfl⟩
  tws
  exact do_indicator (h.allow true) (lt1 hb)

theorem do_startBlock {d : TokenData} {p : String} (h : St L K s1 t1 s2 t2) :
    Do L K (startBlockCollection d p) (startBlockCollection d p) Eq s1 t1 s2 t2 := by
  unfold startBlockCollection
  tws
  refine w2_ite (by rw [h.fl]) (fun _ _ => ?_) (fun _ _ => ⟨rfl, h⟩)
  exact w2_ite (by rw [h.ska]) (fun _ _ => do_err h (Or.inl h.mark)) (fun _ _ => do_roll h h.col .none h.mark)

theorem do_blockEntry (h : St L K s1 t1 s2 t2) (hb : isBreakO t1.text[0]? = false) :
    Do L K fetchBlockEntry fetchBlockEntry Eq s1 t1 s2 t2 := by
  unfold fetchBlockEntry
  refine w2_seq ((do_startBlock h).text (text_start _ _)) ?_
  rintro _ s3 t3 _ s4 t4 ⟨⟨-, h⟩, rfl⟩
  refine w2_seq ((do_removeKey h).text text_remove) ?_
  rintro _ s3 t3 _ s4 t4 ⟨⟨-, h⟩, rfl⟩
  tws
  exact do_indicator (h.allow true) (lt1 hb)

theorem do_key (h : St L K s1 t1 s2 t2) (hb : isBreakO t1.text[0]? = false) : Do L K fetchKey fetchKey Eq s1 t1 s2 t2 := by
  unfold fetchKey
  refine w2_seq ((do_startBlock h).text (text_start _ _)) ?_
  rintro _ s3 t3 _ s4 t4 ⟨⟨-, h⟩, rfl⟩
  refine w2_seq ((do_removeKey h).text text_remove) ?_
  rintro _ s3 t3 _ s4 t4 ⟨⟨-, h⟩, rfl⟩
  tws
  exact do_indicator (h.allow' (by rw [h.fl])) (lt1 hb)

theorem do_value (h : St L K s1 t1 s2 t2) (hb : isBreakO t1.text[0]? = false) : Do L K fetchValue fetchValue Eq s1 t1 s2 t2 := by
  unfold fetchValue
  tws
  have hk := h.keys
  revert hk
  cases hk1 : s1.simpleKeys with
  | nil =>
    cases hk2 : s2.simpleKeys with
    | nil => intro _; exact w2_panic
    | cons k ks => intro hk; cases hk
  | cons k ks =>
    cases hk2 : s2.simpleKeys with
    | nil => intro hk; cases hk
    | cons k' ks' =>
      intro hk
      cases hk with
      | cons hk hks =>
        refine w2_ite (by rw [hk.possible]) (fun h1 h2 => ?_) (fun h1 h2 => ?_)
        · have hmk := hk.mark h1
          have hno := hk.number h1
          have hkt : Tk L ⟨.key, k.mark, k.mark⟩ ⟨.key, k'.mark, k'.mark⟩ := ⟨rfl, hmk, hmk⟩
          have hnu : Nu K (some k.tokenNumber) (some k'.tokenNumber) := by rw [hno]; exact .some _
          refine w2_seq (Q' := fun _ s3 t3 _ s4 t4 => (Ok L K Eq () s3 t3 () s4 t4 ∧ t1 = t3) ∧ s3.mark = s1.mark ∧ s4.mark = s2.mark) ?_ ?_
          · refine ((do_insert h hno hkt).text (text_insert _ _)) |> fun w => ?_
            unfold W2 at w ⊢
            have e : ∀ (n : Nat) (k : Token) (s : SState) (t : Txt), (execT (insertToken n k s) t).1.2.mark = s.mark := by
              intro n k s t
              by_cases hx : s.tokensParsed ≤ n ∧ n - s.tokensParsed ≤ s.tokens.length
              · have : insertToken n k s = .ret (.ok (), { s with tokens := s.tokens.insertIdx (n - s.tokensParsed) k }) := by
                  show (if s.tokensParsed ≤ n ∧ n - s.tokensParsed ≤ s.tokens.length then _ else _ : Scan Unit) s = _
                  rw [if_pos hx]; rfl
                rw [this]; rfl
              · have : insertToken n k s = .ret (.panic .insertOutOfRange, s) := by
                  show (if s.tokensParsed ≤ n ∧ n - s.tokensParsed ≤ s.tokens.length then _ else _ : Scan Unit) s = _
                  rw [if_neg hx]; rfl
                rw [this]; rfl
            have e1 := e k.tokenNumber ⟨.key, k.mark, k.mark⟩ s1 t1
            have e2 := e k'.tokenNumber ⟨.key, k'.mark, k'.mark⟩ s2 t2
            revert w e1 e2
            generalize execT (insertToken k.tokenNumber ⟨.key, k.mark, k.mark⟩ s1) t1 = x
            generalize execT (insertToken k'.tokenNumber ⟨.key, k'.mark, k'.mark⟩ s2) t2 = y
            obtain ⟨⟨x, s⟩, t⟩ := x
            obtain ⟨⟨y, s'⟩, t'⟩ := y
            intro w e1 e2
            cases x <;> cases y <;> first | exact ⟨w, e1, e2⟩ | exact w
          · rintro _ s3 t3 _ s4 t4 ⟨⟨⟨-, h⟩, rfl⟩, m1, m2⟩
            tws
            have h' := h.keys_set (ks := { k with possible := false } :: ks) (ks' := { k' with possible := false } :: ks')
              (.cons (by rw [m1, m2]; exact hk.off) (by rw [m1, m2]; exact hks))
            refine w2_seq ((do_roll h' hmk.2 hnu hmk).text (text_roll _ _ _ _)) ?_
            rintro _ s3 t3 _ s4 t4 ⟨⟨-, h⟩, rfl⟩
            tws
            exact do_indicator (h.allow false) (lt1 hb)
        · refine w2_seq ((do_startBlock h).text (text_start _ _)) ?_
          rintro _ s3 t3 _ s4 t4 ⟨⟨-, h⟩, rfl⟩
          tws
          exact do_indicator (h.allow' (by rw [h.fl])) (lt1 hb)

/-- `save_simple_key`, no key afterwards, a lexeme. -/
theorem do_word {m : Scan Token} (h : St L K s1 t1 s2 t2) (hm : ∀ s1 s2 t2, St L K s1 t1 s2 t2 → Do L K m m (Tk L) s1 t1 s2 t2) :
    Do L K (do saveSimpleKey; allowSimpleKey false; pushToken (← m)) (do saveSimpleKey; allowSimpleKey false; pushToken (← m)) Eq s1 t1 s2 t2 := by
  refine w2_seq ((do_saveKey h).text text_save) ?_
  rintro _ s3 t3 _ s4 t4 ⟨⟨-, h⟩, rfl⟩
  tws
  refine w2_seq (hm _ _ _ (h.allow false)) ?_
  rintro k s3 t3 k' s4 t4 ⟨hk, h⟩
  exact do_push h hk

theorem do_fetchBlockScalar {lit : Bool} (h : St L K s1 t1 s2 t2) (hb : isBreakO t1.text[0]? = false) :
    Do L K (fetchBlockScalar F lit) (fetchBlockScalar F lit) Eq s1 t1 s2 t2 := by
  unfold fetchBlockScalar
  refine w2_seq ((do_removeKey h).text text_remove) ?_
  rintro _ s3 t3 _ s4 t4 ⟨⟨-, h⟩, rfl⟩
  tws
  refine w2_seq (do_blockScalar (h.allow true) hb) ?_
  rintro k s3 t3 k' s4 t4 ⟨hk, h⟩
  exact do_push h hk

end
end Tw
end Yaml
