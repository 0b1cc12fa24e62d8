import Verif.Lib.Twin2

/-
Two runs of the scanner side by side: quoted and plain scalars.
-/

namespace Yaml
open Scanner
set_option linter.unusedSimpArgs false
set_option linter.unusedVariables false

namespace Tw

section
variable {L K : Nat} {s1 s2 : SState} {t1 t2 : Txt} {F : Nat}

/-- Three equal characters and what follows them. -/
theorem three {x : Char} (hx : isBreak x = false) {t1 t2 : Str} (h : Nm t1 t2) :
    (t1[0]? == some x && t1[1]? == some x && t1[2]? == some x && isBlankzO t1[3]?) =
    (t2[0]? == some x && t2[1]? == some x && t2[2]? == some x && isBlankzO t2[3]?) := by
  have c0 := h.nth 0 (by omega)
  rw [c0.isb hx]
  cases h0 : (t2[0]? == some x) with
  | false => rfl
  | true =>
    have b0 : isBreakO t1[0]? = false := by rw [c0.brk]; exact not_brk h0 hx
    have c1 := h.nth1 b0
    rw [c1.isb hx]
    cases h1 : (t2[1]? == some x) with
    | false => rfl
    | true =>
      have b1 : isBreakO t1[1]? = false := by rw [c1.brk]; exact not_brk h1 hx
      have c2 := h.nth2 b0 b1
      rw [c2.isb hx]
      cases h2 : (t2[2]? == some x) with
      | false => rfl
      | true =>
        have b2 : isBreakO t1[2]? = false := by rw [c2.brk]; exact not_brk h2 hx
        rw [(h.nth3 b0 b1 b2).blankz]

theorem docIndicator_tw {m m' : Mark} (hm : m.column = m'.column) {t1 t2 : Str} (h : Nm t1 t2) :
    isDocIndicator m t1[0]? t1[1]? t1[2]? t1[3]? = isDocIndicator m' t2[0]? t2[1]? t2[2]? t2[3]? := by
  have e : ∀ (t : Str) (n : Nat), (n == 0 && ((t[0]? == some '-' && t[1]? == some '-' && t[2]? == some '-') ||
      (t[0]? == some '.' && t[1]? == some '.' && t[2]? == some '.')) && isBlankzO t[3]?) =
      (n == 0 && ((t[0]? == some '-' && t[1]? == some '-' && t[2]? == some '-' && isBlankzO t[3]?) ||
      (t[0]? == some '.' && t[1]? == some '.' && t[2]? == some '.' && isBlankzO t[3]?))) := by
    intro t n
    cases n == 0 <;> cases isBlankzO t[3]? <;> simp
  unfold isDocIndicator
  rw [e, e, hm, three (by decide) h, three (by decide) h]

theorem do_hexLoop {m m' : Mark} (hm : Mz L m m') : ∀ (n k v : Nat) {s1 s2 : SState} {t1 t2 : Txt}, St L K s1 t1 s2 t2 →
    (∀ j : Nat, j < k → isBreakO t1.text[j]? = false) →
    W2 (Er L) (hexLoop m n k v) (hexLoop m' n k v) (fun a s1' t1' b s2' t2' => a = b ∧ s1' = s1 ∧ t1' = t1 ∧ s2' = s2 ∧ t2' = t2 ∧
      ∀ j : Nat, j < k + n → isBreakO t1.text[j]? = false) s1 t1 s2 t2
  | 0, k, v, s1, s2, t1, t2, h, hk => ⟨rfl, rfl, rfl, rfl, rfl, hk⟩
  | n + 1, k, v, s1, s2, t1, t2, h, hk => by
    unfold hexLoop
    tws
    have hc := h.text.nth k hk
    refine w2_ite (by rw [hc.test noBrk_hex]) (fun _ _ => do_err h hm) (fun h1 h2 => ?_)
    simp only [Bool.not_eq_true', Bool.not_eq_false] at h1
    rw [← hc.eq (noBrk_hex.not h1)]
    cases t1.text[k]?.bind toHex? with
    | none => exact w2_panic
    | some d =>
      refine (do_hexLoop hm n (k + 1) _ h ?_).mono ?_
      · intro j hj
        rcases (by omega : j < k ∨ j = k) with h | h
        · exact hk j h
        · subst h; exact noBrk_hex.not h1
      · rintro a s t b s' t' ⟨x1, x2, x3, x4, x5, x6⟩
        exact ⟨x1, x2, x3, x4, x5, fun j hj => x6 j (by omega)⟩

theorem do_escape {m m' : Mark} {str : Str} (h : St L K s1 t1 s2 t2) (hm : Mz L m m') (hb : isBreakO t1.text[0]? = false)
    (hb1 : isBreakO t1.text[1]? = false) : Do L K (scanEscape m str) (scanEscape m' str) Eq s1 t1 s2 t2 := by
  unfold scanEscape
  tws
  rw [← (h.text.nth1 hb).eq hb1]
  cases he : t1.text[1]? with
  | none => exact w2_panic
  | some e =>
    dsimp only
    cases escapeChar e with
    | some ch =>
      refine w2_seq (do_skip' h hb) ?_
      rintro _ s3 t3 _ s4 t4 ⟨h, k1⟩
      refine w2_seq (do_skip h (by rw [k1]; exact hb1)) ?_
      rintro _ s3 t3 _ s4 t4 ⟨-, h⟩
      exact ⟨rfl, h⟩
    | none =>
      dsimp only
      cases escapeCodeLength e with
      | none => exact do_err h hm
      | some n =>
        refine w2_seq (do_skip' h hb) ?_
        rintro _ s3 t3 _ s4 t4 ⟨h, k1⟩
        refine w2_seq (do_skip h (by rw [k1]; exact hb1)) ?_
        rintro _ s3 t3 _ s4 t4 ⟨-, h⟩
        tws
        refine w2_seq (do_hexLoop hm n 0 0 h (by omega)) ?_
        rintro a s3 t3 _ s4 t4 ⟨rfl, rfl, rfl, rfl, rfl, hj⟩
        cases charFromU32 a with
        | none => exact do_err h hm
        | some ch =>
          refine w2_seq (do_skips n h fun j hjn => hj j (by omega)) ?_
          rintro _ s3 t3 _ s4 t4 ⟨-, h⟩
          exact ⟨rfl, h⟩

theorem quote_brk (single : Bool) : isBreak (quoteChar single) = false := by cases single <;> decide

theorem blankz_not {c : Option Char} (h : ¬ isBlankzO c = true) : isBreakO c = false := by
  cases c with
  | none => rfl
  | some c =>
    cases hb : isBreak c with
    | false => exact hb
    | true => exact absurd (by simp [isBlankzO, isBreakzO, hb]) h

theorem do_flowChunk {single : Bool} {m m' : Mark} {str str' : Str} (h : St L K s1 t1 s2 t2) (hm : Mz L m m') (hs : str = str') :
    Do L K (flowChunk F single m str) (flowChunk F single m' str') Eq s1 t1 s2 t2 := by
  refine do_loop (R := Eq) h hs ?_
  rintro str _ s1 t1 s2 t2 rfl h
  tws
  refine w2_ite (by rw [h.ch0.blankz]) (fun _ _ => ⟨rfl, h⟩) (fun h1 h2 => ?_)
  have b0 := blankz_not h1
  have c1 := h.text.nth1 b0
  refine w2_ite (by rw [h.ch0.isb (x := '\'') (by decide), c1.isb (x := '\'') (by decide)]) (fun h3 h4 => ?_) (fun h3 h4 => ?_)
  · simp only [Bool.and_eq_true] at h3
    refine w2_seq (do_skip' h b0) ?_
    rintro _ s3 t3 _ s4 t4 ⟨h, k1⟩
    refine w2_seq (do_skip h (by rw [k1]; exact not_brk h3.2 (by decide))) ?_
    rintro _ s3 t3 _ s4 t4 ⟨-, h⟩
    tws
    exact ⟨rfl, h⟩
  refine w2_ite (by rw [h.ch0.isb (quote_brk single)]) (fun _ _ => ⟨rfl, h⟩) (fun h5 h6 => ?_)
  refine w2_ite (by rw [h.ch0.isb (x := '\\') (by decide), c1.brk]) (fun h7 h8 => ?_) (fun h7 h8 => ?_)
  · tws
    refine w2_seq (do_skip h b0) ?_
    rintro _ s3 t3 _ s4 t4 ⟨-, h⟩
    refine w2_seq (do_skipLine h) ?_
    rintro _ s3 t3 _ s4 t4 ⟨-, h⟩
    exact ⟨rfl, h⟩
  refine w2_ite (by rw [h.ch0.isb (x := '\\') (by decide)]) (fun h9 h10 => ?_) (fun h9 h10 => ?_)
  · refine w2_seq (do_escape h hm b0 ?_) ?_
    · rw [h9, Bool.true_and, Bool.not_eq_true] at h7; exact h7
    rintro str s3 t3 _ s4 t4 ⟨rfl, h⟩
    tws
    exact ⟨rfl, h⟩
  · refine w2_seq (do_read h b0 rfl) ?_
    rintro str s3 t3 _ s4 t4 ⟨rfl, h⟩
    tws
    exact ⟨rfl, h⟩

theorem do_flowBlanks {v v' : BlankVars} (h : St L K s1 t1 s2 t2) (hv : v = v') :
    Do L K (flowBlanks F v) (flowBlanks F v') Eq s1 t1 s2 t2 := by
  refine do_loop (R := Eq) h hv ?_
  rintro v _ s1 t1 s2 t2 rfl h
  tws
  refine w2_ite (by rw [h.ch0.blank]) (fun h1 h2 => ?_) (fun h1 h2 => ?_)
  · refine w2_ite Iff.rfl (fun _ _ => ?_) (fun _ _ => ?_)
    · refine w2_seq (do_skip h (noBrk_blank.not h1)) ?_
      rintro _ s3 t3 _ s4 t4 ⟨-, h⟩
      tws
      exact ⟨rfl, h⟩
    · refine w2_seq (do_read h (noBrk_blank.not h1) rfl) ?_
      rintro str s3 t3 _ s4 t4 ⟨rfl, h⟩
      tws
      exact ⟨rfl, h⟩
  · refine w2_ite (by rw [h.ch0.brk]) (fun h3 h4 => ?_) (fun h3 h4 => ⟨rfl, h⟩)
    tws
    refine w2_ite Iff.rfl (fun _ _ => ?_) (fun _ _ => ?_)
    · refine w2_seq (do_readLine h rfl) ?_
      rintro str s3 t3 _ s4 t4 ⟨rfl, h⟩
      tws
      exact ⟨rfl, h⟩
    · refine w2_seq (do_readLine h rfl) ?_
      rintro str s3 t3 _ s4 t4 ⟨rfl, h⟩
      tws
      exact ⟨rfl, h⟩

theorem do_flowBody {single : Bool} {m m' : Mark} (h : St L K s1 t1 s2 t2) (hm : Mz L m m') :
    W2 (Er L) (flowBody F single m) (flowBody F single m') (fun a s1 t1 b s2 t2 => a = b ∧ St L K s1 t1 s2 t2 ∧ isBreakO t1.text[0]? = false)
      s1 t1 s2 t2 := by
  refine w2_loop (Ok L K Eq) ?_ F ⟨rfl, h⟩
  rintro str s1 t1 _ s2 t2 ⟨rfl, h⟩
  refine w2_seq (Q' := Ok L K Eq) ?_ ?_
  · unfold flowHead
    tws
    refine w2_ite (by rw [docIndicator_tw h.col h.text]) (fun _ _ => do_err h hm) (fun _ _ => ?_)
    refine w2_ite (by rw [h.ch0.none]) (fun _ _ => do_err h hm) (fun _ _ => ?_)
    exact w2_cache ⟨rfl, h⟩
  rintro _ s3 t3 _ s4 t4 ⟨-, h⟩
  refine w2_seq (do_flowChunk h hm rfl) ?_
  rintro ⟨str, b⟩ s3 t3 _ s4 t4 ⟨rfl, h⟩
  tws
  refine w2_ite (by rw [h.ch0.isb (quote_brk single)]) (fun h1 h2 => ⟨rfl, h, not_brk h1 (quote_brk single)⟩) (fun h1 h2 => ?_)
  tws
  refine w2_seq (do_flowBlanks h rfl) ?_
  rintro v s3 t3 _ s4 t4 ⟨rfl, h⟩
  exact ⟨rfl, h⟩

theorem do_flowScalar {single : Bool} (h : St L K s1 t1 s2 t2) (hb : isBreakO t1.text[0]? = false) :
    Do L K (scanFlowScalar F single) (scanFlowScalar F single) (Tk L) s1 t1 s2 t2 := by
  unfold scanFlowScalar
  have hm := h.mark
  tws
  refine w2_seq (do_skip h hb) ?_
  rintro _ s3 t3 _ s4 t4 ⟨-, h⟩
  refine w2_seq (do_flowBody h (Or.inl hm)) ?_
  rintro str s3 t3 _ s4 t4 ⟨rfl, h, hq⟩
  refine w2_seq (do_skip h hq) ?_
  rintro _ s3 t3 _ s4 t4 ⟨-, h⟩
  tws
  exact ⟨⟨rfl, hm, h.mark⟩, h⟩

/-- Loop variables of plain scalars. -/
structure Pv (L : Nat) (v v' : PlainVars) : Prop where
  string : v.string = v'.string
  blanks : v.blanks = v'.blanks
  em : Mk L v.endMark v'.endMark

theorem badColon_tw {n : Nat} {t1 t2 : Str} (h : Nm t1 t2) (b0 : isBreakO t1[0]? = false) :
    plainBadColon n t1[0]? t1[1]? = plainBadColon n t2[0]? t2[1]? := by
  have c0 := h.nth 0 (by omega)
  have c1 := h.nth1 b0
  unfold plainBadColon
  rw [c0.isb (x := ':') (by decide), c1.isb (x := ',') (by decide), c1.isb (x := '?') (by decide), c1.isb (x := '[') (by decide),
    c1.isb (x := ']') (by decide), c1.isb (x := '{') (by decide), c1.isb (x := '}') (by decide)]

theorem plainStop_tw {n : Nat} {t1 t2 : Str} (h : Nm t1 t2) (b0 : isBreakO t1[0]? = false) :
    plainStop n t1[0]? t1[1]? = plainStop n t2[0]? t2[1]? := by
  have c0 := h.nth 0 (by omega)
  have c1 := h.nth1 b0
  unfold plainStop
  rw [c0.isb (x := ':') (by decide), c1.blankz, c0.isb (x := ',') (by decide), c0.isb (x := '[') (by decide),
    c0.isb (x := ']') (by decide), c0.isb (x := '{') (by decide), c0.isb (x := '}') (by decide)]

theorem do_plainChunk {m m' : Mark} {v v' : PlainVars} (h : St L K s1 t1 s2 t2) (hm : Mz L m m') (hv : Pv L v v') :
    Do L K (plainChunk F m v) (plainChunk F m' v') (Pv L) s1 t1 s2 t2 := by
  refine do_loop (R := Pv L) h hv ?_
  intro v v' s1 t1 s2 t2 hv h
  tws
  refine w2_ite (by rw [h.ch0.blankz]) (fun _ _ => ⟨hv, h⟩) (fun h1 h2 => ?_)
  have b0 := blankz_not h1
  refine w2_ite (by rw [h.fl, badColon_tw h.text b0]) (fun _ _ => do_err h hm) (fun h3 h4 => ?_)
  refine w2_ite (by rw [h.fl, plainStop_tw h.text b0]) (fun _ _ => ⟨hv, h⟩) (fun h3 h4 => ?_)
  refine w2_seq (do_read h b0 (by rw [hv.string, hv.blanks])) ?_
  rintro str s3 t3 _ s4 t4 ⟨rfl, h⟩
  tws
  exact ⟨⟨rfl, rfl, h.mark⟩, h⟩

theorem do_plainBlanks {n : Int} {m m' : Mark} {v v' : BlankVars} (h : St L K s1 t1 s2 t2) (hm : Mz L m m') (hv : v = v') :
    Do L K (plainBlanks F n m v) (plainBlanks F n m' v') Eq s1 t1 s2 t2 := by
  refine do_loop (R := Eq) h hv ?_
  rintro v _ s1 t1 s2 t2 rfl h
  tws
  refine w2_ite (by rw [h.ch0.blank]) (fun h1 h2 => ?_) (fun h1 h2 => ?_)
  · refine w2_ite (by unfold isTabO; rw [h.col, h.ch0.isb (by decide)]) (fun _ _ => do_err h hm) (fun _ _ => ?_)
    refine w2_ite Iff.rfl (fun _ _ => ?_) (fun _ _ => ?_)
    · refine w2_seq (do_read h (noBrk_blank.not h1) rfl) ?_
      rintro str s3 t3 _ s4 t4 ⟨rfl, h⟩
      tws
      exact ⟨rfl, h⟩
    · refine w2_seq (do_skip h (noBrk_blank.not h1)) ?_
      rintro _ s3 t3 _ s4 t4 ⟨-, h⟩
      tws
      exact ⟨rfl, h⟩
  · refine w2_ite (by rw [h.ch0.brk]) (fun h3 h4 => ?_) (fun h3 h4 => ⟨rfl, h⟩)
    tws
    refine w2_ite Iff.rfl (fun _ _ => ?_) (fun _ _ => ?_)
    · refine w2_seq (do_readLine h rfl) ?_
      rintro str s3 t3 _ s4 t4 ⟨rfl, h⟩
      tws
      exact ⟨rfl, h⟩
    · refine w2_seq (do_readLine h rfl) ?_
      rintro str s3 t3 _ s4 t4 ⟨rfl, h⟩
      tws
      exact ⟨rfl, h⟩

theorem do_plainBody {n : Int} {m m' : Mark} (h : St L K s1 t1 s2 t2) (hm : Mk L m m') :
    Do L K (plainBody F n m) (plainBody F n m') (Pv L) s1 t1 s2 t2 := by
  refine do_loop (R := Pv L) h ⟨rfl, rfl, hm⟩ ?_
  intro v v' s1 t1 s2 t2 hv h
  tws
  refine w2_ite (by rw [docIndicator_tw h.col h.text]) (fun _ _ => ⟨hv, h⟩) (fun _ _ => ?_)
  refine w2_ite (by rw [h.ch0.isb (by decide)]) (fun _ _ => ⟨hv, h⟩) (fun _ _ => ?_)
  refine w2_seq (do_plainChunk h (Or.inl hm) hv) ?_
  rintro v s3 t3 v' s4 t4 ⟨hv, h⟩
  tws
  refine w2_ite (by rw [h.ch0.blank, h.ch0.brk]) (fun _ _ => ⟨hv, h⟩) (fun _ _ => ?_)
  tws
  refine w2_seq (do_plainBlanks h (Or.inl hm) hv.blanks) ?_
  rintro b s3 t3 _ s4 t4 ⟨rfl, h⟩
  tws
  exact w2_ite (by rw [h.fl, h.col]) (fun _ _ => ⟨⟨hv.string, rfl, hv.em⟩, h⟩) (fun _ _ => ⟨⟨hv.string, rfl, hv.em⟩, h⟩)

theorem do_plainScalar (h : St L K s1 t1 s2 t2) :
    Do L K (scanPlainScalar F) (scanPlainScalar F) (Tk L) s1 t1 s2 t2 := by
  unfold scanPlainScalar
  have hm := h.mark
  tws
  rw [h.i]
  refine w2_seq (do_plainBody h hm) ?_
  rintro v s3 t3 v' s4 t4 ⟨hv, h⟩
  refine w2_seq (Q' := Ok L K Eq) (w2_when (by rw [hv.blanks]) (fun h1 h2 => ⟨rfl, h.allow true⟩) (fun h1 h2 => ⟨rfl, h⟩)) ?_
  rintro _ s3 t3 _ s4 t4 ⟨-, h⟩
  exact ⟨⟨by rw [hv.string], hm, hv.em⟩, h⟩

end
end Tw
end Yaml
