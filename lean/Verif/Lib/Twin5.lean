import Verif.Lib.Twin4

/-
Two runs of the scanner side by side: `fetch_next_token` and `scan`.
-/

namespace Yaml
open Scanner
set_option linter.unusedSimpArgs false
set_option linter.unusedVariables false

namespace Tw

section
variable {L K : Nat} {s1 s2 : SState} {t1 t2 : Txt} {F : Nat}

/-- A test of the first character and another one of the second. -/
theorem two {x : Char} (hx : isBreak x = false) {t1 t2 : Str} (h : Nm t1 t2) {f g : Option Char → Bool} (hf : ∀ c d, Ch c d → f c = g d) :
    (t1[0]? == some x && f t1[1]?) = (t2[0]? == some x && g t2[1]?) := by
  have c0 := h.nth 0 (by omega)
  rw [c0.isb hx]
  cases h0 : (t2[0]? == some x) with
  | false => rfl
  | true =>
    have b0 : isBreakO t1[0]? = false := by rw [c0.brk]; exact not_brk h0 hx
    rw [hf _ _ (h.nth1 b0)]

theorem canStartPlain_tw {n : Nat} {t1 t2 : Str} (h : Nm t1 t2) :
    canStartPlain n t1[0]? t1[1]? = canStartPlain n t2[0]? t2[1]? := by
  have c0 := h.nth 0 (by omega)
  have e1 := two (x := '-') (by decide) h (f := fun c => !isBlankO c) (g := fun c => !isBlankO c) (fun c d hc => by rw [hc.blank])
  have e2 := two (x := '?') (by decide) h (f := fun c => !isBlankzO c) (g := fun c => !isBlankzO c) (fun c d hc => by rw [hc.blankz])
  have e3 := two (x := ':') (by decide) h (f := fun c => !isBlankzO c) (g := fun c => !isBlankzO c) (fun c d hc => by rw [hc.blankz])
  have r : ∀ (a b c d : Bool), (a && (b || c) && d) = (a && (b && d || c && d)) := by decide
  unfold canStartPlain
  rw [r, r, e1, e2, e3]
  rw [c0.blankz, c0.isb (x := '-') (by decide), c0.isb (x := '?') (by decide), c0.isb (x := ':') (by decide), c0.isb (x := ',') (by decide),
    c0.isb (x := '[') (by decide), c0.isb (x := ']') (by decide), c0.isb (x := '{') (by decide), c0.isb (x := '}') (by decide),
    c0.isb (x := '#') (by decide), c0.isb (x := '&') (by decide), c0.isb (x := '*') (by decide), c0.isb (x := '!') (by decide),
    c0.isb (x := '|') (by decide), c0.isb (x := '>') (by decide), c0.isb (x := '\'') (by decide), c0.isb (x := '"') (by decide),
    c0.isb (x := '%') (by decide), c0.isb (x := '@') (by decide), c0.isb (x := '`') (by decide)]

theorem do_dispatch (h : St L K s1 t1 s2 t2) :
    Do L K (dispatch F s1.mark s1.flowLevel t1.text[0]? t1.text[1]? t1.text[2]? t1.text[3]?)
      (dispatch F s2.mark s2.flowLevel t2.text[0]? t2.text[1]? t2.text[2]? t2.text[3]?) Eq s1 t1 s2 t2 := by
  have r3 : ∀ (a b c d e : Bool), (a && b && c && d && e) = (a && (b && c && d && e)) := by decide
  unfold dispatch
  rw [r3, r3, r3 (s2.mark.column == 0), r3 (s2.mark.column == 0)]
  refine w2_ite (by rw [h.ch0.none]) (fun _ _ => do_streamEnd h) (fun _ _ => ?_)
  refine w2_ite (by rw [h.col, h.ch0.isb (by decide)]) (fun h1 h2 => ?_) (fun _ _ => ?_)
  · simp only [Bool.and_eq_true] at h1
    exact do_fetchDirective h (not_brk h1.2 (by decide))
  refine w2_ite (by rw [h.col, three (by decide) h.text]) (fun h1 h2 => ?_) (fun _ _ => ?_)
  · simp only [Bool.and_eq_true] at h1
    obtain ⟨_, ⟨⟨a, b⟩, c⟩, _⟩ := h1
    refine do_docIndicator h ?_
    intro j hj
    rcases (by omega : j = 0 ∨ j = 1 ∨ j = 2) with h | h | h
    · subst h; exact not_brk a (by decide)
    · subst h; exact not_brk b (by decide)
    · subst h; exact not_brk c (by decide)
  refine w2_ite (by rw [h.col, three (by decide) h.text]) (fun h1 h2 => ?_) (fun _ _ => ?_)
  · simp only [Bool.and_eq_true] at h1
    obtain ⟨_, ⟨⟨a, b⟩, c⟩, _⟩ := h1
    refine do_docIndicator h ?_
    intro j hj
    rcases (by omega : j = 0 ∨ j = 1 ∨ j = 2) with h | h | h
    · subst h; exact not_brk a (by decide)
    · subst h; exact not_brk b (by decide)
    · subst h; exact not_brk c (by decide)
  refine w2_ite (by rw [h.ch0.isb (by decide)]) (fun h1 h2 => do_flowStart h (not_brk h1 (by decide))) (fun _ _ => ?_)
  refine w2_ite (by rw [h.ch0.isb (by decide)]) (fun h1 h2 => do_flowStart h (not_brk h1 (by decide))) (fun _ _ => ?_)
  refine w2_ite (by rw [h.ch0.isb (by decide)]) (fun h1 h2 => do_flowEnd h (not_brk h1 (by decide))) (fun _ _ => ?_)
  refine w2_ite (by rw [h.ch0.isb (by decide)]) (fun h1 h2 => do_flowEnd h (not_brk h1 (by decide))) (fun _ _ => ?_)
  refine w2_ite (by rw [h.ch0.isb (by decide)]) (fun h1 h2 => do_flowEntry h (not_brk h1 (by decide))) (fun _ _ => ?_)
  refine w2_ite (by rw [two (by decide) h.text (fun c d hc => hc.blankz)]) (fun h1 h2 => ?_) (fun _ _ => ?_)
  · simp only [Bool.and_eq_true] at h1
    exact do_blockEntry h (not_brk h1.1 (by decide))
  refine w2_ite (by
    rw [h.fl]
    have := two (x := '?') (by decide) h.text (f := fun c => s2.flowLevel != 0 || isBlankzO c) (g := fun c => s2.flowLevel != 0 || isBlankzO c)
      (fun c d hc => by rw [hc.blankz])
    rw [this]) (fun h1 h2 => ?_) (fun _ _ => ?_)
  · simp only [Bool.and_eq_true] at h1
    exact do_key h (not_brk h1.1 (by decide))
  refine w2_ite (by
    rw [h.fl]
    have := two (x := ':') (by decide) h.text (f := fun c => s2.flowLevel != 0 || isBlankzO c) (g := fun c => s2.flowLevel != 0 || isBlankzO c)
      (fun c d hc => by rw [hc.blankz])
    rw [this]) (fun h1 h2 => ?_) (fun _ _ => ?_)
  · simp only [Bool.and_eq_true] at h1
    exact do_value h (not_brk h1.1 (by decide))
  refine w2_ite (by rw [h.ch0.isb (by decide)])
    (fun h1 h2 => do_word h fun s1 s2 t2 h => do_anchor h (not_brk h1 (by decide))) (fun _ _ => ?_)
  refine w2_ite (by rw [h.ch0.isb (by decide)])
    (fun h1 h2 => do_word h fun s1 s2 t2 h => do_anchor h (not_brk h1 (by decide))) (fun _ _ => ?_)
  refine w2_ite (by rw [h.ch0.isb (by decide)])
    (fun h1 h2 => do_word h fun s1 s2 t2 h => do_tag h (not_brk h1 (by decide))) (fun _ _ => ?_)
  refine w2_ite (by rw [h.fl, h.ch0.isb (by decide)]) (fun h1 h2 => ?_) (fun _ _ => ?_)
  · simp only [Bool.and_eq_true] at h1
    exact do_fetchBlockScalar h (not_brk h1.1 (by decide))
  refine w2_ite (by rw [h.fl, h.ch0.isb (by decide)]) (fun h1 h2 => ?_) (fun _ _ => ?_)
  · simp only [Bool.and_eq_true] at h1
    exact do_fetchBlockScalar h (not_brk h1.1 (by decide))
  refine w2_ite (by rw [h.ch0.isb (by decide)])
    (fun h1 h2 => do_word h fun s1 s2 t2 h => do_flowScalar h (not_brk h1 (by decide))) (fun _ _ => ?_)
  refine w2_ite (by rw [h.ch0.isb (by decide)])
    (fun h1 h2 => do_word h fun s1 s2 t2 h => do_flowScalar h (not_brk h1 (by decide))) (fun _ _ => ?_)
  exact w2_ite (by rw [h.fl, canStartPlain_tw h.text]) (fun _ _ => do_word h fun s1 s2 t2 h => do_plainScalar h)
    (fun _ _ => do_err h (Or.inl h.mark))

theorem do_fetchNext (h : St L K s1 t1 s2 t2) : Do L K (fetchNextToken F) (fetchNextToken F) Eq s1 t1 s2 t2 := by
  unfold fetchNextToken
  tws
  refine w2_ite (by rw [h.ss]) (fun _ _ => do_streamStart h) (fun _ _ => ?_)
  refine w2_seq (do_scanToNextToken h) ?_
  rintro _ s3 t3 _ s4 t4 ⟨-, h⟩
  refine w2_seq (do_stale h) ?_
  rintro _ s3 t3 _ s4 t4 ⟨-, h⟩
  tws
  refine w2_seq (do_unroll h (by rw [h.col])) ?_
  rintro _ s3 t3 _ s4 t4 ⟨-, h⟩
  tws
  exact do_dispatch h

theorem keyPending_tw (h : St L K s1 t1 s2 t2) : keyPending s1 = keyPending s2 := by
  unfold keyPending
  refine h.keys.any fun k k' hk => ?_
  rw [hk.possible]
  cases hp : k'.possible with
  | false => rfl
  | true =>
    have := hk.number (by rw [hk.possible]; exact hp)
    rw [Bool.true_and, Bool.true_and, this, h.tp, Bool.eq_iff_iff, beq_iff_eq, beq_iff_eq]
    omega

theorem do_fetchMore (h : St L K s1 t1 s2 t2) : Do L K (fetchMoreTokens F) (fetchMoreTokens F) Eq s1 t1 s2 t2 := by
  unfold fetchMoreTokens
  refine w2_seq (Q' := Ok L K Eq) (do_loop (R := Eq) h rfl ?_) ?_
  · rintro x _ s1 t1 s2 t2 rfl h
    tws
    refine w2_ite (by rw [h.toks.isEmpty]) (fun _ _ => ?_) (fun _ _ => ?_)
    · refine w2_seq (do_fetchNext h) ?_
      rintro _ s3 t3 _ s4 t4 ⟨-, h⟩
      exact ⟨rfl, h⟩
    · refine w2_seq (do_stale h) ?_
      rintro _ s3 t3 _ s4 t4 ⟨-, h⟩
      tws
      refine w2_ite (by rw [keyPending_tw h]) (fun _ _ => ?_) (fun _ _ => ⟨rfl, h⟩)
      refine w2_seq (do_fetchNext h) ?_
      rintro _ s3 t3 _ s4 t4 ⟨-, h⟩
      exact ⟨rfl, h⟩
  · rintro _ s3 t3 _ s4 t4 ⟨-, h⟩
    exact w2_modify ⟨rfl, ⟨h.text, h.enc, h.mark, h.ss, h.se, h.fl, h.toks, h.tp, rfl, h.is, h.i, h.ska, h.keys⟩⟩

/-- `scan` before the stream end was returned. -/
theorem do_scan (h : St L K s1 t1 s2 t2) (he : s1.streamEndProduced = false) : Do L K (scan F) (scan F) (Tk L) s1 t1 s2 t2 := by
  unfold scan
  tws
  refine w2_ite (by rw [h.se]) (fun h1 h2 => absurd h1 (by rw [he]; simp)) (fun _ _ => ?_)
  refine w2_seq (Q' := Ok L K Eq) (w2_when (by rw [h.ta]) (fun _ _ => do_fetchMore h) (fun _ _ => ⟨rfl, h⟩)) ?_
  rintro _ s3 t3 _ s4 t4 ⟨-, h⟩
  tws
  have ht := h.toks
  revert ht
  cases hk1 : s3.tokens with
  | nil =>
    cases hk2 : s4.tokens with
    | nil => intro _; exact w2_panic
    | cons k ks => intro hk; cases hk
  | cons k ks =>
    cases hk2 : s4.tokens with
    | nil => intro hk; cases hk
    | cons k' ks' =>
      intro hk
      cases hk with
      | cons hk hks =>
        tws
        exact ⟨hk, ⟨h.text, h.enc, h.mark, h.ss, by show (s3.streamEndProduced || _) = _; rw [h.se, hk.data], h.fl, hks,
          by show s3.tokensParsed + 1 = s4.tokensParsed + 1 + K; have := h.tp; omega, rfl, h.is, h.i, h.ska, h.keys⟩⟩

end
end Tw
end Yaml
