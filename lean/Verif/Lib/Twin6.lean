import Verif.Lib.Twin5
import Verif.Lib.Same
import Verif.Lib.TokRun

/-
Two scanner objects side by side: related texts give related lists of tokens.
-/

namespace Yaml
open Reader Scanner
set_option linter.unusedSimpArgs false
set_option linter.unusedVariables false

namespace Tw

/-- Two scanners over clean inputs that are at related positions. -/
structure Pair (L K : Nat) (enc : Encoding) (o1 o2 : ScannerObj) (n : Nat) : Prop where
  r : ∃ b1 b2, RC enc b1 o1.r ∧ RC enc b2 o2.r ∧ St L K o1.s ⟨b1.text, enc⟩ o2.s ⟨b2.text, enc⟩ ∧ b1.text.length ≤ n ∧ b2.text.length ≤ n
  i1 : Idle o1.s ∨ SDone o1.s
  i2 : Idle o2.s ∨ SDone o2.s

/-- Related results of a call. -/
inductive Rs (L : Nat) : Out Token → Out Token → Prop
  | ok {t t' : Token} (h : Tk L t t') : Rs L (.ok t) (.ok t')
  | err {e e' : Err} (h : Er L e e') : Rs L (.err e) (.err e')
  | panic (p : PanicSite) : Rs L (.panic p) (.panic p)
  | fuel : Rs L .fuel .fuel

theorem Pair.scan {L K : Nat} {enc : Encoding} {o1 o2 : ScannerObj} {n F : Nat} (h : Pair L K enc o1 o2 n) (hF : n + 2 < F)
    (he : o1.s.streamEndProduced = false) :
    Rs L (o1.scan F).1 (o2.scan F).1 ∧ ((∃ t, (o1.scan F).1 = .ok t) → Pair L K enc (o1.scan F).2 (o2.scan F).2 n) := by
  obtain ⟨⟨b1, b2, hr1, hr2, hst, hl1, hl2⟩, h1, h2⟩ := h
  have he2 : o2.s.streamEndProduced = false := by rw [← hst.se]; exact he
  have i1 : Idle o1.s := h1.resolve_right fun h => by have := h.produced; rw [he] at this; cases this
  have i2 : Idle o2.s := h2.resolve_right fun h => by have := h.produced; rw [he2] at this; cases this
  have w1 := wpB_scan_idle (F := F) i1 (b := b1) (by omega)
  have w2 := wpB_scan_idle (F := F) i2 (b := b2) (by omega)
  obtain ⟨x1, c1, y1, z1, q1⟩ := exec_clean _ w1 hr1
  obtain ⟨x2, c2, y2, z2, q2⟩ := exec_clean _ w2 hr2
  have hd : post2 (Er L) (Ok L K (Tk L)) _ _ := do_scan (F := F) hst he
  obtain ⟨p1, hp1⟩ := (execT_text (Scanner.scan F o1.s) ⟨b1.text, enc⟩).2
  obtain ⟨p2, hp2⟩ := (execT_text (Scanner.scan F o2.s) ⟨b2.text, enc⟩).2
  have e1 := (execT_text (Scanner.scan F o1.s) ⟨b1.text, enc⟩).1
  have e2 := (execT_text (Scanner.scan F o2.s) ⟨b2.text, enc⟩).1
  have hp1 : b1.text = p1 ++ _ := hp1
  have hp2 : b2.text = p2 ++ _ := hp2
  have l1 : c1.text.length ≤ n := by
    rw [z1]; rw [hp1] at hl1; simp at hl1; omega
  have l2 : c2.text.length ≤ n := by
    rw [z2]; rw [hp2] at hl2; simp at hl2; omega
  clear hp1 hp2 w1 w2
  unfold ScannerObj.scan runA
  generalize execA (Scanner.scan F o1.s) o1.r = a1 at *
  generalize execA (Scanner.scan F o2.s) o2.r = a2 at *
  generalize execT (Scanner.scan F o1.s) ⟨b1.text, enc⟩ = k1 at *
  generalize execT (Scanner.scan F o2.s) ⟨b2.text, enc⟩ = k2 at *
  obtain ⟨a1, r1⟩ := a1
  obtain ⟨a2, r2⟩ := a2
  obtain ⟨⟨u1, s1⟩, ⟨v1, n1⟩⟩ := k1
  obtain ⟨⟨u2, s2⟩, ⟨v2, n2⟩⟩ := k2
  dsimp only at *
  subst x1 x2 z1 z2 e1 e2
  cases u1 with
  | ok t =>
    cases u2 with
    | ok t' => exact ⟨.ok hd.1, fun _ => ⟨⟨c1, c2, y1, y2, hd.2, l1, l2⟩, q1, q2⟩⟩
    | err e => exact hd.elim
    | panic e => exact hd.elim
    | fuel => exact hd.elim
  | err t =>
    cases u2 with
    | err t' => exact ⟨.err hd, fun h => absurd h (by simp)⟩
    | ok e => exact hd.elim
    | panic e => exact hd.elim
    | fuel => exact hd.elim
  | panic t =>
    cases u2 with
    | panic t' => cases hd; exact ⟨.panic _, fun h => absurd h (by simp)⟩
    | ok e => exact hd.elim
    | err e => exact hd.elim
    | fuel => exact hd.elim
  | fuel =>
    cases u2 with
    | fuel => exact ⟨.fuel, fun h => absurd h (by simp)⟩
    | ok e => exact hd.elim
    | err e => exact hd.elim
    | panic e => exact hd.elim

/-- Related scanners deliver related tokens and end in the same way. -/
theorem scans_pair {L K : Nat} {enc : Encoding} {F n : Nat} (hF : n + 2 < F) {o1 o2 : ScannerObj} {ts1 ts2 : List Token} {x1 x2 : Out Token}
    (h : Pair L K enc o1 o2 n) (h1 : Scans F o1 ts1 x1) (h2 : Scans F o2 ts2 x2) : Zip (Tk L) ts1 ts2 ∧ Rs L x1 x2 := by
  induction h1 generalizing o2 ts2 x2 with
  | stop hx hn hp h0 =>
    obtain ⟨g1, g2⟩ := h.scan hF h0
    rw [hx] at g1
    cases h2 with
    | stop hx2 => rw [hx2] at g1; exact ⟨.nil, g1⟩
    | last hs => rw [hs] at g1; generalize hy : Out.ok _ = y at g1; cases g1 <;> cases hy; exact absurd rfl (hn _)
    | cons hs => rw [hs] at g1; generalize hy : Out.ok _ = y at g1; cases g1 <;> cases hy; exact absurd rfl (hn _)
  | last hs ht h0 hpk k1 k2 =>
    obtain ⟨g1, g2⟩ := h.scan hF h0
    rw [hs] at g1
    cases h2 with
    | stop hx2 hn => rw [hx2] at g1; generalize hy : Out.ok _ = y at g1; cases g1 <;> cases hy; exact absurd rfl (hn _)
    | last hs2 => rw [hs2] at g1; cases g1 with | ok g1 => exact ⟨.one g1, .err (.same _ rfl)⟩
    | cons hs2 ht2 => rw [hs2] at g1; cases g1 with | ok g1 => rw [g1.data] at ht; exact absurd ht ht2
  | cons hs ht h0 hpk k1 k2 h' ih =>
    obtain ⟨g1, g2⟩ := h.scan hF h0
    have g2 := g2 ⟨_, by rw [hs]⟩
    rw [hs] at g1 g2
    cases h2 with
    | stop hx2 hn => rw [hx2] at g1; generalize hy : Out.ok _ = y at g1; cases g1 <;> cases hy; exact absurd rfl (hn _)
    | last hs2 ht2 => rw [hs2] at g1; cases g1 with | ok g1 => rw [g1.data] at ht; exact absurd ht2 ht
    | cons hs2 ht2 _ _ _ _ h2' =>
      rw [hs2] at g1 g2
      cases g1 with
      | ok g1 =>
        obtain ⟨a, b⟩ := ih g2 h2'
        exact ⟨.cons g1 a, b⟩

/-- Fresh scanners over texts that differ only in their line breaks. -/
theorem Pair.start {enc1 enc2 e : Encoding} {items1 items2 : List SrcItem} {T1 T2 : List Char} (h1 : Clean enc1 items1 e T1)
    (h2 : Clean enc2 items2 e T2) (hs1 : 4 * srcSize items1 < maxInput) (hs2 : 4 * srcSize items2 < maxInput) (hT : Nm T1 T2)
    {n : Nat} (hn1 : T1.length ≤ n) (hn2 : T2.length ≤ n) :
    Pair 0 0 e (ScannerObj.new items1 enc1) (ScannerObj.new items2 enc2) n :=
  ⟨⟨_, _, RC.start h1 hs1, RC.start h2 hs2,
    ⟨hT, rfl, ⟨rfl, rfl⟩, rfl, rfl, rfl, .nil, rfl, rfl, rfl, rfl, rfl, .nil⟩, hn1, hn2⟩, Or.inl (Or.inl rfl), Or.inl (Or.inl rfl)⟩

/-! ### Texts with the same lines -/

theorem ub_cons {c : Char} {t : Str} (h : ¬ (c = '\r' ∧ t.head? = some '\n')) :
    Spec.unixBreaks (c :: t) = (if c = '\r' ∨ c = '\u0085' then '\n' else c) :: Spec.unixBreaks t := by
  rw [Spec.unixBreaks.eq_def]
  split
  · rename_i h1; cases h1
  · rename_i h1; cases h1; simp at h
  · rename_i h1; cases h1; rfl

theorem ub_crlf {t : Str} : Spec.unixBreaks ('\r' :: '\n' :: t) = '\n' :: Spec.unixBreaks t := by rw [Spec.unixBreaks]

/-- A non-empty text, read by the first character of its `unixBreaks`. -/
theorem ub_read (t : Str) (ht : t ≠ []) : ∃ v r, Spec.unixBreaks t = v :: Spec.unixBreaks r ∧ r.length < t.length ∧
    ((isBreak v = false ∧ t = v :: r) ∨ (isBreak v = true ∧ Spec.BreakAt t v r)) := by
  cases t with
  | nil => exact absurd rfl ht
  | cons c t =>
    by_cases hc : c = '\r' ∧ t.head? = some '\n'
    · obtain ⟨rfl, h2⟩ := hc
      cases t with
      | nil => cases h2
      | cons d t => cases h2; exact ⟨'\n', t, ub_crlf, by simp; omega, Or.inr ⟨by decide, .crlf _⟩⟩
    · refine ⟨_, t, ub_cons hc, by simp, ?_⟩
      cases hb : isBreak c with
      | true =>
        have hv : (if c = '\r' ∨ c = '\u0085' then '\n' else c) = Spec.breakValue c := by
          rcases break_cases hb with rfl | rfl | rfl | rfl | rfl <;> decide
        have hl : Spec.isLineBreak c = true := by
          rcases break_cases hb with rfl | rfl | rfl | rfl | rfl <;> decide
        rw [hv]
        refine Or.inr ⟨?_, .one c t hl hc⟩
        rcases break_cases hb with rfl | rfl | rfl | rfl | rfl <;> decide
      | false =>
        rw [if_neg]
        · exact Or.inl ⟨hb, rfl⟩
        · rintro (rfl | rfl) <;> simp [isBreak] at hb

theorem ub_nil {t : Str} (h : Spec.unixBreaks t = []) : t = [] := by
  cases t with
  | nil => rfl
  | cons c t => obtain ⟨v, r, h1, _⟩ := ub_read (c :: t) (by simp); rw [h1] at h; cases h

theorem nm_of_unix : ∀ (n : Nat) {t1 t2 : Str}, t1.length ≤ n → Spec.unixBreaks t1 = Spec.unixBreaks t2 → Nm t1 t2 := by
  intro n
  induction n with
  | zero =>
    intro t1 t2 hn h
    have : t1 = [] := List.length_eq_zero_iff.1 (by omega)
    subst this
    rw [ub_nil h.symm]; exact .nil
  | succ n ih =>
    intro t1 t2 hn h
    by_cases h1 : t1 = []
    · subst h1; rw [ub_nil h.symm]; exact .nil
    · have h2 : t2 ≠ [] := by rintro rfl; exact h1 (ub_nil h)
      obtain ⟨v1, r1, a1, b1, c1⟩ := ub_read t1 h1
      obtain ⟨v2, r2, a2, b2, c2⟩ := ub_read t2 h2
      rw [a1, a2] at h
      simp only [List.cons.injEq] at h
      obtain ⟨rfl, h⟩ := h
      have hr := ih (by omega) h
      rcases c1 with ⟨p1, q1⟩ | ⟨p1, q1⟩
      · rcases c2 with ⟨p2, q2⟩ | ⟨p2, q2⟩
        · rw [q1, q2]; exact .char p1 hr
        · rw [p1] at p2; cases p2
      · rcases c2 with ⟨p2, q2⟩ | ⟨p2, q2⟩
        · rw [p1] at p2; cases p2
        · exact .brk q1 q2 hr

end Tw
end Yaml
