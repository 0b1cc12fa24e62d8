import Verif.Lib.Docs2

/-
The tokens behind a document end marker are those of the rest of the text.
-/

namespace Yaml
open Scanner Spec Reader
set_option linter.unusedSimpArgs false
set_option linter.unusedVariables false

namespace Dx
open Tw (St Pair Rs Tk Er)

theorem advance_len (m : Mark) (p : Str) : (advance m p).index = m.index + strLen p := by
  induction hn : p.length using Nat.strongRecOn generalizing m p with
  | _ n ih =>
    match p with
    | [] => simp [advance, strLen]
    | c :: r =>
      by_cases hc : c = '\r' ∧ r.head? = some '\n'
      · obtain ⟨rfl, h2⟩ := hc
        cases r with
        | nil => simp at h2
        | cons d r =>
          simp at h2; subst h2
          rw [advance_crlf, ih r.length (by simp at hn; omega) _ r rfl]
          have h1 : lenUtf8 '\r' = 1 := by decide
          have h2 : lenUtf8 '\n' = 1 := by decide
          simp only [newlineMark, strLen, h1, h2]
          omega
      · rw [advance_cons m c r hc, ih r.length (by simp at hn; omega) _ r rfl]
        simp only [strLen]
        split <;> simp only [newlineMark, bumpMark] <;> omega

theorem strLen_app (a b : Str) : strLen (a ++ b) = strLen a + strLen b := by
  induction a with
  | nil => simp [strLen]
  | cons c a ih => simp only [List.cons_append, strLen, ih]; omega

theorem strLen_zero {a : Str} (h : strLen a = 0) : a = [] := by
  cases a with
  | nil => rfl
  | cons c a => have := lenUtf8_pos c; simp only [strLen] at h; omega

/-- A position determines what is behind it. -/
theorem rest_of_mark {T A r r' : Str} {m : Mark} (hT : T = A ++ r) (hm : position A = m) (h : Adv Mark.zero T m r') : r' = r := by
  obtain ⟨q, h1, h2, _⟩ := h
  have hm : advance Mark.zero A = m := hm
  have e : strLen A = strLen q := by
    have a := advance_len Mark.zero A
    have b := advance_len Mark.zero q
    rw [hm] at a
    rw [← h2] at b
    omega
  rw [h1] at hT
  rcases List.append_eq_append_iff.1 hT with ⟨x, rfl, rfl⟩ | ⟨x, rfl, rfl⟩
  · rw [strLen_app] at e
    rw [strLen_zero (a := x) (by omega)]; rfl
  · rw [strLen_app] at e
    rw [strLen_zero (a := x) (by omega)]; rfl

/-- The state after the stream start was delivered. -/
def fresh : SState :=
  { SState.new with streamStartProduced := true, indent := -1, simpleKeys := [emptyKey], simpleKeyAllowed := true, tokensParsed := 1 }

theorem scan_fresh {n : Nat} {t : Txt} : execT (Scanner.scan (n + 2) SState.new) t = ((.ok ⟨.streamStart t.enc, Mark.zero, Mark.zero⟩, fresh), t) := rfl

theorem fresh_scan {F : Nat} {items : List SrcItem} {enc e : Encoding} {T : Str} (h : Clean enc items e T) (hs : 4 * srcSize items < maxInput) (hF : T.length + 2 < F) :
    ∃ o b, (ScannerObj.new items enc).scan F = (.ok ⟨.streamStart e, Mark.zero, Mark.zero⟩, o) ∧ o.s = fresh ∧ RC e b o.r ∧ b.text = T ∧ Idle o.s := by
  have hR : RC e ⟨T, 0⟩ (ScannerObj.new items enc).r := RC.start h hs
  have w := wpB_scan_idle (F := F) (s := SState.new) (Or.inl rfl) (b := ⟨T, 0⟩) hF
  obtain ⟨x, c, y, z, q⟩ := exec_clean _ w hR
  obtain ⟨n, rfl⟩ : ∃ n, F = n + 2 := ⟨F - 2, by omega⟩
  rw [scan_fresh] at x z
  refine ⟨⟨fresh, (execA (Scanner.scan (n + 2) SState.new) (ScannerObj.new items enc).r).2⟩, c, ?_, rfl, y, z, ?_⟩
  · unfold ScannerObj.scan runA
    show (let q := execA (Scanner.scan (n + 2) SState.new) (ScannerObj.new items enc).r; (q.1.1, (⟨q.1.2, q.2⟩ : ScannerObj))) = _
    generalize execA (Scanner.scan (n + 2) SState.new) (ScannerObj.new items enc).r = q at x
    obtain ⟨q1, q2⟩ := q
    have x : q1 = _ := x
    subst x
    rfl
  · generalize execA (Scanner.scan (n + 2) SState.new) (ScannerObj.new items enc).r = q0 at x q
    obtain ⟨q1, q2⟩ := q0
    have x : q1 = _ := x
    subst x
    have q : Idle fresh ∨ SDone fresh := q
    refine q.resolve_right fun h => ?_
    have := h.produced
    cases this

theorem st_next {T : Str} {e : Encoding} {d : Token} {o : ScannerObj} {b : Inp} (h : Stop T e d 0 o b) {m : Mark} (hl : m.line = o.s.mark.line + 1) (hc : m.column = 0) (B : Str) :
    St (d.endMark.line + 1) (o.s.tokensParsed - 1) (nextLine m o.s) ⟨B, e⟩ fresh ⟨B, e⟩ := by
  have hk := h.s.keysLen
  rw [← h.flow] at hk
  obtain ⟨i1, i2⟩ := h.after.ind h.flow.symm
  refine ⟨Tw.nm_of_unix _ (Nat.le_refl _) rfl, rfl, ⟨?_, ?_⟩, h.s.started, h.s.notProduced, h.flow.symm, ?_, ?_, h.s.notAvail, i1, i2, rfl, ?_⟩
  · show m.line = 0 + (d.endMark.line + 1); rw [hl, h.after.mark]; omega
  · exact hc
  · show Tw.Zip _ o.s.tokens []; rw [h.empty]; exact .nil
  · show o.s.tokensParsed = 1 + (o.s.tokensParsed - 1); have := h.parsed; omega
  · show Tw.Zip _ o.s.simpleKeys [emptyKey]
    have hp := h.after.keys
    match hx : o.s.simpleKeys, hk with
    | [k], _ =>
      have hp := hp k (by rw [hx]; simp)
      refine .cons ⟨hp, ?_, ?_, ?_, ?_, ?_⟩ .nil <;> (intro h'; rw [hp] at h'; cases h')

/-- The first result behind the marker. -/
theorem stop_scan {T A w t0 B : Str} {e : Encoding} {d : Token} {o o2 : ScannerObj} {b b2 : Inp} {v : Char} {F : Nat} (h : Stop T e d 0 o b) (hT : T = A ++ (w ++ t0))
    (hA : position A = d.endMark) (hw : LineRest w) (hb : BreakAt t0 v B) (hF : T.length + 2 < F) (h2 : o2.s = fresh) (hR2 : RC e b2 o2.r) (hB : b2.text = B) (hi2 : Idle o2.s) :
    Rs (d.endMark.line + 1) (o.scan F).1 (o2.scan F).1 ∧
      ((∃ t, (o.scan F).1 = .ok t) → Pair (d.endMark.line + 1) (o.s.tokensParsed - 1) e (o.scan F).2 (o2.scan F).2 T.length) := by
  have ht : b.text = w ++ t0 := rest_of_mark hT hA h.adv
  have hBl : B.length ≤ t0.length := by
    cases hb with
    | crlf t => simp; omega
    | one c t => simp
  have hlen : T.length = A.length + (w.length + t0.length) := by rw [hT]; simp
  have w1 := wpB_scan_idle (F := F) (s := o.s) (Or.inr (Or.inl h.s)) (b := b) (by rw [ht]; simp; omega)
  have w2 := wpB_scan_idle (F := F) (s := o2.s) hi2 (b := b2) (by rw [hB]; omega)
  obtain ⟨x1, c1, y1, z1, q1⟩ := exec_clean _ w1 h.rc
  obtain ⟨x2, c2, y2, z2, q2⟩ := exec_clean _ w2 hR2
  obtain ⟨n, rfl⟩ : ∃ n, F = n + 1 := ⟨F - 1, by omega⟩
  have hne : (execT (Scanner.scan (n + 1) o.s) ⟨w ++ t0, e⟩).1.1 ≠ .fuel := by
    rw [← ht, ← x1]
    intro hf
    revert q1
    generalize (execA (Scanner.scan (n + 1) o.s) o.r).1 = k at hf
    obtain ⟨k1, k2⟩ := k
    have hf : k1 = .fuel := hf
    subst hf
    exact id
  obtain ⟨m, hm1, hm2, hm3⟩ := scan_line (n := n) hw hb h.s h.empty h.flow.symm h.after.ska (by omega) hne
  have hst := st_next h hm1 hm2 B
  have hd : Tw.post2 (Er (d.endMark.line + 1)) (Tw.Ok (d.endMark.line + 1) (o.s.tokensParsed - 1) (Tk (d.endMark.line + 1))) _ _ :=
    Tw.do_scan (F := n + 1) hst h.s.notProduced
  rw [← hm3, ← ht, ← hB, ← h2] at hd
  obtain ⟨p1, hp1⟩ := (execT_text (Scanner.scan (n + 1) o.s) ⟨b.text, e⟩).2
  obtain ⟨p2, hp2⟩ := (execT_text (Scanner.scan (n + 1) o2.s) ⟨b2.text, e⟩).2
  have e1 := (execT_text (Scanner.scan (n + 1) o.s) ⟨b.text, e⟩).1
  have e2 := (execT_text (Scanner.scan (n + 1) o2.s) ⟨b2.text, e⟩).1
  have hp1 : b.text = p1 ++ _ := hp1
  have hp2 : b2.text = p2 ++ _ := hp2
  have l1 : c1.text.length ≤ T.length := by
    have : b.text.length ≤ T.length := by rw [ht]; simp; omega
    rw [z1]; rw [hp1] at this; simp at this; omega
  have l2 : c2.text.length ≤ T.length := by
    have : b2.text.length ≤ T.length := by rw [hB]; omega
    rw [z2]; rw [hp2] at this; simp at this; omega
  clear hp1 hp2 w1 w2 hne hm3
  unfold ScannerObj.scan runA
  generalize execA (Scanner.scan (n + 1) o.s) o.r = a1 at *
  generalize execA (Scanner.scan (n + 1) o2.s) o2.r = a2 at *
  generalize execT (Scanner.scan (n + 1) o.s) ⟨b.text, e⟩ = k1 at *
  generalize execT (Scanner.scan (n + 1) o2.s) ⟨b2.text, e⟩ = k2 at *
  obtain ⟨a1, r1⟩ := a1
  obtain ⟨a2, r2⟩ := a2
  obtain ⟨⟨u1, s1⟩, ⟨v1, n1⟩⟩ := k1
  obtain ⟨⟨u2, s2⟩, ⟨v2, n2⟩⟩ := k2
  dsimp only at *
  subst x1 x2 z1 z2 e1 e2
  cases u1 with
  | ok t =>
    cases u2 with
    | ok t' => exact ⟨.ok hd.1, fun _ => ⟨⟨c1, c2, y1, y2, hd.2, l1, l2⟩, q1, q2⟩⟩
    | err e => exact hd.elim
    | panic e => exact hd.elim
    | fuel => exact hd.elim
  | err t =>
    cases u2 with
    | err t' => exact ⟨.err hd, fun h => absurd h (by simp)⟩
    | ok e => exact hd.elim
    | panic e => exact hd.elim
    | fuel => exact hd.elim
  | panic t =>
    cases u2 with
    | panic t' => cases hd; exact ⟨.panic _, fun h => absurd h (by simp)⟩
    | ok e => exact hd.elim
    | err e => exact hd.elim
    | fuel => exact hd.elim
  | fuel =>
    cases u2 with
    | fuel => exact ⟨.fuel, fun h => absurd h (by simp)⟩
    | ok e => exact hd.elim
    | err e => exact hd.elim
    | panic e => exact hd.elim

end Dx
end Yaml
