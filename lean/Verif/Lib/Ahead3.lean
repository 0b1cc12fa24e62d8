import Verif.Lib.Ahead2
import Verif.Lib.Docs5

/-
A parser that has just returned an explicit document end has not looked further than its scanner
did for that token.
-/

namespace Yaml.Nd
open Yaml Yaml.Dx Yaml.Spec Scanner ParserObj
set_option linter.unusedSimpArgs false
set_option linter.unusedVariables false

variable {F : Nat} {o0 : ScannerObj}

theorem run_came {α : Type} {m : Pars α} {o : ParserObj} {g : Toks} {E : Err → PState → Toks → Prop} {Q : α → PState → Toks → Prop} {n : Nat}
    (hw : M.wp stepL NoP E m Q o.p g) (hr : Rel F g o.s o.r) (hb : g.broken = false) (hc : Came F o0 n g.peeked o.s o.r) {a : α} {o' : ParserObj}
    (h : o.run F m = (.ok a, o')) :
    ∃ g', Q a o'.p g' ∧ Rel F g' o'.s o'.r ∧ (g'.broken = false → ∃ n', n' + g'.toks.length = n + g.toks.length ∧ Came F o0 n' g'.peeked o'.s o'.r) := by
  obtain ⟨s', r', h1, h2⟩ := exec_list F o.p (m o.p) hw hr
  have h3 := execL_of_wp o.p (m o.p) hw
  have h4 := exec_came o.p (m o.p) hw hr hb hc
  rw [h1] at h4
  have e : o.run F m = ((execL o.p (m o.p) g).1.1, ⟨(execL o.p (m o.p) g).1.2, s', r'⟩) := by
    unfold ParserObj.run runA Parser.onScanner
    dsimp only
    rw [h1]
  rw [e] at h
  generalize execL o.p (m o.p) g = q at h h2 h3 h4
  obtain ⟨⟨out, p'⟩, g'⟩ := q
  simp only [Prod.mk.injEq] at h
  obtain ⟨rfl, rfl⟩ := h
  dsimp only at h3
  rcases h3 with h3 | ⟨x, h3, _⟩ | ⟨h3, _⟩
  · exact ⟨g', h3, h2, h4⟩
  · simp at h3
  · simp at h3

theorem parse_came {ts : List Token} {fin : Out Token} {evs : List Event} {o o' : ParserObj} {e : Event} {G : GSt} {D : List TagDirective} {c toks : List Token}
    {st pk : Bool} (h : PInv F ts fin evs o G D c toks st pk) (hc : Came F o0 c.length pk o.s o.r) (hF : ts.length < F)
    (hfin : (∃ e, fin = .err e) ∨ ∃ x, fin = .panic x)
    (hne : o.p.state ≠ .end_) {R : Event → PState → Toks → Prop} (hR : wpA (Parser.parse F) R o.p (lv toks fin st pk)) (hstep : o.parse F = (.ok e, o')) :
    ∃ G' D' c' toks' pk', PInv F ts fin (evs ++ [e]) o' G' D' c' toks' true pk' ∧ Came F o0 c'.length pk' o'.s o'.r ∧
      ∃ g', g'.toks = toks' ∧ g'.peeked = pk' ∧ R e o'.p g' := by
  have hend : (o.p.state == .end_) = false := by simpa using hne
  have hrel := h.rel
  rw [hend] at hrel
  have el := congrArg List.length h.split
  simp only [List.length_append] at el
  have e0 : o.parse F = o.run F (Parser.parse F) := rfl
  rw [e0] at hstep
  have := run_came (F := F) (m := Parser.parse F) (o := o) (wpA_and (wp_parse (by omega) h.good hne) hR) hrel rfl hc hstep
  have side := run_of_wp (F := F) (m := Parser.parse F) (o := o) (wp_parse_side (by omega) h.good hne) hrel hfin
  rw [hstep] at side
  obtain ⟨g', ⟨⟨c1, G', toks', pk', rfl, hs⟩, hRes⟩, hrel', hcm⟩ := this
  obtain ⟨_, ⟨side1, side2⟩, _⟩ := side
  obtain ⟨n', k1, k2⟩ := hcm rfl
  have el2 := congrArg List.length hs.split
  simp only [List.length_append] at el2
  have k1 : n' + toks'.length = c.length + toks.length := k1
  have k3 : n' = (c ++ c1).length := by rw [List.length_append]; omega
  refine ⟨G', _, c ++ c1, toks', pk', ⟨hrel', hs.good, by rw [h.split, hs.split, List.append_assoc], ?_, h.made.snoc (by rw [← h.dirs]; exact hs.carries), ?_, ?_, ?_, ?_⟩, k3 ▸ k2, _, rfl, rfl, hRes⟩
  · rw [List.map_append]; exact h.run.snoc hs.step
  · unfold inForce; rw [List.foldl_append, h.dirs]; rfl
  · have h1 := h.pot
    have h2 := hs.less
    rw [List.length_append]
    simp only [List.length_cons, List.length_nil]
    omega
  · intro es d v tags he hd
    obtain ⟨_, h2⟩ := List.append_inj' he rfl
    cases h2
    exact side1 _ _ hd
  · intro es d x es' v tags value pi qi style he hd hx
    rcases List.eq_nil_or_concat es' with rfl | ⟨es2, y, rfl⟩
    · have he : evs ++ [e] = (es ++ [d]) ++ [x] := by simpa using he
      obtain ⟨h1, h2⟩ := List.append_inj' he rfl
      cases h2
      obtain ⟨t, ht, htd⟩ := side2 (h.impl _ _ _ _ h1 hd) _ _ _ _ hx
      exact ⟨t, by rw [h.split]; simp [ht], htd⟩
    · have he : evs ++ [e] = (es ++ d :: x :: es2) ++ [y] := by simpa using he
      obtain ⟨h1, _⟩ := List.append_inj' he rfl
      exact h.root _ _ _ _ _ _ _ _ _ _ h1 hd hx

theorem parses_came {items : List SrcItem} {enc : Encoding} {ts : List Token} {fin : Out Token} {evs : List Event} {o : ParserObj}
    (h : Parses F (new items enc) evs o) (hs : Scans F (ScannerObj.new items enc) ts fin)
    (hF : ts.length < F) (hfin : (∃ e, fin = .err e) ∨ ∃ x, fin = .panic x) :
    ∃ evs1 G D c toks st pk, PInv F ts fin evs1 o G D c toks st pk ∧ Came F (ScannerObj.new items enc) c.length pk o.s o.r := by
  induction h with
  | nil => exact ⟨[], _, _, _, _, _, _, PInv.start hs, Came.fresh .nil⟩
  | @snoc evs e o1 o2 h hstep ih =>
    obtain ⟨evs1, G, D, c, toks, st, pk, hp, hc⟩ := ih
    by_cases hend : o1.p.state = .end_
    · rw [PInv.ended hend] at hstep
      simp at hstep
      obtain ⟨rfl, rfl⟩ := hstep
      exact ⟨evs1, G, D, c, toks, st, pk, hp, hc⟩
    · obtain ⟨G', D', c', toks', pk', h1, h2, _⟩ := parse_came hp hc hF hfin hend (R := fun _ _ _ => True) (wpA_parse_any hp.good hF hp.split hend) hstep
      exact ⟨_, G', D', c', toks', true, pk', h1, h2⟩

theorem wp_end_peek {G : GSt} {D : List TagDirective} {p : PState} {toks : List Token} {fin : Out Token} {st pk : Bool} (hF : toks.length < F) (hg : PGood G D p toks) (hne : p.state ≠ .end_) :
    wpA (Parser.parse F) (fun e p' g' => e.data = .documentEnd false → g'.peeked = false) p (lv toks fin st pk) := by
  by_cases hG : G = .docEnd
  · subst hG
    obtain ⟨h1, h2, h3⟩ := at_docEnd hg.pos
    unfold wpA Parser.parse
    rw [M.wp_bind, M.wp_prim]
    refine ⟨rfl, ?_⟩
    pws
    have : (p.state == .end_) = false := by rw [h1]; rfl
    rw [this, h1]
    show M.wp stepL _ _ Parser.parseDocumentEnd _ _ _
    unfold Parser.parseDocumentEnd
    pws
    refine wp_peek ?_ (fun _ _ => trivial)
    rintro t ts rfl
    rw [M.wp_when]
    split
    · rename_i h
      have h : t.data = .documentEnd := by simpa using h
      rw [wp_skip_lv (by simp [h])]
      intro _; rfl
    · rename_i h
      have h : ¬ t.data = .documentEnd := by simpa using h
      intro hi; simp [h] at hi
  · refine Free.wp_mono stepL_mono ?_ (wp_parse (fin := fin) (st := st) (pk := pk) hF hg hne)
    rintro ⟨x, p'⟩ g' h
    cases x with
    | ok e =>
      obtain ⟨c, G', toks', pk', rfl, hs⟩ := h
      intro hi
      have := hs.step
      rw [hi] at this
      cases G <;> first | exact absurd rfl hG | simp [gstep] at this
    | err e => trivial
    | panic x => trivial
    | fuel => exact h

/-- The scanner of a parser that has returned an explicit document end is one that was called up to
that token. -/
theorem parses_reads {items : List SrcItem} {enc : Encoding} {ts : List Token} {fin : Out Token} (hs : Scans F (ScannerObj.new items enc) ts fin)
    (hl : ts.length < F) (hfin : (∃ e, fin = .err e) ∨ ∃ x, fin = .panic x) {evs : List Event} {ev : Event} {o : ParserObj}
    (h : Parses F (new items enc) (evs ++ [ev]) o) (he : ev.data = .documentEnd false) :
    ∃ c t, ScannerObj.Reads F (ScannerObj.new items enc) (c ++ [t]) ⟨o.s, o.r⟩ ∧ t.data = .documentEnd ∧ ev.endMark = t.endMark := by
  generalize hq : evs ++ [ev] = q at h
  cases h with
  | nil => simp at hq
  | @snoc evs' ev' o1 o2 h hstep =>
    obtain ⟨rfl, h2⟩ := List.append_inj' hq rfl
    simp only [List.cons.injEq, and_true] at h2
    subst h2
    obtain ⟨evs1, G, D, c, toks, st, pk, hp, hcm⟩ := parses_came h hs hl hfin
    have hend : o1.p.state ≠ .end_ := by
      intro hend
      rw [PInv.ended hend] at hstep
      simp at hstep
      rw [← hstep.1] at he
      simp at he
    have el := congrArg List.length hp.split
    simp only [List.length_append] at el
    have hw : wpA (Parser.parse F) (SpanRes toks o1.p.marks) o1.p (lv toks fin st pk) := by
      refine Free.wp_mono stepL_mono ?_ (wpM_parse (F := F) (fin := fin) (st := st) (pk := pk) (by omega) hp.good hend)
      rintro ⟨r, p'⟩ g' h
      cases r with
      | ok r => exact h
      | err e => trivial
      | panic x => trivial
      | fuel => exact h
    obtain ⟨G', D', c', toks', pk', hp', hcm', g', rfl, rfl, ⟨c1, h1, h2, h3⟩, h4⟩ := parse_came hp hcm hl hfin hend (wpA_and hw (wp_end_peek (by omega) hp.good hend)) hstep
    rw [h4 he] at hcm'
    have hc' : c' = c ++ c1 := by
      have e1 := hp'.split
      rw [hp.split, h1, ← List.append_assoc] at e1
      exact (List.append_cancel_right e1).symm
    subst hc'
    have hsp := hp'.split
    generalize g'.toks = rest at *
    cases h2 with
    | documentEnd he' ht hsp' =>
      rename_i t
      generalize hn : (c ++ [t]).length = n at hcm'
      generalize hb : false = b at hcm'
      cases hcm' with
      | front => cases hb
      | @fresh hist _ _ hr =>
        rw [hsp] at hs
        obtain ⟨o', hr', _⟩ := scans_split (o := ScannerObj.new items enc) (by rw [ht]; simp) hs
        have e : hist = c ++ [t] := by
          rcases reads_prefix hr hr' with ⟨x, hx⟩ | ⟨x, hx⟩ <;>
          · have := congrArg List.length hx
            simp only [List.length_append] at this hn
            have : x = [] := List.length_eq_zero_iff.1 (by omega)
            subst this
            simp at hx
            simp [hx]
        subst e
        refine ⟨c, t, hr, ht, ?_⟩
        obtain ⟨_, u, hu, hu2⟩ := hsp'
        simp at hu
        subst hu
        exact hu2
    | closes h0 ht _ => rw [he] at ht; exact ht.elim
    | opens h0 hp ht _ => rw [he] at ht; exact ht.elim
    | _ => simp_all

end Yaml.Nd
