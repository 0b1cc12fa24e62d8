import Verif.Lib.Docs4
import Verif.Props.EventMarks
import Verif.Lib.DocsDepth

/-
The parser right behind an explicit document end.
-/

namespace Yaml.Dx
open Yaml Yaml.Tw Yaml.Spec ParserObj
set_option linter.unusedSimpArgs false
set_option linter.unusedVariables false

variable {F : Nat}

theorem map_aliases {α : Type} {p0 : PState} {x : List AliasData} (h0 : p0.aliases = x) (t : Free TokOp TokOp.Ans (Out α × PState)) (s : SState) (r : Rd) :
    (execA (Parser.handle F p0 (t.map fun q => (q.1, q.2.withAliases x)) s) r).1.2.1.aliases = x := by
  induction t generalizing s r with
  | ret a => rfl
  | op o k ih =>
    cases o with
    | peek =>
      simp only [Free.map, Free.bind, Parser.handle, execA_bind]
      generalize execA (Scanner.peek F s) r = q1
      obtain ⟨⟨out, s'⟩, r'⟩ := q1
      cases out with
      | ok t => exact ih _ _ _
      | err e => exact ih _ _ _
      | panic x => exact h0
      | fuel => exact h0
    | setFront d =>
      simp only [Free.map, Free.bind, Parser.handle, execA_bind]
      exact ih _ _ _
    | skip =>
      simp only [Free.map, Free.bind, Parser.handle, execA_bind]
      rcases skipToken_ret s with ⟨s', h⟩ | ⟨x, s', h⟩ <;> rw [h]
      · exact ih _ _ _
      · exact h0
    | streamEnded => exact ih _ _ _
    | streamStarted => exact ih _ _ _

theorem parse_aliases (o : ParserObj) : (o.parse F).2.p.aliases = o.p.aliases := by
  have e : Parser.parse F o.p = (Parser.parse F o.p).map fun q => (q.1, q.2.withAliases o.p.aliases) := AF.parse F o.p o.p.aliases
  unfold ParserObj.parse ParserObj.run runA Parser.onScanner
  dsimp only
  rw [e]
  exact map_aliases rfl _ _ _

theorem parses_aliases {o o' : ParserObj} {evs : List Event} (h : Parses F o evs o') : o'.p.aliases = o.p.aliases := by
  induction h with
  | nil => rfl
  | @snoc evs e o1 o2 h hs ih =>
    have := parse_aliases (F := F) o1
    rw [hs] at this
    exact this.trans ih

theorem at_docEnd {x : PSt} {r : List PSt} {ts : List Token} {m : Nat} (h : Yaml.At x r ts .docEnd m) : x = .documentEnd ∧ r = [] ∧ m = 0 := by
  generalize hG : GSt.docEnd = G at h
  cases h with
  | @after x r f m ts h =>
    cases f with
    | nil => cases h; exact ⟨rfl, rfl, rfl⟩
    | cons c f => cases c <;> cases hG
  | _ => cases hG

theorem wp_end_state {G : GSt} {D : List TagDirective} {p : PState} {toks : List Token} {fin : Out Token} {st pk : Bool} (hF : toks.length < F) (hg : PGood G D p toks) (hne : p.state ≠ .end_) :
    wpA (Parser.parse F) (fun e p' _ => ∀ i, e.data = .documentEnd i → G = .docEnd ∧ p'.state = .documentStart ∧ p'.states = p.states ∧ p'.marks = p.marks ∧ p'.tagDirectives = []) p (lv toks fin st pk) := by
  by_cases hG : G = .docEnd
  · subst hG
    obtain ⟨h1, h2, h3⟩ := at_docEnd hg.pos
    unfold wpA Parser.parse
    rw [M.wp_bind, M.wp_prim]
    refine ⟨rfl, ?_⟩
    pws
    have : (p.state == .end_) = false := by rw [h1]; rfl
    rw [this, h1]
    show M.wp stepL _ _ Parser.parseDocumentEnd _ _ _
    unfold Parser.parseDocumentEnd
    pws
    refine wp_peek ?_ (fun _ _ => trivial)
    rintro t ts rfl
    rw [M.wp_when]
    split
    · rename_i h
      have h : t.data = .documentEnd := by simpa using h
      rw [wp_skip_lv (by simp [h])]
      intro i _; simp
    · intro i _; simp
  · refine Free.wp_mono stepL_mono ?_ (wp_parse (fin := fin) (st := st) (pk := pk) hF hg hne)
    rintro ⟨x, p'⟩ g' h
    cases x with
    | ok e =>
      obtain ⟨c, G', toks', pk', rfl, hs⟩ := h
      intro i hi
      have := hs.step
      rw [hi] at this
      cases G <;> first | exact absurd rfl hG | simp [gstep] at this
    | err e => trivial
    | panic x => trivial
    | fuel => exact h

/-- After an explicit document end. -/
theorem parses_end {items : List SrcItem} {enc : Encoding} {ts : List Token} {fin : Out Token} (hs : Scans F (ScannerObj.new items enc) ts fin)
    (hl : ts.length < F) (hfin : (∃ e, fin = .err e) ∨ ∃ x, fin = .panic x) {evs : List Event} {ev : Event} {o : ParserObj}
    (h : Parses F (new items enc) (evs ++ [ev]) o) (he : ev.data = .documentEnd false) :
    ∃ c t toks pk, o.p = pEnd ∧ Rel F ⟨toks, fin, true, false, pk, false⟩ o.s o.r ∧ ts = (c ++ [t]) ++ toks ∧ t.data = .documentEnd ∧ ev.endMark = t.endMark ∧
      flowDepth (c ++ [t]) = 0 := by
  have hal := parses_aliases h
  generalize hq : evs ++ [ev] = q at h
  cases h with
  | nil => simp at hq
  | @snoc evs' ev' o1 o2 h hstep =>
    obtain ⟨rfl, h2⟩ := List.append_inj' hq rfl
    simp only [List.cons.injEq, and_true] at h2
    subst h2
    obtain ⟨evs1, n, G, c, toks, st, pk, rfl, hp, hn, hc⟩ := h.chain hs hl hfin
    have hend : o1.p.state ≠ .end_ := by
      intro hend
      rw [PInv.ended hend] at hstep
      simp at hstep
      rw [← hstep.1] at he
      simp at he
    have el := congrArg List.length hp.split
    simp only [List.length_append] at el
    have hw : wpA (Parser.parse F) (SpanRes toks o1.p.marks) o1.p (lv toks fin st pk) := by
      refine Free.wp_mono stepL_mono ?_ (wpM_parse (F := F) (fin := fin) (st := st) (pk := pk) (by omega) hp.good hend)
      rintro ⟨r, p'⟩ g' h
      cases r with
      | ok r => exact h
      | err e => trivial
      | panic x => trivial
      | fuel => exact h
    have := hp.parse_with hl hfin hend (wpA_and hw (wp_end_state (by omega) hp.good hend))
    rw [hstep] at this
    obtain ⟨G', D', c', toks', pk', hp', g', rfl, ⟨c1, h1, h2, h3⟩, h4⟩ := this
    obtain ⟨rfl, k1, k2, k3, k4⟩ := h4 false he
    obtain ⟨m1, m2, m3⟩ := at_docEnd hp.good.pos
    have hc' : c' = c ++ c1 := by
      have e1 := hp'.split
      rw [hp.split, h1, ← List.append_assoc] at e1
      exact (List.append_cancel_right e1).symm
    subst hc'
    have hrel := hp'.rel
    have : (o.p.state == .end_) = false := by rw [k1]; rfl
    rw [this] at hrel
    have hop : o.p = pEnd := by
      obtain ⟨p, s, r⟩ := o
      obtain ⟨a, b, c, d, e⟩ := p
      dsimp only at k1 k2 k3 k4 hal
      rw [m2] at k2
      rw [List.length_eq_zero_iff.1 m3] at k3
      have hal : e = [] := hal
      subst k1 k2 k3 k4 hal
      rfl
    have hsp := hp'.split
    generalize g'.toks = rest at *
    cases h2 with
    | documentEnd he' ht hsp' =>
      rename_i t
      refine ⟨c, t, rest, pk', hop, hrel, hsp, ht, ?_, ?_⟩
      · obtain ⟨_, u, hu, hu2⟩ := hsp'
        simp at hu
        subst hu
        exact hu2
      · obtain ⟨c0, q1, q2⟩ := chain_keeps hc
        rw [m1, m2] at q2
        have q2 : depthFrom 0 c0 ≤ 0 := q2
        rw [hp.split, dd, List.map_append] at q1
        rw [← List.append_cancel_right q1] at q2
        rw [flowDepth_eq, dd, List.map_append, depthFrom_append, Nat.le_zero.1 q2]
        simp [depthFrom, ht]
    | closes h0 ht _ => rw [he] at ht; exact ht.elim
    | opens h0 hp ht _ => rw [he] at ht; exact ht.elim
    | _ => simp_all

end Yaml.Dx
