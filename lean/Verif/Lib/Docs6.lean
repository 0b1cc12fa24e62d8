import Verif.Lib.Docs3
import Verif.Lib.Docs5
import Verif.Spec.Behind
import Verif.Props.Tiling

/-
From a history of calls on the text `T` to the two parsers of `Docs4`.
-/

namespace Yaml.Dx
open Yaml Yaml.Tw Yaml.Spec
set_option linter.unusedSimpArgs false
set_option linter.unusedVariables false

variable {F : Nat} {items : List SrcItem} {enc : Encoding}

theorem reads_cons {F : Nat} {t : Token} {ts : List Token} {o0 o1 o : ScannerObj} (hs : o0.scan F = (.ok t, o1)) (h : ScannerObj.Reads F o1 ts o) :
    ScannerObj.Reads F o0 (t :: ts) o := by
  induction h with
  | nil => exact ScannerObj.Reads.snoc (ts := []) .nil hs
  | snoc _ hs' ih => exact ScannerObj.Reads.snoc (ts := t :: _) ih hs'

theorem reads_uncons {F : Nat} {t : Token} {ts : List Token} {o0 o : ScannerObj} (h : ScannerObj.Reads F o0 (t :: ts) o) :
    ∃ o1, o0.scan F = (.ok t, o1) ∧ ScannerObj.Reads F o1 ts o := by
  generalize hq : t :: ts = q at h
  induction h generalizing ts with
  | nil => cases hq
  | @snoc us u o1 o2 h hs ih =>
    cases us with
    | nil =>
      simp only [List.nil_append, List.cons.injEq] at hq
      obtain ⟨rfl, rfl⟩ := hq
      generalize hq : ([] : List Token) = q at h
      cases h with
      | nil => exact ⟨o2, hs, .nil⟩
      | snoc => simp at hq
    | cons v us =>
      simp only [List.cons_append, List.cons.injEq] at hq
      obtain ⟨rfl, rfl⟩ := hq
      obtain ⟨o3, h1, h2⟩ := ih rfl
      exact ⟨o3, h1, .snoc h2 hs⟩

/-- Two histories of the same scanner: one continues the other. -/
theorem reads_prefix {F : Nat} : ∀ {ts us : List Token} {o0 o o' : ScannerObj}, ScannerObj.Reads F o0 ts o → ScannerObj.Reads F o0 us o' →
    (∃ x, us = ts ++ x) ∨ ∃ x, ts = us ++ x
  | [], us, _, _, _, _, _ => .inl ⟨us, rfl⟩
  | ts, [], _, _, _, _, _ => .inr ⟨ts, rfl⟩
  | t :: ts, u :: us, o0, o, o', h, h' => by
    obtain ⟨o1, a1, a2⟩ := reads_uncons h
    obtain ⟨o2, b1, b2⟩ := reads_uncons h'
    rw [a1] at b1
    simp only [Prod.mk.injEq, Out.ok.injEq] at b1
    obtain ⟨rfl, rfl⟩ := b1
    rcases reads_prefix a2 b2 with ⟨x, rfl⟩ | ⟨x, rfl⟩
    · exact .inl ⟨x, rfl⟩
    · exact .inr ⟨x, rfl⟩

theorem scans_split {o : ScannerObj} {fin : Out Token} {t : Token} (ht : t.data ≠ .streamEnd) : ∀ {c toks : List Token} {o : ScannerObj}, Scans F o ((c ++ [t]) ++ toks) fin →
    ∃ o', ScannerObj.Reads F o (c ++ [t]) o' ∧ Scans F o' toks fin := by
  intro c
  induction c with
  | nil =>
    intro toks o h
    generalize hq : ([] ++ [t]) ++ toks = q at h
    cases h with
    | stop => simp at hq
    | last hs hd => simp at hq; rw [hq.1] at ht; exact absurd hd ht
    | cons hs _ _ _ _ _ h => simp at hq; obtain ⟨rfl, rfl⟩ := hq; exact ⟨_, reads_cons hs .nil, h⟩
  | cons a c ih =>
    intro toks o h
    generalize hq : (a :: c ++ [t]) ++ toks = q at h
    cases h with
    | stop => simp at hq
    | last hs hd => simp at hq
    | cons hs _ _ _ _ _ h =>
      simp only [List.cons_append, List.cons.injEq] at hq
      obtain ⟨rfl, rfl⟩ := hq
      obtain ⟨o', h1, h2⟩ := ih h
      exact ⟨o', reads_cons hs h1, h2⟩

/-- Related first results, then related scanners: related tokens. -/
theorem scans_first {L K : Nat} {enc : Encoding} {n : Nat} (hF : n + 2 < F) {o1 o2 : ScannerObj} {ts1 ts2 : List Token} {x1 x2 : Out Token}
    (g1 : Rs L (o1.scan F).1 (o2.scan F).1) (g2 : (∃ t, (o1.scan F).1 = .ok t) → Pair L K enc (o1.scan F).2 (o2.scan F).2 n)
    (h1 : Scans F o1 ts1 x1) (h2 : Scans F o2 ts2 x2) : Zip (Tk L) ts1 ts2 ∧ Rs L x1 x2 := by
  cases h1 with
  | stop hx hn hp h0 =>
    rw [hx] at g1
    cases h2 with
    | stop hx2 => rw [hx2] at g1; exact ⟨.nil, g1⟩
    | last hs => rw [hs] at g1; generalize hy : Out.ok _ = y at g1; cases g1 <;> cases hy; exact absurd rfl (hn _)
    | cons hs => rw [hs] at g1; generalize hy : Out.ok _ = y at g1; cases g1 <;> cases hy; exact absurd rfl (hn _)
  | last hs ht h0 hpk k1 k2 =>
    rw [hs] at g1
    cases h2 with
    | stop hx2 hn => rw [hx2] at g1; generalize hy : Out.ok _ = y at g1; cases g1 <;> cases hy; exact absurd rfl (hn _)
    | last hs2 => rw [hs2] at g1; cases g1 with | ok g1 => exact ⟨.one g1, .err (.same _ rfl)⟩
    | cons hs2 ht2 => rw [hs2] at g1; cases g1 with | ok g1 => rw [g1.data] at ht; exact absurd ht ht2
  | cons hs ht h0 hpk k1 k2 h' =>
    have g2 := g2 ⟨_, by rw [hs]⟩
    rw [hs] at g1 g2
    cases h2 with
    | stop hx2 hn => rw [hx2] at g1; generalize hy : Out.ok _ = y at g1; cases g1 <;> cases hy; exact absurd rfl (hn _)
    | last hs2 ht2 => rw [hs2] at g1; cases g1 with | ok g1 => rw [g1.data] at ht; exact absurd ht2 ht
    | cons hs2 ht2 _ _ _ _ h2' =>
      rw [hs2] at g1 g2
      cases g1 with
      | ok g1 =>
        obtain ⟨a, b⟩ := scans_pair hF g2 h' h2'
        exact ⟨.cons g1 a, b⟩

/-- No token before a `DocumentEnd` is a `StreamEnd`. -/
theorem no_end_before {T : Str} (hc : Future enc items T) (hF : srcSize items + 2 < F) {ts : List Token} {d : Token} {o : ScannerObj}
    (h : ScannerObj.Reads F (ScannerObj.new items enc) (ts ++ [d]) o) (hd : d.data = .documentEnd) : ∀ t ∈ ts, t.data ≠ .streamEnd := by
  intro t ht he
  generalize hq : ts ++ [d] = q at h
  cases h with
  | nil => simp at hq
  | snoc h' hs =>
    obtain ⟨rfl, h2⟩ := List.append_inj' hq rfl
    simp only [List.cons.injEq, and_true] at h2
    subst h2
    obtain ⟨⟨t', h1, h2⟩, _⟩ := Props.C09_end_is_sticky hc hF h' ⟨t, ht, by simp [isStreamEnd, he]⟩
    rw [h2] at hs
    simp only [Prod.mk.injEq, Out.ok.injEq] at hs
    rw [hs.1] at h1
    simp [isStreamEnd, hd] at h1

theorem markAt_index {T p : Str} {m : Mark} (h : MarkAt T p m) : m.index = strLen p := by
  rcases h with rfl | ⟨rfl, rfl⟩
  · have := advance_len Mark.zero p
    simpa [position, Mark.zero] using this
  · have := advance_len Mark.zero p
    simpa [Spec.endMark, position, Mark.zero] using this

/-- The history up to a `DocumentEnd` is determined by where it ends. -/
theorem reads_same {T : Str} (hc : Future enc items T) (hF : srcSize items + 2 < F) {ts us : List Token} {d u : Token} {o o' : ScannerObj}
    (h : ScannerObj.Reads F (ScannerObj.new items enc) (ts ++ [d]) o) (h' : ScannerObj.Reads F (ScannerObj.new items enc) (us ++ [u]) o')
    (hd : d.data = .documentEnd) (hu : u.data = .documentEnd) (hm : d.endMark = u.endMark) : ts ++ [d] = us ++ [u] := by
  have key : ∀ {ts us : List Token} {d u : Token} {o o' : ScannerObj} {x : List Token}, ScannerObj.Reads F (ScannerObj.new items enc) (ts ++ [d]) o →
      ScannerObj.Reads F (ScannerObj.new items enc) (us ++ [u]) o' → d.data = .documentEnd → u.data = .documentEnd → d.endMark = u.endMark → us ++ [u] = (ts ++ [d]) ++ x →
      ts ++ [d] = us ++ [u] := by
    intro ts us d u o o' x h h' hd hu hm e
    rcases List.eq_nil_or_concat x with rfl | ⟨y, v, rfl⟩
    · simpa using e.symm
    · exfalso
      rw [List.concat_eq_append, ← List.append_assoc] at e
      obtain ⟨rfl, e2⟩ := List.append_inj' e rfl
      simp only [List.cons.injEq, and_true] at e2
      subst e2
      have hn := no_end_before hc hF h' hu
      have he : EndsOnce (((ts ++ [d]) ++ y) ++ [u]) := by
        intro t ht
        rw [List.dropLast_concat] at ht
        have := hn t ht
        simpa [isStreamEnd] using this
      have hp := Props.C58_tokens_disjoint hc hF h' he
      have h1 : le d.endMark u.startMark := by
        rw [List.append_assoc, List.append_assoc, List.pairwise_append] at hp
        have hp := hp.2.1
        rw [List.cons_append, List.pairwise_cons] at hp
        exact hp.1 u (by simp)
      obtain ⟨a, w, r, k1, k2, k3, d', st, k4, k5⟩ := Props.C53_each_token_is_in_the_text (post := []) hc hF h' he
      have i1 := markAt_index k2
      have i2 := markAt_index k3
      rw [strLen_app] at i2
      unfold Spells at k5
      rw [hu] at k5
      obtain ⟨_, rfl, _⟩ := k5
      have : strLen (cs! "...") = 3 := by decide
      have := h1.1
      rw [hm] at this
      omega
  rcases reads_prefix h h' with ⟨x, e⟩ | ⟨x, e⟩
  · exact key h h' hd hu hm e
  · exact (key h' h hu hd hm.symm e).symm

/-- A new parser reads the start of the stream. -/
theorem new_parse {toks : List Token} {fin : Out Token} {e : Encoding} (h : Scans F (ScannerObj.new items enc) (⟨.streamStart e, Mark.zero, Mark.zero⟩ :: toks) fin) (hl : toks.length + 1 < F) :
    ∃ o, (ParserObj.new items enc).parse F = (.ok ⟨.streamStart e, Mark.zero, Mark.zero⟩, o) ∧ o.p = pNew ∧ Rel F ⟨toks, fin, true, false, false, false⟩ o.s o.r := by
  have hi := PInv.start h
  have hr : Rel F ⟨⟨.streamStart e, Mark.zero, Mark.zero⟩ :: toks, fin, false, false, false, false⟩ (ParserObj.new items enc).s (ParserObj.new items enc).r := hi.rel
  have hw := wp_parse (F := F) (fin := fin) (st := false) (pk := false) (toks := ⟨.streamStart e, Mark.zero, Mark.zero⟩ :: toks) (by simpa using hl) hi.good (by simp [ParserObj.new, PState.new])
  obtain ⟨s', r', k1, k2⟩ := exec_list F (ParserObj.new items enc).p _ hw hr
  refine ⟨⟨pNew, s', r'⟩, ?_, rfl, k2⟩
  unfold ParserObj.parse ParserObj.run runA Parser.onScanner
  dsimp only
  rw [k1]
  rfl

/-- The first token of a new parser that does not start an implicit document. -/
theorem new_explicit {o : ParserObj} {toks : List Token} {fin : Out Token} {pk : Bool} (hp : o.p = pNew) (hr : Rel F ⟨toks, fin, true, false, pk, false⟩ o.s o.r) (hl : toks.length < F)
    (hx : ∀ ev o', o.parse F = (.ok ev, o') → ∀ v tags, ev.data ≠ .documentStart v tags true) : ∀ t, toks.head? = some t → Parser.startsExplicitDocument t.data = true := by
  intro t ht
  cases toks with
  | nil => cases ht
  | cons u r =>
    simp at ht
    subst ht
    cases hs : Parser.startsExplicitDocument u.data with
    | true => rfl
    | false =>
      exfalso
      obtain ⟨n, rfl⟩ : ∃ n, F = n + 1 := ⟨F - 1, by omega⟩
      have hw := wp_parse (F := n + 1) (fin := fin) (st := true) (pk := pk) hl (good_new (toks := u :: r)) (by simp [pNew])
      obtain ⟨s', r', k1, k2⟩ := exec_list (n + 1) pNew _ hw hr
      have e := exec_implicit (n := n) (p0 := pNew) (t := u) (r := r) (fin := fin) (pk := pk) hs
      refine hx ⟨.documentStart none [] true, u.startMark, u.endMark⟩ (o.parse (n + 1)).2 ?_ none [] rfl
      refine Prod.ext ?_ rfl
      show (o.parse (n + 1)).1 = _
      unfold ParserObj.parse ParserObj.run runA Parser.onScanner
      dsimp only
      rw [hp, k1]
      exact e

/-- A parser behind an explicit document end and a new parser for the text below. -/
theorem bd_start {T B : Str} {e enc1 enc2 : Encoding} {items1 items2 : List SrcItem} (c1 : Clean enc1 items1 e T) (c2 : Clean enc2 items2 e B) (hs1 : 4 * srcSize items1 < Reader.maxInput)
    (hs2 : 4 * srcSize items2 < Reader.maxInput) (hF1 : 4 * srcSize items1 + 4 < F) (hF2 : 4 * srcSize items2 + 4 < F) (hl1 : T.length ≤ srcSize items1)
    {evs : List Event} {ev : Event} {o : ParserObj} (h : ParserObj.Parses F (ParserObj.new items1 enc1) (evs ++ [ev]) o) (he : ev.data = .documentEnd false)
    (hb : Behind T ev.endMark B) {s : Event} {o2 : ParserObj} (h2 : (ParserObj.new items2 enc2).parse F = (.ok s, o2))
    (hx : ∀ ev o', o2.parse F = (.ok ev, o') → ∀ v tags, ev.data ≠ .documentStart v tags true) : Bd (ev.endMark.line + 1) F o o2 ∧ s = ⟨.streamStart e, Mark.zero, Mark.zero⟩ := by
  obtain ⟨A, w, t0, v, hT, hA, hw, hbr⟩ := hb
  have hBl : B.length ≤ t0.length := by
    cases hbr with
    | crlf t => simp; omega
    | one c t => simp
  have hlen : T.length = A.length + (w.length + t0.length) := by rw [hT]; simp
  obtain ⟨ts1, f1, g1, _, k1, q1⟩ := Props.tokens_of_input c1.future hF1
  obtain ⟨ts2, f2, g2, _, k2, q2⟩ := Props.tokens_of_input c2.future hF2
  have fin1 : (∃ e, f1 = .err e) ∨ ∃ x, f1 = .panic x := q1.imp (fun ⟨e, h, _⟩ => ⟨e, h⟩) (fun ⟨e, h, _⟩ => ⟨e, h⟩)
  obtain ⟨c, t, toks, pk, p1, p2, p3, p4, p5, hfl⟩ := parses_end g1 k1 fin1 h he
  rw [p3] at g1 k1
  obtain ⟨oc, r1, r2⟩ := scans_split (o := ScannerObj.new items1 enc1) (by rw [p4]; simp) g1
  have hTF : T.length + 2 < F := by omega
  obtain ⟨b, hst⟩ := reads_stop c1 hs1 hTF r1 p4 (no_end_before c1.future (by omega) r1 p4)
  rw [hfl] at hst
  obtain ⟨os, b2, v1, v2, v3, v4, v5⟩ := fresh_scan (F := F) c2 hs2 (by omega)
  rw [p5] at hA
  obtain ⟨x1, x2⟩ := stop_scan hst hT hA hw hbr hTF v2 v3 v4 v5
  obtain ⟨ts2', rfl, g2'⟩ : ∃ ts2', ts2 = ⟨.streamStart e, Mark.zero, Mark.zero⟩ :: ts2' ∧ Scans F os ts2' f2 := by
    cases g2 with
    | stop hx hn => rw [v1] at hx; exact absurd hx.symm (hn _)
    | last hs ht => rw [v1] at hs; simp only [Prod.mk.injEq, Out.ok.injEq] at hs; rw [← hs.1] at ht; simp at ht
    | cons hs _ _ _ _ _ h =>
      rw [v1] at hs
      simp only [Prod.mk.injEq, Out.ok.injEq] at hs
      obtain ⟨rfl, rfl⟩ := hs
      exact ⟨_, rfl, h⟩
  obtain ⟨z1, z2⟩ := scans_first hTF x1 x2 r2 g2'
  obtain ⟨o2', y1, y2, y3⟩ := new_parse g2 (by simpa using k2)
  rw [y1] at h2
  simp only [Prod.mk.injEq, Out.ok.injEq] at h2
  obtain ⟨rfl, rfl⟩ := h2
  rw [p5]
  simp only [List.length_append, List.length_cons] at k1 k2
  exact ⟨⟨p1, y2, toks, ts2', f1, f2, pk, false, p2, y3, by omega, z1, z2, new_explicit y2 y3 (by omega) hx⟩, rfl⟩

end Yaml.Dx
