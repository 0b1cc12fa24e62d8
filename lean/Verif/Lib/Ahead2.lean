import Verif.Lib.Ahead
import Verif.Lib.Docs6

/-
The scanner inside a parser is one that has been called for the tokens which the parser has taken.
-/

namespace Yaml.Nd
open Yaml Yaml.Dx Scanner
set_option linter.unusedSimpArgs false
set_option linter.unusedVariables false

variable {F : Nat} {o0 : ScannerObj}

/-- `n` tokens were taken; the next one may have been looked at. -/
inductive Came (F : Nat) (o0 : ScannerObj) : Nat → Bool → SState → Rd → Prop
  | fresh {hist : List Token} {s : SState} {r : Rd} (h : ScannerObj.Reads F o0 hist ⟨s, r⟩) : Came F o0 hist.length false s r
  | front {hist : List Token} {s : SState} {r : Rd} {t u : Token} {ts : List Token} (ht : s.tokens = t :: ts) (ha : s.tokenAvailable = true)
      (h : ScannerObj.Reads F o0 (hist ++ [u]) ⟨takeS t ts s, r⟩) : Came F o0 hist.length true s r

theorem Came.peek {n : Nat} {g : Toks} {s : SState} {r : Rd} {t : Token} {ts : List Token} (h : Rel F g s r) (hb : g.broken = false) (he : g.ended = false) (hg : g.toks = t :: ts)
    (hc : Came F o0 n g.peeked s r) : Came F o0 n true (execA (Scanner.peek F s) r).1.2 (execA (Scanner.peek F s) r).2 := by
  cases h with
  | broken hb' _ => simp [hb] at hb'
  | ended _ he' => simp [he] at he'
  | @front t ts rest _ _ hk hse hst hst' ht ha hg hr =>
    rw [peek_avail F ha ht]
    rw [hk] at hc
    exact hc
  | fresh _ _ hk hst hs =>
    rw [hk] at hc
    generalize hp : false = pk at hc
    cases hc with
    | front => cases hp
    | @fresh hist _ _ hr =>
      rw [hg] at hs
      have key : ∀ {o' : ScannerObj} {t : Token}, ScannerObj.scan F ⟨s, r⟩ = (.ok t, o') → s.streamEndProduced = false →
          (execA (Scanner.peek F s) r).1.2.streamEndProduced = false → Came F o0 hist.length true (execA (Scanner.peek F s) r).1.2 (execA (Scanner.peek F s) r).2 := by
        intro o' t hs h0 hpk
        obtain ⟨s1, us, g1, g2, g3, g4⟩ := scan_ok hs h0
        rw [g1] at hpk ⊢
        have hpk : s1.streamEndProduced = false := hpk
        refine .front g2 g3 (u := t) ?_
        have e : takeS t us s1 = o'.s := by
          rw [g4, hpk]; simp [takeS]
        rw [e]
        exact hr.snoc hs
      generalize hoo : (⟨s, r⟩ : ScannerObj) = oo at hs
      generalize htt : t :: ts = tt at hs
      generalize hfin : g.fin = fin at hs
      cases hs with
      | stop => cases htt
      | last hs ht h0 hpk h1 h2 => subst hoo; exact key hs h0 hpk
      | cons hs ht h0 hpk h1 h2 h => subst hoo; exact key hs h0 hpk

theorem exec_came {β : Type} (p0 : PState) (t : Free TokOp TokOp.Ans (Out β × PState)) {Q : Out β × PState → Toks → Prop}
    {g : Toks} {s : SState} {r : Rd} {n : Nat} (hw : t.wp stepL Q g) (h : Rel F g s r) (hb : g.broken = false) (hc : Came F o0 n g.peeked s r)
    (hb' : (execL p0 t g).2.broken = false) :
    ∃ n', n' + (execL p0 t g).2.toks.length = n + g.toks.length ∧
      Came F o0 n' (execL p0 t g).2.peeked (execA (Parser.handle F p0 t s) r).1.2.2 (execA (Parser.handle F p0 t s) r).2 := by
  induction t generalizing g s r n with
  | ret a => exact ⟨n, rfl, hc⟩
  | op o k ih =>
    cases o with
    | peek =>
      obtain ⟨h1, h2, h3⟩ := hw
      have hp := h.peek h2 h1
      obtain ⟨toks, fin, st, en, pk, br⟩ := g
      cases toks with
      | cons t ts =>
        obtain ⟨s', r', e1, e2⟩ := hp
        have hcp := hc.peek h h2 h1 rfl
        rw [e1] at hcp
        unfold Parser.handle
        rw [execA_bind, e1]
        exact ih _ h3 e2 hb hcp hb'
      | nil =>
        have h3 : ∀ e, fin = .err e → ((k (.error e)).wp stepL Q ⟨[], fin, st, en, false, true⟩) := h3
        exfalso
        have still : ∀ (t : Free TokOp TokOp.Ans (Out β × PState)) (g : Toks), t.wp stepL Q g → g.broken = true → (execL p0 t g).2.broken = true := by
          intro t g hw hbr
          cases t with
          | ret a => exact hbr
          | op o k =>
            cases o with
            | peek => rw [hw.2.1] at hbr; cases hbr
            | setFront d => rw [hw.2.2.1] at hbr; cases hbr
            | skip => rw [hw.2.2.1] at hbr; cases hbr
            | streamEnded => rw [hw.1] at hbr; cases hbr
            | streamStarted => rw [hw.1] at hbr; cases hbr
        cases fin with
        | err e =>
          have := still _ _ (h3 e rfl) rfl
          have e : (execL p0 (k (.error e)) ⟨[], .err e, st, en, false, true⟩).2.broken = false := hb'
          rw [e] at this; cases this
        | panic x => cases hb'
        | fuel => cases hb'
        | ok a => cases hb'
    | setFront d =>
      obtain ⟨h1, h2, h3, t, ts, h4, h5, h6⟩ := hw
      obtain ⟨toks, fin, st, en, pk, br⟩ := g
      have h4 : toks = t :: ts := h4
      subst h4
      have h2 : pk = true := h2
      subst h2
      have hrel : ∃ us, s.tokens = t :: us ∧
          Rel F ⟨{ t with data := d } :: ts, fin, st, en, true, br⟩ { s with tokens := { t with data := d } :: us } r := by
        cases h with
        | fresh hb he hk hst hs => cases hk
        | ended hb he hk hst hs => cases hk
        | broken hb hk => cases hk
        | @front t' us rest hb he hk hse hst hst' ht ha hg hr =>
          simp at hg
          obtain ⟨rfl, rfl⟩ := hg
          refine ⟨us, ht, .front hb he hk hse hst hst' rfl ha rfl (Or.inl ⟨h1, ?_⟩)⟩
          have := (hr.resolve_right (fun h => h5 h.1)).2
          have e : takeS { t with data := d } us { s with tokens := { t with data := d } :: us } = takeS t us s := by
            have e1 : (d == .streamEnd) = false := by simpa using h1
            have e2 : (t.data == .streamEnd) = false := by simpa using h5
            simp [takeS, e1, e2]
          rw [e]; exact this
      obtain ⟨us, hus, hrel⟩ := hrel
      have hc' : Came F o0 n true { s with tokens := { t with data := d } :: us } r := by
        have hc : Came F o0 n true s r := hc
        generalize hp : true = pk at hc
        cases hc with
        | fresh => cases hp
        | @front hist _ _ t' u us' ht ha hr =>
          rw [hus] at ht
          simp only [List.cons.injEq] at ht
          obtain ⟨rfl, rfl⟩ := ht
          refine .front (u := u) rfl ha ?_
          have e : takeS { t with data := d } us { s with tokens := { t with data := d } :: us } = takeS t us s := by
            have e1 : (d == .streamEnd) = false := by simpa using h1
            have e2 : (t.data == .streamEnd) = false := by simpa using h5
            simp [takeS, e1, e2]
          rw [e]; exact hr
      have := ih () h6 hrel hb hc' hb'
      unfold Parser.handle
      have e : Scanner.setFront d s = .ret (.ok (), { s with tokens := { t with data := d } :: us }) := by
        unfold Scanner.setFront M.modify
        dsimp only
        rw [hus]
      rw [e]; exact this
    | skip =>
      obtain ⟨h1, h2, h3, t, ts, h4, h5⟩ := hw
      obtain ⟨toks, fin, st, en, pk, br⟩ := g
      have h4 : toks = t :: ts := h4
      subst h4
      have h1 : pk = true := h1
      subst h1
      have hrel : ∃ us, s.tokens = t :: us ∧
          Rel F ⟨ts, fin, st, t.data == .streamEnd, false, br⟩ (takeS t us s) r := by
        cases h with
        | fresh hb he hk hst hs => cases hk
        | ended hb he hk hst hs => cases hk
        | broken hb hk => cases hk
        | @front t' us rest hb he hk hse hst hst' ht ha hg hr =>
          simp at hg
          obtain ⟨rfl, rfl⟩ := hg
          refine ⟨us, ht, ?_⟩
          rcases hr with ⟨h', hs⟩ | ⟨h', rfl⟩
          · refine .fresh hb (by simp [h']) rfl ?_ hs
            rw [hst]; exact hst'.symm
          · refine .ended hb (by simp [h']) rfl ?_ (by simp [takeS, h'])
            rw [hst]; exact hst'.symm
      obtain ⟨us, hus, hrel⟩ := hrel
      have hc' : Came F o0 (n + 1) false (takeS t us s) r := by
        have hc : Came F o0 n true s r := hc
        generalize hp : true = pk at hc
        cases hc with
        | fresh => cases hp
        | @front hist _ _ t' u us' ht ha hr =>
          rw [hus] at ht
          simp only [List.cons.injEq] at ht
          obtain ⟨rfl, rfl⟩ := ht
          have := Came.fresh hr
          simpa using this
      obtain ⟨n', k1, k2⟩ := ih () h5 hrel hb hc' hb'
      refine ⟨n', ?_, ?_⟩
      · show n' + (execL p0 (k ()) ⟨ts, fin, st, t.data == .streamEnd, false, br⟩).2.toks.length = n + (t :: ts).length
        rw [k1]
        simp only [List.length_cons]; omega
      unfold Parser.handle
      have e : Scanner.skipToken s = .ret (.ok (), takeS t us s) := by
        unfold Scanner.skipToken
        show ((match s.tokens with
          | [] => M.panic .skipTokenEmpty
          | t :: ts => M.modify fun s => { s with tokens := ts, streamEndProduced := t.data == .streamEnd } : Scan Unit) _) = _
        rw [hus]
        rfl
      rw [e]; exact k2
    | streamEnded =>
      have e : s.streamEndProduced = g.ended := by
        cases h with
        | fresh hb he hk hst hs => rw [he]; exact hs.notEnded
        | front hb he hk hse hst hst' ht ha hg hr => rw [he]; exact hse
        | ended hb he hk hst hs => rw [he]; exact hs
        | broken hb2 => rw [hb] at hb2; cases hb2
      unfold Parser.handle
      rw [e]
      exact ih _ hw.2 h hb hc hb'
    | streamStarted =>
      have e : s.streamStartProduced = g.started := by
        cases h with
        | fresh hb he hk hst hs => exact hst.symm
        | front hb he hk hse hst hst' ht ha hg hr => rw [hst, hst']
        | ended hb he hk hst hs => exact hst.symm
        | broken hb2 => rw [hb] at hb2; cases hb2
      unfold Parser.handle
      rw [e]
      exact ih _ hw.2 h hb hc hb'

end Yaml.Nd
