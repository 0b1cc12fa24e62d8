import Verif.Lib.Run

/-
The parser over a list of tokens.  A parser method over the real scanner behaves exactly as over
the list of the tokens which `Scanner::scan` would return for the same input (`exec_list`).
-/

namespace Yaml
open Scanner
set_option linter.unusedSimpArgs false
set_option linter.unusedVariables false

/-- The tokens still to come; after them the scanner fails with `fin`.  `peeked`: the first
token was looked at; `broken`: that failure was met. -/
structure Toks where
  toks : List Token
  fin : Out Token
  started : Bool
  ended : Bool
  peeked : Bool
  broken : Bool

/-- Running a parser method over a list of tokens. -/
def execL {β : Type} (p0 : PState) : Free TokOp TokOp.Ans (Out β × PState) → Toks → (Out β × PState) × Toks
  | .ret a, g => (a, g)
  | .op .peek k, g =>
    match g.toks with
    | t :: _ => execL p0 (k (.ok t)) { g with started := true, peeked := true }
    | [] =>
      match g.fin with
      | .err e => execL p0 (k (.error e)) { g with peeked := false, broken := true }
      | .panic x => ((.panic x, p0), { g with peeked := false, broken := true })
      | _ => ((.fuel, p0), { g with peeked := false, broken := true })
  | .op (.setFront d) k, g => execL p0 (k ()) { g with toks := g.toks.modifyHead fun t => { t with data := d } }
  | .op .skip k, g => execL p0 (k ()) { g with toks := g.toks.tail, peeked := false, ended := g.toks.head?.any (fun t => t.data == .streamEnd) }
  | .op .streamEnded k, g => execL p0 (k g.ended) g
  | .op .streamStarted k, g => execL p0 (k g.started) g

/-- The rules for using the scanner: no `peek` after the end or after a failure, `skip` only what
was peeked (here: only when there is a token), only directives are overwritten. -/
def stepL : Step TokOp TokOp.Ans Toks
  | .peek, K, g => g.ended = false ∧ g.broken = false ∧
    match g.toks with
    | t :: _ => K (.ok t) { g with started := true, peeked := true }
    | [] => ∀ e, g.fin = .err e → K (.error e) { g with peeked := false, broken := true }
  | .setFront d, K, g => d ≠ .streamEnd ∧ g.peeked = true ∧ g.broken = false ∧ ∃ t ts, g.toks = t :: ts ∧ t.data ≠ .streamEnd ∧
    K () { g with toks := { t with data := d } :: ts }
  | .skip, K, g => g.peeked = true ∧ g.ended = false ∧ g.broken = false ∧ ∃ t ts, g.toks = t :: ts ∧
    K () { g with toks := ts, peeked := false, ended := t.data == .streamEnd }
  | .streamEnded, K, g => g.broken = false ∧ K g.ended g
  | .streamStarted, K, g => g.broken = false ∧ K g.started g

theorem stepL_mono : stepL.Mono := by
  intro o K K' g h
  cases o with
  | peek =>
    rintro ⟨h1, h2, h3⟩
    refine ⟨h1, h2, ?_⟩
    cases hg : g.toks with
    | cons t ts => rw [hg] at h3; exact h _ _ h3
    | nil => rw [hg] at h3; exact fun e he => h _ _ (h3 e he)
  | setFront d => rintro ⟨h1, h2, h3, t, ts, h4, h5, h6⟩; exact ⟨h1, h2, h3, t, ts, h4, h5, h _ _ h6⟩
  | skip => rintro ⟨h1, h2, h3, t, ts, h4, h5⟩; exact ⟨h1, h2, h3, t, ts, h4, h _ _ h5⟩
  | streamEnded => rintro ⟨h1, h2⟩; exact ⟨h1, h _ _ h2⟩
  | streamStarted => rintro ⟨h1, h2⟩; exact ⟨h1, h _ _ h2⟩

/-- What was proved with the rules holds of the run over a list, unless the scanner fails with a
panic. -/
theorem execL_of_wp {β : Type} (p0 : PState) (t : Free TokOp TokOp.Ans (Out β × PState)) {Q : Out β × PState → Toks → Prop}
    {g : Toks} (hw : t.wp stepL Q g) :
    Q (execL p0 t g).1 (execL p0 t g).2 ∨ (∃ x, (execL p0 t g).1.1 = .panic x ∧ g.fin = .panic x) ∨
      ((execL p0 t g).1.1 = .fuel ∧ (g.fin = .fuel ∨ ∃ t, g.fin = .ok t)) := by
  induction t generalizing g with
  | ret a => exact Or.inl hw
  | op o k ih =>
    cases o with
    | peek =>
      obtain ⟨h1, h2, h3⟩ := hw
      obtain ⟨toks, fin, st, en, pk, br⟩ := g
      cases toks with
      | cons t ts => exact ih _ h3
      | nil =>
        have h3 : ∀ e, fin = .err e → ((k (.error e)).wp stepL Q ⟨[], fin, st, en, false, true⟩) := h3
        cases fin with
        | err e => exact ih _ (h3 e rfl)
        | panic x => exact Or.inr (Or.inl ⟨x, rfl, rfl⟩)
        | fuel => exact Or.inr (Or.inr ⟨rfl, Or.inl rfl⟩)
        | ok a => exact Or.inr (Or.inr ⟨rfl, Or.inr ⟨_, rfl⟩⟩)
    | setFront d =>
      obtain ⟨h1, h2, h3, t, ts, h4, h5, h6⟩ := hw
      have := ih _ h6
      unfold execL
      rw [h4]; exact this
    | skip =>
      obtain ⟨h1, h2, h3, t, ts, h4, h5⟩ := hw
      have := ih _ h5
      unfold execL
      rw [h4]
      simpa using this
    | streamEnded => exact ih _ hw.2
    | streamStarted => exact ih _ hw.2

/-! ### The tokens of an input -/

/-- `Scans F o ts x`: calls of `scan` on `o` return the tokens `ts`, up to the stream end, or else up
to a call that does not return `Ok` but `x` (`x` is meaningless after the stream end). -/
inductive Scans (F : Nat) : ScannerObj → List Token → Out Token → Prop
  | stop {o : ScannerObj} {x : Out Token} (hx : (o.scan F).1 = x) (hn : ∀ t, x ≠ .ok t) (hp : x ≠ .panic .scanNoToken)
      (h0 : o.s.streamEndProduced = false) : Scans F o [] x
  | last {o o' : ScannerObj} {t : Token} (hs : o.scan F = (.ok t, o')) (ht : t.data = .streamEnd)
      (h0 : o.s.streamEndProduced = false) (hpk : (execA (Scanner.peek F o.s) o.r).1.2.streamEndProduced = false) (h1 : o'.s.streamStartProduced = true) (h2 : o'.s.streamEndProduced = true) :
      Scans F o [t] (.err (.io .unexpectedEof))
  | cons {o o' : ScannerObj} {t : Token} {ts : List Token} {x : Out Token} (hs : o.scan F = (.ok t, o')) (ht : t.data ≠ .streamEnd)
      (h0 : o.s.streamEndProduced = false) (hpk : (execA (Scanner.peek F o.s) o.r).1.2.streamEndProduced = false) (h1 : o'.s.streamStartProduced = true) (h2 : o'.s.streamEndProduced = false) (h : Scans F o' ts x) :
      Scans F o (t :: ts) x

theorem Scans.notEnded {F : Nat} {o : ScannerObj} {ts : List Token} {x : Out Token} (h : Scans F o ts x) :
    o.s.streamEndProduced = false := by
  cases h <;> assumption

theorem execA_bind {α β : Type} (t : Free CharOp CharOp.Ans α) (f : α → Free CharOp CharOp.Ans β) (r : Rd) :
    execA (t.bind f) r = execA (f (execA t r).1) (execA t r).2 := by
  induction t generalizing r with
  | ret a => rfl
  | op o k ih =>
    cases o with
    | cache n => exact ih _ _
    | get i => exact ih _ _
    | pop => exact ih _ _
    | enc => exact ih _ _

/-- What `scan` does when the stream end was not produced, and `peek`. -/
theorem scan_peek (F : Nat) (s : SState) (r : Rd) (h0 : s.streamEndProduced = false) :
    match execA (Scanner.scan F s) r with
    | ((.ok t, s2), r2) => ∃ s1 ts, execA (Scanner.peek F s) r = ((.ok t, s1), r2) ∧ s1.tokens = t :: ts ∧ s1.tokenAvailable = true ∧
        s2 = { takeS t ts s1 with streamEndProduced := s1.streamEndProduced || (t.data == .streamEnd) }
    | ((.err e, s2), r2) => execA (Scanner.peek F s) r = ((.err e, s2), r2)
    | ((.panic x, s2), r2) => x = .scanNoToken ∨ execA (Scanner.peek F s) r = ((.panic x, s2), r2)
    | ((.fuel, s2), r2) => execA (Scanner.peek F s) r = ((.fuel, s2), r2) := by
  have hscan : Scanner.scan F s = (M.when (!s.tokenAvailable) (fetchMoreTokens F) s).bind (M.cont fun _ => do
      match (← M.get).tokens with
      | [] => M.panic .scanNoToken
      | t :: ts => do
        M.modify fun s => { s with
          tokens := ts, tokenAvailable := false, tokensParsed := s.tokensParsed + 1,
          streamEndProduced := s.streamEndProduced || (t.data == .streamEnd) }
        pure t) := by
    unfold Scanner.scan
    show (M.bind M.get _) s = _
    simp only [M.bind, M.get, Free.bind, M.cont, h0]
    rfl
  have hpeek : Scanner.peek F s = (M.when (!s.tokenAvailable) (fetchMoreTokens F) s).bind (M.cont fun _ => do
      match (← M.get).tokens with
      | [] => M.panic .peekNoToken
      | t :: _ => pure t) := rfl
  have havail : ∀ s', (execA (M.when (!s.tokenAvailable) (fetchMoreTokens F) s) r).1 = (.ok (), s') → s'.tokenAvailable = true := by
    intro s' h
    cases ha : s.tokenAvailable with
    | true =>
      rw [ha] at h
      have h : ((Out.ok (), s) : Out Unit × SState) = (.ok (), s') := h
      simp at h; rw [← h]; exact ha
    | false =>
      rw [ha] at h
      have h : (execA (fetchMoreTokens F s) r).1 = (.ok (), s') := h
      unfold fetchMoreTokens at h
      have h : (execA (((M.loop F (fun (_ : Unit) => do
        if (← M.get).tokens.isEmpty then do
          fetchNextToken F
          pure (.inl ())
        else do
          staleSimpleKeys
          if keyPending (← M.get) then do
            fetchNextToken F
            pure (.inl ())
          else pure (.inr ())) () : Scan Unit) s).bind (M.cont fun _ => M.modify fun s => { s with tokenAvailable := true })) r).1 = (.ok (), s') := h
      rw [execA_bind] at h
      generalize execA ((M.loop F _ () : Scan Unit) s) r = q at h
      obtain ⟨⟨out, s''⟩, r'⟩ := q
      cases out with
      | ok a =>
        have h : ((Out.ok (), { s'' with tokenAvailable := true }) : Out Unit × SState) = (.ok (), s') := h
        simp at h; rw [← h]
      | err e => simp [M.cont, execA] at h
      | panic e => simp [M.cont, execA] at h
      | fuel => simp [M.cont, execA] at h
  rw [hscan, hpeek, execA_bind, execA_bind]
  generalize hq : execA (M.when (!s.tokenAvailable) (fetchMoreTokens F) s) r = q at havail
  obtain ⟨⟨out, s'⟩, r'⟩ := q
  cases out with
  | ok a =>
    have ha := havail s' rfl
    cases ht : s'.tokens with
    | nil => 
      have : execA (M.cont (fun (_ : Unit) => (do
        match (← M.get).tokens with
        | [] => M.panic .scanNoToken
        | t :: ts => do
          M.modify fun s => { s with
            tokens := ts, tokenAvailable := false, tokensParsed := s.tokensParsed + 1,
            streamEndProduced := s.streamEndProduced || (t.data == .streamEnd) }
          pure t : Scan Token)) (Out.ok a, s')) r' = ((.panic .scanNoToken, s'), r') := by
        show execA ((match s'.tokens with
        | [] => M.panic .scanNoToken
        | t :: ts => do
          M.modify fun s => { s with
            tokens := ts, tokenAvailable := false, tokensParsed := s.tokensParsed + 1,
            streamEndProduced := s.streamEndProduced || (t.data == .streamEnd) }
          pure t : Scan Token) s') r' = _
        rw [ht]; rfl
      rw [this]
      exact Or.inl rfl
    | cons t ts =>
      have : execA (M.cont (fun (_ : Unit) => (do
        match (← M.get).tokens with
        | [] => M.panic .scanNoToken
        | t :: ts => do
          M.modify fun s => { s with
            tokens := ts, tokenAvailable := false, tokensParsed := s.tokensParsed + 1,
            streamEndProduced := s.streamEndProduced || (t.data == .streamEnd) }
          pure t : Scan Token)) (Out.ok a, s')) r' = ((.ok t, { takeS t ts s' with streamEndProduced := s'.streamEndProduced || (t.data == .streamEnd) }), r') := by
        show execA ((match s'.tokens with
        | [] => M.panic .scanNoToken
        | t :: ts => do
          M.modify fun s => { s with
            tokens := ts, tokenAvailable := false, tokensParsed := s.tokensParsed + 1,
            streamEndProduced := s.streamEndProduced || (t.data == .streamEnd) }
          pure t : Scan Token) s') r' = _
        rw [ht]; rfl
      rw [this]
      refine ⟨s', ts, ?_, ht, ha, rfl⟩
      show execA ((match s'.tokens with
        | [] => M.panic .peekNoToken
        | t :: _ => pure t : Scan Token) s') r' = _
      rw [ht]; rfl
  | err e => rfl
  | panic e => exact Or.inr rfl
  | fuel => rfl

theorem scan_ok {F : Nat} {s : SState} {r : Rd} {t : Token} {o' : ScannerObj} (hs : ScannerObj.scan F ⟨s, r⟩ = (.ok t, o'))
    (h0 : s.streamEndProduced = false) :
    ∃ s1 ts, execA (Scanner.peek F s) r = ((.ok t, s1), o'.r) ∧ s1.tokens = t :: ts ∧ s1.tokenAvailable = true ∧
      o'.s = { takeS t ts s1 with streamEndProduced := s1.streamEndProduced || (t.data == .streamEnd) } := by
  have hsp := scan_peek F s r h0
  have hs1 : (execA (Scanner.scan F s) r).1 = (.ok t, o'.s) ∧ (execA (Scanner.scan F s) r).2 = o'.r := by
    have : ScannerObj.scan F ⟨s, r⟩ = ((execA (Scanner.scan F s) r).1.1, ⟨(execA (Scanner.scan F s) r).1.2, (execA (Scanner.scan F s) r).2⟩) := rfl
    rw [this] at hs
    simp at hs
    obtain ⟨g1, g2⟩ := hs
    rw [← g2]; exact ⟨Prod.ext g1 rfl, rfl⟩
  generalize execA (Scanner.scan F s) r = q at hs1 hsp
  obtain ⟨⟨out, s2⟩, r2⟩ := q
  simp at hs1
  obtain ⟨⟨rfl, rfl⟩, rfl⟩ := hs1
  exact hsp

/-- The scanner object `(s, r)` will deliver what `g` says. -/
inductive Rel (F : Nat) (g : Toks) (s : SState) (r : Rd) : Prop
  | fresh (hb : g.broken = false) (he : g.ended = false) (hk : g.peeked = false) (hst : g.started = s.streamStartProduced)
      (hs : Scans F ⟨s, r⟩ g.toks g.fin)
  | front {t : Token} {ts rest : List Token} (hb : g.broken = false) (he : g.ended = false) (hk : g.peeked = true) (hse : s.streamEndProduced = false)
      (hst : g.started = true) (hst' : s.streamStartProduced = true)
      (ht : s.tokens = t :: ts) (ha : s.tokenAvailable = true) (hg : g.toks = t :: rest)
      (hr : (t.data ≠ .streamEnd ∧ Scans F ⟨takeS t ts s, r⟩ rest g.fin) ∨ (t.data = .streamEnd ∧ rest = []))
  | ended (hb : g.broken = false) (he : g.ended = true) (hk : g.peeked = false) (hst : g.started = s.streamStartProduced) (hs : s.streamEndProduced = true)
  | broken (hb : g.broken = true) (hk : g.peeked = false)

theorem peek_avail (F : Nat) {s : SState} {r : Rd} {t : Token} {ts : List Token} (ha : s.tokenAvailable = true) (ht : s.tokens = t :: ts) :
    execA (Scanner.peek F s) r = ((.ok t, s), r) := by
  have : Scanner.peek F s = (match s.tokens with
    | [] => M.panic .peekNoToken
    | t :: _ => pure t : Scan Token) s := by
    show ((M.when (!s.tokenAvailable) (fetchMoreTokens F)) s).bind _ = _
    rw [ha]; rfl
  rw [this, ht]; rfl

/-- `peek` over the scanner is `peek` over the list. -/
theorem Rel.peek {F : Nat} {g : Toks} {s : SState} {r : Rd} (h : Rel F g s r) (hb : g.broken = false) (he : g.ended = false) :
    match g.toks with
    | t :: _ => ∃ s' r', execA (Scanner.peek F s) r = ((.ok t, s'), r') ∧ Rel F { g with started := true, peeked := true } s' r'
    | [] => ∃ s' r', execA (Scanner.peek F s) r =
        ((match g.fin with | .err e => .err e | .panic x => .panic x | _ => .fuel, s'), r') := by
  cases h with
  | broken hb' _ => simp [hb] at hb'
  | ended _ he' => simp [he] at he'
  | @front t ts rest _ _ hk hse hst hst' ht ha hg hr =>
    rw [hg]
    exact ⟨s, r, peek_avail F ha ht, .front hb he rfl hse rfl hst' ht ha rfl hr⟩
  | fresh _ _ _ hst hs =>
    have hsp := scan_peek F s r hs.notEnded
    generalize hfin : g.fin = fin at hs
    generalize hto : g.toks = toks at hs
    generalize hoo : (⟨s, r⟩ : ScannerObj) = oo at hs
    cases hs with
    | stop hx hn hp h0 =>
      subst hoo
      dsimp only
      have hx : (execA (Scanner.scan F s) r).1.1 = fin := hx
      generalize execA (Scanner.scan F s) r = q at hx hsp
      obtain ⟨⟨out, s2⟩, r2⟩ := q
      have hx : out = fin := hx
      subst hx
      cases out with
      | ok t => exact absurd rfl (hn t)
      | err e => exact ⟨s2, r2, hsp⟩
      | panic x => exact ⟨s2, r2, hsp.resolve_left (fun h => hp (by rw [h]))⟩
      | fuel => exact ⟨s2, r2, hsp⟩
    | @last _ o' t hs ht h0 hpk h1 h2 =>
      subst hoo
      obtain ⟨s1, ts, g1, g2, g3, g4⟩ := scan_ok hs h0
      rw [g1] at hpk
      have g5 : s1.streamStartProduced = true := by
        have : o'.s.streamStartProduced = s1.streamStartProduced := by rw [g4]; rfl
        rw [← this]; exact h1
      exact ⟨s1, o'.r, g1, .front (ts := ts) (rest := []) hb he rfl hpk rfl g5 g2 g3 rfl (Or.inr ⟨ht, rfl⟩)⟩
    | @cons _ o' t ts' _ hs ht h0 hpk h1 h2 h =>
      subst hoo
      obtain ⟨s1, ts, g1, g2, g3, g4⟩ := scan_ok hs h0
      rw [g1] at hpk
      have g5 : s1.streamStartProduced = true := by
        have : o'.s.streamStartProduced = s1.streamStartProduced := by rw [g4]; rfl
        rw [← this]; exact h1
      refine ⟨s1, o'.r, g1, .front (ts := ts) (rest := ts') hb he rfl hpk rfl g5 g2 g3 rfl (Or.inl ⟨ht, ?_⟩)⟩
      have hpk : s1.streamEndProduced = false := hpk
      have e : takeS t ts s1 = o'.s := by
        rw [g4, hpk]; simp [takeS]
      rw [e]; exact h

/-- A parser method that keeps to the rules does over the scanner what it does over the list of its
tokens. -/
theorem exec_list {β : Type} (F : Nat) (p0 : PState) (t : Free TokOp TokOp.Ans (Out β × PState)) {Q : Out β × PState → Toks → Prop}
    {g : Toks} {s : SState} {r : Rd} (hw : t.wp stepL Q g) (h : Rel F g s r) :
    ∃ s' r', execA (Parser.handle F p0 t s) r = (((execL p0 t g).1.1, ((execL p0 t g).1.2, s')), r') ∧
      Rel F (execL p0 t g).2 s' r' := by
  induction t generalizing g s r with
  | ret a => exact ⟨s, r, rfl, h⟩
  | op o k ih =>
    cases o with
    | peek =>
      obtain ⟨h1, h2, h3⟩ := hw
      have hp := h.peek h2 h1
      obtain ⟨toks, fin, st, en, pk, br⟩ := g
      cases toks with
      | cons t ts =>
        obtain ⟨s', r', e1, e2⟩ := hp
        have := ih _ h3 e2
        obtain ⟨s2, r2, g1, g2⟩ := this
        refine ⟨s2, r2, ?_, g2⟩
        unfold Parser.handle
        rw [execA_bind, e1]
        exact g1
      | nil =>
        have h3 : ∀ e, fin = .err e → ((k (.error e)).wp stepL Q ⟨[], fin, st, en, false, true⟩) := h3
        obtain ⟨s', r', e1⟩ := hp
        unfold Parser.handle
        rw [execA_bind, e1]
        cases fin with
        | err e => exact ih (.error e) (h3 e rfl) (.broken rfl rfl)
        | panic x => exact ⟨s', r', rfl, .broken rfl rfl⟩
        | fuel => exact ⟨s', r', rfl, .broken rfl rfl⟩
        | ok a => exact ⟨s', r', rfl, .broken rfl rfl⟩
    | setFront d =>
      obtain ⟨h1, h2, h3, t, ts, h4, h5, h6⟩ := hw
      obtain ⟨toks, fin, st, en, pk, br⟩ := g
      have h4 : toks = t :: ts := h4
      subst h4
      have h2 : pk = true := h2
      have hrel : ∃ us, s.tokens = t :: us ∧
          Rel F ⟨{ t with data := d } :: ts, fin, st, en, pk, br⟩ { s with tokens := { t with data := d } :: us } r := by
        cases h with
        | fresh hb he hk hst hs => simp [h2] at hk
        | ended hb he hk hst hs => simp [h2] at hk
        | broken hb hk => simp [h2] at hk
        | @front t' us rest hb he hk hse hst hst' ht ha hg hr =>
          simp at hg
          obtain ⟨rfl, rfl⟩ := hg
          refine ⟨us, ht, .front hb he hk hse hst hst' rfl ha rfl (Or.inl ⟨h1, ?_⟩)⟩
          have := (hr.resolve_right (fun h => h5 h.1)).2
          have e : takeS { t with data := d } us { s with tokens := { t with data := d } :: us } = takeS t us s := by
            have e1 : (d == .streamEnd) = false := by simpa using h1
            have e2 : (t.data == .streamEnd) = false := by simpa using h5
            simp [takeS, e1, e2]
          rw [e]; exact this
      obtain ⟨us, hus, hrel⟩ := hrel
      obtain ⟨s2, r2, g1, g2⟩ := ih () h6 hrel
      refine ⟨s2, r2, ?_, g2⟩
      unfold Parser.handle
      have e : Scanner.setFront d s = .ret (.ok (), { s with tokens := { t with data := d } :: us }) := by
        unfold Scanner.setFront M.modify
        dsimp only
        rw [hus]
      rw [e]; exact g1
    | skip =>
      obtain ⟨h1, h2, h3, t, ts, h4, h5⟩ := hw
      obtain ⟨toks, fin, st, en, pk, br⟩ := g
      have h4 : toks = t :: ts := h4
      subst h4
      have h1 : pk = true := h1
      have hrel : ∃ us, s.tokens = t :: us ∧
          Rel F ⟨ts, fin, st, t.data == .streamEnd, false, br⟩ (takeS t us s) r := by
        cases h with
        | fresh hb he hk hst hs => simp [h1] at hk
        | ended hb he hk hst hs => simp [h1] at hk
        | broken hb hk => simp [h1] at hk
        | @front t' us rest hb he hk hse hst hst' ht ha hg hr =>
          simp at hg
          obtain ⟨rfl, rfl⟩ := hg
          refine ⟨us, ht, ?_⟩
          rcases hr with ⟨h', hs⟩ | ⟨h', rfl⟩
          · refine .fresh hb (by simp [h']) rfl ?_ hs
            rw [hst]; exact hst'.symm
          · refine .ended hb (by simp [h']) rfl ?_ (by simp [takeS, h'])
            rw [hst]; exact hst'.symm
      obtain ⟨us, hus, hrel⟩ := hrel
      obtain ⟨s2, r2, g1, g2⟩ := ih () h5 hrel
      refine ⟨s2, r2, ?_, g2⟩
      unfold Parser.handle
      have e : Scanner.skipToken s = .ret (.ok (), takeS t us s) := by
        unfold Scanner.skipToken
        show ((match s.tokens with
          | [] => M.panic .skipTokenEmpty
          | t :: ts => M.modify fun s => { s with tokens := ts, streamEndProduced := t.data == .streamEnd } : Scan Unit) { s with tokenAvailable := false, tokensParsed := s.tokensParsed + 1 }) = _
        rw [hus]; rfl
      rw [e]; exact g1
    | streamEnded =>
      have e : s.streamEndProduced = g.ended := by
        have := hw.1
        cases h with
        | fresh hb he hk hst hs => rw [he]; exact hs.notEnded
        | front hb he hk hse => rw [he]; exact hse
        | ended hb he hk hst hs => rw [he]; exact hs
        | broken hb hk => rw [this] at hb; simp at hb
      unfold Parser.handle
      rw [e]
      exact ih _ hw.2 h
    | streamStarted =>
      have e : s.streamStartProduced = g.started := by
        have := hw.1
        cases h with
        | fresh hb he hk hst hs => rw [hst]
        | front hb he hk hse hst hst' => rw [hst, hst']
        | ended hb he hk hst hs => rw [hst]
        | broken hb hk => rw [this] at hb; simp at hb
      unfold Parser.handle
      rw [e]
      exact ih _ hw.2 h

theorem Run.peekProduced {T : List Char} {hist : List Token} {o : ScannerObj} {F : Nat} (h : Run T hist o)
    (hF : T.length + 2 < F) {t : Token} (hok : (execA (Scanner.peek F o.s) o.r).1.1 = .ok t) :
    (execA (Scanner.peek F o.s) o.r).1.2.streamEndProduced = false := by
  obtain ⟨b, hR, hI, hc, hn, hid, hfit, p, hp⟩ := h
  have hlen : b.text.length ≤ T.length := by rw [hp]; simp
  have := runA_of_wp (r := o.r) (b := b) (P := Bad T) (E := fun e _ _ => True)
    (Q := fun t s' b' => s'.streamEndProduced = false)
    (wpB_peek (F := F) (s := o.s) (fun s b => True) (Or.inl hid) trivial (by omega)
      (by have := Bad.ok T; generalize Bad T = B at this ⊢; rw [hp] at this; exact this.suffix) hfit
      (fun _ _ _ _ _ _ _ => trivial) (fun _ _ _ _ _ => trivial) (fun _ _ _ _ => trivial) (fun _ _ _ _ _ _ _ => trivial)
      (fun t ts s' b' _ _ _ ha _ => by
        rcases ha.base with h | h
        · exact h.notProduced
        · exact h.notProduced)) hR
  obtain ⟨b', _, hpost⟩ := this
  unfold runA at hpost
  generalize execA (Scanner.peek F o.s) o.r = q at hpost hok
  obtain ⟨⟨out, s'⟩, r'⟩ := q
  subst hok
  exact hpost

theorem Idle.notProduced {s : SState} (h : Idle s) : s.streamEndProduced = false := by
  rcases h with rfl | h | h
  · rfl
  · exact h.notProduced
  · exact h.notProduced

theorem HInv.started {T : List Char} {hist : List Token} {s : SState} {b : Inp} (h : HInv T hist s b) (hne : hist ≠ []) (hid : Idle s) :
    s.streamStartProduced = true := by
  rcases hid with rfl | h' | h'
  · rcases h with ⟨_, h', _⟩ | ⟨h', _⟩
    · exact absurd h' hne
    · have h' : hist.length = 0 := h'
      exact absurd (List.length_eq_zero_iff.1 h') hne
  · exact h'.started
  · exact h'.started

/-- The tokens of any input: at most linearly many, up to the stream end or a call that fails. -/
theorem Run.scans {T : List Char} {F : Nat} (hF : T.length + 2 < F) : ∀ (n : Nat) (hist : List Token) (o : ScannerObj), Run T hist o →
    4 * T.length + 2 - hist.length ≤ n →
    ∃ ts x, Scans F o ts x ∧ ((hist ++ ts).length ≤ 4 * T.length + 2 ∧ Fit (hist ++ ts)) ∧ ((∃ e, x = .err e ∧ ErrMarks T e) ∨ (∃ p, x = .panic p ∧ Bad T p)) := by
  intro n
  induction n with
  | zero =>
    intro hist o h hn
    have hs := h.scan hF
    obtain ⟨b, _, hI, hc, ⟨_, hcon⟩, hid, _⟩ := id h
    have hcon := (Fit.append.1 hcon).1
    have hlen : hist.length ≤ 4 * T.length + 2 := by unfold Count at hc; omega
    generalize hq : o.scan F = q at hs
    obtain ⟨out, o'⟩ := q
    have h1 : (o.scan F).1 = out := by rw [hq]
    cases out with
    | ok t =>
      exfalso
      rcases hs with ⟨_, b', _, _, hc', _⟩ | ⟨_, h'⟩
      · unfold Count at hc'; simp at hc'; omega
      · have := h'.count; simp at this; omega
    | err e => exact ⟨[], .err e, .stop h1 (by simp) (by simp) hid.notProduced, by simpa using ⟨hlen, hcon⟩, Or.inl ⟨e, rfl, hs⟩⟩
    | panic p =>
      refine ⟨[], .panic p, .stop h1 (by simp) ?_ hid.notProduced, by simpa using ⟨hlen, hcon⟩, Or.inr ⟨p, rfl, hs⟩⟩
      intro h'; cases h'
      have hs : Bad T _ := hs
      unfold Bad at hs; simp at hs
    | fuel => exact hs.elim
  | succ n ih =>
    intro hist o h hn
    have hs := h.scan hF
    obtain ⟨b, _, hI, hc, ⟨_, hcon⟩, hid, _⟩ := id h
    have hcon := (Fit.append.1 hcon).1
    have hlen : hist.length ≤ 4 * T.length + 2 := by unfold Count at hc; omega
    generalize hq : o.scan F = q at hs
    obtain ⟨out, o'⟩ := q
    have h1 : (o.scan F).1 = out := by rw [hq]
    cases out with
    | ok t =>
      have hpk := h.peekProduced hF (t := t) (by
        obtain ⟨s1, ts, g1, _⟩ := scan_ok hq hid.notProduced
        rw [g1])
      rcases hs with ⟨ht, hr⟩ | ⟨ht, h'⟩
      · obtain ⟨ts, x, g1, g2, g3⟩ := ih (hist ++ [t]) o' hr (by simp; omega)
        refine ⟨t :: ts, x, ?_, by simpa using g2, g3⟩
        obtain ⟨b', _, hI', _, _, hid', _⟩ := id hr
        exact .cons hq ht hid.notProduced hpk (hI'.started (by simp) hid') hid'.notProduced g1
      · refine ⟨[t], .err (.io .unexpectedEof), .last hq ht hid.notProduced hpk h'.done.started h'.done.produced, ⟨h'.count, h'.fits⟩, ?_⟩
        exact Or.inl ⟨_, rfl, Or.inl (Or.inr ⟨_, rfl⟩)⟩
    | err e => exact ⟨[], .err e, .stop h1 (by simp) (by simp) hid.notProduced, by simpa using ⟨hlen, hcon⟩, Or.inl ⟨e, rfl, hs⟩⟩
    | panic p =>
      refine ⟨[], .panic p, .stop h1 (by simp) ?_ hid.notProduced, by simpa using ⟨hlen, hcon⟩, Or.inr ⟨p, rfl, hs⟩⟩
      intro h'; cases h'
      have hs : Bad T _ := hs
      unfold Bad at hs; simp at hs
    | fuel => exact hs.elim

end Yaml
