import Verif.Lib.Half
import Verif.Lib.Sync

/-
C66: parsers over a source that breaks off.
-/

namespace Yaml.Hf
open Yaml Yaml.Cu Parser
set_option linter.unusedSimpArgs false
set_option linter.unusedVariables false

/-- The tokens of a source that may break off, and those of the text. -/
theorem Half.tokens {enc : Encoding} {n F : Nat} (hF : n + 2 < F) {o1 : ScannerObj} {ts1 : List Token} {f1 : Out Token} (h1 : Scans F o1 ts1 f1) :
    ∀ {o2 : ScannerObj} {ts2 : List Token} {f2 : Out Token}, Half enc o1 o2 n → Scans F o2 ts2 f2 →
      (ts1 = ts2 ∧ f1 = f2) ∨ ∃ e more, ReaderErr e ∧ f1 = .err e ∧ ts2 = ts1 ++ more := by
  induction h1 with
  | stop hx hn hp h0 =>
    intro o2 ts2 f2 ht h2
    rcases ht.scan hF with ⟨e, he, h⟩ | ⟨e, _⟩
    · exact .inr ⟨e, ts2, he, by rw [← hx, h], rfl⟩
    left
    cases h2 with
    | stop hx' => exact ⟨rfl, by rw [← hx, ← hx', e]⟩
    | last hs => rw [hs, hx] at e; exact absurd e (hn _)
    | cons hs => rw [hs, hx] at e; exact absurd e (hn _)
  | @last o o' t hs ht h0 hpk g1 g2 =>
    intro o2 ts2 f2 htw h2
    rcases htw.scan hF with ⟨e, he, h⟩ | ⟨e, _⟩
    · rw [hs] at h; simp at h
    left
    rw [hs] at e
    cases h2 with
    | stop hx' hn => rw [hx'] at e; exact absurd e.symm (hn _)
    | last hs' => rw [hs'] at e; cases e; exact ⟨rfl, rfl⟩
    | cons hs' ht' => rw [hs'] at e; cases e; exact absurd ht ht'
  | @cons o o' t ts x hs ht h0 hpk g1 g2 h ih =>
    intro o2 ts2 f2 htw h2
    rcases htw.scan hF with ⟨e, he, h⟩ | ⟨e, htw'⟩
    · rw [hs] at h; simp at h
    rw [hs] at e htw'
    cases h2 with
    | stop hx' hn => rw [hx'] at e; exact absurd e.symm (hn _)
    | last hs' ht' => rw [hs'] at e; cases e; exact absurd ht' ht
    | cons hs' ht' _ _ _ _ h' =>
      rw [hs'] at e htw'
      cases e
      rcases ih (htw' (Or.inl ⟨_, rfl⟩)) h' with ⟨rfl, rfl⟩ | ⟨e, more, g1, g2, rfl⟩
      · exact .inl ⟨rfl, rfl⟩
      · exact .inr ⟨e, more, g1, g2, rfl⟩

/-- Over a beginning of the tokens a method fails with the failure of the scanner, or does what it does over all of them. -/
theorem execL_prefix {β : Type} (p0 : PState) {e : Err} {more : List Token} {fin : Out Token} (t : Free TokOp TokOp.Ans (Out β × PState)) {Q : Out β × PState → Toks → Prop} :
    ∀ {ts : List Token} {st en pk : Bool}, t.wp stepL Q ⟨ts, .err e, st, en, pk, false⟩ → t.wp (stepF TokOp TokOp.Ans) Told none →
      (execL p0 t ⟨ts, .err e, st, en, pk, false⟩).1.1 = .err e ∨
      ((execL p0 t ⟨ts, .err e, st, en, pk, false⟩).1 = (execL p0 t ⟨ts ++ more, fin, st, en, pk, false⟩).1 ∧
        ∃ ts' st' en' pk', (execL p0 t ⟨ts, .err e, st, en, pk, false⟩).2 = ⟨ts', .err e, st', en', pk', false⟩ ∧
          (execL p0 t ⟨ts ++ more, fin, st, en, pk, false⟩).2 = ⟨ts' ++ more, fin, st', en', pk', false⟩) := by
  induction t with
  | ret a => exact fun _ _ => .inr ⟨rfl, _, _, _, _, rfl, rfl⟩
  | op o k ih =>
    rintro ts st en pk hw ⟨_, hw'⟩
    cases o with
    | peek =>
      obtain ⟨h1, h2, h3⟩ := hw
      cases ts with
      | cons t ts => exact ih _ h3 (hw' _)
      | nil =>
        obtain ⟨⟨o', p'⟩, ha, hq⟩ := wp_failed (hw' (.error e))
        left
        unfold execL
        dsimp only
        rw [ha]
        show o' = _
        cases o' with
        | err e' =>
          rcases hq with hq | hq
          · have hq : some e = some e' := hq
            simp only [Option.some.injEq] at hq
            rw [hq]
          · simp at hq
        | _ => have hq : some e = none := hq
               simp at hq
    | setFront d =>
      obtain ⟨h1, h2, h3, t, ts', h4, h5, h6⟩ := hw
      have h4 : ts = t :: ts' := h4
      subst h4
      exact ih _ h6 (hw' _)
    | skip =>
      obtain ⟨h1, h2, h3, t, ts', h4, h5⟩ := hw
      have h4 : ts = t :: ts' := h4
      subst h4
      have := ih _ h5 (hw' _)
      unfold execL
      simpa using this
    | streamEnded => exact ih _ hw.2 (hw' _)
    | streamStarted => exact ih _ hw.2 (hw' _)

/-- The first met the failure, or both had the same outcome. -/
def leOut {α : Type} (e : Err) (E : ParserObj → ParserObj → Prop) (Q : ParserObj → ParserObj → Prop) (q1 q2 : (Out α × (PState × SState)) × Rd) : Prop :=
  (∃ w r, q1 = ((.err e, w), r)) ∨ eqOut E Q q1 q2

/-- Two parsers in the same state, one over a scanner that will fail with `e` before the last token of the other. -/
structure Tc (F : Nat) (e : Err) (o1 o2 : ParserObj) : Prop where
  p : o1.p = o2.p
  g : ∃ toks more fin st pk G1 D1 G2 D2, Rel F ⟨toks, .err e, st, o1.p.state == .end_, pk, false⟩ o1.s o1.r ∧
    Rel F ⟨toks ++ more, fin, st, o1.p.state == .end_, pk, false⟩ o2.s o2.r ∧
    PGood G1 D1 o1.p toks ∧ PGood G2 D2 o1.p (toks ++ more) ∧ (toks ++ more).length < F

/-- A method that does the same on both, up to the failure. -/
def Sync (F : Nat) (e : Err) {α : Type} (m : Pars α) : Prop :=
  ∀ o1 o2, Tc F e o1 o2 → leOut e (fun o1 o2 => o1.p = o2.p) (Tc F e) (execA (handle F o1.p (m o1.p) o1.s) o1.r) (execA (handle F o2.p (m o2.p) o2.s) o2.r)

namespace Sync
variable {F : Nat} {x : Err} {α β : Type}

theorem pure (a : α) : Sync F x (pure a : Pars α) := fun o1 o2 h => .inr ⟨rfl, h⟩
theorem throw (e : Err) : Sync F x (M.throw e : Pars α) := fun o1 o2 h => .inr ⟨rfl, h.p⟩
theorem panic (p : PanicSite) : Sync F x (M.panic p : Pars α) := fun o1 o2 h => .inr rfl
theorem outOfFuel : Sync F x (M.outOfFuel : Pars α) := fun o1 o2 h => .inr trivial
theorem get : Sync F x (M.get : Pars PState) := fun o1 o2 h => .inr ⟨h.p, h⟩

theorem aliases (f : PState → List AliasData) : Sync F x (M.modify (fun p => { p with aliases := f p }) : Pars Unit) := by
  intro o1 o2 h
  obtain ⟨h, toks, more, fin, st, pk, G, D, G2, D2, h1, h2, h3, h4, h5⟩ := h
  refine .inr ⟨rfl, by show _ = _; dsimp only; rw [h], toks, more, fin, st, pk, G, D, G2, D2, h1, h2, ⟨h3.pos, h3.dirs, h3.decl⟩, ⟨h4.pos, h4.dirs, h4.decl⟩, h5⟩

theorem started : Sync F x (M.prim TokOp.streamStarted : Pars Bool) := by
  intro o1 o2 h
  refine .inr ⟨?_, h⟩
  obtain ⟨h, toks, more, fin, st, pk, G, D, _, _, h1, h2, _⟩ := h
  exact h1.flags.1.trans h2.flags.1.symm

theorem ended : Sync F x (M.prim TokOp.streamEnded : Pars Bool) := by
  intro o1 o2 h
  refine .inr ⟨?_, h⟩
  obtain ⟨h, toks, more, fin, st, pk, G, D, _, _, h1, h2, _⟩ := h
  exact h1.flags.2.trans h2.flags.2.symm

theorem _root_.Yaml.Hf.leOut_p0 {E Q : ParserObj → ParserObj → Prop} (p0 p1 p2 p3 : PState) (t t' : Free TokOp TokOp.Ans (Out α × PState)) (s s' : SState) (r r' : Rd)
    (h : leOut x E Q (execA (handle F p1 t s) r) (execA (handle F p3 t' s') r')) : leOut x E Q (execA (handle F p0 t s) r) (execA (handle F p2 t' s') r') := by
  rcases h with ⟨w, r2, h⟩ | h
  · left
    have := ((eqOut_p0 (F := F) (E := fun _ _ => True) (Q := fun _ _ => True) p0 p1 t s r ((.err x, w), r2)).1).2 (by rw [h]; exact ⟨rfl, trivial⟩)
    generalize execA (handle F p0 t s) r = q at this ⊢
    obtain ⟨⟨out, p', s''⟩, r''⟩ := q
    cases out with
    | err e => obtain ⟨rfl, _⟩ := this; exact ⟨_, _, rfl⟩
    | _ => exact this.elim
  · right
    exact ((eqOut_p0 (F := F) p0 p1 t s r _).1).2 (((eqOut_p0 (F := F) p2 p3 t' s' r' _).2).2 h)

theorem seq {m : Pars α} (g : Out α × PState → Free TokOp TokOp.Ans (Out β × PState))
    (hp : ∀ x p, g (.panic x, p) = .ret (.panic x, p)) (hf : ∀ p, g (.fuel, p) = .ret (.fuel, p))
    (he : ∀ p, ∃ p', g (.err x, p) = .ret (.err x, p')) (hm : Sync F x m)
    (hok : ∀ a, Sync F x (fun p => g (.ok a, p))) (herr : ∀ e (o1 o2 : ParserObj), o1.p = o2.p →
      leOut x (fun o1 o2 => o1.p = o2.p) (Tc F x) (execA (handle F o1.p (g (.err e, o1.p)) o1.s) o1.r) (execA (handle F o2.p (g (.err e, o2.p)) o2.s) o2.r)) :
    Sync F x (fun p => (m p).bind g) := by
  intro o1 o2 h
  have h0 := hm o1 o2 h
  have s1 := handle_seq (F := F) o1.p g hp hf (m o1.p) o1.s o1.r
  have s2 := handle_seq (F := F) o2.p g hp hf (m o2.p) o2.s o2.r
  dsimp only
  generalize execA (handle F o1.p (m o1.p) o1.s) o1.r = q1 at h0 s1
  generalize execA (handle F o2.p (m o2.p) o2.s) o2.r = q2 at h0 s2
  obtain ⟨⟨out1, p1, t1⟩, r1⟩ := q1
  obtain ⟨⟨out2, p2, t2⟩, r2⟩ := q2
  rcases h0 with ⟨⟨wp, ws⟩, r, h0⟩ | h0
  · left
    simp only [Prod.mk.injEq] at h0
    obtain ⟨⟨rfl, rfl, rfl⟩, rfl⟩ := h0
    dsimp only at s1
    obtain ⟨p', hp'⟩ := he p1
    rw [hp'] at s1
    exact ⟨_, _, s1⟩
  cases out1 with
  | ok a =>
    cases out2 with
    | ok b =>
      obtain ⟨rfl, h0⟩ := h0
      dsimp only at s1 s2
      rw [s1, s2]
      exact leOut_p0 _ p1 _ p2 _ _ _ _ _ _ (hok a _ _ h0)
    | _ => exact h0.elim
  | err a =>
    cases out2 with
    | err b =>
      obtain ⟨rfl, h0⟩ := h0
      dsimp only at s1 s2
      rw [s1, s2]
      exact leOut_p0 _ p1 _ p2 _ _ _ _ _ _ (herr a ⟨p1, t1, r1⟩ ⟨p2, t2, r2⟩ h0)
    | _ => exact h0.elim
  | panic p =>
    cases out2 with
    | panic y =>
      obtain rfl : p = y := h0
      obtain ⟨w1, s1⟩ := s1
      obtain ⟨w2, s2⟩ := s2
      rw [s1, s2]
      exact .inr rfl
    | _ => exact h0.elim
  | fuel =>
    cases out2 with
    | fuel =>
      obtain ⟨w1, s1⟩ := s1
      obtain ⟨w2, s2⟩ := s2
      rw [s1, s2]
      exact .inr trivial
    | _ => exact h0.elim

theorem bind {m : Pars α} {f : α → Pars β} (hm : Sync F x m) (hf : ∀ a, Sync F x (f a)) : Sync F x (m >>= f) :=
  seq (M.cont f) (fun _ _ => rfl) (fun _ => rfl) (fun p => ⟨p, rfl⟩) hm (fun a => hf a) (fun e o1 o2 h => .inr ⟨rfl, h⟩)

theorem when {c : Bool} {m : Pars Unit} (hm : Sync F x m) : Sync F x (M.when c m) := by
  cases c
  · exact pure ()
  · exact hm

theorem loop {σ : Type} {body : σ → Pars (σ ⊕ α)} (hb : ∀ y, Sync F x (body y)) : ∀ (n : Nat) (y : σ), Sync F x (M.loop n body y) := by
  intro n
  induction n with
  | zero => intro y; exact outOfFuel
  | succ n ih =>
    intro y
    unfold M.loop
    refine bind (hb y) ?_
    intro a
    cases a with
    | inl x' => exact ih x'
    | inr a => exact pure a

theorem cleaningErr {m : Pars α} (hm : Sync F x m) : Sync F x (Document.cleaningErr m) := by
  have e : Document.cleaningErr m = fun p => (m p).bind fun
      | (.ok a, p) => .ret (.ok a, p)
      | (.err e, p) => .ret (.err e, { p with aliases := [] })
      | (.panic x, p) => .ret (.panic x, p)
      | (.fuel, p) => .ret (.fuel, p) := by
    funext p
    unfold Document.cleaningErr Document.deleteAliases
    show Free.bind (M.catchErr m p) _ = _
    unfold M.catchErr
    rw [Free.bind_assoc]
    congr 1
    funext q
    obtain ⟨out, p⟩ := q
    cases out <;> rfl
  rw [e]
  refine seq _ (fun _ _ => rfl) (fun _ => rfl) (fun p => ⟨_, rfl⟩) hm (fun a => pure a) ?_
  intro e o1 o2 h
  exact .inr ⟨rfl, by show _ = _; dsimp only; rw [h]⟩

theorem parse : Sync F x (Parser.parse F) := by
  intro o1 o2 h
  have h' := h
  obtain ⟨hp, toks, more, fin, st, pk, G, D, G2, D2, h1, h2, h3, h4, h5⟩ := h
  by_cases hend : o1.p.state = .end_
  · have e1 := PInv.ended (F := F) (o := o1) hend
    have e2 := PInv.ended (F := F) (o := o2) (hp ▸ hend)
    unfold ParserObj.parse ParserObj.run runA Parser.onScanner at e1 e2
    dsimp only at e1 e2
    generalize execA (handle F o1.p (Parser.parse F o1.p) o1.s) o1.r = q1 at e1 ⊢
    generalize execA (handle F o2.p (Parser.parse F o2.p) o2.s) o2.r = q2 at e2 ⊢
    obtain ⟨⟨out1, p1, t1⟩, r1⟩ := q1
    obtain ⟨⟨out2, p2, t2⟩, r2⟩ := q2
    simp only [Prod.mk.injEq] at e1 e2
    obtain ⟨rfl, rfl⟩ := e1
    obtain ⟨rfl, rfl⟩ := e2
    exact .inr ⟨rfl, h'⟩
  · have hb : (o1.p.state == .end_) = false := by simpa using hend
    rw [hb] at h1 h2
    have hl : toks.length < F := by rw [List.length_append] at h5; omega
    have hw : (Parser.parse F o1.p).wp stepL (post NoP AnyE (Res G D o1.p toks (.err x))) ⟨toks, .err x, st, false, pk, false⟩ := wp_parse (fin := .err x) (st := st) (pk := pk) hl h3 hend
    have hw2 : (Parser.parse F o1.p).wp stepL (post NoP AnyE (Res G2 D2 o1.p (toks ++ more) fin)) ⟨toks ++ more, fin, st, false, pk, false⟩ := wp_parse (fin := fin) (st := st) (pk := pk) h5 h4 hend
    obtain ⟨s1, r1, k1, k2⟩ := exec_list F o1.p _ hw h1
    obtain ⟨s2, r2, m1, m2⟩ := exec_list F o1.p _ hw2 h2
    have h6 := execL_of_wp o1.p _ hw
    have h7 := execL_of_wp o1.p _ hw2
    rw [← hp, k1, m1]
    have hlen : ∀ G' toks' c ev p', PStep G2 D2 o1.p (toks ++ more) ev c G' p' toks' → toks'.length < F := by
      intro G' toks' c ev p' hs
      have := congrArg List.length hs.split
      simp only [List.length_append] at this h5
      omega
    rcases execL_prefix o1.p (more := more) (fin := fin) _ hw ((inferInstance : Honest (Parser.parse F)).told o1.p) with hx | ⟨hx, ts', st', en', pk', y1, y2⟩
    · left
      rw [hx]
      exact ⟨_, _, rfl⟩
    right
    generalize execL o1.p (Parser.parse F o1.p) ⟨toks, .err x, st, false, pk, false⟩ = q at k2 h6 hx y1 ⊢
    generalize execL o1.p (Parser.parse F o1.p) ⟨toks ++ more, fin, st, false, pk, false⟩ = q2 at m2 h7 hx y2 ⊢
    obtain ⟨⟨out, p'⟩, g'⟩ := q
    obtain ⟨⟨out2, p2⟩, g2⟩ := q2
    simp only [Prod.mk.injEq] at hx
    obtain ⟨rfl, rfl⟩ := hx
    cases out with
    | ok a =>
      rcases h6 with h6 | ⟨x, h6, _⟩ | ⟨h6, _⟩
      · rcases h7 with h7 | ⟨x, h7, _⟩ | ⟨h7, _⟩
        · obtain ⟨c, G', toks', pk1, rfl, hs⟩ := h6
          obtain ⟨c2, G2', toks2', pk2, rfl, hs2⟩ := h7
          simp only [lv, Toks.mk.injEq] at y1 y2
          obtain ⟨rfl, _, rfl, rfl, rfl, _⟩ := y1
          obtain ⟨rfl, _, _, _, rfl, _⟩ := y2
          exact ⟨rfl, rfl, toks', more, fin, true, _, _, _, _, _, k2, m2, hs.good, hs2.good, hlen _ _ _ _ _ hs2⟩
        · simp at h7
        · simp at h7
      · simp at h6
      · simp at h6
    | err e => exact ⟨rfl, rfl⟩
    | panic x => exact rfl
    | fuel => trivial

theorem registerAnchor (d : Document) (i : Nat) (a : Option Str) : Sync F x (Document.registerAnchor d i a) := by
  unfold Document.registerAnchor Document.composerError
  cases a with
  | none => exact pure ()
  | some a =>
    dsimp only
    cases d.nodes[i - 1]? with
    | none => exact panic _
    | some n =>
      refine bind get fun p => ?_
      cases p.aliases.find? (fun x => x.anchor == a) with
      | some x => exact throw _
      | none => exact aliases fun p => p.aliases ++ [⟨a, i, n.startMark⟩]

theorem loadNodeAdd (d : Document) (ctx : List Nat) (i : Nat) : Sync F x (Document.loadNodeAdd d ctx i) := by
  unfold Document.loadNodeAdd
  cases ctx with
  | nil => exact pure _
  | cons q _ =>
    dsimp only
    cases d.nodes[q - 1]? with
    | none => exact panic _
    | some n =>
      dsimp only
      cases n.data with
      | sequence => exact pure _
      | mapping => exact pure _
      | _ => exact panic _

theorem loadNode (d : Document) (ctx : List Nat) (n : Node) (a : Option Str) : Sync F x (Document.loadNode d ctx n a) := by
  unfold Document.loadNode
  exact bind (registerAnchor _ _ _) fun _ => bind (loadNodeAdd _ _ _) fun _ => pure _

theorem loadEnd (d : Document) (ctx : List Nat) (b : Bool) (m : Mark) : Sync F x (Document.loadEnd d ctx b m) := by
  unfold Document.loadEnd
  cases ctx with
  | nil => exact panic _
  | cons q tail =>
    dsimp only
    cases d.nodes[q - 1]? with
    | none => exact panic _
    | some n =>
      dsimp only
      have : ∀ c : Bool, Sync F x (if c = true then Pure.pure ({ d with nodes := d.nodes.modify (q - 1) fun n => { n with endMark := m } }, tail) else M.panic .loadBadEnd : Pars (Document × List Nat)) := by
        intro c
        cases c
        · exact panic _
        · exact pure _
      exact this _

theorem loadStep (d : Document) (ctx : List Nat) (ev : Event) : Sync F x (Document.loadStep d ctx ev) := by
  unfold Document.loadStep
  cases ev.data with
  | streamStart => exact panic _
  | streamEnd => exact panic _
  | documentStart => exact panic _
  | documentEnd => exact pure _
  | alias a =>
    refine bind ?_ fun _ => pure _
    unfold Document.loadAlias Document.composerError
    refine bind get fun p => ?_
    cases p.aliases.find? (fun x => x.anchor == a) with
    | some x => exact loadNodeAdd _ _ _
    | none => exact throw _
  | scalar => exact bind (loadNode _ _ _ _) fun _ => pure _
  | sequenceStart => exact bind (loadNode _ _ _ _) fun _ => pure _
  | sequenceEnd => exact bind (loadEnd _ _ _ _) fun _ => pure _
  | mappingStart => exact bind (loadNode _ _ _ _) fun _ => pure _
  | mappingEnd => exact bind (loadEnd _ _ _ _) fun _ => pure _

theorem loadDocument (d : Document) (ev : Event) : Sync F x (Document.loadDocument F d ev) := by
  unfold Document.loadDocument
  cases ev.data with
  | documentStart =>
    unfold Document.loadNodes
    exact loop (fun y => bind parse fun e => loadStep _ _ _) _ _
  | _ => exact panic _

theorem load : Sync F x (Document.load F) := by
  unfold Document.load
  refine bind started fun st => bind (when (bind (cleaningErr parse) fun ev => ?_)) fun _ => bind ended fun en => ?_
  · cases ev.data with
    | streamStart => exact pure _
    | _ => exact panic _
  · cases en with
    | true => exact pure _
    | false =>
      rw [if_neg (by simp)]
      refine bind (cleaningErr parse) fun ev => ?_
      have : Sync F x (do
        let d ← Document.cleaningErr (Document.loadDocument F (Document.new none [] false false) ev)
        Document.deleteAliases
        Pure.pure d : Pars Document) := bind (cleaningErr (loadDocument _ _)) fun d => bind (aliases fun _ => []) fun _ => pure _
      cases ev.data with
      | streamEnd => exact pure _
      | _ => exact this

end Sync

/-! ### Histories -/

/-- The same results, or the same up to the reading error `e`, where the first ends. -/
def Upto {α : Type} (e : Err) (l1 l2 : List (Out α)) : Prop := l1 = l2 ∨ ∃ l rest, l1 = l ++ [.err e] ∧ l2 = l ++ rest

theorem Upto.cons {α : Type} {e : Err} {l1 l2 : List (Out α)} (a : Out α) (h : Upto e l1 l2) : Upto e (a :: l1) (a :: l2) := by
  rcases h with rfl | ⟨l, rest, rfl, rfl⟩
  · exact .inl rfl
  · exact .inr ⟨a :: l, rest, rfl, rfl⟩

theorem Sync.results {F : Nat} {e : Err} {α : Type} {m : Pars α} (hm : Sync F e m) : ∀ (k : Nat) {o1 o2 : ParserObj}, Tc F e o1 o2 →
    Upto e (ParserObj.results (fun o => o.run F m) k o1) (ParserObj.results (fun o => o.run F m) k o2) := by
  intro k
  induction k with
  | zero => intros; exact .inl rfl
  | succ k ih =>
    intro o1 o2 h
    have := hm o1 o2 h
    unfold ParserObj.results ParserObj.run runA Parser.onScanner
    dsimp only
    generalize execA (handle F o1.p (m o1.p) o1.s) o1.r = q1 at this ⊢
    generalize execA (handle F o2.p (m o2.p) o2.s) o2.r = q2 at this ⊢
    rcases this with ⟨w, r, rfl⟩ | this
    · exact .inr ⟨[], _, rfl, rfl⟩
    obtain ⟨⟨out1, p1, t1⟩, r1⟩ := q1
    obtain ⟨⟨out2, p2, t2⟩, r2⟩ := q2
    cases out1 <;> cases out2 <;> try exact this.elim
    · obtain ⟨rfl, h⟩ := this
      have := ih h
      unfold ParserObj.run runA Parser.onScanner at this
      dsimp only at this ⊢
      exact this.cons _
    · obtain ⟨rfl, _⟩ := this; exact .inl rfl
    · obtain rfl : _ = _ := this; exact .inl rfl
    · exact .inl rfl

/-- The results of calls of `scan`. -/
theorem Half.scans {enc : Encoding} {n F : Nat} (hF : n + 2 < F) : ∀ (k : Nat) {o1 o2 : ScannerObj}, Half enc o1 o2 n →
    o1.scans F k = o2.scans F k ∨ ∃ l e r1 r2, ReaderErr e ∧ o1.scans F k = l ++ .err e :: r1 ∧ o2.scans F k = l ++ r2 := by
  intro k
  induction k with
  | zero => intros; exact .inl rfl
  | succ k ih =>
    intro o1 o2 h
    have hs := h.scan hF
    unfold ScannerObj.scans
    generalize o1.scan F = q1 at hs
    generalize o2.scan F = q2 at hs
    obtain ⟨x1, p1⟩ := q1
    obtain ⟨x2, p2⟩ := q2
    dsimp only at hs
    rcases hs with ⟨e, he, rfl⟩ | ⟨rfl, h2⟩
    · exact .inr ⟨[], e, _, _, he, rfl, rfl⟩
    · have cons : ∀ {a : Out Token} {l1 l2 : List (Out Token)}, (l1 = l2 ∨ ∃ l e r1 r2, ReaderErr e ∧ l1 = l ++ .err e :: r1 ∧ l2 = l ++ r2) →
          (a :: l1 = a :: l2 ∨ ∃ l e r1 r2, ReaderErr e ∧ a :: l1 = l ++ .err e :: r1 ∧ a :: l2 = l ++ r2) := by
        rintro a l1 l2 (rfl | ⟨l, e, r1, r2, he, rfl, rfl⟩)
        · exact .inl rfl
        · exact .inr ⟨a :: l, e, r1, r2, he, rfl, rfl⟩
      cases x1 with
      | ok t => exact cons (ih (h2 (Or.inl ⟨t, rfl⟩)))
      | err e => exact cons (ih (h2 (Or.inr ⟨e, rfl⟩)))
      | panic p => exact .inl rfl
      | fuel => exact .inl rfl

end Yaml.Hf
