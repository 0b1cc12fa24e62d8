import Verif.Lib.Same
import Verif.Lib.WpO
import Verif.Lib.ParsRun

/-
Parsers over two inputs that yield the same tokens: `parse` and `load` return the same.
-/

namespace Yaml
open Parser
set_option linter.unusedSimpArgs false
set_option linter.unusedVariables false

/-- Equal outcomes (the state left by a panic does not matter). -/
def eqOut {α : Type} (E : ParserObj → ParserObj → Prop) (Q : ParserObj → ParserObj → Prop) :
    (Out α × (PState × SState)) × Rd → (Out α × (PState × SState)) × Rd → Prop
  | ((.ok a, (p, s)), r), ((.ok b, (p', s')), r') => a = b ∧ Q ⟨p, s, r⟩ ⟨p', s', r'⟩
  | ((.err a, (p, s)), r), ((.err b, (p', s')), r') => a = b ∧ E ⟨p, s, r⟩ ⟨p', s', r'⟩
  | ((.panic x, _), _), ((.panic y, _), _) => x = y
  | ((.fuel, _), _), ((.fuel, _), _) => True
  | _, _ => False

section
variable {α β : Type} {F : Nat} {E Q : ParserObj → ParserObj → Prop}

/-- Sequencing, with the outcome of the first part known. -/
theorem handle_seq (p0 : PState) (g : Out α × PState → Free TokOp TokOp.Ans (Out β × PState))
    (hp : ∀ x p, g (.panic x, p) = .ret (.panic x, p)) (hf : ∀ p, g (.fuel, p) = .ret (.fuel, p))
    (t : Free TokOp TokOp.Ans (Out α × PState)) (s : SState) (r : Rd) :
    match execA (handle F p0 t s) r with
    | ((.ok a, (p, s')), r') => execA (handle F p0 (t.bind g) s) r = execA (handle F p0 (g (.ok a, p)) s') r'
    | ((.err a, (p, s')), r') => execA (handle F p0 (t.bind g) s) r = execA (handle F p0 (g (.err a, p)) s') r'
    | ((.panic x, _), _) => ∃ w, execA (handle F p0 (t.bind g) s) r = ((.panic x, w), (execA (handle F p0 (t.bind g) s) r).2)
    | ((.fuel, _), _) => ∃ w, execA (handle F p0 (t.bind g) s) r = ((.fuel, w), (execA (handle F p0 (t.bind g) s) r).2) := by
  induction t generalizing s r with
  | ret a =>
    obtain ⟨out, p⟩ := a
    simp only [Free.bind]
    cases out with
    | ok a => rfl
    | err e => rfl
    | panic x => rw [hp]; exact ⟨_, rfl⟩
    | fuel => rw [hf]; exact ⟨_, rfl⟩
  | op o k ih =>
    cases o with
    | peek =>
      simp only [Free.bind, handle, execA_bind]
      generalize execA (Scanner.peek F s) r = q
      obtain ⟨⟨out, s'⟩, r'⟩ := q
      cases out with
      | ok t => exact ih _ _ _
      | err e => exact ih _ _ _
      | panic x => exact ⟨_, rfl⟩
      | fuel => exact ⟨_, rfl⟩
    | setFront d =>
      simp only [Free.bind, handle, execA_bind]
      exact ih _ _ _
    | skip =>
      simp only [Free.bind, handle, execA_bind]
      rcases skipToken_ret s with ⟨s', h⟩ | ⟨x, s', h⟩ <;> rw [h]
      · exact ih _ _ _
      · exact ⟨_, rfl⟩
    | streamEnded => exact ih _ _ _
    | streamStarted => exact ih _ _ _

/-- The state to fall back to on a panic does not matter. -/
theorem eqOut_p0 (p0 p1 : PState) (t : Free TokOp TokOp.Ans (Out α × PState)) (s : SState) (r : Rd) (q : (Out α × (PState × SState)) × Rd) :
    (eqOut E Q (execA (handle F p0 t s) r) q ↔ eqOut E Q (execA (handle F p1 t s) r) q) ∧
    (eqOut E Q q (execA (handle F p0 t s) r) ↔ eqOut E Q q (execA (handle F p1 t s) r)) := by
  induction t generalizing s r with
  | ret a => exact ⟨Iff.rfl, Iff.rfl⟩
  | op o k ih =>
    cases o with
    | peek =>
      simp only [handle, execA_bind]
      generalize execA (Scanner.peek F s) r = q1
      obtain ⟨⟨out, s'⟩, r'⟩ := q1
      cases out with
      | ok t => exact ih _ _ _
      | err e => exact ih _ _ _
      | panic x => obtain ⟨⟨o2, _, _⟩, _⟩ := q; cases o2 <;> exact ⟨Iff.rfl, Iff.rfl⟩
      | fuel => obtain ⟨⟨o2, _, _⟩, _⟩ := q; cases o2 <;> exact ⟨Iff.rfl, Iff.rfl⟩
    | setFront d =>
      simp only [handle, execA_bind]
      exact ih _ _ _
    | skip =>
      simp only [handle, execA_bind]
      rcases skipToken_ret s with ⟨s', h⟩ | ⟨x, s', h⟩ <;> rw [h]
      · exact ih _ _ _
      · obtain ⟨⟨o2, _, _⟩, _⟩ := q; cases o2 <;> exact ⟨Iff.rfl, Iff.rfl⟩
    | streamEnded => exact ih _ _ _
    | streamStarted => exact ih _ _ _

end

/-- Two parsers in the same state, over scanners that will yield the same tokens. -/
structure Tw (F : Nat) (o1 o2 : ParserObj) : Prop where
  p : o1.p = o2.p
  g : ∃ toks fin st pk G D, Rel F ⟨toks, fin, st, o1.p.state == .end_, pk, false⟩ o1.s o1.r ∧ Rel F ⟨toks, fin, st, o1.p.state == .end_, pk, false⟩ o2.s o2.r ∧
    PGood G D o1.p toks ∧ toks.length < F ∧ ((∃ e, fin = .err e) ∨ ∃ x, fin = .panic x)

/-- A method that does the same on both. -/
def Sync (F : Nat) {α : Type} (m : Pars α) : Prop :=
  ∀ o1 o2, Tw F o1 o2 → eqOut (fun o1 o2 => o1.p = o2.p) (Tw F) (execA (handle F o1.p (m o1.p) o1.s) o1.r) (execA (handle F o2.p (m o2.p) o2.s) o2.r)

namespace Sync
variable {F : Nat} {α β : Type}

theorem pure (a : α) : Sync F (pure a : Pars α) := fun o1 o2 h => ⟨rfl, h⟩
theorem throw (e : Err) : Sync F (M.throw e : Pars α) := fun o1 o2 h => ⟨rfl, h.p⟩
theorem panic (x : PanicSite) : Sync F (M.panic x : Pars α) := fun o1 o2 h => rfl
theorem outOfFuel : Sync F (M.outOfFuel : Pars α) := fun o1 o2 h => trivial
theorem get : Sync F (M.get : Pars PState) := fun o1 o2 h => ⟨h.p, h⟩

theorem aliases (f : PState → List AliasData) : Sync F (M.modify (fun p => { p with aliases := f p }) : Pars Unit) := by
  intro o1 o2 h
  obtain ⟨h, toks, fin, st, pk, G, D, h1, h2, h3, h4, h5⟩ := h
  refine ⟨rfl, by show _ = _; dsimp only; rw [h], toks, fin, st, pk, G, D, h1, h2, ⟨h3.pos, h3.dirs, h3.decl⟩, h4, h5⟩

theorem _root_.Yaml.Rel.flags {toks : List Token} {fin : Out Token} {st en pk : Bool} {s : SState} {r : Rd} (h : Rel F ⟨toks, fin, st, en, pk, false⟩ s r) :
    s.streamStartProduced = st ∧ s.streamEndProduced = en := by
  cases h with
  | fresh hb he hk hst hs => exact ⟨hst.symm, by have := hs.notEnded; rw [this]; exact he.symm⟩
  | front hb he hk hse hst hst' => exact ⟨by rw [hst']; exact hst.symm, by rw [hse]; exact he.symm⟩
  | ended hb he hk hst hs => exact ⟨hst.symm, by rw [hs]; exact he.symm⟩
  | broken hb => simp at hb

theorem started : Sync F (M.prim TokOp.streamStarted : Pars Bool) := by
  intro o1 o2 h
  refine ⟨?_, h⟩
  obtain ⟨h, toks, fin, st, pk, G, D, h1, h2, _⟩ := h
  exact h1.flags.1.trans h2.flags.1.symm

theorem ended : Sync F (M.prim TokOp.streamEnded : Pars Bool) := by
  intro o1 o2 h
  refine ⟨?_, h⟩
  obtain ⟨h, toks, fin, st, pk, G, D, h1, h2, _⟩ := h
  exact h1.flags.2.trans h2.flags.2.symm

theorem seq {m : Pars α} (g : Out α × PState → Free TokOp TokOp.Ans (Out β × PState))
    (hp : ∀ x p, g (.panic x, p) = .ret (.panic x, p)) (hf : ∀ p, g (.fuel, p) = .ret (.fuel, p)) (hm : Sync F m)
    (hok : ∀ a, Sync F (fun p => g (.ok a, p))) (herr : ∀ e (o1 o2 : ParserObj), o1.p = o2.p →
      eqOut (fun o1 o2 => o1.p = o2.p) (Tw F) (execA (handle F o1.p (g (.err e, o1.p)) o1.s) o1.r) (execA (handle F o2.p (g (.err e, o2.p)) o2.s) o2.r)) :
    Sync F (fun p => (m p).bind g) := by
  intro o1 o2 h
  have h0 := hm o1 o2 h
  have s1 := handle_seq (F := F) o1.p g hp hf (m o1.p) o1.s o1.r
  have s2 := handle_seq (F := F) o2.p g hp hf (m o2.p) o2.s o2.r
  dsimp only
  generalize execA (handle F o1.p (m o1.p) o1.s) o1.r = q1 at h0 s1
  generalize execA (handle F o2.p (m o2.p) o2.s) o2.r = q2 at h0 s2
  obtain ⟨⟨out1, p1, t1⟩, r1⟩ := q1
  obtain ⟨⟨out2, p2, t2⟩, r2⟩ := q2
  cases out1 with
  | ok a =>
    cases out2 with
    | ok b =>
      obtain ⟨rfl, h0⟩ := h0
      dsimp only at s1 s2
      rw [s1, s2, (eqOut_p0 o1.p p1 _ _ _ _).1, (eqOut_p0 o2.p p2 _ _ _ _).2]
      exact hok a _ _ h0
    | _ => exact h0.elim
  | err a =>
    cases out2 with
    | err b =>
      obtain ⟨rfl, h0⟩ := h0
      dsimp only at s1 s2
      rw [s1, s2, (eqOut_p0 o1.p p1 _ _ _ _).1, (eqOut_p0 o2.p p2 _ _ _ _).2]
      exact herr a ⟨p1, t1, r1⟩ ⟨p2, t2, r2⟩ h0
    | _ => exact h0.elim
  | panic x =>
    cases out2 with
    | panic y =>
      obtain rfl : x = y := h0
      obtain ⟨w1, s1⟩ := s1
      obtain ⟨w2, s2⟩ := s2
      rw [s1, s2]
      exact rfl
    | _ => exact h0.elim
  | fuel =>
    cases out2 with
    | fuel =>
      obtain ⟨w1, s1⟩ := s1
      obtain ⟨w2, s2⟩ := s2
      rw [s1, s2]
      exact trivial
    | _ => exact h0.elim

theorem bind {m : Pars α} {f : α → Pars β} (hm : Sync F m) (hf : ∀ a, Sync F (f a)) : Sync F (m >>= f) :=
  seq (M.cont f) (fun _ _ => rfl) (fun _ => rfl) hm (fun a => hf a) (fun e o1 o2 h => ⟨rfl, h⟩)

theorem when {c : Bool} {m : Pars Unit} (hm : Sync F m) : Sync F (M.when c m) := by
  cases c
  · exact pure ()
  · exact hm

theorem loop {σ : Type} {body : σ → Pars (σ ⊕ α)} (hb : ∀ x, Sync F (body x)) : ∀ (n : Nat) (x : σ), Sync F (M.loop n body x) := by
  intro n
  induction n with
  | zero => intro x; exact outOfFuel
  | succ n ih =>
    intro x
    unfold M.loop
    refine bind (hb x) ?_
    intro a
    cases a with
    | inl x' => exact ih x'
    | inr a => exact pure a

theorem cleaningErr {m : Pars α} (hm : Sync F m) : Sync F (Document.cleaningErr m) := by
  have e : Document.cleaningErr m = fun p => (m p).bind fun
      | (.ok a, p) => .ret (.ok a, p)
      | (.err e, p) => .ret (.err e, { p with aliases := [] })
      | (.panic x, p) => .ret (.panic x, p)
      | (.fuel, p) => .ret (.fuel, p) := by
    funext p
    unfold Document.cleaningErr Document.deleteAliases
    show Free.bind (M.catchErr m p) _ = _
    unfold M.catchErr
    rw [Free.bind_assoc]
    congr 1
    funext q
    obtain ⟨out, p⟩ := q
    cases out <;> rfl
  rw [e]
  refine seq _ (fun _ _ => rfl) (fun _ => rfl) hm (fun a => pure a) ?_
  intro e o1 o2 h
  exact ⟨rfl, by show _ = _; dsimp only; rw [h]⟩

theorem parse : Sync F (Parser.parse F) := by
  intro o1 o2 h
  have h' := h
  obtain ⟨hp, toks, fin, st, pk, G, D, h1, h2, h3, h4, h5⟩ := h
  by_cases hend : o1.p.state = .end_
  · have e1 := PInv.ended (F := F) (o := o1) hend
    have e2 := PInv.ended (F := F) (o := o2) (hp ▸ hend)
    unfold ParserObj.parse ParserObj.run runA Parser.onScanner at e1 e2
    dsimp only at e1 e2
    generalize execA (handle F o1.p (Parser.parse F o1.p) o1.s) o1.r = q1 at e1 ⊢
    generalize execA (handle F o2.p (Parser.parse F o2.p) o2.s) o2.r = q2 at e2 ⊢
    obtain ⟨⟨out1, p1, t1⟩, r1⟩ := q1
    obtain ⟨⟨out2, p2, t2⟩, r2⟩ := q2
    simp only [Prod.mk.injEq] at e1 e2
    obtain ⟨rfl, rfl⟩ := e1
    obtain ⟨rfl, rfl⟩ := e2
    exact ⟨rfl, h'⟩
  · have hb : (o1.p.state == .end_) = false := by simpa using hend
    rw [hb] at h1 h2
    have hw := wp_parse (fin := fin) (st := st) (pk := pk) h4 h3 hend
    have hw2 : (Parser.parse F o1.p).wp stepL (post NoP AnyE (Res G D o1.p toks fin)) ⟨toks, fin, st, false, pk, false⟩ := hw
    obtain ⟨s1, r1, k1, k2⟩ := exec_list F o1.p _ hw2 h1
    obtain ⟨s2, r2, m1, m2⟩ := exec_list F o1.p _ hw2 h2
    have h6 := execL_of_wp o1.p _ hw2
    rw [← hp, k1, m1]
    have hlen : ∀ G' toks' c ev p', PStep G D o1.p toks ev c G' p' toks' → toks'.length < F := by
      intro G' toks' c ev p' hs
      have := congrArg List.length hs.split
      simp at this
      omega
    generalize execL o1.p (Parser.parse F o1.p) ⟨toks, fin, st, false, pk, false⟩ = q at k2 m2 h6 ⊢
    obtain ⟨⟨out, p'⟩, g'⟩ := q
    cases out with
    | ok a =>
      rcases h6 with h6 | ⟨x, h6, _⟩ | ⟨h6, _⟩
      · obtain ⟨c, G', toks', pk', rfl, hs⟩ := h6
        exact ⟨rfl, rfl, toks', fin, true, pk', G', _, k2, m2, hs.good, hlen _ _ _ _ _ hs, h5⟩
      · simp at h6
      · simp at h6
    | err e => exact ⟨rfl, rfl⟩
    | panic x => exact rfl
    | fuel => trivial

theorem registerAnchor (d : Document) (i : Nat) (a : Option Str) : Sync F (Document.registerAnchor d i a) := by
  unfold Document.registerAnchor Document.composerError
  cases a with
  | none => exact pure ()
  | some a =>
    dsimp only
    cases d.nodes[i - 1]? with
    | none => exact panic _
    | some n =>
      refine bind get fun p => ?_
      cases p.aliases.find? (fun x => x.anchor == a) with
      | some x => exact throw _
      | none => exact aliases fun p => p.aliases ++ [⟨a, i, n.startMark⟩]

theorem loadNodeAdd (d : Document) (ctx : List Nat) (i : Nat) : Sync F (Document.loadNodeAdd d ctx i) := by
  unfold Document.loadNodeAdd
  cases ctx with
  | nil => exact pure _
  | cons q _ =>
    dsimp only
    cases d.nodes[q - 1]? with
    | none => exact panic _
    | some n =>
      dsimp only
      cases n.data with
      | sequence => exact pure _
      | mapping => exact pure _
      | _ => exact panic _

theorem loadNode (d : Document) (ctx : List Nat) (n : Node) (a : Option Str) : Sync F (Document.loadNode d ctx n a) := by
  unfold Document.loadNode
  exact bind (registerAnchor _ _ _) fun _ => bind (loadNodeAdd _ _ _) fun _ => pure _

theorem loadEnd (d : Document) (ctx : List Nat) (b : Bool) (m : Mark) : Sync F (Document.loadEnd d ctx b m) := by
  unfold Document.loadEnd
  cases ctx with
  | nil => exact panic _
  | cons q tail =>
    dsimp only
    cases d.nodes[q - 1]? with
    | none => exact panic _
    | some n =>
      dsimp only
      have : ∀ c : Bool, Sync F (if c = true then Pure.pure ({ d with nodes := d.nodes.modify (q - 1) fun n => { n with endMark := m } }, tail) else M.panic .loadBadEnd : Pars (Document × List Nat)) := by
        intro c
        cases c
        · exact panic _
        · exact pure _
      exact this _

theorem loadStep (d : Document) (ctx : List Nat) (ev : Event) : Sync F (Document.loadStep d ctx ev) := by
  unfold Document.loadStep
  cases ev.data with
  | streamStart => exact panic _
  | streamEnd => exact panic _
  | documentStart => exact panic _
  | documentEnd => exact pure _
  | alias a =>
    refine bind ?_ fun _ => pure _
    unfold Document.loadAlias Document.composerError
    refine bind get fun p => ?_
    cases p.aliases.find? (fun x => x.anchor == a) with
    | some x => exact loadNodeAdd _ _ _
    | none => exact throw _
  | scalar => exact bind (loadNode _ _ _ _) fun _ => pure _
  | sequenceStart => exact bind (loadNode _ _ _ _) fun _ => pure _
  | sequenceEnd => exact bind (loadEnd _ _ _ _) fun _ => pure _
  | mappingStart => exact bind (loadNode _ _ _ _) fun _ => pure _
  | mappingEnd => exact bind (loadEnd _ _ _ _) fun _ => pure _

theorem loadDocument (d : Document) (ev : Event) : Sync F (Document.loadDocument F d ev) := by
  unfold Document.loadDocument
  cases ev.data with
  | documentStart =>
    unfold Document.loadNodes
    exact loop (fun x => bind parse fun e => loadStep _ _ _) _ _
  | _ => exact panic _

theorem load : Sync F (Document.load F) := by
  unfold Document.load
  refine bind started fun st => bind (when (bind (cleaningErr parse) fun ev => ?_)) fun _ => bind ended fun en => ?_
  · cases ev.data with
    | streamStart => exact pure _
    | _ => exact panic _
  · cases en with
    | true => exact pure _
    | false =>
      rw [if_neg (by simp)]
      refine bind (cleaningErr parse) fun ev => ?_
      have : Sync F (do
        let d ← Document.cleaningErr (Document.loadDocument F (Document.new none [] false false) ev)
        Document.deleteAliases
        Pure.pure d : Pars Document) := bind (cleaningErr (loadDocument _ _)) fun d => bind (aliases fun _ => []) fun _ => pure _
      cases ev.data with
      | streamEnd => exact pure _
      | _ => exact this

end Sync

/-! ### Histories -/

/-- The results of `n` successive calls, up to and including the first that is not `Ok`. -/
def ParserObj.results {α : Type} (call : ParserObj → Out α × ParserObj) : Nat → ParserObj → List (Out α)
  | 0, _ => []
  | n + 1, o =>
    match call o with
    | (.ok a, o') => .ok a :: results call n o'
    | (r, _) => [r]

theorem Sync.results {F : Nat} {α : Type} {m : Pars α} (hm : Sync F m) : ∀ (k : Nat) {o1 o2 : ParserObj}, Tw F o1 o2 →
    ParserObj.results (fun o => o.run F m) k o1 = ParserObj.results (fun o => o.run F m) k o2 := by
  intro k
  induction k with
  | zero => intros; rfl
  | succ k ih =>
    intro o1 o2 h
    have := hm o1 o2 h
    unfold ParserObj.results ParserObj.run runA Parser.onScanner
    dsimp only
    generalize execA (handle F o1.p (m o1.p) o1.s) o1.r = q1 at this ⊢
    generalize execA (handle F o2.p (m o2.p) o2.s) o2.r = q2 at this ⊢
    obtain ⟨⟨out1, p1, t1⟩, r1⟩ := q1
    obtain ⟨⟨out2, p2, t2⟩, r2⟩ := q2
    cases out1 <;> cases out2 <;> try exact this.elim
    · obtain ⟨rfl, h⟩ := this
      have := ih h
      unfold ParserObj.run runA Parser.onScanner at this
      dsimp only at this ⊢
      rw [this]
    · obtain ⟨rfl, _⟩ := this; rfl
    · obtain rfl : _ = _ := this; rfl
    · rfl

theorem Twins.same_tokens {enc : Encoding} {n F : Nat} (hF : n + 2 < F) {o1 : ScannerObj} {ts1 : List Token} {f1 : Out Token} (h1 : Scans F o1 ts1 f1) :
    ∀ {o2 : ScannerObj} {ts2 : List Token} {f2 : Out Token}, Twins enc o1 o2 n → Scans F o2 ts2 f2 → ts1 = ts2 ∧ f1 = f2 := by
  induction h1 with
  | stop hx hn hp h0 =>
    intro o2 ts2 f2 ht h2
    have e := (ht.scan hF).1
    cases h2 with
    | stop hx' => exact ⟨rfl, by rw [← hx, ← hx', e]⟩
    | last hs => rw [hs, hx] at e; exact absurd e (hn _)
    | cons hs => rw [hs, hx] at e; exact absurd e (hn _)
  | @last o o' t hs ht h0 hpk g1 g2 =>
    intro o2 ts2 f2 htw h2
    have e := (htw.scan hF).1
    rw [hs] at e
    cases h2 with
    | stop hx' hn => rw [hx'] at e; exact absurd e.symm (hn _)
    | last hs' => rw [hs'] at e; cases e; exact ⟨rfl, rfl⟩
    | cons hs' ht' => rw [hs'] at e; cases e; exact absurd ht ht'
  | @cons o o' t ts x hs ht h0 hpk g1 g2 h ih =>
    intro o2 ts2 f2 htw h2
    have e := (htw.scan hF).1
    have htw' := (htw.scan hF).2
    rw [hs] at e htw'
    cases h2 with
    | stop hx' hn => rw [hx'] at e; exact absurd e.symm (hn _)
    | last hs' ht' => rw [hs'] at e; cases e; exact absurd ht' ht
    | cons hs' ht' _ _ _ _ h' =>
      rw [hs'] at e htw'
      cases e
      obtain ⟨rfl, rfl⟩ := ih (htw' (Or.inl ⟨_, rfl⟩)) h'
      exact ⟨rfl, rfl⟩

end Yaml
