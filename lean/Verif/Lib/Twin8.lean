import Verif.Lib.Twin7
import Verif.Lib.Sync

/-
Calls of `parse` and `load` on two parsers side by side.
-/

namespace Yaml
open Parser
set_option linter.unusedSimpArgs false
set_option linter.unusedVariables false

namespace Tw

/-- Two parsers in related states, over scanners that will yield related tokens. -/
structure Bo (L F : Nat) (o1 o2 : ParserObj) : Prop where
  ps : PS L o1.p o2.p
  g : ∃ toks1 toks2 fin1 fin2 st pk1 pk2 G1 D1 G2 D2, Rel F ⟨toks1, fin1, st, o1.p.state == .end_, pk1, false⟩ o1.s o1.r ∧
    Rel F ⟨toks2, fin2, st, o2.p.state == .end_, pk2, false⟩ o2.s o2.r ∧
    PGood G1 D1 o1.p toks1 ∧ PGood G2 D2 o2.p toks2 ∧ toks1.length < F ∧ Zip (Tk L) toks1 toks2 ∧ Rs L fin1 fin2

/-- Related outcomes. -/
def Ro (L : Nat) {α β : Type} (R : α → β → Prop) (Q : ParserObj → ParserObj → Prop) :
    (Out α × (PState × SState)) × Rd → (Out β × (PState × SState)) × Rd → Prop
  | ((.ok a, (p, s)), r), ((.ok b, (p', s')), r') => R a b ∧ Q ⟨p, s, r⟩ ⟨p', s', r'⟩
  | ((.err a, _), _), ((.err b, _), _) => Er L a b
  | ((.panic x, _), _), ((.panic y, _), _) => x = y
  | ((.fuel, _), _), ((.fuel, _), _) => True
  | _, _ => False

/-- The state to fall back to on a panic does not matter. -/
theorem ro_p0 {α β : Type} {F L : Nat} {R : α → β → Prop} {Q : ParserObj → ParserObj → Prop} (p0 p1 : PState) (t : Free TokOp TokOp.Ans (Out α × PState)) (s : SState) (r : Rd)
    (q : (Out β × (PState × SState)) × Rd) :
    (Ro L R Q (execA (handle F p0 t s) r) q ↔ Ro L R Q (execA (handle F p1 t s) r) q) := by
  induction t generalizing s r with
  | ret a => exact Iff.rfl
  | op o k ih =>
    cases o with
    | peek =>
      simp only [handle, execA_bind]
      generalize execA (Scanner.peek F s) r = q1
      obtain ⟨⟨out, s'⟩, r'⟩ := q1
      cases out with
      | ok t => exact ih _ _ _
      | err e => exact ih _ _ _
      | panic x => obtain ⟨⟨o2, _, _⟩, _⟩ := q; cases o2 <;> exact Iff.rfl
      | fuel => obtain ⟨⟨o2, _, _⟩, _⟩ := q; cases o2 <;> exact Iff.rfl
    | setFront d =>
      simp only [handle, execA_bind]
      exact ih _ _ _
    | skip =>
      simp only [handle, execA_bind]
      rcases skipToken_ret s with ⟨s', h⟩ | ⟨x, s', h⟩ <;> rw [h]
      · exact ih _ _ _
      · obtain ⟨⟨o2, _, _⟩, _⟩ := q; cases o2 <;> exact Iff.rfl
    | streamEnded => exact ih _ _ _
    | streamStarted => exact ih _ _ _

theorem ro_p0' {α β : Type} {F L : Nat} {R : α → β → Prop} {Q : ParserObj → ParserObj → Prop} (p0 p1 : PState) (t : Free TokOp TokOp.Ans (Out β × PState)) (s : SState) (r : Rd)
    (q : (Out α × (PState × SState)) × Rd) :
    (Ro L R Q q (execA (handle F p0 t s) r) ↔ Ro L R Q q (execA (handle F p1 t s) r)) := by
  induction t generalizing s r with
  | ret a => exact Iff.rfl
  | op o k ih =>
    cases o with
    | peek =>
      simp only [handle, execA_bind]
      generalize execA (Scanner.peek F s) r = q1
      obtain ⟨⟨out, s'⟩, r'⟩ := q1
      cases out with
      | ok t => exact ih _ _ _
      | err e => exact ih _ _ _
      | panic x => obtain ⟨⟨o2, _, _⟩, _⟩ := q; cases o2 <;> exact Iff.rfl
      | fuel => obtain ⟨⟨o2, _, _⟩, _⟩ := q; cases o2 <;> exact Iff.rfl
    | setFront d =>
      simp only [handle, execA_bind]
      exact ih _ _ _
    | skip =>
      simp only [handle, execA_bind]
      rcases skipToken_ret s with ⟨s', h⟩ | ⟨x, s', h⟩ <;> rw [h]
      · exact ih _ _ _
      · obtain ⟨⟨o2, _, _⟩, _⟩ := q; cases o2 <;> exact Iff.rfl
    | streamEnded => exact ih _ _ _
    | streamStarted => exact ih _ _ _

/-- Methods that do the same on related parsers. -/
def Sy (L F : Nat) {α β : Type} (m : Pars α) (m' : Pars β) (R : α → β → Prop) : Prop :=
  ∀ o1 o2, Bo L F o1 o2 → Ro L R (Bo L F) (execA (handle F o1.p (m o1.p) o1.s) o1.r) (execA (handle F o2.p (m' o2.p) o2.s) o2.r)

namespace Sy
variable {L F : Nat} {α β γ δ : Type}

theorem pure {R : α → β → Prop} {a : α} {b : β} (h : R a b) : Sy L F (pure a : Pars α) (pure b : Pars β) R := fun o1 o2 ho => ⟨h, ho⟩
theorem throw {R : α → β → Prop} {e e' : Err} (h : Er L e e') : Sy L F (M.throw e : Pars α) (M.throw e' : Pars β) R := fun o1 o2 ho => h
theorem panic {R : α → β → Prop} (x : PanicSite) : Sy L F (M.panic x : Pars α) (M.panic x : Pars β) R := fun o1 o2 h => rfl
theorem outOfFuel {R : α → β → Prop} : Sy L F (M.outOfFuel : Pars α) (M.outOfFuel : Pars β) R := fun o1 o2 h => trivial
theorem get : Sy L F (M.get : Pars PState) (M.get : Pars PState) (PS L) := fun o1 o2 h => ⟨h.ps, h⟩

theorem aliases (f f' : PState → List AliasData) (hf : ∀ p p', PS L p p' → Zip (Al L) (f p) (f' p')) :
    Sy L F (M.modify (fun p => { p with aliases := f p }) : Pars Unit) (M.modify (fun p => { p with aliases := f' p }) : Pars Unit) Eq := by
  intro o1 o2 h
  obtain ⟨h, toks1, toks2, fin1, fin2, st, pk1, pk2, G1, D1, G2, D2, h1, h2, h3, h4, h5⟩ := h
  refine ⟨rfl, ⟨h.states, h.state, h.marks, h.tags, hf _ _ h⟩, toks1, toks2, fin1, fin2, st, pk1, pk2, G1, D1, G2, D2, h1, h2, ⟨h3.pos, h3.dirs, h3.decl⟩, ⟨h4.pos, h4.dirs, h4.decl⟩, h5⟩

theorem started : Sy L F (M.prim TokOp.streamStarted : Pars Bool) (M.prim TokOp.streamStarted : Pars Bool) Eq := by
  intro o1 o2 h
  refine ⟨?_, h⟩
  obtain ⟨h, toks1, toks2, fin1, fin2, st, pk1, pk2, G1, D1, G2, D2, h1, h2, h3, h4, h5⟩ := h
  exact h1.flags.1.trans h2.flags.1.symm

theorem ended : Sy L F (M.prim TokOp.streamEnded : Pars Bool) (M.prim TokOp.streamEnded : Pars Bool) Eq := by
  intro o1 o2 h
  refine ⟨?_, h⟩
  obtain ⟨h, toks1, toks2, fin1, fin2, st, pk1, pk2, G1, D1, G2, D2, h1, h2, h3, h4, h5⟩ := h
  refine h1.flags.2.trans (Eq.trans ?_ h2.flags.2.symm)
  rw [h.state]

theorem seq {m : Pars α} {m' : Pars β} {R : α → β → Prop} {R' : γ → δ → Prop} (g : Out α × PState → Free TokOp TokOp.Ans (Out γ × PState))
    (g' : Out β × PState → Free TokOp TokOp.Ans (Out δ × PState))
    (hp : ∀ x p, g (.panic x, p) = .ret (.panic x, p)) (hf : ∀ p, g (.fuel, p) = .ret (.fuel, p))
    (hp' : ∀ x p, g' (.panic x, p) = .ret (.panic x, p)) (hf' : ∀ p, g' (.fuel, p) = .ret (.fuel, p)) (hm : Sy L F m m' R)
    (hok : ∀ a b, R a b → Sy L F (fun p => g (.ok a, p)) (fun p => g' (.ok b, p)) R') (herr : ∀ e e' (o1 o2 : ParserObj), Er L e e' →
      Ro L R' (Bo L F) (execA (handle F o1.p (g (.err e, o1.p)) o1.s) o1.r) (execA (handle F o2.p (g' (.err e', o2.p)) o2.s) o2.r)) :
    Sy L F (fun p => (m p).bind g) (fun p => (m' p).bind g') R' := by
  intro o1 o2 h
  have h0 := hm o1 o2 h
  have s1 := handle_seq (F := F) o1.p g hp hf (m o1.p) o1.s o1.r
  have s2 := handle_seq (F := F) o2.p g' hp' hf' (m' o2.p) o2.s o2.r
  dsimp only
  generalize execA (handle F o1.p (m o1.p) o1.s) o1.r = q1 at h0 s1
  generalize execA (handle F o2.p (m' o2.p) o2.s) o2.r = q2 at h0 s2
  obtain ⟨⟨out1, p1, t1⟩, r1⟩ := q1
  obtain ⟨⟨out2, p2, t2⟩, r2⟩ := q2
  cases out1 with
  | ok a =>
    cases out2 with
    | ok b =>
      obtain ⟨hr, h0⟩ := h0
      dsimp only at s1 s2
      rw [s1, s2, (ro_p0 o1.p p1 _ _ _ _), (ro_p0' o2.p p2 _ _ _ _)]
      exact hok a b hr _ _ h0
    | _ => exact h0.elim
  | err a =>
    cases out2 with
    | err b =>
      have h0 : Er L a b := h0
      dsimp only at s1 s2
      rw [s1, s2, (ro_p0 o1.p p1 _ _ _ _), (ro_p0' o2.p p2 _ _ _ _)]
      exact herr a b ⟨p1, t1, r1⟩ ⟨p2, t2, r2⟩ h0
    | _ => exact h0.elim
  | panic x =>
    cases out2 with
    | panic y =>
      obtain rfl : x = y := h0
      obtain ⟨w1, s1⟩ := s1
      obtain ⟨w2, s2⟩ := s2
      rw [s1, s2]
      exact rfl
    | _ => exact h0.elim
  | fuel =>
    cases out2 with
    | fuel =>
      obtain ⟨w1, s1⟩ := s1
      obtain ⟨w2, s2⟩ := s2
      rw [s1, s2]
      exact trivial
    | _ => exact h0.elim

theorem bind {m : Pars α} {m' : Pars β} {f : α → Pars γ} {f' : β → Pars δ} {R : α → β → Prop} {R' : γ → δ → Prop} (hm : Sy L F m m' R)
    (hf : ∀ a b, R a b → Sy L F (f a) (f' b) R') : Sy L F (m >>= f) (m' >>= f') R' :=
  seq (M.cont f) (M.cont f') (fun _ _ => rfl) (fun _ => rfl) (fun _ _ => rfl) (fun _ => rfl) hm (fun a b h => hf a b h) (fun e e' o1 o2 h => h)

theorem when {c c' : Bool} {m m' : Pars Unit} (hc : c = c') (hm : Sy L F m m' Eq) : Sy L F (M.when c m) (M.when c' m') Eq := by
  subst hc
  cases c
  · exact pure rfl
  · exact hm

theorem loop {σ τ : Type} {body : σ → Pars (σ ⊕ α)} {body' : τ → Pars (τ ⊕ β)} {R : α → β → Prop} (I : σ → τ → Prop)
    (hb : ∀ x y, I x y → Sy L F (body x) (body' y) (fun r r' => match r, r' with
        | .inl x, .inl y => I x y
        | .inr a, .inr b => R a b
        | _, _ => False)) : ∀ (n : Nat) (x : σ) (y : τ), I x y → Sy L F (M.loop n body x) (M.loop n body' y) R := by
  intro n
  induction n with
  | zero => intro x y _; exact outOfFuel
  | succ n ih =>
    intro x y hxy
    unfold M.loop
    refine bind (hb x y hxy) ?_
    intro a b hab
    cases a with
    | inl x' =>
      cases b with
      | inl y' => exact ih _ _ hab
      | inr b => exact hab.elim
    | inr a =>
      cases b with
      | inl y' => exact hab.elim
      | inr b => exact pure hab

theorem cleaningErr {m : Pars α} {m' : Pars β} {R : α → β → Prop} (hm : Sy L F m m' R) : Sy L F (Document.cleaningErr m) (Document.cleaningErr m') R := by
  have e : ∀ {α : Type} (m : Pars α), Document.cleaningErr m = fun p => (m p).bind fun
      | (.ok a, p) => .ret (.ok a, p)
      | (.err e, p) => .ret (.err e, { p with aliases := [] })
      | (.panic x, p) => .ret (.panic x, p)
      | (.fuel, p) => .ret (.fuel, p) := by
    intro α m
    funext p
    unfold Document.cleaningErr Document.deleteAliases
    show Free.bind (M.catchErr m p) _ = _
    unfold M.catchErr
    rw [Free.bind_assoc]
    congr 1
    funext q
    obtain ⟨out, p⟩ := q
    cases out <;> rfl
  rw [e, e]
  refine seq _ _ (fun _ _ => rfl) (fun _ => rfl) (fun _ _ => rfl) (fun _ => rfl) hm (fun a b h => pure h) ?_
  intro e e' o1 o2 h
  exact h

theorem parse : Sy L F (Parser.parse F) (Parser.parse F) (Ev' L) := by
  intro o1 o2 h
  have h' := h
  obtain ⟨hp, toks1, toks2, fin1, fin2, st, pk1, pk2, G1, D1, G2, D2, h1, h2, h3, h3', h4, hz, hfin⟩ := h
  by_cases hend : o1.p.state = .end_
  · have e1 := PInv.ended (F := F) (o := o1) hend
    have e2 := PInv.ended (F := F) (o := o2) (hp.state ▸ hend)
    unfold ParserObj.parse ParserObj.run runA Parser.onScanner at e1 e2
    dsimp only at e1 e2
    generalize execA (handle F o1.p (Parser.parse F o1.p) o1.s) o1.r = q1 at e1 ⊢
    generalize execA (handle F o2.p (Parser.parse F o2.p) o2.s) o2.r = q2 at e2 ⊢
    obtain ⟨⟨out1, p1, t1⟩, r1⟩ := q1
    obtain ⟨⟨out2, p2, t2⟩, r2⟩ := q2
    simp only [Prod.mk.injEq] at e1 e2
    obtain ⟨rfl, rfl⟩ := e1
    obtain ⟨rfl, rfl⟩ := e2
    exact ⟨Or.inr ⟨rfl, rfl⟩, h'⟩
  · have hend2 : o2.p.state ≠ .end_ := by rw [← hp.state]; exact hend
    have hb : (o1.p.state == .end_) = false := by simpa using hend
    have hb2 : (o2.p.state == .end_) = false := by simpa using hend2
    rw [hb] at h1
    rw [hb2] at h2
    have h4' : toks2.length < F := by rw [← hz.length]; exact h4
    have hw1 : (Parser.parse F o1.p).wp stepL (post NoP AnyE (Res G1 D1 o1.p toks1 fin1)) ⟨toks1, fin1, st, false, pk1, false⟩ := wp_parse h4 h3 hend
    have hw2 : (Parser.parse F o2.p).wp stepL (post NoP AnyE (Res G2 D2 o2.p toks2 fin2)) ⟨toks2, fin2, st, false, pk2, false⟩ := wp_parse h4' h3' hend2
    obtain ⟨s1, r1, k1, k2⟩ := exec_list F o1.p _ hw1 h1
    obtain ⟨s2, r2, m1, m2⟩ := exec_list F o2.p _ hw2 h2
    have h6 := execL_of_wp o1.p _ hw1
    have h7 := execL_of_wp o2.p _ hw2
    have hx := execL_pair (p2_parse (F := F) hp) o1.p o2.p (g := ⟨toks1, fin1, st, false, pk1, false⟩) (g' := ⟨toks2, fin2, st, false, pk2, false⟩) ⟨hz, hfin, rfl, rfl⟩
    rw [k1, m1]
    have hlen : ∀ G' toks' c ev p', PStep G1 D1 o1.p toks1 ev c G' p' toks' → toks'.length < F := by
      intro G' toks' c ev p' hs
      have := congrArg List.length hs.split
      simp at this
      omega
    generalize execL o1.p (Parser.parse F o1.p) ⟨toks1, fin1, st, false, pk1, false⟩ = q1 at k2 h6 hx ⊢
    generalize execL o2.p (Parser.parse F o2.p) ⟨toks2, fin2, st, false, pk2, false⟩ = q2 at m2 h7 hx ⊢
    obtain ⟨⟨out1, p1⟩, g1⟩ := q1
    obtain ⟨⟨out2, p2⟩, g2⟩ := q2
    obtain ⟨hx1, hx2⟩ := hx
    cases out1 with
    | ok a =>
      cases out2 with
      | ok b =>
        have h6 := h6.resolve_right (by rintro (⟨x, h, _⟩ | ⟨h, _⟩) <;> cases h)
        have h7 := h7.resolve_right (by rintro (⟨x, h, _⟩ | ⟨h, _⟩) <;> cases h)
        obtain ⟨c, G', toks', pk', rfl, hs⟩ := h6
        obtain ⟨c2, G2', toks2', pk2', rfl, hs2⟩ := h7
        exact ⟨hx1.1, hx1.2, toks', toks2', fin1, fin2, true, pk', pk2', G', _, G2', _, k2, m2, hs.good, hs2.good, hlen _ _ _ _ _ hs, hx2.toks, hfin⟩
      | _ => exact hx1.elim
    | err e =>
      cases out2 with
      | err e' => exact hx1
      | _ => exact hx1.elim
    | panic e =>
      cases out2 with
      | panic e' => exact hx1
      | _ => exact hx1.elim
    | fuel =>
      cases out2 with
      | fuel => exact hx1
      | _ => exact hx1.elim

end Sy

/-! ### Documents -/

/-- Related nodes. -/
structure Nd (L : Nat) (n n' : Node) : Prop where
  data : n.data = n'.data
  tag : n.tag = n'.tag
  start : Mz L n.startMark n'.startMark
  stop : Mz L n.endMark n'.endMark

/-- Related documents. -/
structure Dc (L : Nat) (d d' : Document) : Prop where
  nodes : Zip (Nd L) d.nodes d'.nodes
  version : d.versionDirective = d'.versionDirective
  tags : d.tagDirectives = d'.tagDirectives
  si : d.startImplicit = d'.startImplicit
  ei : d.endImplicit = d'.endImplicit
  start : Mz L d.startMark d'.startMark
  stop : Mz L d.endMark d'.endMark

theorem Zip.get {A B : Type} {R : A → B → Prop} {l : List A} {l' : List B} (h : Zip R l l') : ∀ i : Nat,
    (l[i]? = none ∧ l'[i]? = none) ∨ ∃ a b, l[i]? = some a ∧ l'[i]? = some b ∧ R a b := by
  induction h with
  | nil => intro i; exact Or.inl ⟨rfl, rfl⟩
  | cons h hs ih =>
    intro i
    cases i with
    | zero => exact Or.inr ⟨_, _, rfl, rfl, h⟩
    | succ i => simpa using ih i

theorem Zip.find {A B : Type} {R : A → B → Prop} {l : List A} {l' : List B} {p : A → Bool} {q : B → Bool} (h : Zip R l l') (hpq : ∀ a b, R a b → p a = q b) :
    (l.find? p = none ∧ l'.find? q = none) ∨ ∃ a b, l.find? p = some a ∧ l'.find? q = some b ∧ R a b := by
  induction h with
  | nil => exact Or.inl ⟨rfl, rfl⟩
  | cons h hs ih =>
    have := hpq _ _ h
    rw [List.find?_cons, List.find?_cons, this]
    split
    · exact Or.inr ⟨_, _, rfl, rfl, h⟩
    · exact ih

theorem Zip.modify {A B : Type} {R : A → B → Prop} {l : List A} {l' : List B} {f : A → A} {g : B → B} (h : Zip R l l') (hfg : ∀ a b, R a b → R (f a) (g b)) :
    ∀ i : Nat, Zip R (l.modify i f) (l'.modify i g) := by
  induction h with
  | nil => intro i; cases i <;> exact .nil
  | cons h hs ih =>
    intro i
    cases i with
    | zero => exact .cons (hfg _ _ h) hs
    | succ i => exact .cons h (ih i)

theorem Ev'.mz {L : Nat} {e e' : Event} (h : Ev' L e e') : e.data = e'.data ∧ Mz L e.startMark e'.startMark ∧ Mz L e.endMark e'.endMark := by
  rcases h with h | ⟨rfl, rfl⟩
  · exact ⟨h.data, Or.inl h.start, Or.inl h.stop⟩
  · exact ⟨rfl, mz_zero, mz_zero⟩

namespace Sy
variable {L F : Nat} {d d' : Document}

theorem registerAnchor (hd : Dc L d d') (i : Nat) (a : Option Str) : Sy L F (Document.registerAnchor d i a) (Document.registerAnchor d' i a) Eq := by
  unfold Document.registerAnchor Document.composerError
  cases a with
  | none => exact pure rfl
  | some a =>
    dsimp only
    rcases hd.nodes.get (i - 1) with ⟨h1, h2⟩ | ⟨n, n', h1, h2, hn⟩
    · rw [h1, h2]; exact panic _
    · rw [h1, h2]
      refine bind get fun p p' hp => ?_
      rcases hp.aliases.find (p := fun x => x.anchor == a) (q := fun x => x.anchor == a) (fun x y h => by rw [h.anchor]) with ⟨h3, h4⟩ | ⟨x, x', h3, h4, hx⟩
      · rw [h3, h4]
        refine aliases (fun p => p.aliases ++ [⟨a, i, n.startMark⟩]) (fun p => p.aliases ++ [⟨a, i, n'.startMark⟩]) ?_
        intro p p' hp
        exact hp.aliases.append (.one ⟨rfl, rfl, hn.start⟩)
      · rw [h3, h4]
        exact throw (.composer _ _ hx.mark hn.start)

theorem modifyData (hd : Dc L d d') (i : Nat) (x : NodeData) : Dc L (d.modifyData i fun _ => x) (d'.modifyData i fun _ => x) :=
  ⟨hd.nodes.modify (f := fun n => Node.mk x n.tag n.startMark n.endMark) (g := fun n => Node.mk x n.tag n.startMark n.endMark) (fun a b h => ⟨rfl, h.tag, h.start, h.stop⟩) _, hd.version, hd.tags, hd.si, hd.ei, hd.start, hd.stop⟩

theorem loadNodeAdd (hd : Dc L d d') (ctx : List Nat) (i : Nat) : Sy L F (Document.loadNodeAdd d ctx i) (Document.loadNodeAdd d' ctx i) (Dc L) := by
  unfold Document.loadNodeAdd
  cases ctx with
  | nil => exact pure hd
  | cons q _ =>
    dsimp only
    rcases hd.nodes.get (q - 1) with ⟨h1, h2⟩ | ⟨n, n', h1, h2, hn⟩
    · rw [h1, h2]; exact panic _
    · rw [h1, h2]
      dsimp only
      rw [hn.data]
      cases n'.data with
      | sequence => exact pure (modifyData hd _ _)
      | mapping => exact pure (modifyData hd _ _)
      | _ => exact panic _

theorem loadNode {n n' : Node} (hd : Dc L d d') (hn : Nd L n n') (ctx : List Nat) (a : Option Str) :
    Sy L F (Document.loadNode d ctx n a) (Document.loadNode d' ctx n' a) (fun x y => Dc L x.1 y.1 ∧ x.2 = y.2) := by
  unfold Document.loadNode
  have hd2 : Dc L { d with nodes := d.nodes ++ [n] } { d' with nodes := d'.nodes ++ [n'] } :=
    ⟨hd.nodes.append (.one hn), hd.version, hd.tags, hd.si, hd.ei, hd.start, hd.stop⟩
  have hl : (d.nodes ++ [n]).length = (d'.nodes ++ [n']).length := hd2.nodes.length
  dsimp only
  rw [hl]
  exact bind (registerAnchor hd2 _ _) fun _ _ _ => bind (loadNodeAdd hd2 _ _) fun _ _ h => pure ⟨h, rfl⟩

theorem loadEnd {m m' : Mark} (hd : Dc L d d') (hm : Mz L m m') (ctx : List Nat) (b : Bool) :
    Sy L F (Document.loadEnd d ctx b m) (Document.loadEnd d' ctx b m') (fun x y => Dc L x.1 y.1 ∧ x.2 = y.2) := by
  unfold Document.loadEnd
  cases ctx with
  | nil => exact panic _
  | cons q tail =>
    dsimp only
    rcases hd.nodes.get (q - 1) with ⟨h1, h2⟩ | ⟨n, n', h1, h2, hn⟩
    · rw [h1, h2]; exact panic _
    · rw [h1, h2]
      dsimp only
      rw [hn.data]
      have : ∀ c : Bool, Sy L F (if c = true then Pure.pure ({ d with nodes := d.nodes.modify (q - 1) fun n => { n with endMark := m } }, tail) else M.panic .loadBadEnd : Pars (Document × List Nat))
          (if c = true then Pure.pure ({ d' with nodes := d'.nodes.modify (q - 1) fun n => { n with endMark := m' } }, tail) else M.panic .loadBadEnd : Pars (Document × List Nat))
          (fun x y => Dc L x.1 y.1 ∧ x.2 = y.2) := by
        intro c
        cases c
        · exact panic _
        · exact pure ⟨⟨hd.nodes.modify (f := fun n => { n with endMark := m }) (g := fun n => { n with endMark := m' }) (fun a b h => ⟨h.data, h.tag, h.start, hm⟩) _, hd.version, hd.tags, hd.si, hd.ei, hd.start, hd.stop⟩, rfl⟩
      exact this _

/-- Related loop states. -/
def Ls (L : Nat) : (Document × List Nat) ⊕ Document → (Document × List Nat) ⊕ Document → Prop
  | .inl (d, c), .inl (d', c') => Dc L d d' ∧ c = c'
  | .inr d, .inr d' => Dc L d d'
  | _, _ => False

theorem loadStep {ev ev' : Event} (hd : Dc L d d') (he : Ev' L ev ev') (ctx : List Nat) :
    Sy L F (Document.loadStep d ctx ev) (Document.loadStep d' ctx ev') (Ls L) := by
  obtain ⟨h1, h2, h3⟩ := he.mz
  unfold Document.loadStep
  rw [h1]
  cases ev'.data with
  | streamStart => exact panic _
  | streamEnd => exact panic _
  | documentStart => exact panic _
  | documentEnd => exact pure ⟨hd.nodes, hd.version, hd.tags, hd.si, rfl, hd.start, h3⟩
  | alias a =>
    refine bind ?_ (fun _ _ h => pure ⟨h, rfl⟩)
    unfold Document.loadAlias Document.composerError
    refine bind get fun p p' hp => ?_
    rcases hp.aliases.find (p := fun x => x.anchor == a) (q := fun x => x.anchor == a) (fun x y h => by rw [h.anchor]) with ⟨h3, h4⟩ | ⟨x, x', h3, h4, hx⟩
    · rw [h3, h4]; exact throw (.composer _ _ mz_zero h2)
    · rw [h3, h4]
      dsimp only
      rw [hx.index]
      exact loadNodeAdd hd _ _
  | scalar =>
    refine bind (loadNode (n := ⟨_, _, ev.startMark, ev.endMark⟩) (n' := ⟨_, _, ev'.startMark, ev'.endMark⟩) hd ⟨rfl, rfl, h2, h3⟩ _ _) ?_
    rintro ⟨x, i⟩ ⟨y, j⟩ ⟨h, rfl⟩
    exact pure ⟨h, rfl⟩
  | sequenceStart =>
    refine bind (loadNode (n := ⟨_, _, ev.startMark, ev.endMark⟩) (n' := ⟨_, _, ev'.startMark, ev'.endMark⟩) hd ⟨rfl, rfl, h2, h3⟩ _ _) ?_
    rintro ⟨x, i⟩ ⟨y, j⟩ ⟨h, hi⟩
    have hi : i = j := hi
    subst hi
    exact pure ⟨h, rfl⟩
  | sequenceEnd => exact bind (loadEnd hd h3 _ _) fun _ _ h => pure h
  | mappingStart =>
    refine bind (loadNode (n := ⟨_, _, ev.startMark, ev.endMark⟩) (n' := ⟨_, _, ev'.startMark, ev'.endMark⟩) hd ⟨rfl, rfl, h2, h3⟩ _ _) ?_
    rintro ⟨x, i⟩ ⟨y, j⟩ ⟨h, hi⟩
    have hi : i = j := hi
    subst hi
    exact pure ⟨h, rfl⟩
  | mappingEnd => exact bind (loadEnd hd h3 _ _) fun _ _ h => pure h

theorem loadDocument {ev ev' : Event} (hd : Dc L d d') (he : Ev' L ev ev') : Sy L F (Document.loadDocument F d ev) (Document.loadDocument F d' ev') (Dc L) := by
  obtain ⟨h1, h2, h3⟩ := he.mz
  unfold Document.loadDocument
  rw [h1]
  cases ev'.data with
  | documentStart v t i =>
    unfold Document.loadNodes
    refine loop (fun x y => Dc L x.1 y.1 ∧ x.2 = y.2) ?_ _ _ _ ⟨⟨hd.nodes, rfl, rfl, rfl, hd.ei, h2, hd.stop⟩, rfl⟩
    rintro ⟨d, c⟩ ⟨d', c'⟩ ⟨hd, hc⟩
    have hc : c = c' := hc
    subst hc
    refine bind parse fun e e' he => ?_
    have := loadStep (F := F) hd he c
    intro o1 o2 ho
    have h := this o1 o2 ho
    revert h
    generalize execA (handle F o1.p (Document.loadStep d c e o1.p) o1.s) o1.r = q1
    generalize execA (handle F o2.p (Document.loadStep d' c e' o2.p) o2.s) o2.r = q2
    obtain ⟨⟨out1, p1, t1⟩, r1⟩ := q1
    obtain ⟨⟨out2, p2, t2⟩, r2⟩ := q2
    intro h
    cases out1 with
    | ok a =>
      cases out2 with
      | ok b =>
        refine ⟨?_, h.2⟩
        cases a with
        | inl a =>
          cases b with
          | inl b => exact h.1
          | inr b => exact h.1.elim
        | inr a =>
          cases b with
          | inl b => exact h.1.elim
          | inr b => exact h.1
      | _ => exact h.elim
    | _ => cases out2 <;> exact h
  | _ => exact panic _

theorem load : Sy L F (Document.load F) (Document.load F) (Dc L) := by
  have hnew : Dc L (Document.new none [] false false) (Document.new none [] false false) := ⟨.nil, rfl, rfl, rfl, rfl, mz_zero, mz_zero⟩
  unfold Document.load
  refine bind started fun st st' hst => ?_
  subst hst
  refine bind (when rfl (bind (cleaningErr parse) fun ev ev' he => ?_)) fun _ _ _ => bind ended fun en en' hen => ?_
  · rw [he.mz.1]
    cases ev'.data with
    | streamStart => exact pure rfl
    | _ => exact panic _
  · subst hen
    cases en with
    | true => exact pure hnew
    | false =>
      rw [if_neg (by simp)]
      refine bind (cleaningErr parse) fun ev ev' he => ?_
      have : Sy L F (do
        let d ← Document.cleaningErr (Document.loadDocument F (Document.new none [] false false) ev)
        Document.deleteAliases
        Pure.pure d : Pars Document) (do
        let d ← Document.cleaningErr (Document.loadDocument F (Document.new none [] false false) ev')
        Document.deleteAliases
        Pure.pure d : Pars Document) (Dc L) := bind (cleaningErr (loadDocument hnew he)) fun d d' hd =>
          bind (aliases (fun _ => []) (fun _ => []) (fun _ _ _ => .nil)) fun _ _ _ => pure hd
      rw [he.mz.1]
      cases ev'.data with
      | streamEnd => exact pure hnew
      | _ => exact this

end Sy

/-! ### Histories -/

/-- Related results. -/
def Rt (L : Nat) {α β : Type} (R : α → β → Prop) : Out α → Out β → Prop
  | .ok a, .ok b => R a b
  | .err e, .err e' => Er L e e'
  | .panic x, .panic y => x = y
  | .fuel, .fuel => True
  | _, _ => False

theorem Sy.run {L F : Nat} {α β : Type} {m : Pars α} {m' : Pars β} {R : α → β → Prop} (h : Sy L F m m' R) {o1 o2 : ParserObj} (ho : Bo L F o1 o2) :
    Rt L R (o1.run F m).1 (o2.run F m').1 ∧ ((∃ a, (o1.run F m).1 = .ok a) → Bo L F (o1.run F m).2 (o2.run F m').2) := by
  have := h o1 o2 ho
  unfold ParserObj.run runA Parser.onScanner
  dsimp only
  generalize execA (handle F o1.p (m o1.p) o1.s) o1.r = q1 at this ⊢
  generalize execA (handle F o2.p (m' o2.p) o2.s) o2.r = q2 at this ⊢
  obtain ⟨⟨out1, p1, t1⟩, r1⟩ := q1
  obtain ⟨⟨out2, p2, t2⟩, r2⟩ := q2
  cases out1 <;> cases out2 <;> first
    | exact this.elim
    | exact ⟨this.1, fun _ => this.2⟩
    | exact ⟨this, fun h => absurd h (by simp)⟩

theorem Bo.parses {L F : Nat} {o1 o2 o1' : ParserObj} {evs : List Event} (h : Bo L F o1 o2) (hp : ParserObj.Parses F o1 evs o1') :
    ∃ evs' o2', ParserObj.Parses F o2 evs' o2' ∧ Zip (Ev' L) evs evs' ∧ Bo L F o1' o2' := by
  induction hp with
  | nil => exact ⟨[], o2, .nil, .nil, h⟩
  | @snoc evs e oa ob hp hs ih =>
    obtain ⟨evs', o2', i1, i2, i3⟩ := ih
    obtain ⟨g1, g2⟩ := (Sy.parse (L := L) (F := F)).run i3
    have hs' : oa.run F (Parser.parse F) = (.ok e, ob) := hs
    rw [hs'] at g1 g2
    have g2 := g2 ⟨_, rfl⟩
    generalize hq : o2'.run F (Parser.parse F) = q at g1 g2
    obtain ⟨x, o3⟩ := q
    cases x with
    | ok e' => exact ⟨_, _, i1.snoc hq, i2.append (.one g1), g2⟩
    | _ => exact g1.elim

theorem Bo.loads {L F : Nat} {o1 o2 o1' : ParserObj} {ds : List Document} (h : Bo L F o1 o2) (hp : ParserObj.Loads F o1 ds o1') :
    ∃ ds' o2', ParserObj.Loads F o2 ds' o2' ∧ Zip (Dc L) ds ds' ∧ Bo L F o1' o2' := by
  induction hp with
  | nil => exact ⟨[], o2, .nil, .nil, h⟩
  | @snoc ds d oa ob hp hs ih =>
    obtain ⟨ds', o2', i1, i2, i3⟩ := ih
    obtain ⟨g1, g2⟩ := (Sy.load (L := L) (F := F)).run i3
    have hs' : oa.run F (Document.load F) = (.ok d, ob) := hs
    rw [hs'] at g1 g2
    have g2 := g2 ⟨_, rfl⟩
    generalize hq : o2'.run F (Document.load F) = q at g1 g2
    obtain ⟨x, o3⟩ := q
    cases x with
    | ok e' => exact ⟨_, _, i1.snoc hq, i2.append (.one g1), g2⟩
    | _ => exact g1.elim

/-- Fresh parsers over related tokens. -/
theorem Bo.start {F : Nat} {items1 items2 : List SrcItem} {enc1 enc2 : Encoding} {ts1 ts2 : List Token} {fin1 fin2 : Out Token}
    (h1 : Scans F (ScannerObj.new items1 enc1) ts1 fin1) (h2 : Scans F (ScannerObj.new items2 enc2) ts2 fin2) (hl : ts1.length < F)
    (hz : Zip (Tk L) ts1 ts2) (hfin : Rs L fin1 fin2) : Bo L F (ParserObj.new items1 enc1) (ParserObj.new items2 enc2) :=
  ⟨⟨rfl, rfl, .nil, rfl, .nil⟩, ts1, ts2, fin1, fin2, false, false, false, .start, [], .start, [], (PInv.start h1).rel, (PInv.start h2).rel,
    (PInv.start h1).good, (PInv.start h2).good, hl, hz, hfin⟩

end Tw
end Yaml
