import Verif.Lib.Round10

/-
Reading back: aliases and scalars.
-/

namespace Yaml.Rt
open Yaml Emitter Lx Spec
set_option linter.unusedSimpArgs false
set_option linter.unusedVariables false

theorem ana_unique {P : Par} {e : Event} {a a' : Analysis} (h : Ana P e a) (h' : Ana P e a') : a = a' := by
  have := (h { Props.emitter0 with canonical := P.canon, unicode := P.uni } rfl rfl).det (h' { Props.emitter0 with canonical := P.canon, unicode := P.uni } rfl rfl)
  exact this.1

/-- The state in which a node is written. -/
def ctx (s : EState) (q : List Event) (root sq mp key : Bool) : EState :=
  { s with events := q, rootContext := root, sequenceContext := sq, mappingContext := mp, simpleKeyContext := key }

theorem run_one {P : Par} {s s' : EState} {e : Event} {q : List Event} {a : Analysis} {w : Str} {root sq mp key : Bool} (ha : Ana P e a)
    (h : Writes (match e.data with
      | .alias _ => emitAlias a
      | .scalar _ _ _ p q style => emitScalar p q style a
      | .sequenceStart _ _ _ style => emitSequenceStart e style a
      | .mappingStart _ _ _ style => emitMappingStart e style a
      | _ => emitterError "expected SCALAR, SEQUENCE-START, MAPPING-START, or ALIAS") (ctx s q root sq mp key) () s' w) {es : Evs} {s2 : EState} {w2 : Str}
    (ht : Kept P s') (hp : Puts P s' es s2 w2) : Run P (fun e a => emitNode e root sq mp key a) s ((e, q) :: es) s2 (w ++ w2) := by
  refine ⟨e, q, es, a, s', w, w2, rfl, ha, ?_, ht, hp, rfl⟩
  exact Writes.bind_modify h

/-- Reading the properties of a node. -/
theorem props_read {F fl : Nat} {n : Int} {s : EState} {ps : List TokenData} {wp : Str} {L : Nat} (hp : PropText s ps wp L)
    (ha : ∀ rest, EndsTag rest → Atoms F fl n ps wp rest) {T : Str} (hT : ps ≠ [] → EndsTag T) {A : Cfg} (hA : Cool A) (hf : A.flow = fl) (hn : A.indent = n)
    (hc : A.flow = 0 → A.indent < A.mark.column) :
    ∃ B, Reach F A (wp ++ T) B T ∧ Moved A B ps ∧ (ps ≠ [] → B.allowed = false) ∧ (ps = [] → B = A) ∧ B.mark = Spec.advance A.mark wp ∧ Keep A B ∧
      (B.flow = 0 → B.indent < B.mark.column) := by
  have hflat : ∀ c ∈ wp, isBreak c = false := by
    rcases hp with ⟨_, h⟩ | ⟨w0, h, _, _, h', _⟩
    · rw [h]; simp
    · rw [h]
      intro c hc
      rcases List.mem_append.1 hc with hc | hc
      · exact sep_noBreak s c hc
      · exact h' c hc
  have hat : Atoms F fl n ps wp T := by
    rcases hp with ⟨h1, h2⟩ | ⟨_, _, _, _, _, _, h⟩
    · rw [h1, h2]; exact .nil T
    · exact ha T (hT h)
  obtain ⟨B, b1, b2, b3, b4, b5, b6⟩ := hat.cool hflat hA hf hn hc
  refine ⟨B, b1, b2, b3, b4, b5, b6, ?_⟩
  intro h
  rw [b2.flow] at h
  have := hc h
  rw [b2.indent, b5, (advance_flat A.mark wp hflat).2.1]
  omega

theorem gap_col {F : Nat} {A : Cfg} {s : EState} {ps : List TokenData} (hc : A.flow = 0 → A.indent < A.mark.column) :
    A.flow = 0 → A.indent < (Spec.advance A.mark (gapAfter s ps)).column := by
  intro h
  have := hc h
  rw [(advance_flat A.mark _ (spaces_flat (gapAfter_spaces s ps))).2.1]
  omega

theorem prop_endsTag {s : EState} {ps : List TokenData} {wp : Str} {L : Nat} (hp : PropText s ps wp L) (hne : ps ≠ []) (hw : s.whitespace = false) (r : Str) :
    EndsTag (wp ++ r) := by
  rcases hp with ⟨h, _⟩ | ⟨w0, h, _⟩
  · exact absurd h hne
  · rw [h, List.append_assoc]; exact endsTag_sep hw _

theorem gap_endsTag {s : EState} {ps : List TokenData} (h : ps ≠ [] ∨ s.whitespace = false) (r : Str) : EndsTag (gapAfter s ps ++ r) := by
  unfold gapAfter
  split
  · rename_i h'
    rcases h with h | h
    · simp at h'; exact absurd h' h
    · exact endsTag_sep h r
  · exact endsTag_space r

theorem prop_nil {s : EState} {ps : List TokenData} {wp : Str} {L : Nat} (hp : PropText s ps wp L) (h : ps = []) : wp = [] := by
  rcases hp with ⟨_, h'⟩ | ⟨_, _, _, _, _, _, h'⟩
  · exact h'
  · exact absurd h h'

theorem noSplit_of {g t : Str} (h : t.head? ≠ some '\n') : NoSplit g t := fun h' => h h'.2

theorem prop_noSplit {s : EState} {ps : List TokenData} {wp : Str} {L : Nat} (hp : PropText s ps wp L) (hw : s.whitespace = true) (g r : Str) (h : ps = [] → NoSplit g r) :
    NoSplit g (wp ++ r) := by
  rcases hp with ⟨h1, h2⟩ | ⟨w0, h1, h2, _, h3, _⟩
  · rw [h2]; exact h h1
  · rw [h1, sep_eq hw, List.nil_append]
    cases w0 with
    | nil => exact absurd rfl h2
    | cons c w0 =>
      refine noSplit_of ?_
      intro h
      simp at h
      have := h3 c (by simp)
      rw [h] at this
      exact absurd this (by decide)

theorem gap_nil {s : EState} {ps : List TokenData} (hw : s.whitespace = true) (h : ps = []) : gapAfter s ps = [] := by
  unfold gapAfter; rw [h]; exact sep_eq hw

theorem Fol.noSplit {n : Int} {lb : Break} {rest : Str} (h : Fol n lb false rest) (hl : lb ≠ .any) : NoSplit (breakChars lb) rest := by
  obtain ⟨j, t, rfl, _⟩ := h
  cases lb with
  | any => exact absurd rfl hl
  | cr => exact noSplit_of (by simp [breakChars])
  | ln => rintro ⟨h, _⟩; simp [breakChars] at h
  | crln => rintro ⟨h, _⟩; simp [breakChars] at h

theorem noSplit_starts {g t : Str} (h : Starts t) : NoSplit g t := by
  refine noSplit_of ?_
  intro h'
  cases t with
  | nil => cases h'
  | cons c r =>
    simp at h'
    have := (h.solid c r rfl).2
    rw [h'] at this
    exact absurd this (by decide)

/-! ### Scalars -/

section
variable {P : Par} {F : Nat} (hD : DirsOk P.tags)
include hD

theorem scalar_B {e : Event} {q : List Event} {an tg : Option Str} {v : Str} {p qi : Bool} {sty : ScalarStyle} (he : e.data = .scalar an tg v p qi sty)
    (hg : NodeGood P e.data) : ClaimB P F [(e, q)] := by
  intro s root sq mp st sts hE hfl hR hst
  obtain ⟨a, ha, hs⟩ := analysed hD hg (Or.inr (Or.inl ⟨an, tg, v, p, qi, sty, he⟩))
  rw [he] at hs
  obtain ⟨s', ps, wp, wc, tag, style, h1, h2, h3, h4, h5, h6, h7, h8, h9, h10, h11⟩ :=
    writes_emitScalar F 0 s.indent (P := P) (s := ctx s q root sq mp false) (hE.core rfl) (by simp [ctx, hfl]) (fun _ => Int.le_refl _) (fun _ _ => rfl) hs hst
  have hrun : Run P (fun e a => emitNode e root sq mp false a) s [(e, q)] s' ((wp ++ wc) ++ []) := run_one ha (by rw [he]; exact h1) (hE.kept h2) (.nil s')
  rw [List.append_nil] at hrun
  have hsame : SameEvents P.canon (datas [(e, q)]) [readScalar an tag v style wc] := sameEvents_one (by show SameEvent P.canon e.data _; rw [he]; exact h10)
  refine ⟨s', wp ++ wc, hrun, h2, h3, h4, ?_, ?_⟩
  · cases h9 with
    | flow _ _ hi => intro h; rw [hi] at h; cases h
    | empty _ _ _ _ hi => intro h; rw [hi] at h; cases h
    | block _ _ _ hw hi hc => intro h; rw [hi] at h; exact ⟨hc h, hw⟩
  have hsep : gapAfter (ctx s q root sq mp false) ps = gapAfter s ps := rfl
  refine ⟨?_, ?_⟩
  · intro rest hrest _ hws
    rw [List.append_assoc]
    refine prop_noSplit h7 hws _ _ fun hps => ?_
    cases h9 with
    | @flow w _ hsty hw hi hne hd hk hr =>
      rw [hi] at hrest
      obtain ⟨rest', hpe⟩ := hrest.plainEnd hE.brk
      obtain ⟨b, hb, hatom⟩ := hr rest true rest' hpe (hrest.endsTag hE.brk).2
      rw [hsep, gap_nil hws hps]
      exact noSplit_starts hatom.starts
    | empty _ _ _ _ hi => rw [hi] at hrest; exact hrest.noSplit hE.brk
    | @block w lit hf0 hk hw hi hc hd hr =>
      rw [hsep, gap_nil hws hps]
      refine noSplit_of ?_
      cases w with
      | nil => cases hd
      | cons c w => simp at hd; rw [hd]; cases lit <;> simp
  intro rest hrest
  refine ⟨?_, ?_⟩
  · intro hw
    by_cases hps : ps = []
    · have := prop_nil h7 hps
      subst this
      cases h9 with
      | flow => rw [List.nil_append, List.append_assoc]; exact gap_endsTag (Or.inr hw) _
      | empty _ _ _ _ hi => rw [hi] at hrest; exact (hrest.endsTag hE.brk).1
      | block => rw [List.nil_append, List.append_assoc]; exact gap_endsTag (Or.inr hw) _
    · rw [List.append_assoc]; exact prop_endsTag h7 hps hw _
  · intro A hA
    have hT : ps ≠ [] → EndsTag (wc ++ rest) := by
      intro hps
      cases h9 with
      | flow => rw [List.append_assoc]; exact gap_endsTag (Or.inl hps) _
      | empty _ _ _ _ hi => rw [hi] at hrest; exact (hrest.endsTag hE.brk).1
      | block => rw [List.append_assoc]; exact gap_endsTag (Or.inl hps) _
    obtain ⟨B, b1, b2, b3, b4, b5, b6, b7⟩ := props_read h7 h8 hT hA.cool hA.flow hA.ind (fun _ => hA.after)
    have hBf : B.flow = 0 := by rw [b2.flow, hA.flow]
    have hBi : B.indent = s.indent := by rw [b2.indent, hA.ind]
    rw [List.append_assoc]
    cases h9 with
    | @flow w _ hsty hw hi hne hd hk hr =>
      rw [hi] at hrest
      obtain ⟨rest', hpe⟩ := hrest.plainEnd hE.brk
      obtain ⟨b, hb, hatom⟩ := hr rest true rest' hpe (hrest.endsTag hE.brk).2
      obtain ⟨C, c1, c2, c3, c4, c5⟩ := hatom.cool b2.cool hBf hBi (spaces_blanks (gapAfter_spaces s ps)) (gap_col (F := F) b7)
      have hev : readScalar an tag v style (gapAfter s ps ++ w) = scalarEvent an tag v style := by
        unfold readScalar; rw [if_neg (by simp [hne])]
      refine ⟨C, ps ++ [.scalar v style], _, b1.trans ?_, b2.trans c2, ⟨?_, fun h => by rw [hi] at h; cases h⟩, ?_, hsame⟩
      · rw [List.append_assoc]; exact c1
      · have : ((C.mark.column : Nat) : Int) = s'.column := by
          rw [c4, b5, colAfter_advance, colAfter_advance, colAfter_advance, h5, hA.sync, colAfter_append, colAfter_append]; rfl
        exact this
      · rw [hsep, hev]; exact Or.inl (.scalar h6 v style)
    | empty hf0 hk hv hw hi =>
      refine ⟨B, ps, _, b1, b2, ⟨?_, fun h => by rw [hi] at h; cases h⟩, ?_, hsame⟩
      · have : ((B.mark.column : Nat) : Int) = s'.column := by
          rw [b5, colAfter_advance, h5, hA.sync, List.append_nil]; rfl
        exact this
      · have hev : readScalar an tag v .plain [] = .scalar an tag [] (untagged tag) false .plain := rfl
        rw [hev]
        by_cases hps : ps = []
        · right
          subst hps
          cases h6
          have hp : p = true := by
            have h12 := h10
            rw [hev] at h12
            unfold SameEvent at h12
            obtain ⟨_, _, h12⟩ := h12
            generalize writtenTag P.canon (.scalar none tg v p qi sty) = x at h12
            cases x with
            | some t => cases h12.1
            | none =>
              rcases h12 with h | h | h
              · exact h.2.1
              · exact absurd rfl h.1
              · exact absurd rfl h.1
          exact ⟨rfl, rfl, e, q, tg, qi, sty, rfl, by rw [he, hv, hp], h11 rfl⟩
        · exact Or.inl (.bare h6 hps)
    | @block w lit hf0 hk hw hi hc hd hr =>
      rw [hi] at hrest
      obtain ⟨g', rest', rfl, r2, r3, r4⟩ := hr rest hrest
      have hne : w ≠ [] := by rintro rfl; cases hd
      have hto := b2.cool.to (gapAfter s ps)
      obtain ⟨c, w', rfl, hcc⟩ : ∃ c w', w = c :: w' ∧ (c = '|' ∨ c = '>') := by
        cases w with
        | nil => exact absurd rfl hne
        | cons c w' => simp at hd; exact ⟨c, w', rfl, by subst hd; cases lit <;> simp⟩
      have hst' : Starts (c :: w' ++ (g' ++ rest')) := by
        rcases hcc with rfl | rfl <;> exact starts_cons (by decide) (by decide) (by decide) (by decide) (by decide)
      have hnb : ∀ m, ¬ Bound m (c :: w' ++ (g' ++ rest')) := by
        intro m
        rcases hcc with rfl | rfl <;> exact notBound (by decide) (by decide) (by decide)
      have hlex : Lex F (B.to (gapAfter s ps)) (c :: w' ++ (g' ++ rest'))
          ((((B.to (gapAfter s ps)).clear.allow true).eat (c :: w')).push (.scalar v (if lit then .literal else .folded))) (g' ++ rest') :=
        lex_block (by show BlockScalar (!lit) B.indent _ _ _; rw [hBi]; exact r3) r2 r4 hBf hto.hot hne
      have hreach := Reach.one (spaces_blanks (gapAfter_spaces s ps)) hst' (by simp) (hnb _) (b2.cool.cold _) (fun h => Int.le_of_lt (gap_col (F := F) b7 h)) hlex
      have hmv : Moved B ((((B.to (gapAfter s ps)).clear.allow true).eat (c :: w')).push (.scalar v (if lit then .literal else .folded)))
          [.scalar v (if lit then .literal else .folded)] := by
        refine ⟨rfl, rfl, rfl, rfl, hto.clear.1.same rfl rfl (advance_line _ _), ?_⟩
        show KeySub (B.to (gapAfter s ps)).clear.keys.tail _
        rw [clear_tail]; exact (to_sub _ _).tail
      have hev : readScalar an tag v (if lit then .literal else .folded) (gapAfter s ps ++ c :: w') = scalarEvent an tag v (if lit then .literal else .folded) := by
        unfold readScalar; rw [if_neg (by simp)]
      refine ⟨(((B.to (gapAfter s ps)).clear.allow true).eat (c :: w')).push (.scalar v (if lit then .literal else .folded)),
        ps ++ [.scalar v (if lit then .literal else .folded)], _, b1.trans ?_, b2.trans hmv, ⟨?_, fun h => ⟨rfl, hto.clear.2⟩⟩, ?_, hsame⟩
      · rw [List.append_assoc]; exact hreach
      · have : (((Spec.advance (Spec.advance B.mark (gapAfter s ps)) (c :: w')).column : Nat) : Int) = s'.column := by
          rw [b5, colAfter_advance, colAfter_advance, colAfter_advance, h5, hA.sync, colAfter_append, colAfter_append]; rfl
        exact this
      · rw [hsep, hev]; exact Or.inl (.scalar h6 v _)

end

/-! ### Flow context -/

/-- Blanks and line breaks are a gap. -/
theorem gap_of_blanks {g t : Str} (hg : Blanks g) (ht : Solid t) : ∃ bs, Gap (g ++ t) bs t := by
  generalize hn : g.length = n
  induction n using Nat.strongRecOn generalizing g with
  | ind n ih =>
    cases g with
    | nil => exact ⟨[], .stop t ht⟩
    | cons c g =>
      have hg' : Blanks g := fun x hx => hg x (by simp [hx])
      have hlen : g.length < n := by simp at hn; omega
      rcases hg c List.mem_cons_self with h | h
      · obtain ⟨bs, hb⟩ := ih _ hlen hg' rfl
        subst h
        exact ⟨bs, .space hb⟩
      · by_cases hcr : c = '\r' ∧ (g ++ t).head? = some '\n'
        · obtain ⟨rfl, h2⟩ := hcr
          cases g with
          | nil =>
            cases t with
            | nil => simp at h2
            | cons d r =>
              simp at h2
              subst h2
              have := (ht '\n' r rfl).2
              exact absurd this (by decide)
          | cons d g =>
            simp at h2
            subst h2
            obtain ⟨bs, hb⟩ := ih g.length (by simp at hlen; omega) (fun x hx => hg' x (by simp [hx])) rfl
            exact ⟨_, .brk (.crlf _) hb⟩
        · obtain ⟨bs, hb⟩ := ih _ hlen hg' rfl
          exact ⟨_, .brk (.one c _ (by rw [isLineBreak_eq]; exact h) hcr) hb⟩

theorem FolF.plainEnd {rest : Str} (h : FolF rest) (n : Int) : ∃ brk rest', PlainEnd true n rest brk rest' := by
  rcases h with ⟨c, r, rfl, hc⟩ | ⟨g, r, rfl, hg, hne, hr⟩
  · refine ⟨false, c :: r, .here (Or.inr (Or.inr ⟨rfl, c, r, rfl, ?_⟩))⟩
    rcases hc with rfl | rfl | rfl <;> simp [isFlowIndicator]
  · have hs : Solid (':' :: r) := by
      intro c r' h; simp at h; rw [← h.1]; exact ⟨by rintro (h | h) <;> revert h <;> decide, by decide⟩
    obtain ⟨bs, hbs⟩ := gap_of_blanks (g := g) (t := ':' :: r) hg hs
    exact ⟨_, _, .gap (b := []) (by simp) hbs (by simpa using hne) (Or.inl (Or.inr (Or.inl ⟨r, rfl, hr⟩)))⟩

theorem FolF.endsName {rest : Str} (h : FolF rest) : EndsName rest ∧ rest.head? ≠ some '\'' := by
  rcases h with ⟨c, r, rfl, hc⟩ | ⟨g, r, rfl, hg, hne, hr⟩
  · refine ⟨?_, ?_⟩
    · intro c' r' h
      simp at h
      right; right; rw [← h.1]
      rcases hc with rfl | rfl | rfl <;> decide
    · rcases hc with rfl | rfl | rfl <;> simp
  · cases g with
    | nil => exact absurd rfl hne
    | cons c g =>
      refine ⟨?_, ?_⟩
      · intro c' r' h
        simp at h
        rcases hg c List.mem_cons_self with h' | h'
        · exact Or.inl (Or.inl (h.1.symm.trans h'))
        · right; left; rw [isLineBreak_eq, ← h.1]; exact h'
      · intro h
        simp at h
        subst h
        rcases hg '\'' List.mem_cons_self with h' | h' <;> revert h' <;> decide

theorem intCast_zero {x : Int} {fl : Nat} (h : x = fl) : x = 0 ↔ fl = 0 := by omega

section
variable {P : Par} {F : Nat} (hD : DirsOk P.tags)
include hD

theorem scalar_F {e : Event} {q : List Event} {an tg : Option Str} {v : Str} {p qi : Bool} {sty : ScalarStyle} (he : e.data = .scalar an tg v p qi sty)
    (hg : NodeGood P e.data) : ClaimF P F [(e, q)] := by
  intro s fl n sq mp st sts hE hfl hf0 hst
  obtain ⟨a, ha, hs⟩ := analysed hD hg (Or.inr (Or.inl ⟨an, tg, v, p, qi, sty, he⟩))
  rw [he] at hs
  obtain ⟨s', ps, wp, wc, tag, style, h1, h2, h3, h4, h5, h6, h7, h8, h9, h10, h11⟩ :=
    writes_emitScalar F fl n (P := P) (s := ctx s q false sq mp false) (hE.core rfl) (intCast_zero hfl) (fun h => absurd h hf0) (fun h => absurd h hf0) hs hst
  have hrun : Run P (fun e a => emitNode e false sq mp false a) s [(e, q)] s' ((wp ++ wc) ++ []) := run_one ha (by rw [he]; exact h1) (hE.kept h2) (.nil s')
  rw [List.append_nil] at hrun
  have hsame : SameEvents P.canon (datas [(e, q)]) [readScalar an tag v style wc] := sameEvents_one (by show SameEvent P.canon e.data _; rw [he]; exact h10)
  have hsep : gapAfter (ctx s q false sq mp false) ps = gapAfter s ps := rfl
  cases h9 with
  | empty hf => exact absurd hf hf0
  | block _ hf => exact absurd hf hf0
  | @flow w _ hsty hw hi hne hd hk hr =>
    refine ⟨s', _, hrun, h2, h3, h4, hw, hi, ?_⟩
    intro rest hrest
    refine ⟨?_, ?_⟩
    · intro hw
      by_cases hps : ps = []
      · have := prop_nil h7 hps
        subst this
        rw [List.nil_append, List.append_assoc]; exact gap_endsTag (Or.inr hw) _
      · rw [List.append_assoc]; exact prop_endsTag h7 hps hw _
    · intro A hA hAf hAi hsy
      have hT : ps ≠ [] → EndsTag ((gapAfter s ps ++ w) ++ rest) := by
        intro hps
        rw [List.append_assoc]; exact gap_endsTag (Or.inl hps) _
      obtain ⟨B, b1, b2, b3, b4, b5, b6, b7⟩ := props_read h7 h8 hT hA hAf hAi (fun h => by omega)
      rw [List.append_assoc]
      obtain ⟨brk, rest', hpe⟩ := hrest.plainEnd (n + 1)
      obtain ⟨b, hb, hatom⟩ := hr rest brk rest' (by rw [show (fl != 0) = true by simpa using hf0]; exact hpe) hrest.endsName.2
      obtain ⟨C, c1, c2, c3, c4, c5⟩ := hatom.cool b2.cool (b2.flow.trans hAf) (b2.indent.trans hAi) (spaces_blanks (gapAfter_spaces s ps)) (gap_col (F := F) b7)
      have hev : readScalar an tag v style (gapAfter s ps ++ w) = scalarEvent an tag v style := by
        unfold readScalar; rw [if_neg (by simp [hne])]
      refine ⟨C, ps ++ [.scalar v style], _, b1.trans ?_, b2.trans c2, ?_, ?_, ?_, hsame⟩
      · rw [List.append_assoc]; exact c1
      · refine b6.trans (c5 (Or.inr (hasBrk_false (spaces_flat (gapAfter_spaces s ps))))) ?_
        intro h
        by_cases hps : ps = []
        · rw [b4 hps]; exact h
        · exact b3 hps
      · have : ((C.mark.column : Nat) : Int) = s'.column := by
          rw [c4, b5, colAfter_advance, colAfter_advance, colAfter_advance, h5, hsy, colAfter_append, colAfter_append]; rfl
        exact this
      · rw [hsep, hev]; exact .scalar h6 v style

end

/-! ### Simple keys -/

section
variable {P : Par} {F : Nat} (hD : DirsOk P.tags)
include hD

theorem scalar_S {e : Event} {q : List Event} {an tg : Option Str} {v : Str} {p qi : Bool} {sty : ScalarStyle} (he : e.data = .scalar an tg v p qi sty)
    (hg : NodeGood P e.data) : ClaimS P F [(e, q)] := by
  intro s fl n st sts e0 q0 es0 a heq ha hchk hE hfl hn hst
  simp only [List.cons.injEq, Prod.mk.injEq] at heq
  obtain ⟨⟨rfl, rfl⟩, rfl⟩ := heq
  obtain ⟨a', ha', hs⟩ := analysed hD hg (Or.inr (Or.inl ⟨an, tg, v, p, qi, sty, he⟩))
  obtain rfl := ana_unique ha ha'
  rw [he] at hs
  have hs0 := hs
  obtain ⟨_, hsc, _, _⟩ := hs0
  have hlen : (analyzeScalar P.uni v).multiline = false ∧ propsLen a.anchor a.tag + strLen v ≤ 128 := by
    unfold checkSimpleKey at hchk
    rw [he, hsc] at hchk
    simp only [Option.some.injEq, Bool.and_eq_true, decide_eq_true_eq, Bool.not_eq_true', analyzeScalar_value] at hchk
    exact hchk
  have hflatv := multiline_of hlen.1
  obtain ⟨s', ps, wp, wc, tag, style, h1, h2, h3, h4, h5, h6, h7, h8, h9, h10, h11⟩ :=
    writes_emitScalar F fl n (P := P) (s := ctx s q false false true true) (hE.core rfl) (intCast_zero hfl) hn (fun _ h => by cases h) hs hst
  have hrun : Run P (fun e a => emitNode e false false true true a) s [(e, q)] s' ((wp ++ wc) ++ []) := run_one ha (by rw [he]; exact h1) (hE.kept h2) (.nil s')
  rw [List.append_nil] at hrun
  have hsame : SameEvents P.canon (datas [(e, q)]) [readScalar an tag v style wc] := sameEvents_one (by show SameEvent P.canon e.data _; rw [he]; exact h10)
  cases h9 with
  | empty _ hk => cases hk
  | block _ _ hk => cases hk
  | @flow w _ hsty hw hi hne hd hk hr =>
    have hev : readScalar an tag v style (gapAfter s ps ++ w) = scalarEvent an tag v style := by
      unfold readScalar; rw [if_neg (by simp [hne])]
    obtain ⟨hwf, hwl⟩ := hk rfl hflatv
    have key : ∃ W, wp ++ (gapAfter s ps ++ w) = sep s ++ W ∧ W ≠ [] ∧ W.head? ≠ some ' ' ∧ (∀ c ∈ W, isBreak c = false) ∧ strLen W ≤ 1024 := by
      rcases h7 with ⟨k1, k2⟩ | ⟨w0, k1, k2, k3, k4, k5, k6⟩
      · subst k1 k2
        exact ⟨w, rfl, hne, hd, hwf, by omega⟩
      · refine ⟨w0 ++ ' ' :: w, ?_, by simp, ?_, ?_, ?_⟩
        · rw [k1]
          have : gapAfter s ps = [' '] := by unfold gapAfter; rw [if_neg (by simpa using k6)]
          rw [this]; simp; rfl
        · cases w0 with
          | nil => exact absurd rfl k2
          | cons => simpa using k3
        · intro c hc
          rcases List.mem_append.1 hc with hc | hc
          · exact k4 c hc
          · rcases List.mem_cons.1 hc with rfl | hc
            · decide
            · exact hwf c hc
        · rw [strLen_append, strLen_cons]
          have : lenUtf8 ' ' = 1 := by decide
          omega
    obtain ⟨W, hW, w1, w2, w3, w4⟩ := key
    have hWc : wp ++ (gapAfter (ctx s q false false true true) ps ++ w) = sep s ++ (W ++ []) := by rw [List.append_nil]; exact hW
    refine ⟨s', W, [], ?_, h2, h3, h4, ?_, by simp, w1, w2, w3, by simpa [strLen] using w4, ?_⟩
    · rw [← hWc]; exact hrun
    · rw [← hWc]; exact h5
    intro r hz
    obtain ⟨b, hb, hatom⟩ := hr (':' :: r) false (':' :: r) (.here (Or.inr (Or.inl ⟨r, rfl, hz⟩))) (by simp)
    obtain rfl := hb (Or.inr rfl)
    have hone : Atoms F fl n [.scalar v style] (gapAfter s ps ++ w) (':' :: r) := Atoms.one (gapAfter_spaces s ps) hatom
    have hat : Atoms F fl n (ps ++ [.scalar v style]) (wp ++ (gapAfter s ps ++ w)) (':' :: r) := by
      refine Atoms.append ?_ hone
      rcases h7 with ⟨k1, k2⟩ | ⟨_, _, _, _, _, _, h⟩
      · rw [k1, k2]; exact .nil _
      · refine h8 _ ?_
        rw [List.append_assoc]
        exact gap_endsTag (Or.inl h) _
    rw [hW] at hat
    obtain ⟨d, ds, hds⟩ : ∃ d ds, ps ++ [TokenData.scalar v style] = d :: ds := by
      cases ps with
      | nil => exact ⟨_, _, rfl⟩
      | cons => exact ⟨_, _, rfl⟩
    rw [hds] at hat
    refine ⟨hat.head w3 (sep_spaces s) w2, ?_⟩
    intro A hA hAf hAi hal hc
    obtain ⟨B, b1, b2, b3, b4⟩ := hat.warm w3 (sep_spaces s) w2 hA hAf hAi hal w4 hc
    refine ⟨B, d :: ds, [scalarEvent an tag v style], b1, b2, b4, ?_, ?_⟩
    · intro b i; rw [← hds]; exact .scalar h6 v style
    · rw [← hev]; exact hsame

/-! ### Aliases -/

omit hD in
theorem alias_seen {e : Event} {n : Str} {a : Analysis} (he : e.data = .alias n) (h : Seen P e.data a) : NameOk n ∧ a.anchor = some ⟨n, true⟩ := by
  rw [he] at h; exact h

omit hD in
theorem writes_emitAlias {n : Str} {a : Analysis} (hn : NameOk n) (ha : a.anchor = some ⟨n, true⟩) {s : EState} {st : EmSt} {sts : List EmSt} (hst : s.states = st :: sts) :
    ∃ s', Writes (emitAlias a) s () s' (sep s ++ ('*' :: n ++ (if s.simpleKeyContext then [' '] else []))) ∧ core s' = core s ∧ s'.state = st ∧ s'.states = sts ∧
      s'.column = colAfter s.column (sep s ++ ('*' :: n ++ (if s.simpleKeyContext then [' '] else []))) ∧ s'.whitespace = false ∧ s'.indention = false := by
  obtain ⟨s1, h1, h2, h3, h4⟩ := writes_processAnchor n true s hn
  simp only [if_true] at h1 h2
  have hk : s1.simpleKeyContext = s.simpleKeyContext := by rw [h2.frame]
  have hs : s1.states = st :: sts := by rw [h2.frame]; exact hst
  unfold emitAlias
  rw [ha]
  cases hkc : s.simpleKeyContext with
  | false =>
    rw [hkc] at hk
    refine ⟨{ s1 with state := st, states := sts }, ?_, show core s1 = core s from core_wrote h2, rfl, rfl, ?_, h3, h4⟩
    · have hw : Writes (do M.when s1.simpleKeyContext (put ' '); popState) s1 () { s1 with state := st, states := sts } [] := by
        refine Writes.bind0 (s' := s1) (a := ()) ?_ (writes_popState hs)
        exact Writes.when_false hk
      exact (h1.bind (f := fun _ => do let s ← M.get; M.when s.simpleKeyContext (put ' '); popState) (Writes.bind_get hw)).cast rfl (by simp)
    · show s1.column = _; rw [h2.col]; simp
  | true =>
    rw [hkc] at hk
    refine ⟨{ s1 with column := s1.column + 1, state := st, states := sts }, ?_, show core s1 = core s from core_wrote h2, rfl, rfl, ?_, h3, h4⟩
    · have hw : Writes (do M.when s1.simpleKeyContext (put ' '); popState) s1 () { s1 with column := s1.column + 1, state := st, states := sts } [' '] := by
        refine (Writes.bind (s' := { s1 with column := s1.column + 1 }) (w := [' ']) (a := ()) ?_ (writes_popState (s := { s1 with column := s1.column + 1 }) hs)).cast rfl (by simp)
        exact Writes.when_true hk (writes_put ' ' s1)
      exact (h1.bind (f := fun _ => do let s ← M.get; M.when s.simpleKeyContext (put ' '); popState) (Writes.bind_get hw)).cast rfl (by simp)
    · show s1.column + 1 = _
      rw [h2.col, ← List.append_assoc, colAfter_append _ (sep s ++ '*' :: n)]
      rfl

theorem alias_B {e : Event} {q : List Event} {n : Str} (he : e.data = .alias n) (hg : NodeGood P e.data) : ClaimB P F [(e, q)] := by
  intro s root sq mp st sts hE hfl hR hst
  obtain ⟨a, ha, hs⟩ := analysed hD hg (Or.inl ⟨n, he⟩)
  obtain ⟨hn, hs⟩ := alias_seen he hs
  obtain ⟨s', h1, h2, h3, h4, h5, h6, h7⟩ := writes_emitAlias hn hs (s := ctx s q root sq mp false) hst
  have hsep : sep (ctx s q root sq mp false) = sep s := rfl
  rw [hsep] at h1 h5
  simp only [ctx, Bool.false_eq_true, if_false, List.append_nil] at h1 h5
  have hrun : Run P (fun e a => emitNode e root sq mp false a) s [(e, q)] s' ((sep s ++ '*' :: n) ++ []) := run_one ha (by rw [he]; exact h1) (hE.kept h2) (.nil s')
  rw [List.append_nil] at hrun
  refine ⟨s', _, hrun, h2, h3, h4, (show Exit s' from fun h => by rw [h7] at h; cases h), fun rest _ _ hws => by rw [sep_eq hws]; exact noSplit_of (by simp), ?_⟩
  intro rest hrest
  rw [h7] at hrest
  have hz := hrest.endsTag hE.brk
  refine ⟨fun hw => by rw [List.append_assoc]; exact endsTag_sep hw _, ?_⟩
  intro A hA
  have hen : EndsName rest := by
    intro c r hc
    rcases hz.1 c r hc with h | h
    · exact Or.inl h
    · exact Or.inr (Or.inl h)
  have hatom : Atom F 0 s.indent ('*' :: n) (.alias n) false rest := atom_anchor true hn hen
  have hcol : A.flow = 0 → A.indent < (Spec.advance A.mark (sep s)).column := by
    intro _
    have := hA.after
    rw [(advance_flat A.mark _ (sep_noBreak s)).2.1]; omega
  obtain ⟨C, c1, c2, c3, c4, c5⟩ := hatom.cool hA.cool hA.flow hA.ind (spaces_blanks (sep_spaces s)) hcol
  refine ⟨C, [.alias n], [.alias n], by rw [List.append_assoc]; exact c1, c2, ⟨?_, fun h => by rw [h7] at h; cases h⟩, Or.inl (.alias n), ?_⟩
  · have : ((C.mark.column : Nat) : Int) = s'.column := by
      rw [c4, colAfter_advance, colAfter_advance, h5, hA.sync, colAfter_append]
    exact this
  · refine sameEvents_one ?_
    show SameEvent P.canon e.data _
    rw [he]; rfl

theorem alias_F {e : Event} {q : List Event} {n : Str} (he : e.data = .alias n) (hg : NodeGood P e.data) : ClaimF P F [(e, q)] := by
  intro s fl m sq mp st sts hE hfl hf0 hst
  obtain ⟨a, ha, hs⟩ := analysed hD hg (Or.inl ⟨n, he⟩)
  obtain ⟨hn, hs⟩ := alias_seen he hs
  obtain ⟨s', h1, h2, h3, h4, h5, h6, h7⟩ := writes_emitAlias hn hs (s := ctx s q false sq mp false) hst
  have hsep : sep (ctx s q false sq mp false) = sep s := rfl
  rw [hsep] at h1 h5
  simp only [ctx, Bool.false_eq_true, if_false, List.append_nil] at h1 h5
  have hrun : Run P (fun e a => emitNode e false sq mp false a) s [(e, q)] s' ((sep s ++ '*' :: n) ++ []) := run_one ha (by rw [he]; exact h1) (hE.kept h2) (.nil s')
  rw [List.append_nil] at hrun
  refine ⟨s', _, hrun, h2, h3, h4, h6, h7, ?_⟩
  intro rest hrest
  refine ⟨fun hw => by rw [List.append_assoc]; exact endsTag_sep hw _, ?_⟩
  intro A hA hAf hAi hsy
  have hatom : Atom F fl m ('*' :: n) (.alias n) false rest := atom_anchor true hn hrest.endsName.1
  obtain ⟨C, c1, c2, c3, c4, c5⟩ := hatom.cool hA hAf hAi (spaces_blanks (sep_spaces s)) (fun h => absurd (hAf ▸ h) hf0)
  refine ⟨C, [.alias n], [.alias n], by rw [List.append_assoc]; exact c1, c2, c5 (Or.inl (by rw [hAf]; exact hf0)), ?_, .alias n, ?_⟩
  · have : ((C.mark.column : Nat) : Int) = s'.column := by
      rw [c4, colAfter_advance, colAfter_advance, h5, hsy, colAfter_append]
    exact this
  · refine sameEvents_one ?_
    show SameEvent P.canon e.data _
    rw [he]; rfl

theorem alias_S {e : Event} {q : List Event} {n : Str} (he : e.data = .alias n) (hg : NodeGood P e.data) : ClaimS P F [(e, q)] := by
  intro s fl m st sts e0 q0 es0 a heq ha hchk hE hfl hn' hst
  simp only [List.cons.injEq, Prod.mk.injEq] at heq
  obtain ⟨⟨rfl, rfl⟩, rfl⟩ := heq
  obtain ⟨a', ha', hs⟩ := analysed hD hg (Or.inl ⟨n, he⟩)
  obtain rfl := ana_unique ha ha'
  obtain ⟨hn, hs⟩ := alias_seen he hs
  have hlen : strLen n ≤ 128 := by
    unfold checkSimpleKey at hchk
    rw [he, hs] at hchk
    exact of_decide_eq_true (Option.some.inj hchk)
  obtain ⟨s', h1, h2, h3, h4, h5, h6, h7⟩ := writes_emitAlias hn hs (s := ctx s q false false true true) hst
  have hsep : sep (ctx s q false false true true) = sep s := rfl
  rw [hsep] at h1 h5
  simp only [ctx, if_true] at h1 h5
  have hrun : Run P (fun e a => emitNode e false false true true a) s [(e, q)] s' ((sep s ++ ('*' :: n ++ [' '])) ++ []) := run_one ha (by rw [he]; exact h1) (hE.kept h2) (.nil s')
  rw [List.append_nil] at hrun
  have hflat : ∀ c ∈ '*' :: n, isBreak c = false := by
    intro c hc
    rcases List.mem_cons.1 hc with rfl | hc
    · decide
    · exact (name_facts (hn.2 c hc)).2
  refine ⟨s', '*' :: n, [' '], hrun, h2, h3, h4, h5, by simp, by simp, by simp, hflat, ?_, ?_⟩
  · rw [strLen_cons]
    have : lenUtf8 '*' = 1 := by decide
    have : strLen [' '] = 1 := by decide
    omega
  intro r hz
  have hatom : Atom F fl m ('*' :: n) (.alias n) false ([' '] ++ ':' :: r) := atom_anchor true hn (by
    intro c r' h; simp at h; exact Or.inl (Or.inl h.1.symm))
  refine ⟨hatom.starts, ?_⟩
  intro A hA hAf hAi hal hc
  obtain ⟨B, b1, b2, b3, b4⟩ := hatom.first hA hAf hAi hal (spaces_blanks (sep_spaces s)) (hasBrk_false (sep_noBreak s)) hflat hc
  refine ⟨B, [.alias n], [.alias n], b1, b2, b4, fun b i => .alias n, ?_⟩
  refine sameEvents_one ?_
  show SameEvent P.canon e.data _
  rw [he]; rfl

end

end Yaml.Rt
