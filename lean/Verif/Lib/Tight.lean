import Verif.Lib.Tile4

/-
Where the ends of block collections are: at the token behind them.
-/

namespace Yaml
open Scanner Spec
set_option linter.unusedSimpArgs false
set_option linter.unusedVariables false

/-- The end of a block collection is where the next token starts. -/
def Tight : List Token → Prop
  | t :: u :: r => (isBlockEnd t = true → u.startMark = t.startMark) ∧ Tight (u :: r)
  | _ => True

/-- The list does not end with the end of a block collection that is elsewhere than `m`. -/
def EndsAt (m : Mark) (L : List Token) : Prop := ∀ pre t, L = pre ++ [t] → isBlockEnd t = true → t.startMark = m

/-- The list does not end with the end of a block collection. -/
def EndsNot (L : List Token) : Prop := ∀ pre t, L = pre ++ [t] → isBlockEnd t = false

theorem tight_cut (A : List Token) (t u : Token) (B : List Token) :
    Tight (A ++ t :: u :: B) ↔ Tight (A ++ [t]) ∧ (isBlockEnd t = true → u.startMark = t.startMark) ∧ Tight (u :: B) := by
  induction A with
  | nil => simp [Tight]
  | cons a A ih =>
    cases A with
    | nil => simp only [List.cons_append, List.nil_append, Tight] at ih ⊢; simp [and_assoc]
    | cons a' A =>
      simp only [List.cons_append, Tight] at ih ⊢
      rw [ih, and_assoc]

theorem tight_same {m : Mark} : ∀ {X : List Token}, (∀ x ∈ X, x.startMark = m) → Tight X
  | [], _ => trivial
  | [_], _ => trivial
  | a :: b :: X, h => ⟨fun _ => by rw [h a (by simp), h b (by simp)], tight_same fun x hx => h x (by simp at hx ⊢; simp [hx])⟩

theorem tight_append {m : Mark} {L X : List Token} (hL : Tight L) (he : EndsAt m L) (hX : ∀ x ∈ X, x.startMark = m) : Tight (L ++ X) := by
  rcases List.eq_nil_or_concat L with rfl | ⟨L', t, rfl⟩
  · exact tight_same hX
  · cases X with
    | nil => simpa using hL
    | cons x X =>
      rw [List.concat_eq_append, List.append_assoc] at *
      show Tight (L' ++ t :: x :: X)
      rw [tight_cut]
      exact ⟨hL, fun hb => by rw [he L' t rfl hb]; exact hX x (by simp), tight_same hX⟩

theorem EndsNot.at {L : List Token} (h : EndsNot L) (m : Mark) : EndsAt m L := by
  intro pre t e hb
  rw [h pre t e] at hb; cases hb

theorem EndsAt.append {m : Mark} {L X : List Token} (he : EndsAt m L) (hX : ∀ x ∈ X, x.startMark = m) : EndsAt m (L ++ X) := by
  rcases List.eq_nil_or_concat X with rfl | ⟨X', x, rfl⟩
  · simpa using he
  · intro pre t e _
    rw [List.concat_eq_append, ← List.append_assoc] at e
    have := List.append_inj' e rfl
    simp at this
    rw [← this.2]; exact hX x (by simp)

theorem endsNot_snoc {L : List Token} {t : Token} (h : isBlockEnd t = false) : EndsNot (L ++ [t]) := by
  intro pre u e
  have := List.append_inj' e rfl
  simp at this
  rw [← this.2]; exact h

/-- Tokens put in front of a token, where it starts. -/
theorem tight_insert {A B X : List Token} {t : Token} (h : Tight (A ++ t :: B)) (hX : ∀ x ∈ X, x.startMark = t.startMark ∧ isBlockEnd x = false) :
    Tight (A ++ (X ++ t :: B)) := by
  induction X with
  | nil => exact h
  | cons x X ih =>
    have ih := ih fun y hy => hX y (by simp [hy])
    have hx := hX x (by simp)
    have hfirst : ∀ {y : Token} {Y : List Token}, X ++ t :: B = y :: Y → y.startMark = t.startMark := by
      intro y Y e
      cases X with
      | nil => simp at e; rw [e.1]
      | cons z Z => simp at e; rw [← e.1]; exact (hX z (by simp)).1
    obtain ⟨y, Y, e⟩ : ∃ y Y, X ++ t :: B = y :: Y := by
      cases X with
      | nil => exact ⟨_, _, rfl⟩
      | cons z Z => exact ⟨_, _, rfl⟩
    have hy := hfirst e
    rw [e] at ih
    rw [List.cons_append, e]
    clear hfirst e h
    rcases List.eq_nil_or_concat A with rfl | ⟨A', a, rfl⟩
    · exact ⟨fun hb => absurd hb (by simp [hx.2]), ih⟩
    · rw [List.concat_eq_append, List.append_assoc] at ih ⊢
      have ih : Tight (A' ++ a :: y :: Y) := ih
      show Tight (A' ++ a :: x :: y :: Y)
      rw [tight_cut] at ih ⊢
      refine ⟨ih.1, fun hb => by rw [hx.1, ← hy]; exact ih.2.1 hb, ?_⟩
      exact ⟨fun hb => absurd hb (by simp [hx.2]), ih.2.2⟩

/-- The end of a block collection is where the next token starts, or else at the end of the stream. -/
def Snug : List Token → Prop
  | [] => True
  | t :: ts => (isBlockEnd t = true → ∀ u, ts.head? = some u → u.startMark = t.startMark ∨ ∀ v ∈ ts, isBlockEnd v = true ∨ isStreamEnd v = true) ∧ Snug ts

theorem Tight.snug : ∀ {L X : List Token}, Tight L → (∀ v ∈ X, isBlockEnd v = true ∨ isStreamEnd v = true) → Snug (L ++ X)
  | [], [], _, _ => trivial
  | [], x :: X, _, hX => ⟨fun _ u _ => .inr fun v hv => hX v (by simp [hv]), Tight.snug (L := []) trivial fun v hv => hX v (by simp [hv])⟩
  | [t], X, _, hX => ⟨fun _ u _ => .inr hX, Tight.snug (L := []) trivial hX⟩
  | t :: u :: L, X, h, hX => ⟨fun hb v hv => by simp at hv; subst hv; exact .inl (h.1 hb), Tight.snug (L := u :: L) h.2 hX⟩

theorem LaidOut.of {T : Str} {d : Nat} {st : List Nat} {p q : Str} {ts : List Token} (h : Tiles T d st p ts q) (h' : Snug ts) : LaidOut d st ts := by
  induction h with
  | nil => trivial
  | cons hT hg hs he hw hl h ih => exact ⟨hl, h'.1, ih h'.2⟩

/-- What is in front of a token before its characters are read. -/
theorem Prep.new {s s1 : SState} {D : TokenData → Prop} (h : Prep s D s1) :
    (∃ X, s1.tokens = s.tokens ++ X ∧ ∀ x ∈ X, x.startMark = s.mark) ∨
    (∃ k ks X, s.simpleKeys = k :: ks ∧ k.possible = true ∧ (∀ x ∈ X, x.startMark = k.mark ∧ isBlockEnd x = false) ∧
      ∀ A B hist, hist.length = s.tokensParsed → s.tokensParsed ≤ k.tokenNumber → k.tokenNumber ≤ s.tokensParsed + s.tokens.length →
        hist ++ s.tokens = A ++ B → A.length = k.tokenNumber → hist ++ s1.tokens = A ++ (X ++ B)) := by
  have roll : ∀ d, d = .blockSequenceStart ∨ d = .blockMappingStart → ∃ X, (rollS s.mark.column none d s.mark s).tokens = s.tokens ++ X ∧ ∀ x ∈ X, x.startMark = s.mark := by
    intro d _
    unfold rollS
    split
    · exact ⟨[⟨d, s.mark, s.mark⟩], rfl, by simp⟩
    · exact ⟨[], by simp, by simp⟩
  cases h with
  | doc hu hr =>
    obtain ⟨n, i, is, rfl, _⟩ := hu
    exact .inl ⟨_, rfl, fun x hx => by rw [List.eq_of_mem_replicate hx]⟩
  | flowStart hr => exact .inl ⟨[], by simpa using (saveS_count s).1, by simp⟩
  | flowEnd hr => exact .inl ⟨[], by simp only [List.append_nil]; split <;> rfl, by simp⟩
  | flowEntry hr => exact .inl ⟨[], by simp [clearS], by simp⟩
  | blockEntry hs' hr => subst hs'; exact .inl (roll _ (.inl rfl))
  | key hs' hr x => subst hs'; exact .inl (roll _ (.inr rfl))
  | value hk hp x => exact .inl (roll _ (.inr rfl))
  | node hr => exact .inl ⟨[], by simpa using (saveS_count s).1, by simp⟩
  | blockScalar hr => exact .inl ⟨[], by simp [clearS], by simp⟩
  | @valueKey k ks hk hp =>
    right
    by_cases hc : s.flowLevel = 0 ∧ s.indent < (k.mark.column : Int)
    · refine ⟨k, ks, [⟨.blockMappingStart, k.mark, k.mark⟩, ⟨.key, k.mark, k.mark⟩], hk, hp, by simp [isBlockEnd], ?_⟩
      intro A B hist h1 h2 h3 h4 h5
      unfold rollS
      rw [if_pos (by exact hc)]
      show hist ++ (s.tokens.insertIdx (k.tokenNumber - s.tokensParsed) ⟨.key, k.mark, k.mark⟩).insertIdx (k.tokenNumber - s.tokensParsed)
        ⟨.blockMappingStart, k.mark, k.mark⟩ = _
      rw [insertIdx_hist h1 h2 (by rw [List.length_insertIdx_of_le_length (by omega)]; omega), insertIdx_hist h1 h2 h3, h4, ← h5]
      simp
    · refine ⟨k, ks, [⟨.key, k.mark, k.mark⟩], hk, hp, by simp [isBlockEnd], ?_⟩
      intro A B hist h1 h2 h3 h4 h5
      unfold rollS
      rw [if_neg (by exact hc)]
      show hist ++ s.tokens.insertIdx (k.tokenNumber - s.tokensParsed) ⟨.key, k.mark, k.mark⟩ = _
      rw [insertIdx_hist h1 h2 h3, h4, ← h5]
      simp

/-- The next token. -/
theorem tight_token {T : Str} {hist : List Token} {q g : Str} {s s1 s2 : SState} {b b' : Inp} {D : TokenData → Prop} {tok : Token}
    (h : TMid T (hist ++ s.tokens) q g s b.text) (hlen : hist.length = s.tokensParsed) (hs : SOpen s)
    (hp : Prep s D s1) (ht : TokG s1 b tok s2 b') (hd : D tok.data) (hst : tok.startMark = s.mark)
    (h1 : Tight (hist ++ s.tokens)) (h2 : EndsAt s.mark (hist ++ s.tokens)) :
    Tight (hist ++ (pushS tok s2).tokens) ∧ EndsNot (hist ++ (pushS tok s2).tokens) := by
  have hdata := hp.data hd
  have hbe : isBlockEnd tok = false := by unfold isBlockEnd; simp [hdata.2.2.2.2]
  have etok : hist ++ (pushS tok s2).tokens = hist ++ s1.tokens ++ [tok] := by
    show hist ++ (s2.tokens ++ [tok]) = _; rw [ht.go.1.tokens]; simp
  rw [etok]
  refine ⟨?_, endsNot_snoc hbe⟩
  rcases hp.new with ⟨X, hX, hm⟩ | ⟨k, ks, X, hk, hpo, hX, hins⟩
  · rw [hX, ← List.append_assoc]
    refine tight_append (m := s.mark) (tight_append h1 h2 hm) (h2.append hm) (by simpa using hst)
  · obtain ⟨⟨A, u, B, qk, e1, e2, e3, e4, e5, _⟩, _⟩ := h.keys 0 k (by rw [hk]; rfl) hpo
    have hn := hs.keyNum k (by simp [hk]) hpo
    rw [hins A (u :: B) hist hlen hn.1 hn.2 e1 e2]
    refine tight_append (m := s.mark) (tight_insert (e1 ▸ h1) fun x hx => by rw [e3]; exact hX x hx) ?_ (by simpa using hst)
    intro pre v e hv
    refine h2 (A ++ (u :: B).dropLast) v ?_ hv
    have : v = (u :: B).getLast (by simp) := by
      have e' := congrArg List.getLast? e
      simp only [List.getLast?_append, List.getLast?_cons, Option.some_or, List.getLast?_singleton, Option.some.injEq] at e'
      rw [List.getLast_eq_iff_getLast?_eq_some (by simp) |>.2 (by rw [List.getLast?_cons])] 
      exact e'.symm
    rw [e1, this, List.append_assoc, List.dropLast_concat_getLast]

end Yaml
