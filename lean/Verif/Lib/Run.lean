import Verif.Lib.History2
import Verif.Lib.Sim
import Verif.Api

/-
Histories of `scan` calls: the invariant between calls and what one call does.
-/

namespace Yaml
open Scanner Spec
set_option linter.unusedSimpArgs false
set_option linter.unusedVariables false

/-! ### Counting tokens -/

/-- One token per queue entry, one more for every open block collection and for the stream end
that is still to come, four for every character that is still to come. -/
def Count (T : List Char) (hist : List Token) (s : SState) (b : Inp) : Prop :=
  hist.length + s.tokens.length + s.indents.length + 4 * b.text.length +
    (if s.tokens.any isStreamEnd then 0 else 1) + (if s.streamStartProduced then 0 else 1) ≤ 4 * T.length + 2

theorem Unroll.count {col : Int} {s s' : SState} (h : Unroll col s s') :
    s'.tokens.length + s'.indents.length = s.tokens.length + s.indents.length ∧
    s'.tokens.any isStreamEnd = s.tokens.any isStreamEnd := by
  obtain ⟨n, i, is, rfl, _, hl, _⟩ := h
  constructor
  · simp; omega
  · simp [isStreamEnd]

theorem any_insertIdx {α : Type} (p : α → Bool) (a : α) : ∀ (i : Nat) (l : List α), i ≤ l.length →
    (l.insertIdx i a).any p = (p a || l.any p)
  | 0, l, _ => by simp
  | i + 1, [], h => by simp at h
  | i + 1, x :: l, h => by
    rw [List.insertIdx_succ_cons, List.any_cons, any_insertIdx p a i l (by simpa using h), List.any_cons]
    cases p x <;> cases p a <;> rfl

theorem rollS_count {c : Nat} {n : Option Nat} {d : TokenData} {m : Mark} {s : SState}
    (hd : d ≠ .streamEnd) (hn : ∀ k, n = some k → k - s.tokensParsed ≤ s.tokens.length) :
    (rollS c n d m s).tokens.length + (rollS c n d m s).indents.length ≤ s.tokens.length + s.indents.length + 2 ∧
    (rollS c n d m s).tokens.any isStreamEnd = s.tokens.any isStreamEnd := by
  unfold rollS
  split
  · cases n with
    | none =>
      constructor
      · simp; omega
      · simp [isStreamEnd, hd]
    | some k =>
      have := hn k rfl
      constructor
      · simp [List.length_insertIdx]
        split <;> omega
      · show (s.tokens.insertIdx _ _).any _ = _
        rw [any_insertIdx _ _ _ _ this]
        simp [isStreamEnd, hd]
  · exact ⟨by omega, rfl⟩
theorem saveS_count (s : SState) : (saveS s).tokens = s.tokens ∧ (saveS s).indents = s.indents := by
  unfold saveS; split <;> exact ⟨rfl, rfl⟩

/-- Before a token is read at most three entries are added. -/
theorem Prep.count {s : SState} {D : TokenData → Prop} {s1 : SState} (h : Prep s D s1) (hs : SOpen s) :
    s1.tokens.length + s1.indents.length ≤ s.tokens.length + s.indents.length + 3 ∧
    s1.tokens.any isStreamEnd = s.tokens.any isStreamEnd := by
  cases h with
  | doc hu hr =>
    have := hu.count
    exact ⟨by show _ + _ ≤ _; have := this.1; simp only [clearS] at *; omega, this.2⟩
  | flowStart hr =>
    have := saveS_count s
    refine ⟨?_, ?_⟩
    · show (saveS s).tokens.length + (saveS s).indents.length ≤ _
      rw [this.1, this.2]; omega
    · show (saveS s).tokens.any _ = _
      rw [this.1]
  | flowEnd hr =>
    split
    · exact ⟨by show s.tokens.length + s.indents.length ≤ _; omega, rfl⟩
    · exact ⟨by show s.tokens.length + s.indents.length ≤ _; omega, rfl⟩
  | flowEntry hr => exact ⟨by show s.tokens.length + s.indents.length ≤ _; omega, rfl⟩
  | blockEntry hs' hr =>
    subst hs'
    have := rollS_count (c := s.mark.column) (n := none) (d := .blockSequenceStart) (m := s.mark) (s := s) (by simp) (by simp)
    exact ⟨Nat.le_trans this.1 (by omega), this.2⟩
  | key hs' hr x =>
    subst hs'
    have := rollS_count (c := s.mark.column) (n := none) (d := .blockMappingStart) (m := s.mark) (s := s) (by simp) (by simp)
    exact ⟨Nat.le_trans this.1 (by omega), this.2⟩
  | @valueKey k ks hk hp =>
    obtain ⟨h1, h2⟩ := hs.keyNum k (by simp [hk]) hp
    have hle : k.tokenNumber - s.tokensParsed ≤ s.tokens.length := by omega
    have hl : (s.tokens.insertIdx (k.tokenNumber - s.tokensParsed) ⟨.key, k.mark, k.mark⟩).length = s.tokens.length + 1 :=
      List.length_insertIdx_of_le_length hle _
    have := rollS_count (c := k.mark.column) (n := some k.tokenNumber) (d := .blockMappingStart) (m := k.mark)
      (s := { s with tokens := s.tokens.insertIdx (k.tokenNumber - s.tokensParsed) ⟨.key, k.mark, k.mark⟩, simpleKeys := { k with possible := false } :: ks })
      (by simp) (by
        intro n hn; cases hn
        show k.tokenNumber - s.tokensParsed ≤ (s.tokens.insertIdx _ _).length
        rw [hl]; omega)
    obtain ⟨g1, g2⟩ := this
    constructor
    · refine Nat.le_trans g1 ?_
      show (s.tokens.insertIdx _ _).length + s.indents.length + 2 ≤ _
      rw [hl]; omega
    · refine g2.trans ?_
      show (s.tokens.insertIdx _ _).any _ = _
      rw [any_insertIdx _ _ _ _ hle]
      simp [isStreamEnd]
  | value hk hp x =>
    have := rollS_count (c := s.mark.column) (n := none) (d := .blockMappingStart) (m := s.mark) (s := s) (by simp) (by simp)
    exact ⟨Nat.le_trans this.1 (by omega), this.2⟩
  | node hr =>
    have := saveS_count s
    refine ⟨?_, ?_⟩
    · show (saveS s).tokens.length + (saveS s).indents.length ≤ _
      rw [this.1, this.2]; omega
    · show (saveS s).tokens.any _ = _
      rw [this.1]
  | blockScalar hr => exact ⟨by show s.tokens.length + s.indents.length ≤ _; omega, rfl⟩

theorem SOpen.noEnd {s : SState} (h : SOpen s) : s.tokens.any isStreamEnd = false := by
  rw [List.any_eq_false]
  intro t ht
  simpa [isStreamEnd] using h.notEnded t ht

theorem Count.fetch {T : List Char} {hist : List Token} {s s' : SState} {b b' : Inp} (h : Count T hist s b)
    (hf : Fetched s b s' b') : Count T hist s' b' := by
  unfold Count at *
  cases hf with
  | start hs e hb =>
    subst hs
    rw [hb]
    simp [SState.new, startS, isStreamEnd] at h ⊢
    omega
  | @next s1 s3 _ b1 _ hs hg hst hu hd =>
    have hs1 : SOpen s1 := hs.frame hg.1 hg.2.le
    have hs3 : SOpen s3 := hs1.stale.unroll hu
    have htok1 : s1.tokens = s.tokens := hg.1.tokens
    have hind1 : s1.indents = s.indents := by rw [hg.1]
    have hc := hu.count
    have hc1 : s3.tokens.length + s3.indents.length = s1.tokens.length + s1.indents.length := hc.1
    rw [htok1, hind1] at hc1
    rw [hs.noEnd, hs.started] at h
    simp only [Bool.false_eq_true, if_false, if_true] at h
    have hl := hg.length
    cases hd with
    | @token D s4 s2 tok _ hp ht hd =>
      have h1 := hp.count hs3
      have hlt := Adv.lt ht.go.2 ht.progress
      have hopen := (hp.open hs3 ht.go.1 ht.go.2.le hlt).push (hp.data hd).1
      rw [hopen.noEnd, hopen.started]
      have e1 : s2.tokens = s4.tokens := ht.go.1.tokens
      have e2 : s2.indents = s4.indents := by rw [ht.go.1]
      have hpr := ht.progress
      simp only [pushS, List.length_append, List.length_singleton, Bool.false_eq_true, if_false, if_true, e1, e2]
      omega
    | @streamEnd s4 _ hb hb' hu2 hr =>
      have hc2 := hu2.count
      have hc3 : s4.tokens.length + s4.indents.length = s3.tokens.length + s3.indents.length := hc2.1
      have hst4 : s4.streamStartProduced = true := by
        obtain ⟨_, _, _, rfl, _⟩ := hu2
        exact hs3.started
      rw [hb']
      simp only [pushS, clearS, List.length_append, List.length_singleton, List.any_append, List.any_cons, isStreamEnd, decide_true,
        Bool.true_or, Bool.or_true, if_true, hst4, List.length_nil]
      omega

theorem Count.stale {T : List Char} {hist : List Token} {s : SState} {b : Inp} (h : Count T hist s b) :
    Count T hist (staleS s) b := h

theorem Count.avail {T : List Char} {hist : List Token} {s : SState} {b : Inp} (h : Count T hist s b) (x : Bool) :
    Count T hist { s with tokenAvailable := x } b := h

/-! ### Contents of the tokens -/

/-- What is always true of the contents of a token. -/
def fitB : TokenData → Bool
  | .versionDirective a b => lexData (.versionDirective a b)
  | .tagDirective h p => lexData (.tagDirective h p)
  | .alias n => lexData (.alias n)
  | .anchor n => lexData (.anchor n)
  | .tag h t => lexData (.tag h t)
  | .scalar v style => lexData (.scalar v style)
  | _ => true

theorem fitB_lex {d : TokenData} (h : lexData d = true) : fitB d = true := by
  cases d <;> first | exact h | rfl

/-- The contents of these tokens are fine. -/
def Fit (l : List Token) : Prop := ∀ t ∈ l, fitB t.data = true

theorem Fit.append {a b : List Token} : Fit (a ++ b) ↔ Fit a ∧ Fit b := by
  simp only [Fit, List.mem_append]
  exact ⟨fun h => ⟨fun t ht => h t (Or.inl ht), fun t ht => h t (Or.inr ht)⟩, fun h t ht => ht.elim (h.1 t) (h.2 t)⟩

theorem Fit.one {t : Token} (h : fitB t.data = true) : Fit [t] := by
  intro x hx; simp at hx; subst hx; exact h

theorem Fit.insert {l : List Token} {t : Token} {i : Nat} (h : Fit l) (ht : fitB t.data = true) : Fit (l.insertIdx i t) := by
  intro x hx
  by_cases hi : i ≤ l.length
  · rcases (List.mem_insertIdx hi).1 hx with rfl | hx
    · exact ht
    · exact h x hx
  · rw [List.insertIdx_of_length_lt (by omega)] at hx
    exact h x hx

theorem Fit.unroll {col : Int} {s s' : SState} (h : Unroll col s s') (hf : Fit s.tokens) : Fit s'.tokens := by
  obtain ⟨n, i, is, rfl, _⟩ := h
  refine Fit.append.2 ⟨hf, fun t ht => ?_⟩
  obtain ⟨_, rfl⟩ := List.mem_replicate.1 ht
  rfl

theorem Fit.roll {c : Nat} {n : Option Nat} {d : TokenData} {m : Mark} {s : SState} (hd : fitB d = true) (hf : Fit s.tokens) :
    Fit (rollS c n d m s).tokens := by
  unfold rollS
  split
  · cases n with
    | none => exact Fit.append.2 ⟨hf, Fit.one hd⟩
    | some k => exact Fit.insert hf hd
  · exact hf

theorem Prep.fit {s : SState} {D : TokenData → Prop} {s1 : SState} (h : Prep s D s1) (hf : Fit s.tokens) : Fit s1.tokens := by
  cases h with
  | doc hu hr => have h := Fit.unroll hu hf; exact h
  | flowStart hr => show Fit (saveS s).tokens; rw [(saveS_count s).1]; exact hf
  | flowEnd hr => split <;> exact hf
  | flowEntry hr => exact hf
  | blockEntry hs' hr => subst hs'; exact Fit.roll rfl hf
  | key hs' hr x => subst hs'; exact Fit.roll rfl hf
  | valueKey hk hp => exact Fit.roll rfl (Fit.insert hf rfl)
  | value hk hp x => exact Fit.roll rfl hf
  | node hr => show Fit (saveS s).tokens; rw [(saveS_count s).1]; exact hf
  | blockScalar hr => exact hf

theorem Prep.fitB {s : SState} {D : TokenData → Prop} {s1 : SState} (h : Prep s D s1) {d : TokenData} (hd : D d) : fitB d = true := by
  cases h with
  | doc hu hr =>
    rcases hd with hd | rfl | rfl
    · exact fitB_lex hd.1
    · rfl
    · rfl
  | flowStart hr => rcases hd with rfl | rfl <;> rfl
  | flowEnd hr => rcases hd with rfl | rfl <;> rfl
  | flowEntry hr => subst hd; rfl
  | blockEntry hs hr => subst hd; rfl
  | key hs hr x => subst hd; rfl
  | valueKey hk hp => subst hd; rfl
  | value hk hp x => subst hd; rfl
  | node hr => exact fitB_lex hd.1
  | blockScalar hr => exact fitB_lex hd.1

theorem Fit.fetch {s s' : SState} {b b' : Inp} (h : Fit s.tokens) (hf : Fetched s b s' b') : Fit s'.tokens := by
  cases hf with
  | start hs e hb => exact Fit.one rfl
  | @next s1 s3 _ b1 _ hs hg hst hu hd =>
    have htok1 : s1.tokens = s.tokens := hg.1.tokens
    have h3 : Fit s3.tokens := Fit.unroll hu (by show Fit s1.tokens; rw [htok1]; exact h)
    cases hd with
    | @token D s4 s2 tok _ hp ht hd =>
      refine Fit.append.2 ⟨?_, Fit.one (hp.fitB hd)⟩
      rw [ht.go.1.tokens]
      exact hp.fit h3
    | @streamEnd s4 _ hb hb' hu2 hr => have h4 := Fit.unroll hu2 h3; exact Fit.append.2 ⟨h4, Fit.one rfl⟩

/-! ### Taking a token -/

/-- What is known once the stream end was taken. -/
structure Ended (T : List Char) (hist : List Token) (s : SState) : Prop where
  stream : ∃ s0, Hist T hist s0 ∧ (s0.flowLevel = 0 → s0.indents = [])
  count : hist.length ≤ 4 * T.length + 2
  done : SDone s
  last : ∃ (ts : List Token) (t : Token), hist = ts ++ [t] ∧ t.data = .streamEnd ∧ ∀ t' ∈ ts, t'.data ≠ .streamEnd
  fits : Fit hist

/-- The tokens taken so far do not include the stream end. -/
def NoEnd (hist : List Token) : Prop := ∀ t ∈ hist, t.data ≠ .streamEnd

theorem HInv.take {T : List Char} {hist : List Token} {s : SState} {b : Inp} {t : Token} {ts : List Token}
    (h : HInv T hist s b) (hc : Count T hist s b) (hn : NoEnd hist) (hfit : Fit (hist ++ s.tokens)) (ha : SAvail s) (ht : s.tokens = t :: ts) :
    (t.data ≠ .streamEnd ∧ Idle (takeS t ts s) ∧ HInv T (hist ++ [t]) (takeS t ts s) b ∧
      Count T (hist ++ [t]) (takeS t ts s) b ∧ NoEnd (hist ++ [t])) ∨
    (t.data = .streamEnd ∧ Ended T (hist ++ [t]) (takeS t ts s)) := by
  have hstart : s.streamStartProduced = true := by
    rcases ha.base with h' | h'
    · exact h'.started
    · exact h'.started
  rcases h with ⟨h0, _, _⟩ | ⟨hlen, hne, hh, hph⟩
  · have h1 := congrArg SState.streamStartProduced h0
    simp [SState.new, hstart] at h1
  · have hh' : Hist T ((hist ++ [t]) ++ ts) s := by
      rw [ht] at hh; simpa using hh
    rcases ha.take ht with ⟨h1, h2⟩ | ⟨h1, h2⟩
    · refine Or.inl ⟨h1, h2, Or.inr ⟨?_, by simp, ?_, ?_⟩, ?_, ?_⟩
      · simp [takeS, hlen]
      · exact hh'.cast rfl rfl rfl rfl
      · have h2' : SOpen (takeS t ts s) ∨ SEnd (takeS t ts s) := by
          rcases h2 with h2 | h2 | h2
          · have := congrArg SState.streamStartProduced h2
            have : s.streamStartProduced = false := this
            simp [hstart] at this
          · exact Or.inl h2
          · exact Or.inr h2
        rcases hph with ⟨g1, g2⟩ | ⟨g1, g2⟩
        · refine Or.inl ⟨?_, g2⟩
          rcases h2' with h2 | h2
          · exact h2
          · obtain ⟨us, u, q1, q2, _⟩ := h2.queue
            exact absurd q2 (g1.notEnded u (by
              have q1 : ts = us ++ [u] := q1
              show u ∈ s.tokens; rw [ht, q1]; simp))
        · refine Or.inr ⟨?_, g2⟩
          rcases h2' with h2 | h2
          · obtain ⟨us, u, q1, q2, _⟩ := g1.queue
            have q1 : s.tokens = us ++ [u] := q1
            exfalso
            cases us with
            | nil => rw [ht] at q1; simp at q1; exact h1 (q1.1 ▸ q2)
            | cons v vs =>
              rw [ht] at q1; simp at q1
              exact h2.notEnded u (by show u ∈ ts; rw [q1.2]; simp) q2
          · exact h2
      · unfold Count at hc ⊢
        have e1 : (takeS t ts s).tokens = ts := rfl
        have e2 : (takeS t ts s).indents = s.indents := rfl
        have e3 : (takeS t ts s).streamStartProduced = s.streamStartProduced := rfl
        rw [e1, e2, e3]
        rw [ht, List.any_cons] at hc
        have : isStreamEnd t = false := by simpa [isStreamEnd] using h1
        rw [this, Bool.false_or, List.length_cons] at hc
        rw [List.length_append, List.length_singleton]
        omega
      · intro t' ht'
        rcases List.mem_append.1 ht' with h' | h'
        · exact hn t' h'
        · simp at h'; subst h'; exact h1
    · refine Or.inr ⟨h1, ⟨s, ?_, ?_⟩, ?_, h2, ⟨hist, t, rfl, h1, hn⟩, fun x hx => hfit x (by rw [ht]; simp at hx ⊢; rcases hx with hx | hx <;> simp [hx])⟩
      · have : ts = [] := h2.queue
        subst this; simpa using hh'
      · rcases hph with ⟨g1, g2⟩ | ⟨g1, g2⟩
        · exact absurd h1 (g1.notEnded t (by show t ∈ s.tokens; rw [ht]; simp))
        · exact g2.2.2
      · unfold Count at hc
        rw [ht] at hc
        simp only [List.length_cons, List.length_append, List.length_nil] at hc ⊢
        omega

/-! ### Runs -/

/-- The known panics of the scanner, each only for texts where it can occur. -/
def Bad (T : List Char) (p : PanicSite) : Prop :=
  (p = .escapeAtEof ∧ T.getLast? = some '\\') ∨
  (p = .readLineBreakEmpty ∧ ∃ c, T.getLast? = some c ∧ isBreak c = false) ∨
  (p = .tagTodo ∧ '!' ∈ T ∧ ',' ∈ T) ∨
  ((p = .rollIndentOverflow ∨ p = .flowLevelOverflow) ∧ i32Max < T.length)

theorem Bad.ok (T : List Char) : PanicsOk (Bad T) T :=
  ⟨fun h => Or.inl ⟨rfl, h⟩, fun h => Or.inr (Or.inl ⟨rfl, h⟩), fun h h' => Or.inr (Or.inr (Or.inl ⟨rfl, h, h'⟩))⟩

/-- The invariant of a scanner that has delivered `hist` of the text `T`. -/
def Run (T : List Char) (hist : List Token) (o : ScannerObj) : Prop :=
  ∃ b, R b o.r ∧ HInv T hist o.s b ∧ Count T hist o.s b ∧ (NoEnd hist ∧ Fit (hist ++ o.s.tokens)) ∧ Idle o.s ∧ FitsOr (Bad T) o.s b ∧
    ∃ p, T = p ++ b.text

theorem Run.start {items : List SrcItem} {enc : Encoding} {T : List Char} (h : Future enc items T) :
    Run T [] (ScannerObj.new items enc) := by
  refine ⟨⟨T, 0⟩, ⟨by simp [ScannerObj.new], T, h, by simp [ScannerObj.new], Or.inl (Nat.zero_le _)⟩,
    Or.inl ⟨rfl, rfl, rfl⟩, ?_, ⟨by intro t ht; simp at ht, by intro t ht; simp [ScannerObj.new, SState.new] at ht⟩, Or.inl rfl, ?_, [], rfl⟩
  · simp [Count, ScannerObj.new, SState.new]
  · by_cases hT : T.length ≤ i32Max
    · left
      refine ⟨?_, ?_, ?_⟩
      · show (0 : Nat) + T.length ≤ i32Max; omega
      · show (0 : Nat) + T.length ≤ i32Max; omega
      · intro k hk; simp [ScannerObj.new, SState.new] at hk
    · right
      exact ⟨Or.inr (Or.inr (Or.inr ⟨Or.inl rfl, by omega⟩)), Or.inr (Or.inr (Or.inr ⟨Or.inr rfl, by omega⟩))⟩

/-- Marks of an error of the scanner. -/
def ErrMarks (T : List Char) (e : Err) : Prop :=
  ReaderErr e ∨ ∃ c cm p pm, e = .scanner c cm p pm ∧ IsMark T cm ∧ IsMark T pm

theorem HInv.marks {T : List Char} {hist : List Token} {s : SState} {b : Inp} (h : HInv T hist s b) :
    IsMark T s.mark ∧ ∀ k ∈ s.simpleKeys, k.possible = true → IsMark T k.mark := by
  rcases h with ⟨h0, _, ht⟩ | ⟨_, _, hh, hph⟩
  · have h1 : s.mark = Mark.zero := congrArg SState.mark h0
    have h2 : s.simpleKeys = [] := congrArg SState.simpleKeys h0
    rw [h1, h2]
    refine ⟨Or.inl (IsPosition.of_adv (Adv.refl _ _)), by simp⟩
  · refine ⟨?_, fun k hk hp => Or.inl (hh.keyMark k hk hp).1⟩
    rcases hph with h' | h'
    · exact Or.inl (IsPosition.of_adv h'.2)
    · exact h'.2.1

theorem HInv.err {T : List Char} {hist : List Token} {s s' : SState} {b : Inp} {e : Err} (h : HInv T hist s b)
    (he : MoreErr s b e s') : ErrMarks T e := by
  rcases he with ⟨hr, _, _, he⟩ | ⟨_, m, hm, rfl, _⟩
  · rcases he with he | ⟨c, cm, p, rfl, hcm, hpm⟩
    · exact Or.inl he
    · have hadv : Adv Mark.zero T s.mark b.text ∨ s.simpleKeys = [] ∧ s.mark = Mark.zero ∧ b.text = T := by
        rcases h with ⟨h0, _, ht⟩ | ⟨_, _, hh, hph⟩
        · exact Or.inr ⟨congrArg SState.simpleKeys h0, congrArg SState.mark h0, ht⟩
        · left
          rcases hph with h' | h'
          · exact h'.2
          · exfalso
            obtain ⟨ts, t, q1, q2, _⟩ := h'.1.queue
            rcases hr with rfl | hr
            · have q1 : SState.new.tokens = _ := q1
              simp [SState.new] at q1
            · exact hr.notEnded t (by have q1 : s.tokens = _ := q1; rw [q1]; simp) q2
      have hadv' : Adv Mark.zero T s.mark b.text := by
        rcases hadv with h' | ⟨_, h1, h2⟩
        · exact h'
        · rw [h1, h2]; exact Adv.refl _ _
      refine Or.inr ⟨c, cm, p, _, rfl, ?_, ?_⟩
      · rcases hcm with ⟨t, ht⟩ | ⟨k, hk, hp, rfl⟩
        · exact Or.inl (IsPosition.of_adv (hadv'.trans ht))
        · exact h.marks.2 k hk hp
      · rcases hpm with ⟨t, ht⟩ | ⟨m, hm, hs'⟩
        · exact Or.inl (IsPosition.of_adv (hadv'.trans ht))
        · rw [hs']; exact isMark_end (hadv'.trans hm)
  · obtain ⟨k, hk, hp, _, rfl⟩ := staleList_some hm
    exact Or.inr ⟨_, _, _, _, rfl, h.marks.2 k (by simpa using hk) hp, h.marks.1⟩

/-- One call of `scan`. -/
def ScanRes (T : List Char) (hist : List Token) : Out Token × ScannerObj → Prop
  | (.ok t, o') => (t.data ≠ .streamEnd ∧ Run T (hist ++ [t]) o') ∨ (t.data = .streamEnd ∧ Ended T (hist ++ [t]) o'.s)
  | (.err e, _) => ErrMarks T e
  | (.panic p, _) => Bad T p
  | (.fuel, _) => False

theorem Run.scan {T : List Char} {hist : List Token} {o : ScannerObj} {F : Nat} (h : Run T hist o)
    (hF : T.length + 2 < F) : ScanRes T hist (o.scan F) := by
  obtain ⟨b, hR, hI, hc, ⟨hn, hcon⟩, hid, hfit, p, hp⟩ := h
  have hlen : b.text.length ≤ T.length := by rw [hp]; simp
  have := runA_of_wp (r := o.r) (b := b) (P := Bad T) (E := fun e _ _ => ErrMarks T e)
    (Q := fun t s' b' => (t.data ≠ .streamEnd ∧ HInv T (hist ++ [t]) s' b' ∧ Count T (hist ++ [t]) s' b' ∧
        (NoEnd (hist ++ [t]) ∧ Fit (hist ++ [t] ++ s'.tokens)) ∧ Idle s' ∧ FitsOr (Bad T) s' b' ∧ ∃ p, T = p ++ b'.text) ∨
        (t.data = .streamEnd ∧ Ended T (hist ++ [t]) s'))
    (wpB_scan (F := F) (s := o.s) (fun s b => (HInv T hist s b ∧ Fit (hist ++ s.tokens)) ∧ Count T hist s b) hid ⟨⟨hI, hcon⟩, hc⟩ (by omega)
      (by have := Bad.ok T; generalize Bad T = B at this ⊢; rw [hp] at this; exact this.suffix) hfit
      (fun s b s' b' h _ hf => ⟨⟨h.1.1.fetch hf, Fit.append.2 ⟨(Fit.append.1 h.1.2).1, (Fit.append.1 h.1.2).2.fetch hf⟩⟩, h.2.fetch hf⟩)
      (fun s b h _ _ => ⟨⟨h.1.1.stale, h.1.2⟩, h.2.stale⟩)
      (fun s1 b1 e s' b' h he => h.1.1.err he)
      (by
        intro t ts s' b' hI' ⟨q, hq⟩ hf ha ht
        have := (hI'.1.1.avail true).take (t := t) (ts := ts) (hI'.2.avail true) hn hI'.1.2 ha ht
        have e : takeS t ts { s' with tokenAvailable := true } = takeS t ts s' := rfl
        rw [e] at this
        rcases this with ⟨g1, g2, g3, g4, g5⟩ | g
        · refine Or.inl ⟨g1, g3, g4, ⟨g5, by have h := hI'.1.2; have ht : s'.tokens = t :: ts := ht; rw [ht] at h; rw [List.append_assoc]; exact h⟩, g2, hf.imp (fun h => h.mk' (Nat.le_refl _) (Nat.le_refl _) rfl (fun k hk _ => hk)) id, ?_⟩
          exact ⟨p ++ q, by rw [hp, hq, List.append_assoc]⟩
        · exact Or.inr g)) hR
  obtain ⟨b', hR', hpost⟩ := this
  unfold ScannerObj.scan
  revert hpost hR'
  generalize runA (Scanner.scan F) o.s o.r = q
  obtain ⟨⟨out, s'⟩, r'⟩ := q
  intro hR' hpost
  cases out with
  | ok t =>
    rcases hpost with ⟨g1, g2, g3, g4, g5, g6, g7⟩ | g
    · exact Or.inl ⟨g1, b', hR', g2, g3, g4, g5, g6, g7⟩
    · exact Or.inr g
  | err e => exact hpost
  | panic p => exact hpost
  | fuel => exact hpost

theorem SDone.scan {o : ScannerObj} (h : SDone o.s) (F : Nat) :
    o.scan F = (.ok ⟨.streamEnd, Mark.zero, Mark.zero⟩, o) ∧ o.next F = (.ok none, o) := by
  obtain ⟨s, r⟩ := o
  have hp : s.streamEndProduced = true := h.produced
  constructor
  · have : Scanner.scan F s = .ret (.ok ⟨.streamEnd, Mark.zero, Mark.zero⟩, s) := by
      unfold Scanner.scan
      show (M.bind M.get _) s = _
      simp [M.bind, M.get, Free.bind, M.cont, hp]
      rfl
    simp [ScannerObj.scan, runA, this, execA]
  · have : Scanner.next F s = .ret (.ok none, s) := by
      unfold Scanner.next
      show (M.bind M.get _) s = _
      simp [M.bind, M.get, Free.bind, M.cont, hp]
      rfl
    simp [ScannerObj.next, runA, this, execA]

/-- Reading: either the stream has not ended, or it has ended after a prefix `ts0` of the tokens,
followed by copies of the stream end. -/
theorem ScannerObj.Reads.inv {items : List SrcItem} {enc : Encoding} {T : List Char} {F : Nat} (hT : Future enc items T)
    (hF : T.length + 2 < F) {ts : List Token} {o : ScannerObj} (h : Reads F (new items enc) ts o) :
    Run T ts o ∨ ∃ ts0 n, ts = ts0 ++ List.replicate n ⟨.streamEnd, Mark.zero, Mark.zero⟩ ∧ Ended T ts0 o.s := by
  induction h with
  | nil => exact Or.inl (Run.start hT)
  | @snoc ts t o1 o2 h hs ih =>
    rcases ih with ih | ⟨ts0, n, rfl, ih⟩
    · have := ih.scan hF
      rw [hs] at this
      rcases this with h' | h'
      · exact Or.inl h'.2
      · exact Or.inr ⟨ts ++ [t], 0, by simp, h'.2⟩
    · have := (ih.done.scan F).1
      rw [this] at hs
      simp at hs
      obtain ⟨rfl, rfl⟩ := hs
      refine Or.inr ⟨ts0, n + 1, ?_, ih⟩
      rw [List.replicate_succ', List.append_assoc]

end Yaml
