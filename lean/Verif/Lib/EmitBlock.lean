import Verif.Lib.Block
import Verif.Lib.EmitPlain

/-
What `write_literal_scalar` writes denotes the value, in the sense of `Spec.BlockScalar`.
-/

namespace Yaml.Emitter
open Yaml Spec
set_option linter.unusedSimpArgs false
set_option linter.unusedVariables false

/-- Lines as they are, at the start of a line. -/
inductive LB (n : Nat) : Str → Str → Str → Prop
  | done (t : Str) : LB n t [] t
  | blank {t t1 V t' : Str} {c : Char} (hb : BreakAt t c t1) (h : LB n t1 V t') : LB n t (c :: V) t'
  | line {l t t1 V t' : Str} {c : Char} (hl : l ≠ []) (hn : ∀ x ∈ l, isLineBreak x = false) (hb : BreakAt t c t1) (h : LB n t1 V t') :
      LB n (List.replicate n ' ' ++ (l ++ t)) (l ++ c :: V) t'

def rawLine (l : Line) : Str := l.text ++ l.brk :: l.blank

theorem LB.split {n : Nat} {t V t' : Str} (h : LB n t V t') :
    ∃ bs t2 ls, BlankLines n t bs t2 ∧ Lines n t2 ls t' ∧ V = bs ++ ls.flatMap rawLine := by
  induction h with
  | done t => exact ⟨[], t, [], .stop t, .done t, rfl⟩
  | @blank t t1 V t' c hb h ih =>
    obtain ⟨bs, t2, ls, h1, h2, rfl⟩ := ih
    exact ⟨c :: bs, t2, ls, .line (k := 0) (Nat.zero_le _) hb h1, h2, rfl⟩
  | @line l t t1 V t' c hl hn hb h ih =>
    obtain ⟨bs, t2, ls, h1, h2, rfl⟩ := ih
    exact ⟨[], _, ⟨l, c, bs⟩ :: ls, .stop _, .line hl hn hb h1 h2, by simp [rawLine]⟩

theorem breakAt_isBreak {t t1 : Str} {c : Char} (h : BreakAt t c t1) : isBreak c = true := by
  cases h with
  | crlf => decide
  | one d t hb hc =>
    unfold breakValue
    split
    · rw [← isLineBreak_eq]; exact hb
    · decide

theorem _root_.Yaml.Spec.BlankLines.breaks {n : Nat} {t bs t' : Str} (h : BlankLines n t bs t') : ∀ c ∈ bs, isBreak c = true := by
  induction h with
  | stop => simp
  | line hk hb h ih =>
    intro d hd
    rcases List.mem_cons.1 hd with rfl | hd
    · exact breakAt_isBreak hb
    · exact ih d hd

theorem _root_.Yaml.Spec.Lines.breaks {n : Nat} {t t' : Str} {ls : List Line} (h : Lines n t ls t') : ∀ l ∈ ls, isBreak l.brk = true ∧ ∀ c ∈ l.blank, isBreak c = true := by
  induction h with
  | done => simp
  | line hl hn hb hbl h ih =>
    intro d hd
    rcases List.mem_cons.1 hd with rfl | hd
    · exact ⟨breakAt_isBreak hb, hbl.breaks⟩
    · exact ih d hd

theorem raw_content : ∀ (ls : List Line) (M : Line), ls.getLast? = some M → ls.flatMap rawLine = content false ls ++ M.brk :: M.blank := by
  intro ls
  induction ls with
  | nil => intro M h; cases h
  | cons l ls ih =>
    intro M h
    cases ls with
    | nil => simp at h; subst h; simp [rawLine, content]
    | cons m ls =>
      rw [List.getLast?_cons_cons] at h
      have := ih M h
      rw [List.flatMap_cons, this]
      simp [content, between, rawLine]

/-- Chomping off one line break. -/
theorem chomp_one {bs : Str} {ls : List Line} {y : Str} {b d : Char} {y0 : Str} (hbs : ∀ c ∈ bs, isBreak c = true)
    (hls : ∀ l ∈ ls, isBreak l.brk = true ∧ ∀ c ∈ l.blank, isBreak c = true) (h : bs ++ ls.flatMap rawLine = y ++ [b])
    (hy : y = y0 ++ [d]) (hd : isBreak d = false) :
    ls ≠ [] ∧ bs ++ content false ls = y ∧ ∃ M, ls.getLast? = some M ∧ M.brk = b := by
  subst hy
  cases hM : ls.getLast? with
  | none =>
    rw [List.getLast?_eq_none_iff] at hM
    subst hM
    exfalso
    simp at h
    have := hbs d (by rw [h]; simp)
    rw [hd] at this; cases this
  | some M =>
    have hne : ls ≠ [] := by rintro rfl; simp at hM
    rw [raw_content ls M hM] at h
    obtain ⟨hb1, hb2⟩ := hls M (List.mem_of_getLast? hM)
    have hbl : M.blank = [] := by
      rcases List.eq_nil_or_concat M.blank with h0 | ⟨z, x, h0⟩
      · exact h0
      · exfalso
        rw [h0] at h
        have h' : (bs ++ content false ls ++ M.brk :: z) ++ [x] = (y0 ++ [d]) ++ [b] := by simpa using h
        have h1 := (List.append_inj' h' rfl).1
        rcases List.eq_nil_or_concat z with h2 | ⟨z', x', h2⟩
        · subst h2
          have h3 := (List.append_inj' (s₁ := bs ++ content false ls) (t₁ := [M.brk]) (s₂ := y0) (t₂ := [d]) (by simpa using h1) rfl).2
          simp at h3
          rw [h3, hd] at hb1; cases hb1
        · subst h2
          have h3 := (List.append_inj' (s₁ := bs ++ content false ls ++ M.brk :: z') (t₁ := [x']) (s₂ := y0) (t₂ := [d]) (by simpa using h1) rfl).2
          simp at h3
          have := hb2 x' (by rw [h0]; simp)
          rw [h3, hd] at this; cases this
    rw [hbl] at h
    have h' : (bs ++ content false ls) ++ [M.brk] = (y0 ++ [d]) ++ [b] := by simpa using h
    obtain ⟨h1, h2⟩ := List.append_inj' h' rfl
    simp at h2
    exact ⟨hne, h1, M, rfl, h2⟩

/-- The text ends with a line break, when it starts after one iff `breaks`. -/
def endsBrk : Bool → Str → Bool
  | b, [] => b
  | _, c :: cs => endsBrk (isBreak c) cs

/-- What follows the scalar: if it does not end with a line break, one is written. -/
def Tail (b : Break) (ends : Bool) (T fin T' : Str) : Prop :=
  (ends = true → fin = [] ∧ T = T' ∧ (b ≠ .cr ∨ T.head? ≠ some '\n')) ∧ (ends = false → ∃ c, fin = [c] ∧ BreakAt T c T')

theorem writes_literalLoop : ∀ (cs : Str) (breaks : Bool) (s : EState), s.lineBreak ≠ .any → 1 ≤ s.indent →
    (∀ c ∈ cs, isPrintable c = true) → (breaks = true → s.column = 0 ∧ s.indention = true) → s.whitespace = true → (breaks = false → s.indention = false) →
    ∃ s' w, Writes (literalLoop cs breaks) s () s' w ∧ Wrote s w s' ∧ s'.whitespace = true ∧ s'.indention = endsBrk breaks cs ∧
      (endsBrk breaks cs = true → cs ≠ [] ∨ breaks = true → s'.column = 0) ∧
      ∀ T fin T', Tail s.lineBreak (endsBrk breaks cs) T fin T' →
        (breaks = true → LB s.indent.toNat (w ++ T) (cs ++ fin) T' ∧ (s.lineBreak ≠ .cr ∨ (w ++ T).head? ≠ some '\n')) ∧
        (breaks = false → ∃ l t c t1 V, w ++ T = l ++ t ∧ (∀ x ∈ l, isLineBreak x = false) ∧ BreakAt t c t1 ∧ LB s.indent.toNat t1 V T' ∧ cs ++ fin = l ++ c :: V) := by
  intro cs
  induction cs with
  | nil =>
    intro breaks s hl hi hp hb hw hnb
    refine ⟨s, [], Writes.pure () s, Wrote.refl s, hw, ?_, ?_, ?_⟩
    · cases breaks with
      | true => exact (hb rfl).2
      | false => exact hnb rfl
    · rintro h1 (h | h)
      · exact absurd rfl h
      · exact (hb h).1
    · rintro T fin T' ⟨h1, h2⟩
      refine ⟨fun hbt => ?_, fun hbf => ?_⟩
      · obtain ⟨rfl, rfl, h3⟩ := h1 hbt
        exact ⟨.done _, h3⟩
      · obtain ⟨c, rfl, h3⟩ := h2 hbf
        exact ⟨[], T, c, T', [], rfl, by simp, h3, .done _, rfl⟩
  | cons c cs ih =>
    intro breaks s hl hi hp hb hw hnb
    have hpc := hp c List.mem_cons_self
    have hp' : ∀ d ∈ cs, isPrintable d = true := fun d hd => hp d (List.mem_cons_of_mem _ hd)
    rw [show literalLoop (c :: cs) breaks = _ from by unfold literalLoop; rfl]
    by_cases hk : isBreak c = true
    · rw [if_pos hk]
      have hcc := printable_break hpc hk
      obtain ⟨s', w, i1, i2, i3, i4, i5, i6⟩ := ih true { s with column := 0, line := s.line + 1, indention := true } hl hi hp' (fun _ => ⟨rfl, rfl⟩) hw (by simp)
      refine ⟨s', breakText s.lineBreak c ++ w, ?_, ?_, i3, ?_, ?_, ?_⟩
      · exact (writes_writeBreak c s).bind (Writes.bind_modify (g := fun s => { s with indention := true }) i1)
      · exact ((wrote_break hl hk).setI true).trans i2
      · rw [i4]; simp [endsBrk, hk]
      · intro h _; exact i5 (by simpa [endsBrk, hk] using h) (Or.inr rfl)
      · intro T fin T' ht
        have ht' : Tail s.lineBreak (endsBrk true cs) T fin T' := by simpa [endsBrk, hk] using ht
        obtain ⟨j1, j2⟩ := (i6 T fin T' ht').1 rfl
        have hba : BreakAt (breakText s.lineBreak c ++ (w ++ T)) c (w ++ T) := breakAt_text hl hcc j2
        refine ⟨fun _ => ⟨?_, ?_⟩, fun _ => ⟨[], _, c, w ++ T, cs ++ fin, by simp, by simp, hba, j1, rfl⟩⟩
        · rw [List.append_assoc]; exact .blank hba j1
        · rw [List.append_assoc]; exact breakText_head hl hcc _
    · rw [if_neg hk]
      have hk' : isBreak c = false := by simpa using hk
      have hlb : isLineBreak c = false := by rw [isLineBreak_eq]; exact hk'
      have hwr : ∃ s0 w0, Writes (M.when breaks writeIndent) s () s0 w0 ∧ Wrote s w0 s0 ∧ s0.whitespace = true ∧
          w0 = if breaks then List.replicate s.indent.toNat ' ' else [] := by
        cases breaks with
        | true =>
          obtain ⟨h1, h2⟩ := writes_indent_col0 (hb rfl).1 hi (hb rfl).2
          exact ⟨_, _, Writes.when_true rfl h1, h2, rfl, rfl⟩
        | false => exact ⟨s, [], Writes.when_false rfl, Wrote.refl s, hw, rfl⟩
      obtain ⟨s0, w0, hw0, hwr0, hws0, hw0e⟩ := hwr
      obtain ⟨s', w, i1, i2, i3, i4, i5, i6⟩ := ih false { s0 with column := s0.column + 1, indention := false }
        (by show s0.lineBreak ≠ _; rw [hwr0.lineBreak]; exact hl) (by show 1 ≤ s0.indent; rw [hwr0.indent]; exact hi) hp' (by simp) hws0 (by simp)
      refine ⟨s', w0 ++ c :: w, ?_, ?_, i3, ?_, ?_, ?_⟩
      · exact hw0.bind ((writes_writeChar c s0).bind (Writes.bind_modify (g := fun s => { s with indention := false }) i1))
      · exact hwr0.trans (((wrote_char hk' s0).setI false).trans i2)
      · rw [i4]; simp [endsBrk, hk']
      · intro h _
        refine i5 (by simpa [endsBrk, hk'] using h) ?_
        cases cs with
        | nil => simp [endsBrk, hk'] at h
        | cons => simp
      · intro T fin T' ht
        have ht' : Tail s0.lineBreak (endsBrk false cs) T fin T' := by rw [hwr0.lineBreak]; simpa [endsBrk, hk'] using ht
        obtain ⟨l, t, c', t1, V, j1, j2, j3, j4, j5⟩ := (i6 T fin T' ht').2 rfl
        have j4 : LB s.indent.toNat t1 V T' := by have := j4; rw [show ({ s0 with column := s0.column + 1, indention := false } : EState).indent = s0.indent from rfl, hwr0.indent] at this; exact this
        have hl' : ∀ x ∈ c :: l, isLineBreak x = false := by
          intro x hx
          rcases List.mem_cons.1 hx with rfl | hx
          · exact hlb
          · exact j2 x hx
        refine ⟨fun hbt => ⟨?_, ?_⟩, fun hbf => ⟨c :: l, t, c', t1, V, ?_, hl', j3, j4, ?_⟩⟩
        · rw [hw0e, hbt, if_pos rfl]
          have := LB.line (n := s.indent.toNat) (l := c :: l) (by simp) hl' j3 j4
          have e1 : List.replicate s.indent.toNat ' ' ++ c :: w ++ T = List.replicate s.indent.toNat ' ' ++ (c :: l ++ t) := by
            rw [List.append_assoc, List.cons_append, j1, List.cons_append]
          rw [e1]
          show LB _ _ (c :: (cs ++ fin)) T'
          rw [j5]
          exact this
        · right
          rw [hw0e, hbt, if_pos rfl]
          obtain ⟨m, hm⟩ : ∃ m, s.indent.toNat = m + 1 := ⟨s.indent.toNat - 1, by omega⟩
          rw [hm, List.replicate_succ]
          simp
        · rw [hw0e, hbf, if_neg (by simp)]
          simp only [List.nil_append, List.cons_append]
          rw [j1]
        · show c :: (cs ++ fin) = _
          rw [j5]; rfl

/-- The chomping indicator for a value. -/
def chompFor (v : Str) : Chomp :=
  match v.reverse with
  | [] => .strip
  | c :: rest => if !isBreak c then .strip else if isBreakzO rest.head? then .keep else .clip

/-- Is an indentation indicator needed? -/
def hinted (v : Str) : Bool := isSpaceO v.head? || isBreakO v.head?

theorem writes_blockHints (v : Str) (s : EState) (hb : 1 ≤ s.bestIndent ∧ s.bestIndent ≤ 9) :
    ∃ s' hd, Writes (writeBlockHints v) s () s' hd ∧ Header hd (chompFor v) (if hinted v then s.bestIndent.toNat else 0) ∧
      Wrote { s with openEnded := if chompFor v = .keep then 2 else 0 } hd s' ∧ (∀ c ∈ hd, isBreak c = false) := by
  obtain ⟨hb1, hb2⟩ := hb
  have hdig : s.bestIndent.toNat ≠ 0 ∧ s.bestIndent.toNat < 10 := by omega
  have hd1 : (Char.ofNat (48 + s.bestIndent.toNat)).toNat = 48 + s.bestIndent.toNat := by
    have : s.bestIndent.toNat = 1 ∨ s.bestIndent.toNat = 2 ∨ s.bestIndent.toNat = 3 ∨ s.bestIndent.toNat = 4 ∨ s.bestIndent.toNat = 5 ∨
      s.bestIndent.toNat = 6 ∨ s.bestIndent.toNat = 7 ∨ s.bestIndent.toNat = 8 ∨ s.bestIndent.toNat = 9 := by omega
    rcases this with h | h | h | h | h | h | h | h | h <;> rw [h] <;> decide
  have hdb := (digit_facts hdig hd1).2.2.2.2.2
  -- the indentation indicator
  obtain ⟨s1, w1, h1, h2, h3⟩ : ∃ s1 w1, Writes (M.when (isSpaceO v.head? || isBreakO v.head?) (do
      if 0 ≤ s.bestIndent ∧ s.bestIndent ≤ 9 then
        writeIndicator [Char.ofNat (48 + s.bestIndent.toNat)] false false false
      else M.panic .indentHint)) s () s1 w1 ∧ Wrote s w1 s1 ∧ w1 = if hinted v then [Char.ofNat (48 + s.bestIndent.toNat)] else [] := by
    cases hh : hinted v with
    | true =>
      obtain ⟨s1, h1, h2, _, _⟩ := writes_indicator0 [Char.ofNat (48 + s.bestIndent.toNat)] false false s (by simpa using hdb)
      refine ⟨s1, _, Writes.when_true hh ?_, h2, by simp⟩
      rw [if_pos ⟨by omega, hb2⟩]
      exact h1
    | false => exact ⟨s, [], Writes.when_false hh, Wrote.refl s, by simp⟩
  have hw1 : ∀ c ∈ w1, isBreak c = false := by
    rw [h3]; split
    · simpa using hdb
    · simp
  have h20 : ∀ o, Wrote { s with openEnded := o } w1 { s1 with openEnded := o } := by
    intro o
    refine ⟨?_, h2.col⟩
    have := h2.frame
    rw [this]
  unfold writeBlockHints
  unfold chompFor
  cases hv : v.reverse with
  | nil =>
    obtain ⟨s2, i1, i2, _, _⟩ := writes_indicator0 ['-'] false false { s1 with openEnded := 0 } (by simp [isBreak])
    refine ⟨s2, w1 ++ ['-'], ?_, ?_, ?_, ?_⟩
    · exact Writes.bind_get (h1.bind (Writes.bind_modify (g := fun s => { s with openEnded := 0 }) i1))
    · rw [h3]
      cases hh : hinted v
      · exact Header.strip
      · exact Header.digitStrip hdig hd1
    · exact (h20 0).trans i2
    · intro c hc; rcases List.mem_append.1 hc with h | h
      · exact hw1 c h
      · simp at h; subst h; decide
  | cons c rest =>
    by_cases hc : (!isBreak c) = true
    · obtain ⟨s2, i1, i2, _, _⟩ := writes_indicator0 ['-'] false false { s1 with openEnded := 0 } (by simp [isBreak])
      refine ⟨s2, w1 ++ ['-'], ?_, ?_, ?_, ?_⟩
      · refine Writes.bind_get (h1.bind (Writes.bind_modify (g := fun s => { s with openEnded := 0 }) ?_))
        simp only [hc, if_true]
        exact i1
      · rw [h3]
        simp only [hc, if_true]
        cases hh : hinted v
        · exact Header.strip
        · exact Header.digitStrip hdig hd1
      · simp only [hc, if_true]
        exact (h20 0).trans i2
      · intro c hc; rcases List.mem_append.1 hc with h | h
        · exact hw1 c h
        · simp at h; subst h; decide
    · by_cases hz : isBreakzO rest.head? = true
      · obtain ⟨s2, i1, i2, _, _⟩ := writes_indicator0 ['+'] false false { s1 with openEnded := 2 } (by simp [isBreak])
        refine ⟨s2, w1 ++ ['+'], ?_, ?_, ?_, ?_⟩
        · refine Writes.bind_get (h1.bind (Writes.bind_modify (g := fun s => { s with openEnded := 0 }) ?_))
          simp only [hc, if_false, hz, if_true]
          exact (Writes.bind_modify (g := fun s => { s with openEnded := 2 }) i1)
        · rw [h3]
          simp only [hc, if_false, hz, if_true]
          cases hh : hinted v
          · exact Header.keep
          · exact Header.digitKeep hdig hd1
        · simp only [hc, if_false, hz, if_true]
          exact (h20 2).trans i2
        · intro c hc; rcases List.mem_append.1 hc with h | h
          · exact hw1 c h
          · simp at h; subst h; decide
      · refine ⟨{ s1 with openEnded := 0 }, w1, ?_, ?_, ?_, hw1⟩
        · have := h1.bind (f := fun _ => M.modify fun s => { s with openEnded := 0 }) (Writes.modify _ _)
          refine Writes.bind_get ?_
          refine (h1.bind (Writes.bind_modify (g := fun s => { s with openEnded := 0 }) (w' := []) ?_)).cast rfl (by simp)
          simp only [hc, if_false, hz]
          exact Writes.pure () _
        · rw [h3]
          simp only [hc, if_false, hz]
          cases hh : hinted v
          · exact Header.none
          · exact Header.digit hdig hd1
        · simp only [hc, if_false, hz]
          exact h20 0

theorem endsBrk_last (b : Bool) (v : Str) : endsBrk b v = match v.reverse with | [] => b | c :: _ => isBreak c := by
  induction v generalizing b with
  | nil => rfl
  | cons c v ih =>
    rw [endsBrk, ih]
    simp only [List.reverse_cons]
    cases v.reverse <;> rfl

/-- The indentation of the first line of content tells the indentation of the scalar. -/
theorem first_line {n k : Nat} {x : Char} {r t1 bs t2 t3 rest : Str} {ls : List Spec.Line} {n0 : Int} (ht1 : t1 = List.replicate n ' ' ++ x :: r)
    (hx : ¬ Spec.IsBlank x) (hxb : Spec.isLineBreak x = false) (hbl : Spec.BlankLines n t1 bs t2) (hls : Spec.Lines n t2 ls t3)
    (h3 : t3 = List.replicate k ' ' ++ rest) (hk : k < n) (hso : Spec.Solid rest) :
    (∀ y ls', ls = y :: ls' → y.indented = false) ∧ (ls = [] → (k : Int) ≤ n0 ∨ k = 0) := by
  have hb2 : t2 = List.replicate n ' ' ++ x :: r := by
    cases hbl with
    | stop => exact ht1
    | @line k' ta tb bs' _ c' hk' hba hbb =>
      exfalso
      obtain ⟨d', r'', rfl, hdb'⟩ := hba.head
      have h0 := congrArg (fun l => l[k']?) ht1
      simp only [List.getElem?_append_right, List.length_replicate, Nat.le_refl, Nat.sub_self, List.getElem?_cons_zero] at h0
      rcases Nat.lt_or_ge k' n with h | h
      · rw [List.getElem?_append_left (by simpa using h)] at h0
        simp [h] at h0
        subst h0; revert hdb'; decide
      · have : k' = n := by omega
        subst this
        rw [List.getElem?_append_right (by simp)] at h0
        simp at h0
        subst h0
        rw [isLineBreak_eq] at hxb; rw [hxb] at hdb'; cases hdb'
  cases hls with
  | done =>
    exfalso
    rw [h3] at hb2
    have h0 := congrArg (fun l => l[k]?) hb2
    rw [List.getElem?_append_left (l₁ := List.replicate n ' ') (by simpa using hk), List.getElem?_append_right (by simp)] at h0
    simp [hk] at h0
    cases rest with
    | nil => simp at h0
    | cons y rest =>
      simp at h0
      exact (hso y rest rfl).1 (Or.inl h0)
  | @line l' t' t1' bs' t2' _ c' ls' hl' hn' hb' hbl' h' =>
    refine ⟨?_, fun h => by cases h⟩
    rintro y ls' h
    simp only [List.cons.injEq] at h
    obtain ⟨rfl, _⟩ := h
    have := List.append_cancel_left hb2
    cases l' with
    | nil => exact absurd rfl hl'
    | cons z l' =>
      simp only [List.cons_append, List.cons.injEq] at this
      obtain ⟨rfl, _⟩ := this
      simp only [Spec.Line.indented, Bool.or_eq_false_iff, beq_eq_false_iff_ne]
      exact ⟨fun h => hx (Or.inl h), fun h => hx (Or.inr h)⟩

/-- The text of a literal scalar denotes the value. -/
theorem writes_writeLiteral (v : Str) (s : EState) (hl : s.lineBreak ≠ .any) (hi : 1 ≤ s.indent) (hb : 1 ≤ s.bestIndent ∧ s.bestIndent ≤ 9) (hv : BlockOk v) :
    ∃ s' w, Writes (writeLiteral v) s () s' (sep s ++ '|' :: w) ∧ Wrote { s with openEnded := if chompFor v = .keep then 2 else 0 } (sep s ++ '|' :: w) s' ∧
      s'.whitespace = true ∧ s'.indention = endsBrk true v ∧ (endsBrk true v = true → s'.column = 0) ∧
      ∀ n0 T fin T' k rest, s.indent = (if 0 ≤ n0 then n0 else 0) + s.bestIndent → Tail s.lineBreak (endsBrk true v) T fin T' →
        T' = List.replicate k ' ' ++ rest → k < s.indent.toNat → Solid rest → BlockScalar false n0 ('|' :: w ++ T) v rest := by
  obtain ⟨hch, hne, htr, hsb⟩ := hv
  obtain ⟨s1, w1, wr1, hw1, hi1⟩ := writes_indicator ['|'] false false s (by simp [isBreak])
  obtain ⟨s2, hd, w2, hhd, wr2, hdb⟩ := writes_blockHints v s1 (by rw [wr1.bestIndent]; exact hb)
  have hl2 : s2.lineBreak = s.lineBreak := by rw [wr2.lineBreak]; exact wr1.lineBreak
  have hin2 : s2.indent = s.indent := by rw [wr2.indent]; exact wr1.indent
  have h3 := (writes_putBreak s2).cast (w' := breakChars s.lineBreak) rfl (by rw [hl2])
  obtain ⟨s4, w4, i1, i2, i3, i4, i5, i6⟩ := writes_literalLoop v true { s2 with column := 0, line := s2.line + 1, whitespace := true, indention := true }
    (by show s2.lineBreak ≠ _; rw [hl2]; exact hl) (by show 1 ≤ s2.indent; rw [hin2]; exact hi) hch (fun _ => ⟨rfl, rfl⟩) rfl (by simp)
  refine ⟨s4, hd ++ (breakChars s.lineBreak ++ w4), ?_, ?_, i3, i4, fun h => i5 h (Or.inr rfl), ?_⟩
  · refine (w1.bind (f := fun _ => writeBlockHints v >>= fun _ => putBreak >>= fun _ => setWI true true >>= fun _ => literalLoop v true)
      (w2.bind (h3.bind (Writes.bind_modify (g := fun s => { s with whitespace := true, indention := true }) i1)))).cast rfl ?_
    simp
  · have a1 : Wrote { s with openEnded := if chompFor v = .keep then 2 else 0 } (sep s ++ ['|']) { s1 with openEnded := if chompFor v = .keep then 2 else 0 } := by
      refine ⟨?_, wr1.col⟩
      have := wr1.frame
      rw [this]
    have a3 : Wrote s2 (breakChars s.lineBreak) { s2 with column := 0, line := s2.line + 1, whitespace := true, indention := true } := by
      have := (wrote_putBreak (s := s2) (by rw [hl2]; exact hl)).setWI true true
      exact ⟨this.frame, by rw [this.col, hl2]⟩
    have := a1.trans (wr2.trans (a3.trans i2))
    simpa using this
  · intro n0 T fin T' k rest hn0 ht hT' hk hs
    obtain ⟨j1, j2⟩ := (i6 T fin T' (by show Tail s2.lineBreak _ _ _ _; rw [hl2]; exact ht)).1 rfl
    have j1 : LB s.indent.toNat (w4 ++ T) (v ++ fin) T' := by
      have := j1; rw [show ({ s2 with column := 0, line := s2.line + 1, whitespace := true, indention := true } : EState).indent = s2.indent from rfl, hin2] at this; exact this
    have j2 : s.lineBreak ≠ .cr ∨ (w4 ++ T).head? ≠ some '\n' := by
      have := j2; rw [show ({ s2 with column := 0, line := s2.line + 1, whitespace := true, indention := true } : EState).lineBreak = s2.lineBreak from rfl, hl2] at this; exact this
    obtain ⟨bs, t2, ls, g1, g2, g3⟩ := j1.split
    refine ⟨hd, chompFor v, (if hinted v then s1.bestIndent.toNat else 0), [], breakChars s.lineBreak ++ (w4 ++ T), '\n', w4 ++ T, s.indent.toNat, bs, t2, ls, T', k, hhd,
      by simp, .blanks (sp := []) (by simp), breakAt_chars hl j2, ?_, ?_, g1, g2, hT', hk, hs, ?_⟩
    · rw [wr1.bestIndent]
      intro h
      cases hh : hinted v with
      | false => rw [hh] at h; simp at h
      | true => simp only [if_true]; omega
    · intro h
      have hnh : hinted v = false := by
        cases hh : hinted v with
        | false => rfl
        | true =>
          rw [hh, wr1.bestIndent] at h
          simp only [if_true] at h
          omega
      refine ⟨by split at hn0 <;> omega, by omega, ?_⟩
      refine (fun ⟨x, r, hr, hx, hxb⟩ => first_line hr hx hxb g1 g2 hT' hk hs) (?_ : ∃ x r, w4 ++ T = List.replicate s.indent.toNat ' ' ++ x :: r ∧ ¬ IsBlank x ∧ isLineBreak x = false)
      unfold hinted at hnh
      simp only [Bool.or_eq_false_iff] at hnh
      cases v with
      | nil => exact absurd rfl hne
      | cons x v =>
        have hpx := hch x List.mem_cons_self
        have hxs : x ≠ ' ' := by rintro rfl; simp [isSpaceO] at hnh
        have hxb : isBreak x = false := by simpa [isBreakO] using hnh.2
        generalize hV : x :: v ++ fin = V at j1
        generalize ht4 : w4 ++ T = t4 at j1
        cases j1 with
        | done => cases hV
        | blank hb h =>
          cases hV
          rw [breakAt_isBreak hb] at hxb; cases hxb
        | @line l t t1 V' _ c hl' hn' hb' h' =>
          cases l with
          | nil => exact absurd rfl hl'
          | cons y l =>
            simp only [List.cons_append, List.cons.injEq] at hV
            obtain ⟨rfl, _⟩ := hV
            refine ⟨x, l ++ t, rfl, ?_, by rw [isLineBreak_eq]; exact hxb⟩
            rintro (h | h)
            · exact hxs h
            · exact printable_noTab hpx h
    · -- the value
      have hbs := g1.breaks
      have hls := g2.breaks
      rw [endsBrk_last] at ht
      have hchomp : chompFor v = match v.reverse with | [] => .strip | c :: rest => if !isBreak c then .strip else if isBreakzO rest.head? then .keep else .clip := rfl
      cases hr : v.reverse with
      | nil => simp at hr; exact absurd hr hne
      | cons c r =>
        rw [hr] at hchomp ht
        simp only [] at hchomp ht
        have hvr : v = r.reverse ++ [c] := by
          have := congrArg List.reverse hr
          simpa using this
        by_cases hc : isBreak c = true
        · obtain ⟨rfl, _, _⟩ := ht.1 hc
          rw [if_neg (by simp [hc])] at hchomp
          rw [List.append_nil] at g3
          by_cases hz : isBreakzO r.head? = true
          · rw [if_pos hz] at hchomp
            rw [hchomp]
            unfold ending
            cases hM : ls.getLast? with
            | none =>
              rw [List.getLast?_eq_none_iff] at hM
              subst hM
              rw [g3]; simp [content]
            | some M =>
              have hlne : ls ≠ [] := by rintro rfl; simp at hM
              rw [if_neg hlne, g3, raw_content ls M hM]
              simp
          · rw [if_neg hz] at hchomp
            rw [hchomp]
            cases r with
            | nil => simp [isBreakzO] at hz
            | cons d r =>
              have hd' : isBreak d = false := by simpa [isBreakzO, isBreakO] using hz
              obtain ⟨k1, k2, M, k3, k4⟩ := chomp_one (y := (d :: r).reverse) (b := c) (d := d) (y0 := r.reverse) hbs hls (by rw [← g3, hvr]) (by simp) hd'
              unfold ending
              rw [if_neg k1, k3, k2]
              simp only [k4]
              rw [hvr]; simp
        · have hc' : isBreak c = false := by simpa using hc
          obtain ⟨x, rfl, hbx⟩ := ht.2 hc'
          rw [if_pos (by simp [hc'])] at hchomp
          rw [hchomp]
          obtain ⟨k1, k2, M, k3, k4⟩ := chomp_one (y := v) (b := x) (d := c) (y0 := r.reverse) hbs hls (by rw [← g3]) hvr hc'
          unfold ending
          rw [if_neg k1, k3, k2]
          simp

end Yaml.Emitter
