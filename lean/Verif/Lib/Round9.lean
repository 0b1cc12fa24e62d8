import Verif.Lib.Round3

/-
Reading back, scanner side: indicators.
-/

namespace Yaml.Lx
open Yaml Scanner Spec
set_option linter.unusedSimpArgs false
set_option linter.unusedVariables false

/-- A block collection may start at column `n`. -/
def Cfg.base (d : TokenData) (n : Int) (A : Cfg) : Cfg :=
  if A.flow = 0 ∧ A.indent < n then { A with indents := A.indent :: A.indents, indent := n, toks := A.toks ++ [d] } else A

theorem base_flow (d : TokenData) (n : Int) (A : Cfg) : (A.base d n).flow = A.flow := by unfold Cfg.base; split <;> rfl
theorem base_keys (d : TokenData) (n : Int) (A : Cfg) : (A.base d n).keys = A.keys := by unfold Cfg.base; split <;> rfl
theorem base_mark (d : TokenData) (n : Int) (A : Cfg) : (A.base d n).mark = A.mark := by unfold Cfg.base; split <;> rfl
theorem base_indent (d : TokenData) {n : Int} {A : Cfg} (hf : A.flow = 0) (h : A.indent ≤ n) : (A.base d n).indent = n := by
  unfold Cfg.base; split
  · rfl
  · rename_i h'; have : ¬ A.indent < n := fun h => h' ⟨hf, h⟩; omega
theorem base_of_flow (d : TokenData) (n : Int) {A : Cfg} (hf : A.flow ≠ 0) : A.base d n = A := by
  unfold Cfg.base; rw [if_neg (fun h => hf h.1)]
theorem base_eq (d : TokenData) (n : Int) {A : Cfg} (h : A.indent = n) : A.base d n = A := by
  unfold Cfg.base; rw [if_neg (fun h' => by have := h'.2; omega)]

theorem blankzO_of {t : Str} (h : EndsTag t) : isBlankzO t.head? = true := by
  cases t with
  | nil => rfl
  | cons c r =>
    rcases h c r rfl with (rfl | rfl) | h
    · rfl
    · rfl
    · rw [isLineBreak_eq] at h
      simp [isBlankzO, isBreakzO, isBreakO, h]

theorem dash_notDoc {c : Char} {t : Str} (hz : EndsTag t) : ¬ IsDocMarker (c :: t) := by
  rintro ⟨r, h, _⟩
  rcases h with h | h
  · simp at h
    rcases hz '-' ('-' :: r) h.2 with (h | h) | h <;> revert h <;> decide
  · simp at h
    rcases hz '.' ('.' :: r) h.2 with (h | h) | h <;> revert h <;> decide

theorem dash_notBound {c : Char} {t : Str} (hz : EndsTag t) (hc : c ≠ '%') (m : Mark) : ¬ Bound m (c :: t) := by
  rintro (h | ⟨h | h, _⟩)
  · cases h
  · exact dash_notDoc hz h
  · simp at h; exact hc h

section
variable {F : Nat} {A : Cfg} {g t : Str}

theorem to_allowed_block (hf : A.flow = 0) (h : A.allowed = true ∨ hasBrk g = true) : (A.to g).allowed = true := by
  show (A.allowed || (A.flow == 0 && hasBrk g)) = true
  rcases h with h | h <;> simp [h, hf]

theorem roll_base {d : TokenData} {n : Int} (hc : ((advance A.mark g).column : Int) = n) :
    (A.to g).roll d = { A.base d n with mark := advance A.mark g, allowed := (A.to g).allowed, keys := (A.to g).keys } := by
  unfold Cfg.roll Cfg.base
  have e : ((A.to g).mark.column : Int) = n := hc
  rw [e]
  by_cases h : A.flow = 0 ∧ A.indent < n
  · rw [if_pos h, if_pos (show (A.to g).flow = 0 ∧ (A.to g).indent < n from h)]; rfl
  · rw [if_neg h, if_neg (show ¬ ((A.to g).flow = 0 ∧ (A.to g).indent < n) from h)]; rfl

theorem clear_tail (A : Cfg) : A.clear.keys.tail = A.keys.tail := by
  unfold Cfg.clear
  cases A.keys <;> rfl

/-- `-` and `?` in block context. -/
theorem read_dash {c : Char} {d d' : TokenData} (hcd : (c = '-' ∧ d = .blockSequenceStart ∧ d' = .blockEntry) ∨ (c = '?' ∧ d = .blockMappingStart ∧ d' = .key))
    (hA : Cool A) (hf : A.flow = 0) (hg : Blanks g) (ha : A.allowed = true ∨ hasBrk g = true) {n : Int}
    (hc : ((advance A.mark g).column : Int) = n) (hi : A.indent ≤ n) (hz : EndsTag t) :
    ∃ B, Reach F A (g ++ (c :: t)) B t ∧ Moved (A.base d n) B [d'] ∧ Dead B ∧ B.allowed = true ∧ B.mark = advance (advance A.mark g) [c] := by
  have hto := hA.to g
  have hal := to_allowed_block hf ha
  have hst : Starts (c :: t) := by
    rcases hcd with ⟨rfl, _⟩ | ⟨rfl, _⟩ <;> exact starts_cons (by decide) (by decide) (by decide) (by decide) (by decide)
  have hcp : c ≠ '%' := by rcases hcd with ⟨rfl, _⟩ | ⟨rfl, _⟩ <;> decide
  have hlex : Lex F (A.to g) (c :: t) (((((A.to g).roll d).clear.allow true).eat [c]).push d') t := by
    rcases hcd with ⟨rfl, rfl, rfl⟩ | ⟨rfl, rfl, rfl⟩
    · exact lex_blockEntry (blankzO_of hz) (Or.inr (dash_notDoc hz)) (fun _ => hal) hto.hot
    · have := lex_key (F := F) (A := A.to g) (t := t) (fun _ => blankzO_of hz) (fun _ => hal) hto.hot
      have e : ((A.to g).flow == 0) = true := by show (A.flow == 0) = true; simp [hf]
      rwa [e] at this
  refine ⟨_, Reach.one hg hst (by simp) (dash_notBound hz hcp _) (hA.cold _) (fun _ => by omega) hlex, ?_, ?_, rfl, ?_⟩
  · rw [roll_base hc]
    have hcl : Cool { A.base d n with mark := advance A.mark g, allowed := (A.to g).allowed, keys := (A.to g).keys } :=
      hto.same rfl (by show (A.base d n).flow = (A.to g).flow; rw [base_flow]; rfl) (Nat.le_refl _)
    refine ⟨rfl, rfl, rfl, rfl, ?_, ?_⟩
    · exact hcl.clear.1.same rfl rfl (advance_line _ _)
    · rw [base_keys]
      show KeySub (Cfg.clear _).keys.tail _
      rw [clear_tail]
      exact (to_sub A g).tail
  · rw [roll_base hc]
    have hcl : Cool { A.base d n with mark := advance A.mark g, allowed := (A.to g).allowed, keys := (A.to g).keys } :=
      hto.same rfl (by show (A.base d n).flow = (A.to g).flow; rw [base_flow]; rfl) (Nat.le_refl _)
    exact hcl.clear.2
  · rw [roll_base hc]; rfl

/-- `:` after an explicit key, in block context. -/
theorem read_colon (hA : Cool A) (hf : A.flow = 0) (hg : Blanks g) (ha : A.allowed = true ∨ hasBrk g = true) (hd : Dead A ∨ hasBrk g = true)
    (hc : ((advance A.mark g).column : Int) = A.indent) (hz : EndsTag t) :
    ∃ B, Reach F A (g ++ (':' :: t)) B t ∧ Moved A B [.value] ∧ Dead B ∧ B.allowed = true ∧ B.mark = advance (advance A.mark g) [':'] := by
  have hto := hA.to g
  have hal := to_allowed_block hf ha
  have hdd : Dead (A.to g) := by
    rcases hd with h | h
    · exact h.to g
    · exact hA.dead h
  obtain ⟨k, ks, hk⟩ := hto.nonempty
  have hlex := lex_value (F := F) (A := A.to g) (t := t) (fun _ => blankzO_of hz) hk (hdd k ks hk) (fun _ => hal)
  have e : ((A.to g).flow == 0) = true := by show (A.flow == 0) = true; simp [hf]
  rw [e, roll_base hc, base_eq _ _ rfl] at hlex
  refine ⟨_, Reach.one hg (starts_cons (by decide) (by decide) (by decide) (by decide) (by decide)) (by simp) (dash_notBound hz (by decide) _) (hA.cold _)
    (fun _ => by omega) hlex, ⟨rfl, rfl, rfl, rfl, ?_, (to_sub A g).tail⟩, hdd, rfl, rfl⟩
  exact hto.same rfl rfl (advance_line _ _)

/-! ### Simple keys -/

theorem insertIdx_at {α : Type} (a b : List α) (x : α) : (a ++ b).insertIdx a.length x = a ++ x :: b := by
  induction a with
  | nil => rfl
  | cons y a ih => simp [ih]

/-- `:` after a simple key. -/
theorem key_colonW {B : Cfg} {k : SimpleKey} {ts : List TokenData} (hw : Warm A k B ts) (hg : Ws A.flow B.allowed g) (hgb : ∀ c ∈ g, isBreak c = false)
    (hi : (advance B.mark g).index ≤ k.mark.index + 1024)
    (hc : A.flow = 0 → A.indent ≤ (advance B.mark g).column) (hz : A.flow = 0 → EndsTag t) :
    ∃ C, Reach F B (g ++ (':' :: t)) C t ∧ Moved (A.base .blockMappingStart k.mark.column) C (.key :: (ts ++ [.value])) ∧ Dead C ∧ C.allowed = false ∧
      C.mark = advance (advance B.mark g) [':'] := by
  obtain ⟨h1, ks, h2, h3⟩ := hw.cold (m := advance B.mark g) (advance_flat B.mark g hgb).1 hi
  have hf' : B.flow = 0 → B.indent ≤ (advance B.mark g).column := by rw [hw.flow, hw.indent]; exact hc
  have hkeys : (B.to g).keys = k :: ks := h2
  have hlex := lex_valueSimple (F := F) (A := B.to g) (t := t) (fun h => blankzO_of (hz (hw.flow ▸ h))) hkeys hw.possible
  obtain ⟨X, hX⟩ : ∃ X, X = Cfg.rollKey k { B.to g with toks := (B.to g).toks.insertIdx k.tokenNumber .key, keys := { k with possible := false } :: ks } := ⟨_, rfl⟩
  rw [← hX] at hlex
  have htoks : (B.to g).toks.insertIdx k.tokenNumber .key = A.toks ++ .key :: ts := by
    show B.toks.insertIdx _ _ = _
    rw [hw.toks, hw.number]
    exact insertIdx_at _ _ _
  have hXe : X = { A.base .blockMappingStart k.mark.column with
      mark := advance B.mark g, allowed := (B.to g).allowed, keys := { k with possible := false } :: ks,
      toks := (A.base .blockMappingStart k.mark.column).toks ++ .key :: ts } := by
    rw [hX, htoks]
    unfold Cfg.rollKey Cfg.base
    have e1 : (B.to g).flow = A.flow := hw.flow
    have e2 : (B.to g).indent = A.indent := hw.indent
    have e3 : (B.to g).indents = A.indents := hw.indents
    simp only [e1, e2]
    by_cases h : A.flow = 0 ∧ A.indent < (k.mark.column : Int)
    · rw [if_pos h, if_pos h]
      simp only [Cfg.mk.injEq]
      refine ⟨rfl, trivial, trivial, by rw [e3], trivial, trivial, ?_⟩
      rw [hw.number]
      show (A.toks ++ .key :: ts).insertIdx _ _ = _
      rw [insertIdx_at]; simp
    · rw [if_neg h, if_neg h]
      simp only [Cfg.mk.injEq]
      exact ⟨rfl, trivial, trivial, e3, trivial, trivial, trivial⟩
  have hlen : ks.length = A.flow := by
    have := h3.length
    have h4 := hw.len
    simp only [List.length_tail] at this
    omega
  have hcool : Cool X := by
    rw [hXe]
    refine ⟨by show ks.length + 1 = (A.base _ _).flow + 1; rw [base_flow, hlen], ?_⟩
    intro x hx hp
    rcases List.mem_cons.1 hx with rfl | hx
    · simp at hp
    · obtain ⟨h5, h6⟩ := hw.cool x (keySub_cool h3 x hx hp) hp
      exact ⟨h5, Nat.le_trans h6 (advance_line _ _)⟩
  refine ⟨_, Reach.oneW (hw.flow.symm ▸ hg) (starts_cons (by decide) (by decide) (by decide) (by decide) (by decide)) (by simp) (notBound (by decide) (by decide) (by decide)) h1
    hf' hlex, ⟨?_, ?_, ?_, ?_, ?_, ?_⟩, ?_, rfl, ?_⟩
  · show X.flow = _; rw [hXe]
  · show X.indent = _; rw [hXe]
  · show X.indents = _; rw [hXe]
  · show X.toks ++ [.value] = _; rw [hXe]; simp
  · exact hcool.same rfl rfl (advance_line _ _)
  · rw [base_keys]
    show KeySub X.keys.tail _; rw [hXe]; exact h3
  · intro x xs hx
    have : X.keys = x :: xs := hx
    rw [hXe] at this
    simp at this
    rw [← this.1]
  · show advance X.mark [':'] = _; rw [hXe]

theorem key_colon {B : Cfg} {k : SimpleKey} {ts : List TokenData} (hw : Warm A k B ts) (hg : ∀ c ∈ g, c = ' ') (hi : (advance B.mark g).index ≤ k.mark.index + 1024)
    (hc : A.flow = 0 → A.indent ≤ (advance B.mark g).column) (hz : EndsTag t) :
    ∃ C, Reach F B (g ++ (':' :: t)) C t ∧ Moved (A.base .blockMappingStart k.mark.column) C (.key :: (ts ++ [.value])) ∧ Dead C ∧ C.allowed = false ∧
      C.mark = advance (advance B.mark g) [':'] :=
  key_colonW hw (spaces_blanks hg).ws (spaces_flat hg) hi hc fun _ => hz

/-! ### Flow collections -/

/-- `[` and `{`. -/
theorem read_open {c : Char} {d : TokenData} (hcd : (c = '[' ∧ d = .flowSequenceStart) ∨ (c = '{' ∧ d = .flowMappingStart)) (hA : Cool A) (hg : Blanks g)
    (hc : A.flow = 0 → A.indent < (advance A.mark g).column) :
    ∃ B, Reach F A (g ++ (c :: t)) B t ∧ B.flow = A.flow + 1 ∧ B.indent = A.indent ∧ B.indents = A.indents ∧ B.toks = A.toks ++ [d] ∧ Cool B ∧ Dead B ∧
      B.allowed = true ∧ KeySub B.keys.tail.tail A.keys.tail ∧ ((A.flow ≠ 0 ∨ hasBrk g = false) → A.allowed = false → KeySub B.keys.tail A.keys) ∧
      B.mark = advance (advance A.mark g) [c] := by
  have hto := hA.to g
  have hst : Starts (c :: t) := by
    rcases hcd with ⟨rfl, _⟩ | ⟨rfl, _⟩ <;> exact starts_cons (by decide) (by decide) (by decide) (by decide) (by decide)
  have hnb : ∀ m, ¬ Bound m (c :: t) := by
    intro m
    rcases hcd with ⟨rfl, _⟩ | ⟨rfl, _⟩ <;> exact notBound (by decide) (by decide) (by decide)
  have hsv : Cool (A.to g).save := hto.save (fun _ hf => by
    have := hc hf
    show A.indent ≠ ((advance A.mark g).column : Int); omega)
  have hfl : (A.to g).save.flow = A.flow := by unfold Cfg.save; split <;> rfl
  refine ⟨_, Reach.one hg hst (by simp) (hnb _) (hA.cold _) (fun hf => Int.le_of_lt (hc hf)) (lex_flowStart hcd (fun _ => hto.hot)), ?_, ?_, ?_, ?_, ?_, ?_, rfl, ?_, ?_, ?_⟩
  · show (A.to g).save.flow + 1 = _; rw [hfl]
  · show (A.to g).save.indent = _; unfold Cfg.save; split <;> rfl
  · show (A.to g).save.indents = _; unfold Cfg.save; split <;> rfl
  · show (A.to g).save.toks ++ [d] = _; unfold Cfg.save; split <;> rfl
  · exact hsv.down.1.same rfl rfl (advance_line _ _)
  · exact hsv.down.2
  · show KeySub (A.to g).save.keys.tail _
    have : (A.to g).save.keys.tail = (A.to g).keys.tail := by unfold Cfg.save; split <;> rfl
    rw [this]; exact (to_sub A g).tail
  · intro hgb ha
    show KeySub (A.to g).save.keys A.keys
    unfold Cfg.save
    rw [to_allowed hgb, ha]
    exact to_sub A g
  · show advance (A.to g).save.mark [c] = _
    have : (A.to g).save.mark = advance A.mark g := by unfold Cfg.save; split <;> rfl
    rw [this]

/-- `]` and `}`. -/
theorem read_close {c : Char} {d : TokenData} (hcd : (c = ']' ∧ d = .flowSequenceEnd) ∨ (c = '}' ∧ d = .flowMappingEnd)) (hA : Cool A) (hf : A.flow ≠ 0) (hg : Blanks g) :
    ∃ B, Reach F A (g ++ (c :: t)) B t ∧ B.flow + 1 = A.flow ∧ B.indent = A.indent ∧ B.indents = A.indents ∧ B.toks = A.toks ++ [d] ∧ Cool B ∧
      B.allowed = false ∧ KeySub B.keys A.keys.tail ∧ B.mark = advance (advance A.mark g) [c] := by
  have hto := hA.to g
  have hst : Starts (c :: t) := by
    rcases hcd with ⟨rfl, _⟩ | ⟨rfl, _⟩ <;> exact starts_cons (by decide) (by decide) (by decide) (by decide) (by decide)
  have hnb : ∀ m, ¬ Bound m (c :: t) := by
    intro m
    rcases hcd with ⟨rfl, _⟩ | ⟨rfl, _⟩ <;> exact notBound (by decide) (by decide) (by decide)
  refine ⟨_, Reach.one hg hst (by simp) (hnb _) (hA.cold _) (fun h => absurd h hf) (lex_flowEnd hcd hf hto.hot), ?_, rfl, rfl, rfl, ?_, rfl, ?_, rfl⟩
  · show A.flow - 1 + 1 = _; omega
  · exact (hto.clear.1.up hf).same rfl rfl (advance_line _ _)
  · show KeySub (A.to g).clear.keys.tail _
    rw [clear_tail]; exact (to_sub A g).tail

/-- `,`. -/
theorem read_comma (hA : Cool A) (hf : A.flow ≠ 0) (hg : Blanks g) :
    ∃ B, Reach F A (g ++ (',' :: t)) B t ∧ Moved A B [.flowEntry] ∧ Dead B ∧ B.allowed = true ∧ B.mark = advance (advance A.mark g) [','] := by
  have hto := hA.to g
  refine ⟨_, Reach.one hg (starts_cons (by decide) (by decide) (by decide) (by decide) (by decide)) (by simp) (notBound (by decide) (by decide) (by decide)) (hA.cold _)
    (fun h => absurd h hf) (lex_flowEntry hto.hot), ⟨rfl, rfl, rfl, rfl, ?_, ?_⟩, hto.clear.2, rfl, rfl⟩
  · exact hto.clear.1.same rfl rfl (advance_line _ _)
  · show KeySub (A.to g).clear.keys.tail _
    rw [clear_tail]; exact (to_sub A g).tail

/-- `?` in flow context. -/
theorem read_fkey (hA : Cool A) (hf : A.flow ≠ 0) (hg : Blanks g) :
    ∃ B, Reach F A (g ++ ('?' :: t)) B t ∧ Moved A B [.key] ∧ Dead B ∧ B.allowed = false ∧ B.mark = advance (advance A.mark g) ['?'] := by
  have hto := hA.to g
  have hlex := lex_key (F := F) (A := A.to g) (t := t) (fun h => absurd h hf) (fun h => absurd h hf) hto.hot
  have e : ((A.to g).flow == 0) = false := by show (A.flow == 0) = false; simp [hf]
  have er : (A.to g).roll .blockMappingStart = A.to g := by unfold Cfg.roll; rw [if_neg (fun h => hf h.1)]
  rw [e, er] at hlex
  refine ⟨_, Reach.one hg (starts_cons (by decide) (by decide) (by decide) (by decide) (by decide)) (by simp) (notBound (by decide) (by decide) (by decide)) (hA.cold _)
    (fun h => absurd h hf) hlex, ⟨rfl, rfl, rfl, rfl, ?_, ?_⟩, hto.clear.2, rfl, rfl⟩
  · exact hto.clear.1.same rfl rfl (advance_line _ _)
  · show KeySub (A.to g).clear.keys.tail _
    rw [clear_tail]; exact (to_sub A g).tail

/-- `:` after an explicit key, in flow context. -/
theorem read_fcolon (hA : Cool A) (hf : A.flow ≠ 0) (hg : Blanks g) (hd : Dead A) :
    ∃ B, Reach F A (g ++ (':' :: t)) B t ∧ Moved A B [.value] ∧ Dead B ∧ B.allowed = false ∧ B.mark = advance (advance A.mark g) [':'] := by
  have hto := hA.to g
  have hdd : Dead (A.to g) := hd.to g
  obtain ⟨k, ks, hk⟩ := hto.nonempty
  have hlex := lex_value (F := F) (A := A.to g) (t := t) (fun h => absurd h hf) hk (hdd k ks hk) (fun h => absurd h hf)
  have e : ((A.to g).flow == 0) = false := by show (A.flow == 0) = false; simp [hf]
  have er : (A.to g).roll .blockMappingStart = A.to g := by unfold Cfg.roll; rw [if_neg (fun h => hf h.1)]
  rw [e, er] at hlex
  refine ⟨_, Reach.one hg (starts_cons (by decide) (by decide) (by decide) (by decide) (by decide)) (by simp) (notBound (by decide) (by decide) (by decide)) (hA.cold _)
    (fun h => absurd h hf) hlex, ⟨rfl, rfl, rfl, rfl, ?_, (to_sub A g).tail⟩, hdd, rfl, rfl⟩
  exact hto.same rfl rfl (advance_line _ _)

/-! ### Empty flow collections as simple keys -/

/-- Where a first bracket of a simple key has been read. -/
theorem pair_close {A B : Cfg} {k : SimpleKey} {ks : List SimpleKey} {ts : List TokenData} {t : Str} {F : Nat} {c' : Char} {d' : TokenData}
    (hcd' : (c' = ']' ∧ d' = .flowSequenceEnd) ∨ (c' = '}' ∧ d' = .flowMappingEnd)) (hf : B.flow = A.flow + 1) (hi : B.indent = A.indent)
    (hi' : B.indents = A.indents) (ht : B.toks = A.toks ++ ts) (hk : B.keys = emptyKey :: k :: ks) (hsub : KeySub ks A.keys.tail)
    (hcool : ∀ x ∈ A.keys.tail, x.possible = true → x.required = false ∧ x.mark.line ≤ B.mark.line) (hlen : A.keys.length = A.flow + 1)
    (hl : k.mark.line = B.mark.line) (hp : k.possible = true) (hn : k.tokenNumber = A.toks.length) (hidx : B.mark.index ≤ k.mark.index + 1024) :
    ∃ C, Reach F B (c' :: t) C t ∧ Warm A k C (ts ++ [d']) ∧ C.allowed = false ∧ C.mark = advance B.mark [c'] := by
  have hst' : Starts (c' :: t) := by
    rcases hcd' with ⟨rfl, _⟩ | ⟨rfl, _⟩ <;> exact starts_cons (by decide) (by decide) (by decide) (by decide) (by decide)
  have hnb' : ∀ m, ¬ Bound m (c' :: t) := by
    intro m
    rcases hcd' with ⟨rfl, _⟩ | ⟨rfl, _⟩ <;> exact notBound (by decide) (by decide) (by decide)
  have hcb' : isBreak c' = false := by rcases hcd' with ⟨rfl, _⟩ | ⟨rfl, _⟩ <;> decide
  have hcold : (staleList B.mark ks.reverse).2 = none := stale_cold fun x hx ⟨h1, h2⟩ => by
    have := (hcool x (keySub_cool hsub x (List.mem_reverse.1 hx) h1) h1).1
    rw [h2] at this; cases this
  have hWB : staleList B.mark B.keys.reverse = ((staleList B.mark ks.reverse).1 ++ [k, emptyKey], none) := by
    rw [hk, List.reverse_cons, List.reverse_cons, List.append_assoc, staleList_append hcold]
    have : staleList B.mark ([k] ++ [emptyKey]) = ([k, emptyKey], none) := by
      rw [List.cons_append, staleList, if_neg (by
        simp only [Bool.and_eq_true, Bool.or_eq_true, decide_eq_true_eq]
        rintro ⟨_, h1 | h1⟩ <;> omega)]
      rfl
    rw [this]
  have hadv0 : advance B.mark [] = B.mark := rfl
  have hs2 : (staleList (advance B.mark []) B.keys.reverse).2 = none := by rw [hadv0, hWB]
  have hk2 : (B.to []).keys = emptyKey :: k :: (staleList B.mark ks.reverse).1.reverse := by
    show (staleList (advance B.mark []) B.keys.reverse).1.reverse = _
    rw [hadv0, hWB]; simp
  have hhot : (B.to []).hot = false := by unfold Cfg.hot; rw [hk2]; rfl
  have h2 : Reach F B (c' :: t) ((((B.to []).clear.up.allow false).eat [c']).push d') t := by
    have hf : (B.to []).flow ≠ 0 := by show B.flow ≠ 0; omega
    have := Reach.one (F := F) (A := B) (g := []) (t := c' :: t) (by intro x hx; cases hx) hst' (by simp) (hnb' _) hs2 (fun h => by omega)
      (lex_flowEnd (t := t) hcd' hf hhot)
    simpa using this
  refine ⟨_, h2, ?_, rfl, rfl⟩
  have hck : (B.to []).clear.up.keys = k :: (staleList B.mark ks.reverse).1.reverse := by
    unfold Cfg.up Cfg.clear; simp only [hk2]; rfl
  have hsub' : KeySub (staleList B.mark ks.reverse).1.reverse A.keys.tail := by
    have := (staleList_sub B.mark ks.reverse).reverse
    rw [List.reverse_reverse] at this
    exact this.trans hsub
  refine ⟨?_, hi, hi', ?_, ⟨_, hck, hsub'⟩, ?_, hlen, ?_, hp, hn⟩
  · show B.flow - 1 = _; omega
  · show B.toks ++ [d'] = _; rw [ht, List.append_assoc]
  · intro x hx hp
    obtain ⟨h1, h2⟩ := hcool x hx hp
    exact ⟨h1, Nat.le_trans h2 (advance_line _ [c'])⟩
  · show k.mark.line = (advance B.mark [c']).line
    rw [(advance_flat B.mark [c'] (by simp [hcb'])).1, hl]

/-- An empty flow collection after properties. -/
theorem pair_next {A B : Cfg} {k : SimpleKey} {ts : List TokenData} {g t : Str} {F : Nat} {c c' : Char} {d d' : TokenData}
    (h : (c = '[' ∧ d = .flowSequenceStart ∧ c' = ']' ∧ d' = .flowSequenceEnd) ∨ (c = '{' ∧ d = .flowMappingStart ∧ c' = '}' ∧ d' = .flowMappingEnd))
    (hw : Warm A k B ts) (ha : B.allowed = false) (hg : ∀ c ∈ g, c = ' ') (hi : (advance B.mark g).index + 1 ≤ k.mark.index + 1024)
    (hc : A.flow = 0 → A.indent ≤ (advance B.mark g).column) :
    ∃ C, Reach F B (g ++ (c :: c' :: t)) C t ∧ Warm A k C (ts ++ [d, d']) ∧ C.allowed = false ∧ C.mark = advance (advance B.mark g) [c, c'] := by
  have hcd : (c = '[' ∧ d = .flowSequenceStart) ∨ (c = '{' ∧ d = .flowMappingStart) := by
    rcases h with ⟨h1, h2, _⟩ | ⟨h1, h2, _⟩
    · exact Or.inl ⟨h1, h2⟩
    · exact Or.inr ⟨h1, h2⟩
  have hcd' : (c' = ']' ∧ d' = .flowSequenceEnd) ∨ (c' = '}' ∧ d' = .flowMappingEnd) := by
    rcases h with ⟨_, _, h1, h2⟩ | ⟨_, _, h1, h2⟩
    · exact Or.inl ⟨h1, h2⟩
    · exact Or.inr ⟨h1, h2⟩
  have hst : Starts (c :: c' :: t) := by
    rcases hcd with ⟨rfl, _⟩ | ⟨rfl, _⟩ <;> exact starts_cons (by decide) (by decide) (by decide) (by decide) (by decide)
  have hnb : ∀ m, ¬ Bound m (c :: c' :: t) := by
    intro m
    rcases hcd with ⟨rfl, _⟩ | ⟨rfl, _⟩ <;> exact notBound (by decide) (by decide) (by decide)
  have hcb : isBreak c = false := by rcases hcd with ⟨rfl, _⟩ | ⟨rfl, _⟩ <;> decide
  have hcl : lenUtf8 c = 1 := by rcases hcd with ⟨rfl, _⟩ | ⟨rfl, _⟩ <;> decide
  have hl := (advance_flat B.mark g (spaces_flat hg)).1
  obtain ⟨h1, ks, h2, h3⟩ := hw.cold (m := advance B.mark g) hl (by omega)
  have hal : (B.to g).allowed = false := by rw [to_allowed (Or.inr (hasBrk_false (spaces_flat hg)))]; exact ha
  have hsv : (B.to g).save = B.to g := by unfold Cfg.save; rw [hal]; rfl
  have hf' : B.flow = 0 → B.indent ≤ (advance B.mark g).column := by rw [hw.flow, hw.indent]; exact hc
  have hflat := advance_flat (advance B.mark g) [c] (by simp [hcb])
  have hlex := lex_flowStart (F := F) (A := B.to g) (t := c' :: t) hcd (fun h => by rw [hal] at h; cases h)
  rw [hsv] at hlex
  have r1 := Reach.one (spaces_blanks hg) hst (by simp) (hnb _) h1 hf' hlex
  obtain ⟨C, c1, c2, c3, c4⟩ := pair_close (F := F) (t := t) (A := A) (B := (((B.to g).down.allow true).eat [c]).push d) (k := k) (ks := ks) (ts := ts ++ [d]) hcd'
    (by show B.flow + 1 = _; rw [hw.flow]) hw.indent hw.indents (by show B.toks ++ [d] = _; rw [hw.toks, List.append_assoc])
    (by show emptyKey :: (B.to g).keys = _; rw [show (B.to g).keys = k :: ks from h2]) h3
    (fun x hx hp => by
      obtain ⟨h4, h5⟩ := hw.cool x hx hp
      exact ⟨h4, Nat.le_trans h5 (Nat.le_trans (advance_line _ g) (advance_line _ [c]))⟩)
    hw.len (by show k.mark.line = (advance (advance B.mark g) [c]).line; rw [hflat.1, hl]; exact hw.line) hw.possible hw.number
    (by
      show (advance (advance B.mark g) [c]).index ≤ _
      have := hflat.2.2
      simp only [strLen, hcl] at this
      omega)
  refine ⟨C, r1.trans c1, by simpa using c2, c3, ?_⟩
  rw [c4]
  exact (advance_append (advance B.mark g) [c] [c'] (by rintro ⟨h, _⟩; simp at h; subst h; revert hcb; decide)).symm

theorem pair_first {c c' : Char} {d d' : TokenData}
    (h : (c = '[' ∧ d = .flowSequenceStart ∧ c' = ']' ∧ d' = .flowSequenceEnd) ∨ (c = '{' ∧ d = .flowMappingStart ∧ c' = '}' ∧ d' = .flowMappingEnd))
    (hA : Cool A) (ha : A.allowed = true) (hg : ∀ c ∈ g, c = ' ') (hc : A.flow = 0 → A.indent ≤ (advance A.mark g).column) :
    ∃ B, Reach F A (g ++ (c :: c' :: t)) B t ∧ Warm A (A.to g).key B [d, d'] ∧ B.allowed = false ∧ B.mark = advance (advance A.mark g) [c, c'] := by
  have hto := hA.to g
  have hal : (A.to g).allowed = true := by rw [to_allowed (Or.inr (hasBrk_false (spaces_flat hg)))]; exact ha
  have hcd : (c = '[' ∧ d = .flowSequenceStart) ∨ (c = '{' ∧ d = .flowMappingStart) := by
    rcases h with ⟨h1, h2, _⟩ | ⟨h1, h2, _⟩
    · exact Or.inl ⟨h1, h2⟩
    · exact Or.inr ⟨h1, h2⟩
  have hcd' : (c' = ']' ∧ d' = .flowSequenceEnd) ∨ (c' = '}' ∧ d' = .flowMappingEnd) := by
    rcases h with ⟨_, _, h1, h2⟩ | ⟨_, _, h1, h2⟩
    · exact Or.inl ⟨h1, h2⟩
    · exact Or.inr ⟨h1, h2⟩
  have hst : Starts (c :: c' :: t) := by
    rcases hcd with ⟨rfl, _⟩ | ⟨rfl, _⟩ <;> exact starts_cons (by decide) (by decide) (by decide) (by decide) (by decide)
  have hst' : Starts (c' :: t) := by
    rcases hcd' with ⟨rfl, _⟩ | ⟨rfl, _⟩ <;> exact starts_cons (by decide) (by decide) (by decide) (by decide) (by decide)
  have hnb : ∀ m, ¬ Bound m (c :: c' :: t) := by
    intro m
    rcases hcd with ⟨rfl, _⟩ | ⟨rfl, _⟩ <;> exact notBound (by decide) (by decide) (by decide)
  have hnb' : ∀ m, ¬ Bound m (c' :: t) := by
    intro m
    rcases hcd' with ⟨rfl, _⟩ | ⟨rfl, _⟩ <;> exact notBound (by decide) (by decide) (by decide)
  have hcb : isBreak c = false := by rcases hcd with ⟨rfl, _⟩ | ⟨rfl, _⟩ <;> decide
  have hcb' : isBreak c' = false := by rcases hcd' with ⟨rfl, _⟩ | ⟨rfl, _⟩ <;> decide
  have hcl : lenUtf8 c = 1 := by rcases hcd with ⟨rfl, _⟩ | ⟨rfl, _⟩ <;> decide
  have hsv : (A.to g).save = { A.to g with keys := (A.to g).key :: (A.to g).keys.tail } := by unfold Cfg.save; rw [if_pos hal]
  -- after the first bracket
  obtain ⟨B, hB⟩ : ∃ B, B = (((A.to g).save.down.allow true).eat [c]).push d := ⟨_, rfl⟩
  have h1 : Reach F A (g ++ (c :: c' :: t)) B (c' :: t) := by
    rw [hB]
    exact Reach.one (spaces_blanks hg) hst (by simp) (hnb _) (hA.cold _) hc (lex_flowStart hcd (fun _ => hto.hot))
  rw [hsv] at hB
  have hBk : B.keys = emptyKey :: (A.to g).key :: (A.to g).keys.tail := by rw [hB]; rfl
  have hBm : B.mark = advance (advance A.mark g) [c] := by rw [hB]; rfl
  have hadv : advance (advance A.mark g) [c] = bumpMark c (advance A.mark g) := by
    rw [advance_cons _ _ _ (by rintro ⟨_, h⟩; cases h), hcb]; rfl
  have hadv' : advance (advance A.mark g) [c, c'] = advance (advance (advance A.mark g) [c]) [c'] :=
    advance_append _ [c] [c'] (by rintro ⟨h, _⟩; simp at h; subst h; revert hcb; decide)
  -- the key that was saved does not go stale
  have hkm : (A.to g).key.mark = advance A.mark g := rfl
  have hWB : (staleList B.mark B.keys.reverse) = (((A.to g).keys.tail.reverse |> staleList B.mark).1 ++ [(A.to g).key, emptyKey], none) := by
    rw [hBk]
    have hcold : (staleList B.mark (A.to g).keys.tail.reverse).2 = none := stale_cold fun k hk ⟨h1, h2⟩ => by
      have := (hto.key k (List.mem_of_mem_tail (List.mem_reverse.1 hk)) h1).1
      rw [h2] at this; cases this
    rw [List.reverse_cons, List.reverse_cons, List.append_assoc, staleList_append hcold]
    have : staleList B.mark ([(A.to g).key] ++ [emptyKey]) = ([(A.to g).key, emptyKey], none) := by
      rw [List.cons_append, staleList, if_neg (by
        rw [hBm, hadv, hkm]
        simp only [Bool.and_eq_true, Bool.or_eq_true, decide_eq_true_eq]
        rintro ⟨_, h1 | h1⟩
        · have e : (bumpMark c (advance A.mark g)).line = (advance A.mark g).line := rfl
          omega
        · have e : (bumpMark c (advance A.mark g)).index = (advance A.mark g).index + lenUtf8 c := rfl
          omega)]
      rfl
    rw [this]
  have hadv0 : advance B.mark [] = B.mark := rfl
  have hs2 : (staleList (advance B.mark []) B.keys.reverse).2 = none := by rw [hadv0, hWB]
  have hk2 : (B.to []).keys = emptyKey :: (A.to g).key :: (staleList B.mark (A.to g).keys.tail.reverse).1.reverse := by
    show (staleList (advance B.mark []) B.keys.reverse).1.reverse = _
    rw [hadv0, hWB]; simp
  have hBf : B.flow = A.flow + 1 := by rw [hB]; rfl
  have hhot : (B.to []).hot = false := by unfold Cfg.hot; rw [hk2]; rfl
  have h2 : Reach F B (c' :: t) ((((B.to []).clear.up.allow false).eat [c']).push d') t := by
    have hf : (B.to []).flow ≠ 0 := by show B.flow ≠ 0; omega
    have := Reach.one (F := F) (A := B) (g := []) (t := c' :: t) (by intro x hx; cases hx) hst' (by simp) (hnb' _) hs2 (fun h => by omega)
      (lex_flowEnd (t := t) hcd' hf hhot)
    simpa using this
  refine ⟨_, h1.trans h2, ?_, rfl, ?_⟩
  · have hck : (B.to []).clear.up.keys = (A.to g).key :: (staleList B.mark (A.to g).keys.tail.reverse).1.reverse := by
      unfold Cfg.up Cfg.clear; simp only [hk2]; rfl
    have hsub : KeySub (staleList B.mark (A.to g).keys.tail.reverse).1.reverse A.keys.tail := by
      have := (staleList_sub B.mark (A.to g).keys.tail.reverse).reverse
      rw [List.reverse_reverse] at this
      exact this.trans (to_sub A g).tail
    refine ⟨?_, ?_, ?_, ?_, ⟨_, hck, hsub⟩, ?_, hA.len, ?_, rfl, rfl⟩
    · show B.flow - 1 = _; omega
    · show B.indent = _; rw [hB]; rfl
    · show B.indents = _; rw [hB]; rfl
    · show B.toks ++ [d'] = _; rw [hB]; show (A.toks ++ [d]) ++ [d'] = _; simp
    · intro x hx hp
      obtain ⟨h1, h2⟩ := hA.key x (List.mem_of_mem_tail hx) hp
      refine ⟨h1, ?_⟩
      show _ ≤ (advance B.mark [c']).line
      rw [hBm]
      exact Nat.le_trans h2 (Nat.le_trans (advance_line _ g) (Nat.le_trans (advance_line _ [c]) (advance_line _ [c'])))
    · show (advance A.mark g).line = (advance B.mark [c']).line
      rw [(advance_flat B.mark [c'] (by simp [hcb'])).1, hBm, (advance_flat _ [c] (by simp [hcb])).1]
  · show advance B.mark [c'] = _
    rw [hBm, hadv']

end

end Yaml.Lx
