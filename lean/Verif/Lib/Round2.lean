import Verif.Lib.Round

/-
Reading back, scanner side: atoms (anchors, aliases, tags, flow scalars), with a cool configuration
and as a simple key.
-/

namespace Yaml.Lx
open Yaml Scanner Spec
set_option linter.unusedSimpArgs false
set_option linter.unusedVariables false

theorem _root_.Yaml.KeySub.trans {a b c : List SimpleKey} (h : KeySub a b) (h' : KeySub b c) : KeySub a c := by
  induction h generalizing c with
  | nil => exact h'
  | keep k _ ih =>
    cases h' with
    | keep _ h2 => exact .keep _ (ih h2)
    | drop _ h2 => exact .drop _ (ih h2)
  | @drop k a b _ ih =>
    cases h' with
    | keep _ h2 => exact .drop _ (ih h2)
    | drop k' h2 => exact .drop k' (ih h2)

/-- From `A` the tokens `ts` were read, within the same collection. -/
structure Moved (A B : Cfg) (ts : List TokenData) : Prop where
  flow : B.flow = A.flow
  indent : B.indent = A.indent
  indents : B.indents = A.indents
  toks : B.toks = A.toks ++ ts
  cool : Cool B
  tail : KeySub B.keys.tail A.keys.tail

theorem Moved.trans {A B C : Cfg} {ts us : List TokenData} (h : Moved A B ts) (h' : Moved B C us) : Moved A C (ts ++ us) :=
  ⟨h'.flow.trans h.flow, h'.indent.trans h.indent, h'.indents.trans h.indents, by rw [h'.toks, h.toks, List.append_assoc], h'.cool, h'.tail.trans h.tail⟩

theorem Moved.refl {A : Cfg} (h : Cool A) : Moved A A [] := ⟨rfl, rfl, rfl, by simp, h, KeySub.refl _⟩

/-- Where no key may start the current key stays. -/
def Keep (A B : Cfg) : Prop := A.allowed = false → KeySub B.keys A.keys

theorem Dead.sub {A B : Cfg} (h : Dead A) (hs : KeySub B.keys A.keys) : Dead B := by
  intro k ks hk
  rw [hk] at hs
  cases hp : k.possible with
  | false => rfl
  | true =>
    cases hA : A.keys with
    | nil => rw [hA] at hs; cases hs
    | cons k' ks' =>
      have hd := h k' ks' hA
      rw [hA] at hs
      cases hs with
      | keep => rw [hp] at hd; cases hd
      | drop => simp at hp

/-- A token that may start a simple key. -/
structure Atom (F fl : Nat) (n : Int) (w : Str) (d : TokenData) (b : Bool) (rest : Str) : Prop where
  ne : w ≠ []
  starts : Starts (w ++ rest)
  nb : ∀ m, ¬ Bound m (w ++ rest)
  lex : ∀ A : Cfg, A.flow = fl → A.indent = n → (A.flow = 0 → A.indent ≤ A.mark.column) → (A.allowed = true → A.hot = false) →
    Lex F A (w ++ rest) (((A.save.allow b).eat w).push d) rest

theorem to_allowed {A : Cfg} {g : Str} (hg : A.flow ≠ 0 ∨ hasBrk g = false) : (A.to g).allowed = A.allowed := by
  show (A.allowed || (A.flow == 0 && hasBrk g)) = _
  rcases hg with h | h
  · have : (A.flow == 0) = false := by simpa using h
    rw [this]; simp
  · rw [h]; simp

/-- Reading an atom. -/
theorem Atom.cool {F fl : Nat} {n : Int} {w rest : Str} {d : TokenData} {b : Bool} (h : Atom F fl n w d b rest) {A : Cfg} (hA : Cool A)
    (hf : A.flow = fl) (hn : A.indent = n) {g : Str} (hg : Blanks g) (hc : A.flow = 0 → A.indent < (advance A.mark g).column) :
    ∃ B, Reach F A (g ++ (w ++ rest)) B rest ∧ Moved A B [d] ∧ B.allowed = b ∧ B.mark = advance (advance A.mark g) w ∧
      ((A.flow ≠ 0 ∨ hasBrk g = false) → Keep A B) := by
  have hto := hA.to g
  refine ⟨_, Reach.one hg h.starts (by simp [h.ne]) (h.nb _) (hA.cold _) (fun hf => Int.le_of_lt (hc hf))
    (h.lex (A.to g) hf hn (fun hf => Int.le_of_lt (hc hf)) (fun _ => hto.hot)), ?_, rfl, ?_, ?_⟩
  · have hs : Cool (A.to g).save := hto.save (fun _ hf => by
      have := hc hf
      show A.indent ≠ ((advance A.mark g).column : Int); omega)
    refine ⟨?_, ?_, ?_, ?_, ?_, ?_⟩
    · show (A.to g).save.flow = _; unfold Cfg.save; split <;> rfl
    · show (A.to g).save.indent = _; unfold Cfg.save; split <;> rfl
    · show (A.to g).save.indents = _; unfold Cfg.save; split <;> rfl
    · show (A.to g).save.toks ++ [d] = _; unfold Cfg.save; split <;> rfl
    · exact hs.same rfl rfl (advance_line _ _)
    · show KeySub (A.to g).save.keys.tail _
      have : (A.to g).save.keys.tail = (A.to g).keys.tail := by unfold Cfg.save; split <;> rfl
      rw [this]; exact (to_sub A g).tail
  · show advance (A.to g).save.mark w = _
    have : (A.to g).save.mark = advance A.mark g := by unfold Cfg.save; split <;> rfl
    rw [this]
  · intro hgb ha
    show KeySub (A.to g).save.keys A.keys
    unfold Cfg.save
    rw [to_allowed hgb, ha]
    exact to_sub A g

/-! ### Simple keys -/

theorem staleList_append {m : Mark} {a b : List SimpleKey} (h : (staleList m a).2 = none) :
    staleList m (a ++ b) = ((staleList m a).1 ++ (staleList m b).1, (staleList m b).2) := by
  induction a with
  | nil => rfl
  | cons k a ih =>
    have e : ∀ l, staleList m (k :: l) = if (k.possible && (decide (k.mark.line < m.line) || decide (k.mark.index + 1024 < m.index))) = true then
        if k.required = true then (k :: l, some k.mark) else ({ k with possible := false } :: (staleList m l).1, (staleList m l).2)
        else (k :: (staleList m l).1, (staleList m l).2) := fun l => by rw [staleList]
    rw [List.cons_append, e, e]
    rw [e] at h
    split at h <;> rename_i h1
    · split at h <;> rename_i h2
      · cases h
      · rw [if_pos h1, if_neg h2, if_pos h1, if_neg h2, ih h]; rfl
    · rw [if_neg h1, if_neg h1, ih h]; rfl

/-- A simple key `k` has been started at `A` on this line and its tokens are being read. -/
structure Warm (A : Cfg) (k : SimpleKey) (B : Cfg) (ts : List TokenData) : Prop where
  flow : B.flow = A.flow
  indent : B.indent = A.indent
  indents : B.indents = A.indents
  toks : B.toks = A.toks ++ ts
  keys : ∃ ks, B.keys = k :: ks ∧ KeySub ks A.keys.tail
  cool : ∀ x ∈ A.keys.tail, x.possible = true → x.required = false ∧ x.mark.line ≤ B.mark.line
  len : A.keys.length = A.flow + 1
  line : k.mark.line = B.mark.line
  possible : k.possible = true
  number : k.tokenNumber = A.toks.length

theorem Warm.cold {A B : Cfg} {k : SimpleKey} {ts : List TokenData} (h : Warm A k B ts) {m : Mark} (hl : m.line = B.mark.line) (hi : m.index ≤ k.mark.index + 1024) :
    (staleList m B.keys.reverse).2 = none ∧ ∃ ks, (staleList m B.keys.reverse).1.reverse = k :: ks ∧ KeySub ks A.keys.tail := by
  obtain ⟨ks, hk, hsub⟩ := h.keys
  have hnone : (staleList m ks.reverse).2 = none := stale_cold fun x hx ⟨h1, h2⟩ => by
    have := (h.cool x (keySub_cool hsub x (List.mem_reverse.1 hx) h1) h1).1
    rw [h2] at this; cases this
  have hkk : staleList m [k] = ([k], none) := by
    unfold staleList
    rw [if_neg (by
      simp only [Bool.and_eq_true, Bool.or_eq_true, decide_eq_true_eq]
      rintro ⟨_, h1 | h1⟩
      · rw [h.line, hl] at h1; omega
      · omega)]
    rfl
  rw [hk, List.reverse_cons, staleList_append hnone, hkk]
  refine ⟨rfl, (staleList m ks.reverse).1.reverse, by simp, ?_⟩
  have := (staleList_sub m ks.reverse).reverse
  rw [List.reverse_reverse] at this
  exact this.trans hsub

/-- The first token of a simple key. -/
theorem Atom.first {F fl : Nat} {n : Int} {w rest : Str} {d : TokenData} {b : Bool} (h : Atom F fl n w d b rest) {A : Cfg} (hA : Cool A)
    (hf : A.flow = fl) (hn : A.indent = n) (ha : A.allowed = true) {g : Str} (hg : Blanks g) (hgb : hasBrk g = false) (hwb : ∀ c ∈ w, isBreak c = false)
    (hc : A.flow = 0 → A.indent ≤ (advance A.mark g).column) :
    ∃ B, Reach F A (g ++ (w ++ rest)) B rest ∧ Warm A (A.to g).key B [d] ∧ B.allowed = b ∧ B.mark = advance (advance A.mark g) w := by
  have hto := hA.to g
  have hal : (A.to g).allowed = true := by rw [to_allowed (Or.inr hgb)]; exact ha
  refine ⟨_, Reach.one hg h.starts (by simp [h.ne]) (h.nb _) (hA.cold _) hc (h.lex (A.to g) hf hn hc (fun _ => hto.hot)), ?_, rfl, ?_⟩
  · have hsv : (A.to g).save = { A.to g with keys := (A.to g).key :: (A.to g).keys.tail } := by unfold Cfg.save; rw [if_pos hal]
    rw [hsv]
    refine ⟨rfl, rfl, rfl, rfl, ⟨_, rfl, (to_sub A g).tail⟩, ?_, hA.len, ?_, rfl, rfl⟩
    · intro x hx hp
      obtain ⟨h1, h2⟩ := hA.key x (List.mem_of_mem_tail hx) hp
      exact ⟨h1, Nat.le_trans h2 (Nat.le_trans (advance_line _ _) (advance_line _ w))⟩
    · show (advance A.mark g).line = (advance (advance A.mark g) w).line
      exact (advance_flat _ w hwb).1.symm
  · show advance (A.to g).save.mark w = _
    have : (A.to g).save.mark = advance A.mark g := by unfold Cfg.save; split <;> rfl
    rw [this]

/-- A further token of a simple key. -/
theorem Atom.next {F fl : Nat} {n : Int} {w rest : Str} {d : TokenData} {b : Bool} (h : Atom F fl n w d b rest) {A B : Cfg} {k : SimpleKey}
    {ts : List TokenData} (hw : Warm A k B ts) (hf : A.flow = fl) (hn : A.indent = n) (ha : B.allowed = false) {g : Str} (hg : Blanks g)
    (hgb : ∀ c ∈ g, isBreak c = false) (hwb : ∀ c ∈ w, isBreak c = false) (hi : (advance B.mark g).index ≤ k.mark.index + 1024)
    (hc : A.flow = 0 → A.indent ≤ (advance B.mark g).column) :
    ∃ C, Reach F B (g ++ (w ++ rest)) C rest ∧ Warm A k C (ts ++ [d]) ∧ C.allowed = b ∧ C.mark = advance (advance B.mark g) w := by
  have hl := (advance_flat B.mark g hgb).1
  obtain ⟨h1, ks, h2, h3⟩ := hw.cold (m := advance B.mark g) hl hi
  have hal : (B.to g).allowed = false := by rw [to_allowed (Or.inr (hasBrk_false hgb))]; exact ha
  have hsv : (B.to g).save = B.to g := by unfold Cfg.save; rw [hal]; rfl
  have hf' : B.flow = 0 → B.indent ≤ (advance B.mark g).column := by rw [hw.flow, hw.indent]; exact hc
  refine ⟨_, Reach.one hg h.starts (by simp [h.ne]) (h.nb _) h1 hf'
    (h.lex (B.to g) (hw.flow.trans hf) (hw.indent.trans hn) hf' (fun h => by rw [hal] at h; cases h)), ?_, rfl, ?_⟩
  · rw [hsv]
    refine ⟨hw.flow, hw.indent, hw.indents, ?_, ⟨ks, h2, h3⟩, ?_, hw.len, ?_, hw.possible, hw.number⟩
    · show B.toks ++ [d] = _; rw [hw.toks, List.append_assoc]
    · intro x hx hp
      obtain ⟨h4, h5⟩ := hw.cool x hx hp
      exact ⟨h4, Nat.le_trans h5 (Nat.le_trans (advance_line _ _) (advance_line _ w))⟩
    · show k.mark.line = (advance (advance B.mark g) w).line
      rw [(advance_flat _ w hwb).1, hl]; exact hw.line
  · rw [hsv]; rfl

end Yaml.Lx
