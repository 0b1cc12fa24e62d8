import Verif.Lib.YamlFlow

/-
Reading YAML texts: block style.
-/

namespace Yaml.Lx
open Yaml Scanner Spec Rt
set_option linter.unusedSimpArgs false
set_option linter.unusedVariables false

section
variable {F : Nat} {D : List TagDirective}

/-! ### Indicators and ends -/

theorem AtPlace.ws {p : Place} {A : Cfg} (h : AtPlace p A) (hf : A.flow = 0) {g : Str} (hg : Space false p.isNone g) : Ws A.flow A.allowed g := by
  rw [hf, h.allowed]; exact space_block hg

/-- `:` after an explicit key, in block context. -/
theorem read_colonW {A : Cfg} {g t : Str} (hA : Cool A) (hf : A.flow = 0) (hg : Ws A.flow A.allowed g) (ha : A.allowed = true ∨ hasBrk g = true)
    (hd : Dead A ∨ hasBrk g = true) (hc : ((advance A.mark g).column : Int) = A.indent) (hz : EndsTag t) :
    ∃ B, Reach F A (g ++ (':' :: t)) B t ∧ Moved A B [.value] ∧ Dead B ∧ B.allowed = true ∧ B.mark = advance (advance A.mark g) [':'] := by
  have hto := hA.to g
  have hal := to_allowed_block hf ha
  have hdd : Dead (A.to g) := by
    rcases hd with h | h
    · exact h.to g
    · exact hA.dead h
  obtain ⟨k, ks, hk⟩ := hto.nonempty
  have hlex := lex_value (F := F) (A := A.to g) (t := t) (fun _ => blankzO_of hz) hk (hdd k ks hk) (fun _ => hal)
  have e : ((A.to g).flow == 0) = true := by show (A.flow == 0) = true; simp [hf]
  rw [e, roll_base hc, base_eq _ _ rfl] at hlex
  refine ⟨_, Reach.oneW hg (starts_cons (by decide) (by decide) (by decide) (by decide) (by decide)) (by simp) (dash_notBound hz (by decide) _) (hA.cold _)
    (fun _ => by omega) hlex, ⟨rfl, rfl, rfl, rfl, ?_, (to_sub A g).tail⟩, hdd, rfl, rfl⟩
  exact hto.same rfl rfl (advance_line _ _)

theorem after_col {p : Place} {A : Cfg} (h : AtPlace p A) (hf : A.flow = 0) {g : Str} {k : Nat} (hk : p.after g = some k) : (advance A.mark g).column = k :=
  (h.skip hf g).col k hk

/-- A block collection is over. -/
theorem read_over {A : Cfg} {c : Nat} {p : Place} {t : Str} (hf : A.flow = 0) {i0 : Int} {l : List Int} (hi : A.indents = i0 :: l) (hm : A.indent = c)
    (hp : AtPlace p A) (ho : Over c p t) : Reach F A t { A with indent := i0, indents := l, toks := A.toks ++ [.blockEnd] } t := by
  have hc : A.close = { A with indent := i0, indents := l, toks := A.toks ++ [.blockEnd] } := by
    unfold Cfg.close; rw [hi]
  rw [← hc]
  refine .close hf (by rw [hi]; simp) (by omega) ?_ (.refl _ _)
  intro g t'' ht hg hs
  rcases ho with ho | ⟨g', x, r, h1, h2, h3, h4, h5, h6, h7⟩
  · have hw : WsT A.flow A.allowed t [] := by rw [hf, hp.allowed]; exact spaceEnd_ws ho
    obtain ⟨rfl, rfl⟩ := ws_unique (g := g) (t := t'') (g' := t) (t' := []) (by simp [← ht]) hg hw hs starts_nil
    exact Or.inr (Or.inl rfl)
  · have hst : Starts (x :: r) := starts_cons (fun h => h3 (Or.inl h)) (fun h => h3 (Or.inr h)) (by rw [← isLineBreak_eq]; exact h4) h5 h6
    rw [ht] at h1
    obtain ⟨rfl, rfl⟩ := ws_unique h1 hg ((hp.ws hf h2).t _) hs hst
    rcases h7 with ⟨k, h7, h8⟩ | ⟨h7, h8⟩
    · left
      rw [after_col hp hf h7, hm]; omega
    · right
      exact Or.inr ⟨Or.inl h8, after_col hp hf h7⟩

/-! ### How things start -/

theorem items_starts {c : Nat} {w t : Str} {es : List EventData} {p : Place} (h : BlockItems D c w es p t) : Starts (w ++ t) := by
  cases h <;> exact starts_cons (by decide) (by decide) (by decide) (by decide) (by decide)

theorem entry_starts {c : Nat} {w t : Str} {es : List EventData} {p : Place} (h : BlockEntry D c w es p t) : Starts (w ++ t) := by
  cases h with
  | simple hk he hv => have := key_starts hk; simpa using this
  | key => exact starts_cons (by decide) (by decide) (by decide) (by decide) (by decide)
  | pair => exact starts_cons (by decide) (by decide) (by decide) (by decide) (by decide)

theorem entries_starts {c : Nat} {w t : Str} {es : List EventData} {p : Place} (h : BlockEntries D c w es p t) : Starts (w ++ t) := by
  cases h with
  | one h => exact entry_starts h
  | more h _ _ _ => have := entry_starts h; simpa using this

/-! ### What is shown -/

/-- The scanner is in a block of indentation `n` at place `p`, after what comes before a node. -/
structure InBlock (n : Int) (p : Place) (A : Cfg) : Prop where
  cool : Cool A
  flow : A.flow = 0
  indent : A.indent = n
  place : AtPlace p A
  right : p = none → n < A.mark.column
  dead : A.allowed = true → Dead A

/-- ... of what comes before the content of a node. -/
theorem reads_lead {n : Int} {p p1 : Place} {l t : Str} {a tag : Option Str} (h : Lead D n p l a tag p1 t) (ht : Starts t) {A : Cfg} (hA : InBlock n p A) :
    ∃ B ps, Reach F A (l ++ t) B t ∧ Moved A B ps ∧ IsProps D ps a tag ∧ AtPlace p1 B ∧ (p1.deeper n → n < B.mark.column) := by
  cases h with
  | space hg =>
    exact ⟨A.skip l, [], .skip (hA.place.ws hA.flow hg) (noSplit_starts ht) (.refl _ _), skip_moved hA.cool l, .none, hA.place.skip hA.flow l,
      fun hd => right_skip hA.place hA.flow hA.right hd⟩
  | @props g w g' _ _ _ hg hd hp hg' =>
    have hsk := skip_moved hA.cool g
    have hr := right_skip hA.place hA.flow (g := g) hA.right hd
    obtain ⟨B, ps, b1, b2, b3, b4, b5, b6, b7⟩ := reads_props (F := F) hp hsk.cool (fun _ => by show A.indent < _; rw [hA.indent]; exact hr)
    have hBf : B.flow = 0 := b2.flow.trans hA.flow
    have hat : AtPlace none B := ⟨b4, by simp⟩
    have hBr : n < B.mark.column := by
      have := b7 hA.flow
      have e : (A.skip g).indent = A.indent := rfl
      rw [e, hA.indent] at this; exact this
    refine ⟨B.skip g', ps, ?_, ?_, b5, hat.skip hBf g', fun hd => right_skip hat hBf (fun _ => hBr) hd⟩
    · have := Reach.skip (hA.place.ws hA.flow hg) (noSplit_starts (props_starts hp)) (b1.trans (.skip (hat.ws hBf hg') (noSplit_starts ht) (.refl _ _)))
      simpa using this
    · have := (hsk.trans b2).trans (skip_moved b2.cool g')
      simpa using this

theorem advance_last (m : Mark) (w : Str) {c : Char} (hc : isBreak c = true) : (advance m (w ++ [c])).column = 0 := by
  by_cases hs : w.getLast? = some '\r' ∧ c = '\n'
  · obtain ⟨h1, rfl⟩ := hs
    obtain ⟨w0, rfl⟩ : ∃ w0, w = w0 ++ ['\r'] := by
      rcases List.eq_nil_or_concat w with rfl | ⟨w0, x, rfl⟩
      · cases h1
      · simp at h1; exact ⟨w0, by simp [h1]⟩
    rw [List.append_assoc, advance_append m w0 _ (by simp)]
    rfl
  · rw [advance_append m w [c] (by simpa using hs)]
    rw [advance_cons _ _ _ (by simp), hc]
    rfl

/-- ... of a node. -/
def RBlock (F : Nat) (D : List TagDirective) (i : Bool) (n : Int) (p : Place) (w : Str) (es : List EventData) (p' : Place) (t : Str) : Prop :=
  ∀ A : Cfg, InBlock n p A → ∃ B ts, Reach F A (w ++ t) B t ∧ Moved A B ts ∧ Derives false D (.opt true i) ts es ∧ (w ≠ [] → Derives false D (.node true i) ts es) ∧
    AtPlace p' B ∧ (B.allowed = true → Dead B)

/-- ... of the entries of a block sequence. -/
def RItems (F : Nat) (D : List TagDirective) (c : Nat) (w : Str) (es : List EventData) (p' : Place) (t : Str) : Prop :=
  ∀ A : Cfg, Cool A → A.flow = 0 → A.indent ≤ c → A.allowed = true → A.mark.column = c →
    ∃ B ts, Reach F A (w ++ t) B t ∧ Moved (A.base .blockSequenceStart c) B ts ∧ Derives false D .items ts es ∧ ts ≠ [] ∧ AtPlace p' B ∧ (B.allowed = true → Dead B)

/-- ... of entries of a block mapping. -/
def REntries (F : Nat) (D : List TagDirective) (c : Nat) (w : Str) (es : List EventData) (p' : Place) (t : Str) : Prop :=
  ∀ A : Cfg, Cool A → A.flow = 0 → A.indent ≤ c → A.allowed = true → A.mark.column = c →
    ∃ B ts, Reach F A (w ++ t) B t ∧ Moved (A.base .blockMappingStart c) B ts ∧
      (∀ us fs, Derives false D .entries us fs → Derives false D .entries (ts ++ us) (es ++ fs)) ∧ AtPlace p' B ∧ (B.allowed = true → Dead B)

/-- After `-`, `?` or `:`. -/
theorem after_dash {A B : Cfg} {d d' : TokenData} {c : Nat} {x : Char} (hf : A.flow = 0) (hi : A.indent ≤ c) (h : Moved (A.base d c) B [d']) (hd : Dead B) (ha : B.allowed = true)
    (hm : B.mark = advance A.mark [x]) (hx : isBreak x = false) (hc : A.mark.column = c) : InBlock c (some (c + 1)) B := by
  refine ⟨h.cool, ?_, ?_, ⟨ha, ?_⟩, by simp, fun _ => hd⟩
  · rw [h.flow, base_flow, hf]
  · rw [h.indent, base_indent _ hf hi]
  · intro k hk
    cases hk
    rw [hm, (advance_flat A.mark [x] (by simpa using hx)).2.1, hc]
    rfl

/-- A block collection: its entries and its end. -/
theorem reads_coll {d : TokenData} {c : Nat} {n : Int} {A C : Cfg} {ts : List TokenData} {p : Place} {t w : Str} (hf : A.flow = 0) (hi : A.indent = n) (hn : n < c)
    (hr : Reach F A (w ++ t) C t) (hm : Moved (A.base d c) C ts) (hp : AtPlace p C) (hd : C.allowed = true → Dead C) (ho : Over c p t) :
    ∃ B, Reach F A (w ++ t) B t ∧ Moved A B (d :: (ts ++ [.blockEnd])) ∧ AtPlace p B ∧ (B.allowed = true → Dead B) := by
  have hb : A.base d c = { A with indents := A.indent :: A.indents, indent := c, toks := A.toks ++ [d] } := by
    unfold Cfg.base; rw [if_pos ⟨hf, by rw [hi]; exact hn⟩]
  rw [hb] at hm
  refine ⟨_, hr.trans (read_over (F := F) (hm.flow.trans hf) (i0 := A.indent) (l := A.indents) hm.indents hm.indent hp ho), ⟨hm.flow, rfl, rfl, ?_, hm.cool.same rfl rfl (Nat.le_refl _), hm.tail⟩,
    ⟨hp.allowed, hp.col⟩, hd⟩
  show C.toks ++ [.blockEnd] = _
  rw [hm.toks]; simp

theorem blockScalar_starts {folded : Bool} {n : Int} {t v r : Str} (h : BlockScalar folded n t v r) : Starts t ∧ t ≠ [] ∧ ∀ m, ¬ Bound m t := by
  obtain ⟨hd, chomp, inc, l, t0, c', t1, n, bs, t2, ls, t3, k, _, h2, _⟩ := h
  rw [h2]
  cases folded
  · exact ⟨starts_cons (by decide) (by decide) (by decide) (by decide) (by decide), by simp, fun m => notBound (by decide) (by decide) (by decide)⟩
  · exact ⟨starts_cons (by decide) (by decide) (by decide) (by decide) (by decide), by simp, fun m => notBound (by decide) (by decide) (by decide)⟩

theorem blockScalar_solid {folded : Bool} {n : Int} {t v r : Str} (h : BlockScalar folded n t v r) : Solid r := by
  obtain ⟨hd, chomp, inc, l, t0, c', t1, n, bs, t2, ls, t3, k, _, _, _, _, _, _, _, _, _, _, h, _⟩ := h
  exact h

/-- A literal or folded scalar. -/
theorem reads_block {folded : Bool} {n : Int} {w t v r : Str} {c : Char} {j : Nat} (h : BlockScalar folded n (w ++ c :: t) v r) (hc : isLineBreak c = true)
    (ht : t = List.replicate j ' ' ++ r) {A : Cfg} (hA : Cool A) (hf : A.flow = 0) (hi : A.indent = n) (hr : n < A.mark.column) :
    ∃ B, Reach F A ((w ++ [c]) ++ t) B t ∧ Moved A B [.scalar v (if folded then .folded else .literal)] ∧ AtPlace (some 0) B ∧ Dead B := by
  obtain ⟨h1, h2, h3⟩ := blockScalar_starts h
  have hs := blockScalar_solid h
  have e : w ++ c :: t = (w ++ [c]) ++ (List.replicate j ' ' ++ r) := by simp [ht]
  have hto := hA.to []
  have hns : NoSplit (w ++ [c]) (List.replicate j ' ' ++ r) := by
    cases j with
    | zero => simpa using NoSplit.solid hs
    | succ j => exact NoSplit.spaces (by omega)
  have hlex : Lex F (A.to []) ((w ++ [c]) ++ (List.replicate j ' ' ++ r)) ((((A.to []).clear.allow true).eat (w ++ [c])).push (.scalar v (if folded then .folded else .literal)))
      (List.replicate j ' ' ++ r) := by
    have h' : BlockScalar (!!folded) (A.to []).indent ((w ++ [c]) ++ (List.replicate j ' ' ++ r)) v r := by
      rw [← e]
      have : (A.to []).indent = n := hi
      rw [this]; simpa using h
    have := lex_block (F := F) (lit := !folded) h' (replicate_blanks j) hns (A := A.to []) hf hto.hot (by simp)
    cases folded <;> exact this
  have hrd := Reach.oneW (F := F) (A := A) (g := []) .nil (t := (w ++ [c]) ++ (List.replicate j ' ' ++ r)) (e ▸ h1) (by simp) (e ▸ h3 _) (hA.cold _)
    (fun _ => by show A.indent ≤ (A.mark.column : Int); omega) hlex
  rw [List.nil_append, ← ht] at hrd
  refine ⟨_, hrd, ⟨rfl, rfl, rfl, rfl, ?_, ?_⟩, ⟨rfl, ?_⟩, ?_⟩
  · exact hto.clear.1.same rfl rfl (advance_line _ _)
  · show KeySub (A.to []).clear.keys.tail _
    rw [clear_tail]; exact (to_sub A []).tail
  · intro k hk
    cases hk
    exact advance_last _ w (by rw [← isLineBreak_eq]; exact hc)
  · exact hto.clear.2

mutual
theorem reads_blockNode {i : Bool} {n : Int} {p p' : Place} {w t : Str} {es : List EventData} : BlockNode D i n p w es p' t → RBlock F D i n p w es p' t
  | .empty => by
    intro A hA
    exact ⟨A, [], .refl _ _, .refl hA.cool, .nothing, fun h => absurd rfl h, hA.place, hA.dead⟩
  | .alias (g := g) (a := a) hg hd hn he => by
    intro A hA
    have hsk := skip_moved hA.cool g
    have hr := right_skip hA.place hA.flow (g := g) hA.right hd
    obtain ⟨B, b1, b2, b3, b4, b5⟩ := Bits.cool (.one (atom_anchor (F := F) (fl := A.flow) (m := A.indent) true hn he)) (A := A.skip g) hsk.cool rfl rfl
      (fun _ => by show A.indent < _; rw [hA.indent]; exact hr)
    refine ⟨B, _, ?_, hsk.trans b2, .some (.alias _), fun _ => .alias _, ⟨b3, by simp⟩, fun h => by rw [b3] at h; cases h⟩
    have := Reach.skip (hA.place.ws hA.flow hg) (noSplit_starts (starts_cons (by decide) (by decide) (by decide) (by decide) (by decide))) b1
    simpa using this
  | .bare (g := g) (w := w) hg hd hp => by
    intro A hA
    have hsk := skip_moved hA.cool g
    have hr := right_skip hA.place hA.flow (g := g) hA.right hd
    obtain ⟨B, ps, b1, b2, b3, b4, b5, b6, b7⟩ := reads_props (F := F) hp hsk.cool (fun _ => by show A.indent < _; rw [hA.indent]; exact hr)
    refine ⟨B, ps, ?_, hsk.trans b2, .some (.bare b5 b6), fun _ => .bare b5 b6, ⟨b4, by simp⟩, fun h => by rw [b4] at h; cases h⟩
    have := Reach.skip (hA.place.ws hA.flow hg) (noSplit_starts (props_starts hp)) b1
    simpa using this
  | .flow (l := l) (w := w) hl hd h => by
    intro A hA
    obtain ⟨B, ps, b1, b2, b3, b4, b5⟩ := reads_lead (F := F) hl (flowContent_starts h) hA
    have hBf : B.flow = 0 := b2.flow.trans hA.flow
    have hBi : B.indent = n := b2.indent.trans hA.indent
    obtain ⟨C, ts, c1, c2, c3, c4, c5⟩ := reads_flowContent (F := F) h B b2.cool (by rw [hBf]; rfl) (fun _ => hBi) (fun _ => by rw [hBi]; exact b5 hd)
    have hca := c4 rfl
    refine ⟨C, ps ++ ts, ?_, b2.trans c2, .some (c5 _ b3 _ _), fun _ => c5 _ b3 _ _, ⟨hca, by simp⟩, fun h => by rw [hca] at h; cases h⟩
    have := b1.trans c1
    simpa using this
  | .block (l := l) (w := w) (c := c) hl hd h hc ht => by
    intro A hA
    obtain ⟨B, ps, b1, b2, b3, b4, b5⟩ := reads_lead (F := F) hl (blockScalar_starts h).1 hA
    obtain ⟨C, c1, c2, c3, c4⟩ := reads_block (F := F) h hc ht b2.cool (b2.flow.trans hA.flow) (b2.indent.trans hA.indent) (b5 hd)
    refine ⟨C, _, ?_, b2.trans c2, .some (.scalar b3 _ _), fun _ => .scalar b3 _ _, c3, fun _ => c4⟩
    have : Reach F B (w ++ c :: t) C t := by simpa using c1
    have := b1.trans this
    simpa using this
  | .seq (c := c) (l := l) (w := w) hl hn h ho => by
    intro A hA
    obtain ⟨B, ps, b1, b2, b3, b4, b5⟩ := reads_lead (F := F) hl (items_starts h) hA
    have hBf : B.flow = 0 := b2.flow.trans hA.flow
    have hBi : B.indent = n := b2.indent.trans hA.indent
    obtain ⟨C, ts, c1, c2, c3, c4, c5, c6⟩ := reads_blockItems h B b2.cool hBf (by omega) b4.allowed (b4.col _ rfl)
    obtain ⟨E, e1, e2, e3, e4⟩ := reads_coll (F := F) hBf hBi hn c1 c2 c5 c6 ho
    refine ⟨E, _, ?_, b2.trans e2, .some (.blockSeq b3 c3), fun _ => .blockSeq b3 c3, e3, e4⟩
    have := b1.trans e1
    simpa using this
  | .map (c := c) (l := l) (w := w) hl hn h ho => by
    intro A hA
    obtain ⟨B, ps, b1, b2, b3, b4, b5⟩ := reads_lead (F := F) hl (entries_starts h) hA
    have hBf : B.flow = 0 := b2.flow.trans hA.flow
    have hBi : B.indent = n := b2.indent.trans hA.indent
    obtain ⟨C, ts, c1, c2, c3, c5, c6⟩ := reads_blockEntries h B b2.cool hBf (by omega) b4.allowed (b4.col _ rfl)
    obtain ⟨E, e1, e2, e3, e4⟩ := reads_coll (F := F) hBf hBi hn c1 c2 c5 c6 ho
    have hder := c3 [] [] .noEntries
    simp only [List.append_nil] at hder
    refine ⟨E, _, ?_, b2.trans e2, .some (.blockMap b3 hder), fun _ => .blockMap b3 hder, e3, e4⟩
    have := b1.trans e1
    simpa using this
  | .indentless (c := c) (l := l) (w := w) hl h => by
    intro A hA
    obtain ⟨B, ps, b1, b2, b3, b4, b5⟩ := reads_lead (F := F) hl (items_starts h) hA
    have hBf : B.flow = 0 := b2.flow.trans hA.flow
    have hBi : B.indent = c := b2.indent.trans hA.indent
    obtain ⟨C, ts, c1, c2, c3, c4, c5, c6⟩ := reads_blockItems h B b2.cool hBf (by omega) b4.allowed (b4.col _ rfl)
    rw [base_eq _ _ hBi] at c2
    refine ⟨C, _, ?_, b2.trans c2, .some (.indentless b3 c3 c4), fun _ => .indentless b3 c3 c4, c5, c6⟩
    have := b1.trans c1
    simpa using this
theorem reads_blockItems {c : Nat} {p' : Place} {w t : Str} {es : List EventData} : BlockItems D c w es p' t → RItems F D c w es p' t
  | .one (w := w) he h => by
    intro A hA hf hi ha hc
    obtain ⟨B, b1, b2, b3, b4, b5⟩ := read_dash (F := F) (t := w ++ t) (Or.inl ⟨rfl, rfl, rfl⟩) hA hf (g := []) Blanks.nil (Or.inl ha) (n := c) (by show (A.mark.column : Int) = _; omega) hi he
    obtain ⟨C, ts, c1, c2, c3, c4, c5, c6⟩ := reads_blockNode h B (after_dash hf hi b2 b3 b4 b5 (by decide) hc)
    refine ⟨C, _, ?_, b2.trans c2, ?_, by simp, c5, c6⟩
    · have := b1.trans c1
      simpa using this
    · have := Derives.item c3 .noItems
      simpa using this
  | .more (w := w) (g := g) (r := r) he h hg hc' hr => by
    intro A hA hf hi ha hc
    obtain ⟨B, b1, b2, b3, b4, b5⟩ := read_dash (F := F) (t := w ++ (g ++ (r ++ t))) (Or.inl ⟨rfl, rfl, rfl⟩) hA hf (g := []) Blanks.nil (Or.inl ha) (n := c)
      (by show (A.mark.column : Int) = _; omega) hi he
    have hB := after_dash hf hi b2 b3 b4 b5 (by decide) hc
    obtain ⟨C, ts, c1, c2, c3, c4, c5, c6⟩ := reads_blockNode h B hB
    have hCf : C.flow = 0 := c2.flow.trans hB.flow
    have hsk := skip_moved c2.cool g
    have hat := c5.skip hCf g
    rw [hc'] at hat
    have hCi : (C.skip g).indent = c := c2.indent.trans hB.indent
    obtain ⟨E, us, e1, e2, e3, e4, e5, e6⟩ := reads_blockItems hr (C.skip g) hsk.cool hCf (by omega) hat.allowed (hat.col _ rfl)
    rw [base_eq _ _ hCi] at e2
    refine ⟨E, _, ?_, (b2.trans c2).trans (hsk.trans e2), ?_, by simp, e5, e6⟩
    · have := b1.trans (c1.trans (.skip (c5.ws hCf hg) (noSplit_starts (items_starts hr)) e1))
      simpa using this
    · have := Derives.item c3 e3
      simpa using this
theorem reads_blockEntries {c : Nat} {p' : Place} {w t : Str} {es : List EventData} : BlockEntries D c w es p' t → REntries F D c w es p' t
  | .one h => reads_blockEntry h
  | .more (w := w) (g := g) (r := r) h hg hc' hr => by
    intro A hA hf hi ha hc
    obtain ⟨C, ts, c1, c2, c3, c5, c6⟩ := reads_blockEntry h A hA hf hi ha hc
    have hCf : C.flow = 0 := c2.flow.trans (by rw [base_flow, hf])
    have hsk := skip_moved c2.cool g
    have hat := c5.skip hCf g
    rw [hc'] at hat
    have hCi : (C.skip g).indent = c := c2.indent.trans (base_indent _ hf hi)
    obtain ⟨E, us, e1, e2, e3, e5, e6⟩ := reads_blockEntries hr (C.skip g) hsk.cool hCf (by omega) hat.allowed (hat.col _ rfl)
    rw [base_eq _ _ hCi] at e2
    refine ⟨E, _, ?_, c2.trans (hsk.trans e2), ?_, e5, e6⟩
    · have := c1.trans (.skip (c5.ws hCf hg) (noSplit_starts (entries_starts hr)) e1)
      simpa using this
    · intro vs fs hv
      have := c3 _ _ (e3 _ _ hv)
      simpa using this
theorem reads_blockEntry {c : Nat} {p' : Place} {w t : Str} {es : List EventData} : BlockEntry D c w es p' t → REntries F D c w es p' t
  | .simple (k := k) (b := b) (v := v) hk he hv => by
    intro A hA hf hi ha hc
    obtain ⟨B, ks, b1, b2, b3, b4, b5, b6⟩ := read_key (F := F) (fl := 0) hk hA hf ha (fun _ => by omega) (fun _ => he)
    rw [hc] at b2
    have hB : InBlock c none B := ⟨b2.cool, b2.flow.trans (by rw [base_flow, hf]), b2.indent.trans (base_indent _ hf hi), ⟨b4, by simp⟩, fun _ => by have := b5 hf; omega,
      fun h => by rw [b4] at h; cases h⟩
    obtain ⟨C, ts, c1, c2, c3, c4, c5, c6⟩ := reads_blockNode hv B hB
    refine ⟨C, _, ?_, b2.trans c2, ?_, c5, c6⟩
    · have := b1.trans c1
      simpa using this
    · intro vs fs h
      have := Derives.keyValue (.some (b6 true true)) c3 h
      simpa using this
  | .key (k := k) he hk => by
    intro A hA hf hi ha hc
    obtain ⟨B, b1, b2, b3, b4, b5⟩ := read_dash (F := F) (t := k ++ t) (Or.inr ⟨rfl, rfl, rfl⟩) hA hf (g := []) Blanks.nil (Or.inl ha) (n := c) (by show (A.mark.column : Int) = _; omega) hi he
    obtain ⟨C, ts, c1, c2, c3, c4, c5, c6⟩ := reads_blockNode hk B (after_dash hf hi b2 b3 b4 b5 (by decide) hc)
    refine ⟨C, _, ?_, b2.trans c2, ?_, c5, c6⟩
    · have := b1.trans c1
      simpa using this
    · intro vs fs h
      have := Derives.keyOnly c3 h
      simpa using this
  | .pair (k := k) (g := g) (v := v) he hk hg hc' he' hv => by
    intro A hA hf hi ha hc
    obtain ⟨B, b1, b2, b3, b4, b5⟩ := read_dash (F := F) (t := k ++ (g ++ ':' :: (v ++ t))) (Or.inr ⟨rfl, rfl, rfl⟩) hA hf (g := []) Blanks.nil (Or.inl ha) (n := c)
      (by show (A.mark.column : Int) = _; omega) hi he
    have hB := after_dash hf hi b2 b3 b4 b5 (by decide) hc
    obtain ⟨C, ts, c1, c2, c3, c4, c5, c6⟩ := reads_blockNode hk B hB
    have hCf : C.flow = 0 := c2.flow.trans hB.flow
    have hCi : C.indent = c := c2.indent.trans hB.indent
    have hcol := after_col c5 hCf hc'
    have hac : C.allowed = true ∨ hasBrk g = true := by
      rw [← any_hasBrk, c5.allowed]
      unfold Place.after at hc'
      split at hc'
      · rename_i h; exact Or.inr h
      · left
        revert hc'
        cases ‹Place› <;> simp
    obtain ⟨E, e1, e2, e3, e4, e5⟩ := read_colonW (F := F) (t := v ++ t) c2.cool hCf (c5.ws hCf hg) hac
      (by rcases hac with h | h
          · exact Or.inl (c6 h)
          · exact Or.inr h) (by rw [hcol, hCi]) he'
    have hE : InBlock c (some (c + 1)) E := by
      refine ⟨e2.cool, e2.flow.trans hCf, e2.indent.trans hCi, ⟨e4, ?_⟩, by simp, fun _ => e3⟩
      intro k hk
      cases hk
      rw [e5, (advance_flat _ [':'] (by simp; decide)).2.1, hcol]
      rfl
    obtain ⟨G, us, g1, g2, g3, g4, g5, g6⟩ := reads_blockNode hv E hE
    refine ⟨G, _, ?_, (b2.trans c2).trans (e2.trans g2), ?_, g5, g6⟩
    · have := b1.trans (c1.trans (e1.trans g1))
      simpa using this
    · intro vs fs h
      have := Derives.keyValue c3 g3 h
      simpa using this
end

end

end Yaml.Lx
