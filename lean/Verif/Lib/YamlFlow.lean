import Verif.Lib.YamlKey

/-
Reading YAML texts: flow style.
-/

namespace Yaml.Lx
open Yaml Scanner Spec Rt
set_option linter.unusedSimpArgs false
set_option linter.unusedVariables false

section
variable {F : Nat} {D : List TagDirective}

/-! ### How things start -/

theorem scalarText_starts {fl : Bool} {n : Int} {w v t : Str} {sty : ScalarStyle} (h : ScalarText fl n w v sty t) : Starts (w ++ t) := by
  have e : fl = ((if fl then 1 else 0 : Nat) != 0) := by cases fl <;> rfl
  cases h with
  | plain h he =>
    rw [e] at h he
    exact (plainWord_atom (F := 0) h he).starts
  | quoted h => exact (quotedWord_atom (F := 0) (fl := 0) (n := 0) h).starts

theorem props_starts {w t : Str} {a tag : Option Str} (h : PropsText D w a tag t) : Starts (w ++ t) := by
  obtain ⟨_, ts, h1, _⟩ := props_bits (F := 0) (fl := 0) (n := 0) h
  exact h1.starts

theorem key_starts {fl : Bool} {k b t : Str} {es : List EventData} (h : Key D fl k b t es) : Starts (k ++ (b ++ ':' :: t)) := by
  have e : fl = ((if fl then 1 else 0 : Nat) != 0) := by cases fl <;> rfl
  rw [e] at h
  obtain ⟨ts, h1, _⟩ := key_bits (F := 0) (n := 0) h
  exact h1.starts

theorem flowContent_starts {fl : Bool} {n : Int} {w t : Str} {a tag : Option Str} {es : List EventData} (h : FlowContent D fl n w a tag es t) : Starts (w ++ t) := by
  cases h with
  | scalar h => exact scalarText_starts h
  | seq h => exact starts_cons (by decide) (by decide) (by decide) (by decide) (by decide)
  | map h => exact starts_cons (by decide) (by decide) (by decide) (by decide) (by decide)

theorem flowNode_starts {w t : Str} {es : List EventData} (h : FlowNode D w es t) : Starts (w ++ t) := by
  cases h with
  | alias => exact starts_cons (by decide) (by decide) (by decide) (by decide) (by decide)
  | content h => exact flowContent_starts h
  | props hp hg h => have := props_starts hp; simpa using this
  | bare hp => exact props_starts hp

theorem flowItem_starts {w t : Str} {es : List EventData} (h : FlowItem D w es t) : Starts (w ++ t) := by
  cases h with
  | node h => exact flowNode_starts h
  | pair hk hv => have := key_starts hk; simpa using this
  | key => exact starts_cons (by decide) (by decide) (by decide) (by decide) (by decide)
  | keyPair => exact starts_cons (by decide) (by decide) (by decide) (by decide) (by decide)

theorem flowEntry_starts {w t : Str} {es : List EventData} (h : FlowEntry D w es t) : Starts (w ++ t) := by
  cases h with
  | node h => exact flowNode_starts h
  | pair hk hv => have := key_starts hk; simpa using this
  | key => exact starts_cons (by decide) (by decide) (by decide) (by decide) (by decide)
  | keyPair => exact starts_cons (by decide) (by decide) (by decide) (by decide) (by decide)

/-! ### What is shown -/

/-- ... of a node. -/
def RNode (F : Nat) (D : List TagDirective) (w : Str) (es : List EventData) (t : Str) : Prop :=
  ∀ A : Cfg, Cool A → A.flow ≠ 0 → ∃ B ts, Reach F A (w ++ t) B t ∧ Moved A B ts ∧ Keep A B ∧ ∀ b i, Derives false D (.node b i) ts es

/-- ... of the content of a node. -/
def RContent (F : Nat) (D : List TagDirective) (fl : Bool) (n : Int) (w : Str) (a tag : Option Str) (es : List EventData) (t : Str) : Prop :=
  ∀ A : Cfg, Cool A → (A.flow != 0) = fl → (fl = false → A.indent = n) → (A.flow = 0 → A.indent < A.mark.column) →
    ∃ B ts, Reach F A (w ++ t) B t ∧ Moved A B ts ∧ Keep A B ∧ (fl = false → B.allowed = false) ∧
      ∀ ps, IsProps D ps a tag → ∀ b i, Derives false D (.node b i) (ps ++ ts) es

/-- ... of a node or nothing. -/
def ROpt (F : Nat) (D : List TagDirective) (w : Str) (es : List EventData) (t : Str) : Prop :=
  ∀ A : Cfg, Cool A → A.flow ≠ 0 → ∃ B ts, Reach F A (w ++ t) B t ∧ Moved A B ts ∧ Keep A B ∧ Derives false D (.opt false false) ts es

/-- ... of items and entries. -/
def RPhrase (F : Nat) (D : List TagDirective) (ph : Phrase) (w : Str) (es : List EventData) (t : Str) : Prop :=
  ∀ A : Cfg, Cool A → A.flow ≠ 0 → A.allowed = true → ∃ B ts, Reach F A (w ++ t) B t ∧ Moved A B ts ∧ Derives false D ph ts es

theorem keep_skip {A B : Cfg} {g : Str} (hf : A.flow ≠ 0) (h : Keep (A.skip g) B) : Keep A B := by
  intro ha
  refine h ?_
  show (A.allowed || (A.flow == 0 && hasBrk g)) = false
  have : (A.flow == 0) = false := by simpa using hf
  rw [ha, this]; rfl

/-- Brackets. -/
theorem reads_brackets {c c' : Char} {d d' : TokenData} {w : Str} {P : List TokenData → Prop} {r : Str}
    (h : (c = '[' ∧ d = .flowSequenceStart ∧ c' = ']' ∧ d' = .flowSequenceEnd) ∨ (c = '{' ∧ d = .flowMappingStart ∧ c' = '}' ∧ d' = .flowMappingEnd))
    (hw : ∀ A : Cfg, Cool A → A.flow ≠ 0 → A.allowed = true → ∃ B toks, Reach F A (w ++ c' :: r) B (c' :: r) ∧ Moved A B toks ∧ P toks)
    {A : Cfg} (hA : Cool A) (hi : A.flow = 0 → A.indent < A.mark.column) :
    ∃ B toks, Reach F A ((c :: (w ++ [c'])) ++ r) B r ∧ Moved A B (d :: (toks ++ [d'])) ∧ Keep A B ∧ B.allowed = false ∧ P toks := by
  have hcd : (c = '[' ∧ d = .flowSequenceStart) ∨ (c = '{' ∧ d = .flowMappingStart) := by
    rcases h with ⟨h1, h2, _⟩ | ⟨h1, h2, _⟩
    · exact Or.inl ⟨h1, h2⟩
    · exact Or.inr ⟨h1, h2⟩
  have hcd' : (c' = ']' ∧ d' = .flowSequenceEnd) ∨ (c' = '}' ∧ d' = .flowMappingEnd) := by
    rcases h with ⟨_, _, h1, h2⟩ | ⟨_, _, h1, h2⟩
    · exact Or.inl ⟨h1, h2⟩
    · exact Or.inr ⟨h1, h2⟩
  obtain ⟨B, b1, b2, b3, b4, b5, b6, b7, b8, b9, b10, _⟩ := read_open (F := F) (t := w ++ c' :: r) hcd hA (g := []) Blanks.nil hi
  have hBf : B.flow ≠ 0 := by omega
  obtain ⟨C, toks, c1, c2, c3⟩ := hw B b6 hBf b8
  have hCf : C.flow ≠ 0 := by rw [c2.flow]; exact hBf
  obtain ⟨E, e1, e2, e3, e4, e5, e6, e7, e8, _⟩ := read_close (F := F) (t := r) hcd' c2.cool hCf (g := []) Blanks.nil
  refine ⟨E, toks, ?_, ⟨?_, ?_, ?_, ?_, e6, ?_⟩, ?_, e7, c3⟩
  · have := (b1.trans c1).trans e1
    simpa using this
  · have := c2.flow; omega
  · rw [e3, c2.indent, b3]
  · rw [e4, c2.indents, b4]
  · rw [e5, c2.toks, b5]; simp
  · exact (e8.tail).trans ((c2.tail.tail).trans b9)
  · intro ha
    exact e8.trans (c2.tail.trans (b10 (Or.inr rfl) ha))

theorem reads_scalar {fl : Bool} {n : Int} {w v t : Str} {sty : ScalarStyle} {a tag : Option Str} (h : ScalarText fl n w v sty t) :
    RContent F D fl n w a tag [scalarEvent a tag v sty] t := by
  intro A hA hf hi hc
  have key : ∃ b, Atom F A.flow A.indent w (.scalar v sty) b t ∧ (fl = false → b = false) := by
    cases h with
    | @plain _ _ _ r brk h he =>
      cases hfl : fl with
      | false =>
        refine ⟨_, plainWord_atom (brk := brk) (r := r) ?_ ?_, fun _ => ?_⟩
        · rw [hf, hi hfl]; exact h
        · rw [hf, hi hfl]; exact he
        · rw [hf, hfl]; rfl
      | true =>
        subst hfl
        refine ⟨_, plainWord_atom (brk := brk) (r := r) ?_ ?_, fun h => by cases h⟩
        · rw [hf]
          obtain ⟨c, w1, v1, e1, e2, h1, h2, h3, h4, h5⟩ := h
          exact ⟨c, w1, v1, e1, e2, h1, h2, h3, h4, plainBody_flow h5⟩
        · rw [hf]; exact plainEnd_flow he
    | quoted h => exact ⟨false, quotedWord_atom h, fun _ => rfl⟩
  obtain ⟨b, h1, h2⟩ := key
  obtain ⟨B, b1, b2, b3, b4, b5⟩ := Bits.cool (.one h1) hA rfl rfl hc
  exact ⟨B, _, b1, b2, b5, fun hfl => b3.trans (h2 hfl), fun ps hps bl i => .scalar hps v sty⟩

/-- Properties before something else, in flow context. -/
theorem reads_props {w t : Str} {a tag : Option Str} (hp : PropsText D w a tag t) {A : Cfg} (hA : Cool A) (hi : A.flow = 0 → A.indent < A.mark.column) :
    ∃ B ts, Reach F A (w ++ t) B t ∧ Moved A B ts ∧ Keep A B ∧ B.allowed = false ∧ IsProps D ts a tag ∧ ts ≠ [] ∧
      (A.flow = 0 → A.indent < B.mark.column) := by
  obtain ⟨h0, ts, h1, h2, h3⟩ := props_bits (F := F) (fl := A.flow) (n := A.indent) hp
  obtain ⟨B, b1, b2, b3, b4, b5⟩ := h1.cool hA rfl rfl hi
  refine ⟨B, ts, b1, b2, b5, b3, h2, h3, fun hf => ?_⟩
  rw [b4, (advance_flat A.mark w (oneLine_flat h0)).2.1]
  have := hi hf
  omega

mutual
theorem reads_flowNode {w t : Str} {es : List EventData} : FlowNode D w es t → RNode F D w es t
  | .alias hn he => by
    intro A hA hf
    obtain ⟨B, b1, b2, b3, b4, b5⟩ := Bits.cool (.one (atom_anchor (F := F) (fl := A.flow) (m := A.indent) true hn he)) hA rfl rfl (fun h => absurd h hf)
    exact ⟨B, _, b1, b2, b5, fun _ _ => .alias _⟩
  | .content h => by
    intro A hA hf
    obtain ⟨B, ts, b1, b2, b3, b4, b5⟩ := reads_flowContent h A hA (by simpa using hf) (fun h => by cases h) (fun h => absurd h hf)
    exact ⟨B, ts, b1, b2, b3, fun b i => by simpa using b5 [] .none b i⟩
  | .props (p := p) (g := g) (w := w) hp hg h => by
    intro A hA hf
    obtain ⟨B, ps, b1, b2, b3, b4, b5, _, _⟩ := reads_props (F := F) hp hA (fun h => absurd h hf)
    have hBf : B.flow ≠ 0 := by rw [b2.flow]; exact hf
    have hsk := skip_moved b2.cool g
    obtain ⟨C, ts, c1, c2, c3, c4, c5⟩ := reads_flowContent h (B.skip g) hsk.cool (by have := hsk.flow.trans b2.flow; simpa [this] using hf) (fun h => by cases h)
      (fun h => absurd h hBf)
    refine ⟨C, ps ++ ts, ?_, ?_, b3.trans (keep_skip hBf c3) (fun _ => b4), fun b i => c5 ps b5 b i⟩
    · have := b1.trans (.skip (space_flow hBf hg) (noSplit_starts (flowContent_starts h)) c1)
      simpa using this
    · have := (b2.trans hsk).trans c2
      simpa using this
  | .bare hp => by
    intro A hA hf
    obtain ⟨B, ps, b1, b2, b3, b4, b5, b6, _⟩ := reads_props (F := F) hp hA (fun h => absurd h hf)
    exact ⟨B, ps, b1, b2, b3, fun _ _ => .bare b5 b6⟩
theorem reads_flowContent {fl : Bool} {n : Int} {w t : Str} {a tag : Option Str} {es : List EventData} : FlowContent D fl n w a tag es t → RContent F D fl n w a tag es t
  | .scalar h => reads_scalar h
  | .seq (w := w) h => by
    intro A hA hf hi hc
    obtain ⟨B, ts, b1, b2, b3, b4, b5⟩ := reads_brackets (F := F) (w := w) (r := t) (Or.inl ⟨rfl, rfl, rfl, rfl⟩)
      (fun A hA hf ha => reads_flowItems h (by simp) A hA hf ha) hA hc
    exact ⟨B, _, b1, b2, b3, fun _ => b4, fun ps hps b i => .flowSeq hps b5⟩
  | .map (w := w) h => by
    intro A hA hf hi hc
    obtain ⟨B, ts, b1, b2, b3, b4, b5⟩ := reads_brackets (F := F) (w := w) (r := t) (Or.inr ⟨rfl, rfl, rfl, rfl⟩)
      (fun A hA hf ha => reads_flowEntries h (by simp) A hA hf ha) hA hc
    exact ⟨B, _, b1, b2, b3, fun _ => b4, fun ps hps b i => .flowMap hps b5⟩
theorem reads_flowItems {w t : Str} {es : List EventData} : FlowItems D w es t → t.head? ≠ some '\n' → RPhrase F D .flowItems w es t
  | .none (g := g) hg => by
    intro ht A hA hf ha
    exact ⟨A.skip g, [], .skip (space_flow hf hg) (fun h => ht h.2) (.refl _ _), skip_moved hA g, .noFlowItems⟩
  | .last (g := g) (w := w) (g' := g') hg h hg' => by
    intro ht A hA hf ha
    have hsk := skip_moved hA g
    obtain ⟨B, ts, b1, b2, b3⟩ := reads_flowItem h (A.skip g) hsk.cool hf (skip_allowed ha g)
    have hBf : B.flow ≠ 0 := by rw [b2.flow]; exact hf
    refine ⟨B.skip g', ts, ?_, ?_, .lastItem b3⟩
    · have := Reach.skip (space_flow hf hg) (noSplit_starts (flowItem_starts h)) (b1.trans (.skip (space_flow hBf hg') (fun h => ht h.2) (.refl _ _)))
      simpa using this
    · have := (hsk.trans b2).trans (skip_moved b2.cool g')
      simpa using this
  | .more (g := g) (w := w) (g' := g') (r := r) hg h hg' hr => by
    intro ht A hA hf ha
    have hsk := skip_moved hA g
    obtain ⟨B, ts, b1, b2, b3⟩ := reads_flowItem h (A.skip g) hsk.cool hf (skip_allowed ha g)
    have hBf : B.flow ≠ 0 := by rw [b2.flow]; exact hf
    have hsk' := skip_moved b2.cool g'
    obtain ⟨C, c1, c2, c3, c4, c5⟩ := read_comma (F := F) (t := r ++ t) hsk'.cool hBf (g := []) Blanks.nil
    obtain ⟨E, us, e1, e2, e3⟩ := reads_flowItems hr ht C c2.cool (by rw [c2.flow]; exact hBf) c4
    refine ⟨E, ts ++ .flowEntry :: us, ?_, ?_, .moreItems b3 e3⟩
    · have := Reach.skip (space_flow hf hg) (noSplit_starts (flowItem_starts h)) (b1.trans (.skip (space_flow hBf hg') (noSplit_cons (by decide)) (c1.trans e1)))
      simpa using this
    · have := (hsk.trans b2).trans ((hsk'.trans c2).trans e2)
      simpa using this
theorem reads_flowItem {w t : Str} {es : List EventData} : FlowItem D w es t → RPhrase F D .flowItem w es t
  | .node h => by
    intro A hA hf ha
    obtain ⟨B, ts, b1, b2, b3, b4⟩ := reads_flowNode h A hA hf
    exact ⟨B, ts, b1, b2, .itemNode (b4 _ _)⟩
  | .pair (k := k) (b := b) (v := v) hk hv => by
    intro A hA hf ha
    have hfl : (A.flow != 0) = true := by simpa using hf
    have hk' : Key D (A.flow != 0) k b (v ++ t) _ := hfl.symm ▸ hk
    obtain ⟨B, ks, b1, b2, b3, b4, b5, b6⟩ := read_key (F := F) (fl := A.flow) hk' hA rfl ha (fun h => absurd h hf) (fun h => absurd h hf)
    rw [base_of_flow _ _ hf] at b2
    obtain ⟨C, vs, c1, c2, c3, c4⟩ := reads_flowOpt hv B b2.cool (by rw [b2.flow]; exact hf)
    refine ⟨C, _, ?_, b2.trans c2, ?_⟩
    · have := b1.trans c1
      simpa using this
    · have := Derives.itemPair (b6 false false) c4
      simpa using this
  | .key (g := g) (k := k) he hg hk => by
    intro A hA hf ha
    obtain ⟨B, b1, b2, b3, b4, b5⟩ := read_fkey (F := F) (t := g ++ (k ++ t)) hA hf (g := []) Blanks.nil
    have hBf : B.flow ≠ 0 := by rw [b2.flow]; exact hf
    have hsk := skip_moved b2.cool g
    obtain ⟨C, ks, c1, c2, c3, c4⟩ := reads_flowNode hk (B.skip g) hsk.cool hBf
    refine ⟨C, _, ?_, (b2.trans hsk).trans c2, ?_⟩
    · have := b1.trans (.skip (space_flow hBf hg) (noSplit_starts (flowNode_starts hk)) c1)
      simpa using this
    · have := Derives.itemKey (c4 false false)
      simpa using this
  | .keyPair (g := g) (k := k) (g' := g') (v := v) he hg hk hg' hv => by
    intro A hA hf ha
    obtain ⟨B, b1, b2, b3, b4, b5⟩ := read_fkey (F := F) (t := g ++ (k ++ (g' ++ ':' :: (v ++ t)))) hA hf (g := []) Blanks.nil
    have hBf : B.flow ≠ 0 := by rw [b2.flow]; exact hf
    have hsk := skip_moved b2.cool g
    obtain ⟨C, ks, c1, c2, c3, c4⟩ := reads_flowNode hk (B.skip g) hsk.cool hBf
    have hCf : C.flow ≠ 0 := by rw [c2.flow]; exact hBf
    have hCd : Dead C := b3.sub (keep_skip hBf c3 b4)
    have hsk' := skip_moved c2.cool g'
    obtain ⟨E, e1, e2, e3, e4, e5⟩ := read_fcolon (F := F) (t := v ++ t) hsk'.cool hCf (g := []) Blanks.nil hCd
    obtain ⟨G, vs, g1, g2, g3, g4⟩ := reads_flowOpt hv E e2.cool (by rw [e2.flow]; exact hCf)
    refine ⟨G, _, ?_, ((b2.trans hsk).trans c2).trans ((hsk'.trans e2).trans g2), ?_⟩
    · have := b1.trans (.skip (space_flow hBf hg) (noSplit_starts (flowNode_starts hk)) (c1.trans (.skip (space_flow hCf hg') (noSplit_cons (by decide)) (e1.trans g1))))
      simpa using this
    · have := Derives.itemPair (c4 false false) g4
      simpa using this
theorem reads_flowEntries {w t : Str} {es : List EventData} : FlowEntries D w es t → t.head? ≠ some '\n' → RPhrase F D .flowEntries w es t
  | .none (g := g) hg => by
    intro ht A hA hf ha
    exact ⟨A.skip g, [], .skip (space_flow hf hg) (fun h => ht h.2) (.refl _ _), skip_moved hA g, .noFlowEntries⟩
  | .last (g := g) (w := w) (g' := g') hg h hg' => by
    intro ht A hA hf ha
    have hsk := skip_moved hA g
    obtain ⟨B, ts, b1, b2, b3⟩ := reads_flowEntry h (A.skip g) hsk.cool hf (skip_allowed ha g)
    have hBf : B.flow ≠ 0 := by rw [b2.flow]; exact hf
    refine ⟨B.skip g', ts, ?_, ?_, .lastEntry b3⟩
    · have := Reach.skip (space_flow hf hg) (noSplit_starts (flowEntry_starts h)) (b1.trans (.skip (space_flow hBf hg') (fun h => ht h.2) (.refl _ _)))
      simpa using this
    · have := (hsk.trans b2).trans (skip_moved b2.cool g')
      simpa using this
  | .more (g := g) (w := w) (g' := g') (r := r) hg h hg' hr => by
    intro ht A hA hf ha
    have hsk := skip_moved hA g
    obtain ⟨B, ts, b1, b2, b3⟩ := reads_flowEntry h (A.skip g) hsk.cool hf (skip_allowed ha g)
    have hBf : B.flow ≠ 0 := by rw [b2.flow]; exact hf
    have hsk' := skip_moved b2.cool g'
    obtain ⟨C, c1, c2, c3, c4, c5⟩ := read_comma (F := F) (t := r ++ t) hsk'.cool hBf (g := []) Blanks.nil
    obtain ⟨E, us, e1, e2, e3⟩ := reads_flowEntries hr ht C c2.cool (by rw [c2.flow]; exact hBf) c4
    refine ⟨E, ts ++ .flowEntry :: us, ?_, ?_, .moreEntries b3 e3⟩
    · have := Reach.skip (space_flow hf hg) (noSplit_starts (flowEntry_starts h)) (b1.trans (.skip (space_flow hBf hg') (noSplit_cons (by decide)) (c1.trans e1)))
      simpa using this
    · have := (hsk.trans b2).trans ((hsk'.trans c2).trans e2)
      simpa using this
theorem reads_flowEntry {w t : Str} {es : List EventData} : FlowEntry D w es t → RPhrase F D .flowEntry w es t
  | .node h => by
    intro A hA hf ha
    obtain ⟨B, ts, b1, b2, b3, b4⟩ := reads_flowNode h A hA hf
    exact ⟨B, ts, b1, b2, .entryNode (b4 _ _)⟩
  | .pair (k := k) (b := b) (v := v) hk hv => by
    intro A hA hf ha
    have hfl : (A.flow != 0) = true := by simpa using hf
    have hk' : Key D (A.flow != 0) k b (v ++ t) _ := hfl.symm ▸ hk
    obtain ⟨B, ks, b1, b2, b3, b4, b5, b6⟩ := read_key (F := F) (fl := A.flow) hk' hA rfl ha (fun h => absurd h hf) (fun h => absurd h hf)
    rw [base_of_flow _ _ hf] at b2
    obtain ⟨C, vs, c1, c2, c3, c4⟩ := reads_flowOpt hv B b2.cool (by rw [b2.flow]; exact hf)
    refine ⟨C, _, ?_, b2.trans c2, ?_⟩
    · have := b1.trans c1
      simpa using this
    · have := Derives.entryPair (.some (b6 false false)) c4
      simpa using this
  | .key (k := k) he hk => by
    intro A hA hf ha
    obtain ⟨B, b1, b2, b3, b4, b5⟩ := read_fkey (F := F) (t := k ++ t) hA hf (g := []) Blanks.nil
    have hBf : B.flow ≠ 0 := by rw [b2.flow]; exact hf
    obtain ⟨C, ks, c1, c2, c3, c4⟩ := reads_flowOpt hk B b2.cool hBf
    refine ⟨C, _, ?_, b2.trans c2, ?_⟩
    · have := b1.trans c1
      simpa using this
    · have := Derives.entryKey c4
      simpa using this
  | .keyPair (k := k) (g' := g') (v := v) he hk hg' hv => by
    intro A hA hf ha
    obtain ⟨B, b1, b2, b3, b4, b5⟩ := read_fkey (F := F) (t := k ++ (g' ++ ':' :: (v ++ t))) hA hf (g := []) Blanks.nil
    have hBf : B.flow ≠ 0 := by rw [b2.flow]; exact hf
    obtain ⟨C, ks, c1, c2, c3, c4⟩ := reads_flowOpt hk B b2.cool hBf
    have hCf : C.flow ≠ 0 := by rw [c2.flow]; exact hBf
    have hCd : Dead C := b3.sub (c3 b4)
    have hsk' := skip_moved c2.cool g'
    obtain ⟨E, e1, e2, e3, e4, e5⟩ := read_fcolon (F := F) (t := v ++ t) hsk'.cool hCf (g := []) Blanks.nil hCd
    obtain ⟨G, vs, g1, g2, g3, g4⟩ := reads_flowOpt hv E e2.cool (by rw [e2.flow]; exact hCf)
    refine ⟨G, _, ?_, (b2.trans c2).trans ((hsk'.trans e2).trans g2), ?_⟩
    · have := b1.trans (c1.trans (.skip (space_flow hCf hg') (noSplit_cons (by decide)) (e1.trans g1)))
      simpa using this
    · have := Derives.entryPair c4 g4
      simpa using this
theorem reads_flowOpt {w t : Str} {es : List EventData} : FlowOpt D w es t → ROpt F D w es t
  | .nothing => by
    intro A hA hf
    exact ⟨A, [], .refl _ _, .refl hA, fun _ => KeySub.refl _, .nothing⟩
  | .node (g := g) (w := w) hg h => by
    intro A hA hf
    have hsk := skip_moved hA g
    obtain ⟨B, ts, b1, b2, b3, b4⟩ := reads_flowNode h (A.skip g) hsk.cool hf
    refine ⟨B, ts, ?_, by simpa using hsk.trans b2, keep_skip hf b3, .some (b4 _ _)⟩
    have := Reach.skip (space_flow hf hg) (noSplit_starts (flowNode_starts h)) b1
    simpa using this
end

end

end Yaml.Lx
