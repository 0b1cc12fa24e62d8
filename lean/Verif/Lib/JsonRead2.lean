import Verif.Lib.JsonRead
import Verif.Lib.Round12

/-
Reading JSON: the tokens of a value and the events they stand for.
-/

namespace Yaml.Lx
open Yaml Scanner Spec Rt
set_option linter.unusedSimpArgs false
set_option linter.unusedVariables false

/-- What is shown of a value. -/
def ReadsValue (F : Nat) (w : Str) (es : List EventData) : Prop :=
  ∀ (A : Cfg) (g rest : Str), Cool A → A.indent = -1 → Soft A.flow g → PlainStop (A.flow != 0) rest →
    ∃ B toks, Reach F A (w ++ (g ++ rest)) B (g ++ rest) ∧ Moved A B toks ∧ ∀ b i, Derives false [] (.node b i) toks es

/-- What is shown of the items of an array. -/
def ReadsItems (F : Nat) (w : Str) (es : List EventData) : Prop :=
  ∀ (A : Cfg) (r : Str), Cool A → A.indent = -1 → A.flow ≠ 0 →
    ∃ B toks, Reach F A (w ++ ']' :: r) B (']' :: r) ∧ Moved A B toks ∧ Derives false [] .flowItems toks es

/-- What is shown of the members of an object. -/
def ReadsMembers (F : Nat) (w : Str) (es : List EventData) : Prop :=
  ∀ (A : Cfg) (r : Str), Cool A → A.indent = -1 → A.flow ≠ 0 → A.allowed = true →
    ∃ B toks, Reach F A (w ++ '}' :: r) B ('}' :: r) ∧ Moved A B toks ∧ Derives false [] .flowEntries toks es

theorem stop_of {A : Cfg} (hf : A.flow ≠ 0) {c : Char} (hc : isFlowIndicator c) (r : Str) : PlainStop (A.flow != 0) (c :: r) :=
  Or.inr (Or.inr ⟨by simpa using hf, c, r, rfl, hc⟩)

theorem noSplit_cons {g : Str} {c : Char} {r : Str} (h : c ≠ '\n') : NoSplit g (c :: r) := by
  rintro ⟨_, h'⟩; simp at h'; exact h h'

theorem isProps_nil : IsProps [] [] none none := by constructor

section
variable {F : Nat}

theorem reads_word {w : Str} (h : WordText w) : ReadsValue F w [.scalar none none w true false .plain] := by
  intro A g rest hA hi hg hr
  obtain ⟨B, b1, b2, _⟩ := (atom_word (F := F) h hg hr).cool hA rfl hi (g := []) Blanks.nil (fun _ => by rw [hi]; omega)
  refine ⟨B, _, by simpa using b1, b2, fun b i => ?_⟩
  have := Derives.scalar (lax := false) (D := []) (b := b) (i := i) isProps_nil w .plain
  simpa [scalarEvent, untagged] using this

theorem reads_string {w v : Str} (h : JsonString w v) : ReadsValue F w [.scalar none none v false true .doubleQuoted] := by
  intro A g rest hA hi hg hr
  obtain ⟨B, b1, b2, _⟩ := (atom_string (F := F) (fl := A.flow) (m := A.indent) h (g ++ rest)).cool hA rfl rfl (g := []) Blanks.nil (fun _ => by rw [hi]; omega)
  refine ⟨B, _, by simpa using b1, b2, fun b i => ?_⟩
  have := Derives.scalar (lax := false) (D := []) (b := b) (i := i) isProps_nil v .doubleQuoted
  simpa [scalarEvent, untagged] using this

/-- A bracketed text. -/
theorem reads_pair {c c' : Char} {d d' : TokenData} {w : Str} {P : List TokenData → Prop}
    (h : (c = '[' ∧ d = .flowSequenceStart ∧ c' = ']' ∧ d' = .flowSequenceEnd) ∨ (c = '{' ∧ d = .flowMappingStart ∧ c' = '}' ∧ d' = .flowMappingEnd))
    (hw : ∀ (A : Cfg) (r : Str), Cool A → A.indent = -1 → A.flow ≠ 0 → A.allowed = true → ∃ B toks, Reach F A (w ++ c' :: r) B (c' :: r) ∧ Moved A B toks ∧ P toks)
    (A : Cfg) (r : Str) (hA : Cool A) (hi : A.indent = -1) :
    ∃ B toks, Reach F A ((c :: (w ++ [c'])) ++ r) B r ∧ Moved A B (d :: (toks ++ [d'])) ∧ P toks := by
  have hcd : (c = '[' ∧ d = .flowSequenceStart) ∨ (c = '{' ∧ d = .flowMappingStart) := by
    rcases h with ⟨h1, h2, _⟩ | ⟨h1, h2, _⟩
    · exact Or.inl ⟨h1, h2⟩
    · exact Or.inr ⟨h1, h2⟩
  have hcd' : (c' = ']' ∧ d' = .flowSequenceEnd) ∨ (c' = '}' ∧ d' = .flowMappingEnd) := by
    rcases h with ⟨_, _, h1, h2⟩ | ⟨_, _, h1, h2⟩
    · exact Or.inl ⟨h1, h2⟩
    · exact Or.inr ⟨h1, h2⟩
  obtain ⟨B, b1, b2, b3, b4, b5, b6, b7, b8, b9, _, _⟩ := read_open (F := F) (t := w ++ c' :: r) hcd hA (g := []) Blanks.nil (fun _ => by rw [hi]; omega)
  have hBf : B.flow ≠ 0 := by omega
  obtain ⟨C, toks, c1, c2, c3⟩ := hw B r b6 (b3.trans hi) hBf b8
  have hCf : C.flow ≠ 0 := by rw [c2.flow]; exact hBf
  obtain ⟨E, e1, e2, e3, e4, e5, e6, e7, e8, _⟩ := read_close (F := F) (t := r) hcd' c2.cool hCf (g := []) Blanks.nil
  refine ⟨E, toks, ?_, ⟨?_, ?_, ?_, ?_, e6, ?_⟩, c3⟩
  · have := (b1.trans c1).trans e1
    simpa using this
  · have := c2.flow; omega
  · rw [e3, c2.indent, b3]
  · rw [e4, c2.indents, b4]
  · rw [e5, c2.toks, b5]; simp
  · exact (e8.tail).trans ((c2.tail.tail).trans b9)

theorem pass {A B : Cfg} {g t t' : Str} {toks : List TokenData} {P : List TokenData → Prop} (hA : Cool A) (hg : Soft A.flow g) (hs : NoSplit g t)
    (h : ∃ B toks, Reach F (A.skip g) t B t' ∧ Moved (A.skip g) B toks ∧ P toks) :
    ∃ B toks, Reach F A (g ++ t) B t' ∧ Moved A B toks ∧ P toks := by
  obtain ⟨B, toks, h1, h2, h3⟩ := h
  exact ⟨B, toks, .skip hg.ws hs h1, by simpa using (skip_moved hA g).trans h2, h3⟩

end

theorem advance_index_add (m : Mark) (t : Str) : (advance m t).index = m.index + (position t).index := by
  have key : ∀ (n : Nat) (t : Str), t.length = n → ∀ a b : Mark, (advance a t).index + b.index = (advance b t).index + a.index := by
    intro n
    induction n using Nat.strongRecOn with
    | _ n ih =>
      intro t ht a b
      cases t with
      | nil => simp [advance, Nat.add_comm]
      | cons c r =>
        by_cases hc : c = '\r' ∧ r.head? = some '\n'
        · obtain ⟨rfl, h'⟩ := hc
          cases r with
          | nil => cases h'
          | cons d r =>
            cases h'
            have := ih r.length (by simp at ht; omega) r rfl ⟨a.index + 2, a.line + 1, 0⟩ ⟨b.index + 2, b.line + 1, 0⟩
            simp only [advance] at this ⊢
            omega
        · rw [advance_cons _ _ _ hc, advance_cons _ _ _ hc]
          cases isBreak c with
          | true =>
            have := ih r.length (by simp at ht; omega) r rfl (newlineMark (lenUtf8 c) a) (newlineMark (lenUtf8 c) b)
            simp [newlineMark] at this ⊢; omega
          | false =>
            have := ih r.length (by simp at ht; omega) r rfl (bumpMark c a) (bumpMark c b)
            simp [bumpMark] at this ⊢; omega
  have := key _ t rfl m ⟨0, 0, 0⟩
  simp at this
  unfold position
  omega

section
variable {F : Nat}

/-- The name of a member, the colon and the value. -/
theorem reads_member {a k b c w n : Str} {es : List EventData} (ha : JsonWs a) (hk : JsonString k n) (hb : JsonWs b) (hf : KeyFits k b) (hc : JsonWs c)
    (hw : ReadsValue F w es) (hw0 : Solid w) (A : Cfg) (g rest : Str) (hA : Cool A) (hi : A.indent = -1) (hfl : A.flow ≠ 0) (hal : A.allowed = true)
    (hg : Soft A.flow g) (hr : PlainStop (A.flow != 0) rest) (hwne : w ≠ []) :
    ∃ B toks, Reach F A (a ++ (k ++ (b ++ ':' :: (c ++ (w ++ (g ++ rest)))))) B (g ++ rest) ∧ Moved A B toks ∧
      Derives false [] .flowEntry toks (.scalar none none n false true .doubleQuoted :: es) := by
  have hkq : ∃ k', k = '"' :: k' := by obtain ⟨t, rfl, _⟩ := hk; exact ⟨_, rfl⟩
  refine pass (B := A) (toks := []) hA (jsonWs_ws ha hfl) (by obtain ⟨k', rfl⟩ := hkq; exact noSplit_cons (by decide)) ?_
  obtain ⟨A1, hA1⟩ : ∃ A1, A1 = A.skip a := ⟨_, rfl⟩
  have hm1 := skip_moved hA a
  have hal1 := skip_allowed hal a
  rw [← hA1] at hm1 hal1 ⊢
  have hf1 : A1.flow ≠ 0 := by rw [hm1.flow]; exact hfl
  have hkf := jsonString_flat hk
  obtain ⟨B, b1, b2, b3, b4⟩ := (atom_string (F := F) (fl := A1.flow) (m := A1.indent) hk (b ++ ':' :: (c ++ (w ++ (g ++ rest))))).first hm1.cool rfl rfl hal1
    (g := []) Blanks.nil rfl hkf (fun h => absurd h hf1)
  have hbf : ∀ c ∈ b, isBreak c = false := fun x hx => by rw [← isLineBreak_eq]; exact hf.1 x hx
  have hidx : (advance B.mark b).index ≤ (A1.to []).key.mark.index + 1024 := by
    have e : (A1.to []).key.mark = A1.mark := rfl
    have e2 : advance B.mark b = advance A1.mark (k ++ b) := by
      rw [b4]
      show advance (advance A1.mark k) b = _
      rw [advance_append A1.mark k b (by
        rintro ⟨h, _⟩
        have := hkf _ (List.mem_of_getLast? h)
        revert this; decide)]
    rw [e, e2, advance_index_add]
    have := hf.2
    omega
  obtain ⟨C, c1, c2, c3, c4, c5⟩ := key_colonW (F := F) (t := c ++ (w ++ (g ++ rest))) b2 (jsonWs_ws hb hf1).ws hbf hidx (fun h => absurd h hf1) (fun h => absurd h hf1)
  rw [base_of_flow _ _ hf1] at c2
  have hCf : C.flow ≠ 0 := by rw [c2.flow]; exact hf1
  obtain ⟨E, toks, e1, e2, e3⟩ := pass (F := F) (B := C) (toks := []) (t := w ++ (g ++ rest)) (t' := g ++ rest)
    (P := fun toks => ∀ b i, Derives false [] (.node b i) toks es) c2.cool (jsonWs_ws hc hCf) (by
      obtain ⟨x, w', rfl⟩ := List.exists_cons_of_ne_nil hwne
      refine noSplit_cons ?_
      have := (hw0 x w' rfl).2
      rintro rfl; revert this; decide) (hw (C.skip c) g rest (skip_moved c2.cool c).cool (by
      rw [(skip_moved c2.cool c).indent, c2.indent, hm1.indent, hi]) (by
      rw [(skip_moved c2.cool c).flow, c2.flow, hm1.flow]; exact hg) (by rw [(skip_moved c2.cool c).flow, c2.flow, hm1.flow]; exact hr))
  refine ⟨E, _, (b1.trans c1).trans e1, c2.trans e2, ?_⟩
  have hkd : Derives false [] (.node false false) [.scalar n .doubleQuoted] [.scalar none none n false true .doubleQuoted] := by
    have := Derives.scalar (lax := false) (D := []) (b := false) (i := false) isProps_nil n .doubleQuoted
    simpa [scalarEvent, untagged] using this
  have := Derives.entryPair (.some hkd) (.some (e3 false false))
  simpa using this

theorem value_solid {w : Str} {v : Json} (h : JsonValue w v) : Solid w ∧ w ≠ [] := by
  have cs : ∀ {c : Char} {r : Str}, ¬ IsBlank c ∧ isLineBreak c = false → Solid (c :: r) ∧ (c :: r) ≠ [] := by
    intro c r h
    exact ⟨fun x y hx => by cases hx; exact h, by simp⟩
  cases h with
  | literal h => obtain ⟨c, r, e⟩ := (literal_word h).cons; have := (literal_word h).chars c (by rw [e]; simp); rw [e]; exact cs this.solid
  | number h => obtain ⟨c, r, e⟩ := (number_word h).cons; have := (number_word h).chars c (by rw [e]; simp); rw [e]; exact cs this.solid
  | string h => obtain ⟨t, rfl, _⟩ := h; exact cs ⟨by rintro (h | h) <;> revert h <;> decide, by decide⟩
  | _ => exact cs ⟨by rintro (h | h) <;> revert h <;> decide, by decide⟩

theorem value_noSplit {w g r : Str} {v : Json} (h : JsonValue w v) : NoSplit g (w ++ r) := by
  obtain ⟨h1, h2⟩ := value_solid h
  obtain ⟨x, w', rfl⟩ := List.exists_cons_of_ne_nil h2
  refine noSplit_cons ?_
  have := (h1 x w' rfl).2
  rintro rfl; revert this; decide

mutual
theorem reads_value {w : Str} {v : Json} : JsonValue w v → ReadsValue F w v.events
  | .literal h => reads_word (literal_word h)
  | .number h => reads_word (number_word h)
  | .string h => reads_string h
  | .noItems (g := g0) hg0 => by
    intro A g rest hA hi hg hr
    obtain ⟨B, toks, h1, h2, h3⟩ := reads_pair (F := F) (w := g0) (P := fun toks => toks = []) (Or.inl ⟨rfl, rfl, rfl, rfl⟩)
      (fun A r hA hi hf _ => ⟨A.skip g0, [], .skip (jsonWs_ws hg0 hf).ws (noSplit_cons (by decide)) (.refl _ _), skip_moved hA g0, rfl⟩) A (g ++ rest) hA hi
    subst h3
    exact ⟨B, _, h1, h2, fun b i => by
      have := Derives.flowSeq (lax := false) (D := []) (b := b) (i := i) isProps_nil .noFlowItems
      simpa [untagged, Json.events, itemEvents] using this⟩
  | .array (w := w) (vs := vs) h => by
    intro A g rest hA hi hg hr
    obtain ⟨B, toks, h1, h2, h3⟩ := reads_pair (F := F) (w := w) (P := fun toks => Derives false [] .flowItems toks (itemEvents vs)) (Or.inl ⟨rfl, rfl, rfl, rfl⟩)
      (fun A r hA hi hf _ => reads_items h A r hA hi hf) A (g ++ rest) hA hi
    exact ⟨B, _, h1, h2, fun b i => by
      have := Derives.flowSeq (lax := false) (D := []) (b := b) (i := i) isProps_nil h3
      simpa [untagged, Json.events] using this⟩
  | .noMembers (g := g0) hg0 => by
    intro A g rest hA hi hg hr
    obtain ⟨B, toks, h1, h2, h3⟩ := reads_pair (F := F) (w := g0) (P := fun toks => toks = []) (Or.inr ⟨rfl, rfl, rfl, rfl⟩)
      (fun A r hA hi hf _ => ⟨A.skip g0, [], .skip (jsonWs_ws hg0 hf).ws (noSplit_cons (by decide)) (.refl _ _), skip_moved hA g0, rfl⟩) A (g ++ rest) hA hi
    subst h3
    exact ⟨B, _, h1, h2, fun b i => by
      have := Derives.flowMap (lax := false) (D := []) (b := b) (i := i) isProps_nil .noFlowEntries
      simpa [untagged, Json.events, memberEvents] using this⟩
  | .object (w := w) (ms := ms) h => by
    intro A g rest hA hi hg hr
    obtain ⟨B, toks, h1, h2, h3⟩ := reads_pair (F := F) (w := w) (P := fun toks => Derives false [] .flowEntries toks (memberEvents ms)) (Or.inr ⟨rfl, rfl, rfl, rfl⟩)
      (fun A r hA hi hf ha => reads_members h A r hA hi hf ha) A (g ++ rest) hA hi
    exact ⟨B, _, h1, h2, fun b i => by
      have := Derives.flowMap (lax := false) (D := []) (b := b) (i := i) isProps_nil h3
      simpa [untagged, Json.events] using this⟩
theorem reads_items {w : Str} {vs : List Json} : JsonItems w vs → ReadsItems F w (itemEvents vs)
  | .one (g := g) (w := w) (g' := g') (v := v) hg h hg' => by
    intro A r hA hi hf
    have hs := skip_moved hA g
    obtain ⟨B, toks, h1, h2, h3⟩ := pass (F := F) (B := A) (toks := []) hA (jsonWs_ws hg hf) (value_noSplit h)
      (reads_value h (A.skip g) g' (']' :: r) hs.cool (hs.indent.trans hi) (jsonWs_ws hg' (hs.flow ▸ hf)) (stop_of (hs.flow ▸ hf) (by simp [isFlowIndicator]) r))
    have hBf : B.flow ≠ 0 := by rw [h2.flow]; exact hf
    refine ⟨B.skip g', toks, ?_, by simpa using h2.trans (skip_moved h2.cool g'), ?_⟩
    · have := h1.trans (.skip (jsonWs_ws hg' hBf).ws (noSplit_cons (by decide)) (.refl _ _))
      simpa using this
    · simpa [itemEvents] using Derives.lastItem (.itemNode (h3 false false))
  | .more (g := g) (w := w) (g' := g') (r := r') (v := v) (vs := vs) hg h hg' hr => by
    intro A r hA hi hf
    have hs := skip_moved hA g
    obtain ⟨B, toks, h1, h2, h3⟩ := pass (F := F) (B := A) (toks := []) hA (jsonWs_ws hg hf) (value_noSplit h)
      (reads_value h (A.skip g) g' (',' :: (r' ++ ']' :: r)) hs.cool (hs.indent.trans hi) (jsonWs_ws hg' (hs.flow ▸ hf)) (stop_of (hs.flow ▸ hf) (by simp [isFlowIndicator]) _))
    have hBf : B.flow ≠ 0 := by rw [h2.flow]; exact hf
    have h4 := skip_moved h2.cool g'
    obtain ⟨C, c1, c2, c3, c4, c5⟩ := read_comma (F := F) (t := r' ++ ']' :: r) h4.cool hBf (g := []) Blanks.nil
    obtain ⟨E, toks', e1, e2, e3⟩ := reads_items hr C r c2.cool (by rw [c2.indent, h4.indent, h2.indent, hi]) (by rw [c2.flow]; exact hBf)
    refine ⟨E, toks ++ .flowEntry :: toks', ?_, ?_, ?_⟩
    · have := h1.trans (.skip (jsonWs_ws hg' hBf).ws (noSplit_cons (by decide)) (.trans c1 e1))
      simpa using this
    · have := (h2.trans h4).trans (c2.trans e2)
      simpa using this
    · simpa [itemEvents] using Derives.moreItems (.itemNode (h3 false false)) e3
theorem reads_members {w : Str} {ms : List (Str × Json)} : JsonMembers w ms → ReadsMembers F w (memberEvents ms)
  | .one (a := a) (k := k) (b := b) (c := c) (w := w) (d := d) (n := n) (v := v) ha hk hb hf hc h hd => by
    intro A r hA hi hfl hal
    obtain ⟨B, toks, h1, h2, h3⟩ := reads_member (F := F) ha hk hb hf hc (reads_value h) (value_solid h).1 A d ('}' :: r) hA hi hfl hal (jsonWs_ws hd hfl)
      (stop_of hfl (by simp [isFlowIndicator]) r) (value_solid h).2
    have hBf : B.flow ≠ 0 := by rw [h2.flow]; exact hfl
    refine ⟨B.skip d, toks, ?_, by simpa using h2.trans (skip_moved h2.cool d), ?_⟩
    · have := h1.trans (.skip (jsonWs_ws hd hBf).ws (noSplit_cons (by decide)) (.refl _ _))
      simpa using this
    · simpa [memberEvents] using Derives.lastEntry h3
  | .more (a := a) (k := k) (b := b) (c := c) (w := w) (d := d) (n := n) (r := r') (v := v) (ms := ms) ha hk hb hf hc h hd hr => by
    intro A r hA hi hfl hal
    obtain ⟨B, toks, h1, h2, h3⟩ := reads_member (F := F) ha hk hb hf hc (reads_value h) (value_solid h).1 A d (',' :: (r' ++ '}' :: r)) hA hi hfl hal (jsonWs_ws hd hfl)
      (stop_of hfl (by simp [isFlowIndicator]) _) (value_solid h).2
    have hBf : B.flow ≠ 0 := by rw [h2.flow]; exact hfl
    have h4 := skip_moved h2.cool d
    obtain ⟨C, c1, c2, c3, c4, c5⟩ := read_comma (F := F) (t := r' ++ '}' :: r) h4.cool hBf (g := []) Blanks.nil
    obtain ⟨E, toks', e1, e2, e3⟩ := reads_members hr C r c2.cool (by rw [c2.indent, h4.indent, h2.indent, hi]) (by rw [c2.flow]; exact hBf) c4
    refine ⟨E, toks ++ .flowEntry :: toks', ?_, ?_, ?_⟩
    · have := h1.trans (.skip (jsonWs_ws hd hBf).ws (noSplit_cons (by decide)) (.trans c1 e1))
      simpa using this
    · have := (h2.trans h4).trans (c2.trans e2)
      simpa using this
    · simpa [memberEvents] using Derives.moreEntries h3 e3
end

/-- The tokens of a JSON text stand for the events of its value. -/
theorem runs_json {T : Str} {v : Json} (h : JsonText T v) (e : Encoding) : ∃ toks, Runs F (start e) T toks ∧ DerivesStream false toks (jsonStream e v) := by
  obtain ⟨g, w, g', rfl, hv, hg, hg', ht, ht'⟩ := h
  have htop := top_start e
  have hb := jsonWs_blanks hg ht
  have hb' := jsonWs_blanks hg' ht'
  have hs := htop.skip g
  obtain ⟨B, toks, h1, h2, h3⟩ := pass (F := F) (B := start e) (toks := []) htop.cool hb.soft (value_noSplit hv)
    (reads_value hv ((start e).skip g) g' [] hs.cool hs.indent hb'.soft (Or.inl rfl))
  have hBt := htop.moved h2
  refine ⟨B.toks ++ [.streamEnd], ⟨B, g', ?_, hBt.final (hb'.wsT _)⟩, ?_⟩
  · simpa using h1
  · have := DerivesStream.implicit (lax := false) e (h3 true false) false .none (by simp)
    rw [h2.toks]
    simpa [docEnd, jsonStream, start] using this

end

end Yaml.Lx
