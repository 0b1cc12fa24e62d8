import Verif.Lib.YamlLex

/-
Reading YAML texts, scanner side: scalars, properties and simple keys as runs of atoms.
-/

namespace Yaml.Lx
open Yaml Scanner Spec Rt
set_option linter.unusedSimpArgs false
set_option linter.unusedVariables false

/-! ### Plain scalars -/

theorem plainBody_suffix {fl : Bool} {n : Int} {t v t' : Str} (h : PlainBody fl n t v t') : ∃ p, t = p ++ t' := by
  rcases plainBody_last h with rfl | ⟨p, c, rfl, _⟩
  · exact ⟨[], rfl⟩
  · exact ⟨p ++ [c], by simp⟩

/-- In flow context indentation does not matter. -/
theorem plainBody_flow {n n' : Int} {t v t' : Str} (h : PlainBody true n t v t') : PlainBody true n' t v t' := by
  induction h with
  | done t => exact .done t
  | char hc _ ih => exact .char hc ih
  | blanks hne hb hc hx _ ih => exact .blanks hne hb hc hx ih
  | fold hb hf hn hi hc hx _ ih =>
    obtain ⟨p, x, k, h1, h2, _, h3⟩ := hi
    exact .fold hb hf hn ⟨p, x, k, h1, h2, by simp, h3⟩ hc hx ih

theorem plainEnd_flow {n n' : Int} {t r : Str} {brk : Bool} (h : PlainEnd true n t brk r) : PlainEnd true n' t brk r := by
  cases h with
  | here h => exact .here h
  | gap hb hg hne h =>
    refine .gap hb hg hne ?_
    rcases h with h | h | ⟨_, h, _⟩ | h
    · exact Or.inl h
    · exact Or.inr (Or.inl h)
    · cases h
    · exact Or.inr (Or.inr (Or.inr h))

/-- ... nor within a line. -/
theorem plainBody_line {fl : Bool} {n n' : Int} {t v t' : Str} (h : PlainBody fl n t v t') : ∀ w, t = w ++ t' → OneLine w → PlainBody fl n' t v t' := by
  induction h with
  | done t => intro w _ _; exact .done t
  | @char c t v t' hc h ih =>
    intro w hw hl
    obtain ⟨p, rfl⟩ := plainBody_suffix h
    have e : w = c :: p := List.append_cancel_right (by simpa using hw.symm)
    exact .char hc (ih p rfl fun x hx => hl x (by rw [e]; simp [hx]))
  | @blanks b c t v t' hne hb hc hx h ih =>
    intro w hw hl
    obtain ⟨p, rfl⟩ := plainBody_suffix h
    have e : w = b ++ c :: p := List.append_cancel_right (by simpa using hw.symm)
    exact .blanks hne hb hc hx (ih p rfl fun x hx => hl x (by rw [e]; simp [hx]))
  | @fold b t0 bs t v t' c hb hf hn hi hc hx h ih =>
    intro w hw hl
    exfalso
    obtain ⟨p, rfl⟩ := plainBody_suffix h
    obtain ⟨q, x, k, h1, h2, _⟩ := hi
    have e : w = b ++ (q ++ x :: (List.replicate k ' ' ++ c :: p)) := List.append_cancel_right (by rw [← hw, h1]; simp)
    have := hl x (by rw [e]; simp)
    rw [h2] at this; cases this

theorem gap_stop {t : Str} (h : Solid t) : Gap t [] t := .stop t h

/-- The end of a plain scalar before a colon. -/
theorem plainEnd_colon {fl : Bool} {n : Int} {b t : Str} (hb : AllBlank b) (h : PlainStop fl (':' :: t)) : PlainEnd fl n (b ++ ':' :: t) false (':' :: t) := by
  cases b with
  | nil => exact .here h
  | cons c b =>
    have hs : Solid (':' :: t) := by
      intro x r hx
      cases hx
      exact ⟨by rintro (h | h) <;> revert h <;> decide, by decide⟩
    have := PlainEnd.gap (flow := fl) (n := n) (b := c :: b) (t := ':' :: t) (bs := []) (t' := ':' :: t) hb (gap_stop hs)
      (by intro h; have := congrArg List.length h; simp at this; omega) (Or.inl h)
    simpa using this

section
variable {F fl : Nat} {n : Int} {D : List TagDirective}

theorem plainWord_atom {w v t r : Str} {brk : Bool} (h : PlainWord (fl != 0) (n + 1) w v t) (he : PlainEnd (fl != 0) (n + 1) t brk r) :
    Atom F fl n w (.scalar v .plain) (fl != 0 && brk) t := by
  obtain ⟨c, w1, v1, rfl, rfl, h1, h2, h3, h4, h5⟩ := h
  have hsharp : c ≠ '#' := by
    obtain ⟨c', r', e, h'⟩ := h1
    cases e
    rcases h' with h' | ⟨rfl | ⟨_, rfl | rfl⟩, _⟩
    · rintro rfl; exact h' (by decide)
    all_goals decide
  refine atom_plain0 (rest := r) (brk := brk) (by simpa using h1) (by simp) ⟨c, w1 ++ t, v1, t, by simp, rfl, h2, hsharp, h5, he⟩ he ?_ (by simpa using h3) (by simpa using h4)
  rcases plainBody_last h5 with e | ⟨p, x, e, hx⟩
  · have : w1 = [] := by
      have := congrArg List.length e
      simp at this; exact this
    subst this
    simp only [List.getLast?_singleton, ne_eq, Option.some.injEq]
    rintro rfl
    have := h2.solid.2
    revert this; decide
  · have : w1 = p ++ [x] := List.append_cancel_right (by simpa using e)
    subst this
    rw [← List.cons_append, List.getLast?_append]
    simpa using hx

theorem quotedWord_atom {single : Bool} {w v t : Str} (h : QuotedWord single w v t) :
    Atom F fl n w (.scalar v (if single then .singleQuoted else .doubleQuoted)) false t := by
  obtain ⟨b, rfl, h⟩ := h
  exact atom_quoted h (by simp)

/-! ### Flat texts -/

theorem name_line {a : Str} (h : ∀ c ∈ a, NameChar c) : OneLine a := fun c hc => by rw [isLineBreak_eq]; exact (name_facts (h c hc)).2

theorem oneLine_cons {c : Char} {w : Str} (hc : isLineBreak c = false) (h : OneLine w) : OneLine (c :: w) := by
  intro x hx
  rcases List.mem_cons.1 hx with rfl | hx
  · exact hc
  · exact h x hx

theorem oneLine_append {a b : Str} (h : OneLine a) (h' : OneLine b) : OneLine (a ++ b) := by
  intro x hx
  rcases List.mem_append.1 hx with hx | hx
  · exact h x hx
  · exact h' x hx

theorem allBlank_line {b : Str} (h : AllBlank b) : OneLine b := fun c hc => by rw [isLineBreak_eq]; exact allBlank_flat h c hc

theorem hexDigit_line {c : Char} {k : Nat} (h : HexDigit c k) : isLineBreak c = false := by
  cases hb : isLineBreak c with
  | false => rfl
  | true =>
    exfalso
    simp only [isLineBreak, Bool.or_eq_true, decide_eq_true_eq] at hb
    rcases h with ⟨h1, h2⟩ | ⟨h1, h1', h2 | h2⟩ <;> rcases hb with (((rfl | rfl) | rfl) | rfl) | rfl <;> revert h2 <;> simp <;> omega

theorem uriText_line {vb : Bool} {u v : Str} (h : UriText vb u v) : OneLine u := by
  induction h with
  | nil => intro c hc; cases hc
  | char hc _ ih => exact oneLine_cons (by rw [isLineBreak_eq]; exact (uriChar_facts hc).2.1) ih
  | escape ha hb _ _ ih => exact oneLine_cons (by decide) (oneLine_cons (hexDigit_line ha) (oneLine_cons (hexDigit_line hb) ih))

theorem oneLine_nil : OneLine [] := by intro c h; cases h

theorem tagText_line {w h s : Str} (ht : TagText w h s) : OneLine w := by
  cases ht with
  | @verbatim u v h _ =>
    have h1 : OneLine (u ++ ['>']) := oneLine_append (uriText_line h) (oneLine_cons (by decide) oneLine_nil)
    have h2 : OneLine ('!' :: '<' :: (u ++ ['>'])) := oneLine_cons (by decide) (oneLine_cons (by decide) h1)
    exact h2
  | named hn h _ => exact oneLine_append (oneLine_cons (by decide) (name_line hn)) (oneLine_cons (by decide) (uriText_line h))
  | primary hn _ h _ => exact oneLine_cons (by decide) (oneLine_append (name_line hn) (uriText_line h))
  | bare => exact oneLine_cons (by decide) oneLine_nil

/-! ### Properties -/

theorem endsTag_name {t : Str} (h : EndsTag t) : EndsName t := fun c r hc => by
  rcases h c r hc with h | h
  · exact Or.inl h
  · exact Or.inr (Or.inl h)

theorem endsTag_blank {b t : Str} (hb : AllBlank b) (hne : b ≠ []) : EndsTag (b ++ t) := by
  obtain ⟨c, b', rfl⟩ := List.exists_cons_of_ne_nil hne
  intro x r hx
  cases hx
  exact Or.inl (hb _ List.mem_cons_self)

theorem props_bits {w t : Str} {anchor tag : Option Str} (h : PropsText D w anchor tag t) :
    OneLine w ∧ ∃ ts, Bits F fl n ts w false t ∧ IsProps D ts anchor tag ∧ ts ≠ [] := by
  cases h with
  | anchor hn he => exact ⟨oneLine_cons (by decide) (name_line hn.2), _, .one (atom_anchor (F := F) (fl := fl) (m := n) false hn he), .anchor _, by simp⟩
  | tag hw ht he => exact ⟨tagText_line hw, _, .one (atom_tag (F := F) (fl := fl) (m := n) hw he), .tag ht, by simp⟩
  | @anchorTag a b w hd s _ _ hn hb hne hw ht he =>
    have h1 : OneLine ('&' :: a) := oneLine_cons (by decide) (name_line hn.2)
    refine ⟨?_, _, ?_, .anchorTag a ht, by simp⟩
    · have := oneLine_append h1 (oneLine_append (allBlank_line hb) (tagText_line hw))
      simpa using this
    · have := Bits.more (F := F) (fl := fl) (n := n) (atom_anchor (F := F) (fl := fl) (m := n) false hn (endsTag_name (endsTag_blank (t := w ++ t) hb hne))) h1 hb
        (.one (atom_tag hw he))
      simpa using this
  | @tagAnchor a b w hd s _ _ hn hb hne hw ht he =>
    have h1 : OneLine ('&' :: a) := oneLine_cons (by decide) (name_line hn.2)
    refine ⟨?_, _, ?_, .tagAnchor a ht, by simp⟩
    · have := oneLine_append (tagText_line hw) (oneLine_append (allBlank_line hb) h1)
      simpa using this
    · have := Bits.more (F := F) (fl := fl) (n := n) (atom_tag (F := F) (fl := fl) (m := n) hw (endsTag_blank (t := ('&' :: a) ++ t) hb hne)) (tagText_line hw) hb
        (.one (atom_anchor (F := F) (fl := fl) (m := n) false hn he))
      simpa using this

/-! ### Simple keys -/

theorem plainWord_line {f : Bool} {m m' : Int} {w v t : Str} (h : PlainWord f m w v t) (hw : OneLine w) : PlainWord f m' w v t := by
  obtain ⟨c, w1, v1, rfl, rfl, h1, h2, h3, h4, h5⟩ := h
  exact ⟨c, w1, v1, rfl, rfl, h1, h2, h3, h4, plainBody_line h5 w1 rfl fun x hx => hw x (by simp [hx])⟩

theorem plainWord_key {w v b t : Str} (h : PlainWord (fl != 0) 0 w v (b ++ ':' :: t)) (hs : PlainStop (fl != 0) (':' :: t)) (hb : AllBlank b) (hw : OneLine w) :
    Atom F fl n w (.scalar v .plain) false (b ++ ':' :: t) := by
  have := plainWord_atom (F := F) (plainWord_line (m' := n + 1) h hw) (plainEnd_colon hb hs)
  simpa using this

theorem key_bits {k b t : Str} {es : List EventData} (h : Key D (fl != 0) k b t es) :
    ∃ ts, Bits F fl n ts k false (b ++ ':' :: t) ∧ ∀ bl i, Derives false D (.node bl i) ts es := by
  obtain ⟨h, hl, hb, _⟩ := h
  cases h with
  | alias hn he => exact ⟨_, .one (atom_anchor (F := F) (fl := fl) (m := n) true hn he), fun _ _ => .alias _⟩
  | bare hp =>
    obtain ⟨_, ts, h1, h2, h3⟩ := props_bits (F := F) (fl := fl) (n := n) hp
    exact ⟨ts, h1, fun _ _ => .bare h2 h3⟩
  | plain h hs => exact ⟨_, .one (plainWord_key h hs hb hl), fun _ _ => .scalar .none _ _⟩
  | quoted h => exact ⟨_, .one (quotedWord_atom h), fun _ _ => .scalar .none _ _⟩
  | @propsPlain p s w v _ _ hp hs h hc =>
    obtain ⟨h0, ts, h1, h2, h3⟩ := props_bits (F := F) (fl := fl) (n := n) hp
    exact ⟨_, h1.append h0 hs (.one (plainWord_key h hc hb fun x hx => hl x (by simp [hx]))), fun _ _ => .scalar h2 _ _⟩
  | @propsQuoted p s w v _ _ _ hp hs h =>
    obtain ⟨h0, ts, h1, h2, h3⟩ := props_bits (F := F) (fl := fl) (n := n) hp
    exact ⟨_, h1.append h0 hs (.one (quotedWord_atom h)), fun _ _ => .scalar h2 _ _⟩

/-- A simple key and its colon. -/
theorem read_key {k b t : Str} {es : List EventData} (h : Key D (fl != 0) k b t es) {A : Cfg} (hA : Cool A) (hf : A.flow = fl) (ha : A.allowed = true)
    (hc : A.flow = 0 → A.indent ≤ A.mark.column) (hz : A.flow = 0 → EndsTag t) :
    ∃ B ts, Reach F A (k ++ (b ++ ':' :: t)) B t ∧ Moved (A.base .blockMappingStart A.mark.column) B (.key :: (ts ++ [.value])) ∧ Dead B ∧ B.allowed = false ∧
      (A.flow = 0 → A.mark.column < B.mark.column) ∧ ∀ bl i, Derives false D (.node bl i) ts es := by
  obtain ⟨ts, h1, h2⟩ := key_bits (F := F) (fl := fl) (n := A.indent) h
  have hi : (position k).index ≤ 1024 := by
    have := h.short
    unfold position at this ⊢
    rw [advance_append _ k b (fun h' => oneLine_noCr h.line h'.1)] at this
    have := advance_index (advance ⟨0, 0, 0⟩ k) b
    omega
  obtain ⟨B, b1, b2, b3, b4⟩ := h1.warm hA hf rfl ha h.line hi hc
  have hflat := allBlank_flat h.blank
  have e1 := (advance_flat A.mark k (oneLine_flat h.line)).2.1
  have e2 := (advance_flat B.mark b hflat).2.1
  have hidx : (advance B.mark b).index ≤ (A.to []).key.mark.index + 1024 := by
    show _ ≤ A.mark.index + 1024
    rw [b4, ← advance_append A.mark k b (fun h' => oneLine_noCr h.line h'.1), advance_index_add]
    have := h.short
    omega
  obtain ⟨C, c1, c2, c3, c4, c5⟩ := key_colonW (F := F) (t := t) b2 (allBlank_ws h.blank b3) hflat hidx (fun h0 => by have := hc h0; rw [e2, b4, e1]; omega) hz
  refine ⟨C, ts, b1.trans c1, c2, c3, c4, fun _ => ?_, h2⟩
  rw [c5, (advance_flat _ [':'] (by decide)).2.1, e2, b4, e1]
  simp; omega

end

end Yaml.Lx
