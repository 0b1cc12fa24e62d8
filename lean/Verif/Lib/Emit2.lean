import Verif.Lib.Emit
import Verif.Lib.Grammar
import Verif.Spec.Emit

/-
The analysis of events.
-/

namespace Yaml.Emitter
open Yaml Spec

set_option linter.unusedSimpArgs false

variable {e : Encoding} {u : Bool} {fails : Prop} {α β : Type}

theorem isAlpha_iff (c : Char) : isAlpha c = true ↔ NameChar c := by
  simp only [isAlpha, NameChar, Char.isAlphanum, Char.isAlpha, Char.isUpper, Char.isLower, Char.isDigit,
    Bool.or_eq_true, Bool.and_eq_true, decide_eq_true_eq, beq_iff_eq, char_le, GE.ge, UInt32.le_iff_toNat_le]
  have h : c.val.toNat = c.toNat := rfl
  simp only [h]
  have e0 : '0'.toNat = 48 := rfl
  have e9 : '9'.toNat = 57 := rfl
  have eA : 'A'.toNat = 65 := rfl
  have eZ : 'Z'.toNat = 90 := rfl
  have ea : 'a'.toNat = 97 := rfl
  have ez : 'z'.toNat = 122 := rfl
  rw [e0, e9, eA, eZ, ea, ez]
  show _ ↔ ((65 ≤ c.toNat ∧ c.toNat ≤ 90 ∨ 97 ≤ c.toNat ∧ c.toNat ≤ 122) ∨ 48 ≤ c.toNat ∧ c.toNat ≤ 57) ∨ c = '_' ∨ c = '-'
  constructor
  · rintro ((((h | h) | h) | h) | h) <;> simp [h]
  · rintro (((h | h) | h) | h | h) <;> simp [h]

theorem all_isAlpha_iff (t : Str) : t.all isAlpha = true ↔ ∀ c ∈ t, NameChar c := by
  rw [List.all_eq_true]
  exact ⟨fun h c hc => (isAlpha_iff c).1 (h c hc), fun h c hc => (isAlpha_iff c).2 (h c hc)⟩

theorem handle_out {h : Str} (hh : HandleOk h) : OutStr u h := by
  have one : OutChar u '!' := outChar_ascii (by decide) (by decide)
  rcases hh with rfl | ⟨n, rfl, hn⟩
  · exact OutStr.cons one OutStr.nil
  · exact OutStr.cons one (OutStr.append (fun c hc => outChar_alpha ((isAlpha_iff c).2 (hn c hc))) (OutStr.cons one OutStr.nil))

/-- What an analysis says about the event it was made for. -/
structure AnaOk (s : EState) (tags : List TagDirective) (ev : EventData) (a : Analysis) : Prop where
  anchor : ∀ x, a.anchor = some x → NameOk x.anchor
  tag : ∀ t, a.tag = some t → t.handle = [] ∨ ∃ d ∈ tags, t.handle = d.handle
  scalar : ∀ anchor tag value p q style, ev = .scalar anchor tag value p q style →
    a.scalar = some (analyzeScalar s.unicode value) ∧ (a.tag = none → tag = none ∨ p = true ∨ q = true)
      ∧ (tag = none → a.tag = none)

/-- The checks made by the analysis alone. -/
def AnaEvent (canonical : Bool) : EventData → Prop
  | .scalar anchor tag _ p q _ =>
    (∀ a, anchor = some a → NameOk a) ∧
      (∀ t, tag = some t → (canonical = true ∨ (p = false ∧ q = false)) → t ≠ [])
  | .documentStart .. => True
  | ev => EventOk canonical ev

theorem AnaEvent.of_ok {canonical : Bool} {ev : EventData} (h : EventOk canonical ev) : AnaEvent canonical ev := by
  cases ev <;> simp only [AnaEvent, EventOk] at * <;> first | exact h | trivial | exact ⟨h.1, h.2.2⟩

/-- Either an emitter error or a failure of the writer. -/
def EErr (bad : Prop) (err : Err) : Prop := (∃ k, err = .io k) ∨ (bad ∧ ∃ m, err = .emitter m)

theorem lenUtf8_pos (c : Char) : 0 < lenUtf8 c := by
  unfold lenUtf8; repeat' split
  all_goals omega

theorem strLen_append (a b : Str) : strLen (a ++ b) = strLen a + strLen b := by
  induction a with
  | nil => simp [strLen]
  | cons c a ih => simp [strLen, ih]; omega

theorem splitBytes_of (a b : Str) : splitBytes (strLen a) (a ++ b) = some (a, b) := by
  induction a with
  | nil => simp [strLen, splitBytes]
  | cons c a ih =>
    have := lenUtf8_pos c
    obtain ⟨n, hn⟩ : ∃ n, strLen (c :: a) = n + 1 := ⟨strLen (c :: a) - 1, by simp [strLen]; omega⟩
    rw [hn, List.cons_append, splitBytes, ← hn]
    have h2 : strLen (c :: a) - lenUtf8 c = strLen a := by simp [strLen]
    rw [if_pos (by simp [strLen]), h2, ih]
    rfl

theorem splitBytes_some {n : Nat} {t : Str} {p : Str × Str} (h : splitBytes n t = some p) : t = p.1 ++ p.2 ∧ strLen p.1 = n := by
  induction t generalizing n p with
  | nil =>
    cases n with
    | zero => rw [splitBytes] at h; cases h; exact ⟨rfl, rfl⟩
    | succ n => rw [splitBytes] at h; cases h
  | cons c t ih =>
    cases n with
    | zero => rw [splitBytes] at h; cases h; exact ⟨rfl, rfl⟩
    | succ n =>
      rw [splitBytes] at h
      split at h
      · rename_i hle
        cases hq : splitBytes (n + 1 - lenUtf8 c) t with
        | none => rw [hq] at h; cases h
        | some q =>
          rw [hq] at h
          simp only [Option.map_some, Option.some.injEq] at h
          obtain ⟨h1, h2⟩ := ih hq
          subst h
          exact ⟨by simp [← h1], by simp [strLen, h2]; omega⟩
      · cases h

theorem cutOk_of_ascii {p t : Str} (ht : ∀ c ∈ t, c.toNat < 128) : CutOk p t := by
  intro hlt
  have key : ∀ (t : Str) (n : Nat), (∀ c ∈ t, c.toNat < 128) → n ≤ strLen t → ∃ a b, t = a ++ b ∧ strLen a = n := by
    intro t
    induction t with
    | nil => intro n _ hn; simp [strLen] at hn; subst hn; exact ⟨[], [], rfl, rfl⟩
    | cons c t ih =>
      intro n ht hn
      cases n with
      | zero => exact ⟨[], c :: t, rfl, rfl⟩
      | succ n =>
        have h1 : lenUtf8 c = 1 := by
          have := ht c (by simp)
          unfold lenUtf8; rw [if_pos this]
        obtain ⟨a, b, h2, h3⟩ := ih n (fun d hd => ht d (List.mem_cons_of_mem _ hd)) (by simp [strLen, h1] at hn; omega)
        exact ⟨c :: a, b, by rw [h2]; rfl, by simp [strLen, h1, h3]; omega⟩
  exact key t _ ht (by omega)

section wp
variable {step : Step EmitOp EmitAns Ob} {P : PanicSite → Prop} {E : Err → EState → Ob → Prop} {s : EState} {b : Ob}

theorem wp_analyzeAnchor {name : Str} {al : Bool} {Q : AnchorAnalysis → EState → Ob → Prop}
    (hE : ¬ NameOk name → ∀ m, E (.emitter m) s b) (hQ : NameOk name → Q ⟨name, al⟩ s b) :
    M.wp step P E (analyzeAnchor name al) Q s b := by
  unfold analyzeAnchor
  by_cases h1 : name = []
  · subst h1
    exact hE (fun h => h.1 rfl) _
  · rw [if_neg (by simpa using h1)]
    by_cases h2 : name.all isAlpha = true
    · rw [if_neg (by rw [h2]; decide)]
      exact hQ ⟨h1, (all_isAlpha_iff name).1 h2⟩
    · rw [if_pos (by simpa using h2)]
      exact hE (fun h => h2 ((all_isAlpha_iff name).2 h.2)) _

theorem wp_analyzeTagLoop {tag : Str} {ds : List TagDirective} {Q : TagAnalysis → EState → Ob → Prop}
    (hP : ¬ (∀ d ∈ ds, CutOk d.prefix_ tag) → P .tagSlice)
    (hQ : ∀ t : TagAnalysis, (t.handle = [] ∨ ∃ d ∈ ds, t.handle = d.handle) → Q t s b) :
    M.wp step P E (analyzeTagLoop tag ds) Q s b := by
  induction ds with
  | nil => exact hQ _ (Or.inl rfl)
  | cons d ds ih =>
    have ih' := ih (fun h => hP fun h' => h fun d hd => h' d (List.mem_cons_of_mem _ hd))
      fun t ht => hQ t (ht.imp id fun ⟨d', hd', h⟩ => ⟨d', List.mem_cons_of_mem _ hd', h⟩)
    unfold analyzeTagLoop
    split
    · rename_i hlt
      cases hp : splitBytes (strLen d.prefix_) tag with
      | none =>
        refine hP fun h => ?_
        obtain ⟨x, y, h1, h2⟩ := h d (by simp) hlt
        rw [← h2, h1, splitBytes_of] at hp
        cases hp
      | some p =>
        simp only
        split
        · exact hQ _ (Or.inr ⟨d, by simp, rfl⟩)
        · exact ih'
    · exact ih'

theorem wp_analyzeTag {tag : Str} {ds : List TagDirective} {Q : TagAnalysis → EState → Ob → Prop}
    (hE : tag = [] → ∀ m, E (.emitter m) s b)
    (hP : ¬ (∀ d ∈ ds, CutOk d.prefix_ tag) → P .tagSlice)
    (hQ : ∀ t : TagAnalysis, tag ≠ [] → (t.handle = [] ∨ ∃ d ∈ ds, t.handle = d.handle) → Q t s b) :
    M.wp step P E (analyzeTag tag ds) Q s b := by
  unfold analyzeTag
  by_cases h1 : tag = []
  · subst h1; exact hE rfl _
  · rw [if_neg (by simpa using h1)]
    exact wp_analyzeTagLoop hP fun t => hQ t h1

/-- The optional anchor. -/
theorem wp_optAnchor {anchor : Option Str} {f : Option AnchorAnalysis → Emit β} {Q : β → EState → Ob → Prop}
    (hE : ¬ (∀ a, anchor = some a → NameOk a) → ∀ m, E (.emitter m) s b)
    (hQ : ∀ x, (∀ a, anchor = some a → NameOk a) → (∀ y, x = some y → NameOk y.anchor) → M.wp step P E (f x) Q s b) :
    M.wp step P E (analyzeOptAnchor anchor >>= f) Q s b := by
  rw [M.wp_bind]
  unfold analyzeOptAnchor
  cases anchor with
  | none => exact hQ none (by simp) (by simp)
  | some a =>
    simp only [M.wp_bind]
    refine wp_analyzeAnchor (fun h m => hE (fun h' => h (h' a rfl)) m) (fun h => ?_)
    refine hQ _ (by rintro a' h'; cases h'; exact h) ?_
    rintro y hy; cases hy; exact h

theorem wp_optTag {tag : Option Str} {c : Bool} {ds : List TagDirective} {f : Option TagAnalysis → Emit β}
    {Q : β → EState → Ob → Prop}
    (hE : ¬ (∀ t, tag = some t → c = true → t ≠ []) → ∀ m, E (.emitter m) s b)
    (hP : ¬ (∀ t, tag = some t → ∀ d ∈ ds, CutOk d.prefix_ t) → P .tagSlice)
    (hQ : ∀ x, (∀ t, tag = some t → c = true → t ≠ []) → (∀ y, x = some y → y.handle = [] ∨ ∃ d ∈ ds, y.handle = d.handle) →
      (x = none → tag = none ∨ c = false) → (tag = none → x = none) → M.wp step P E (f x) Q s b) :
    M.wp step P E (analyzeOptTag c ds tag >>= f) Q s b := by
  rw [M.wp_bind]
  unfold analyzeOptTag
  cases tag with
  | none => exact hQ none (by simp) (by simp) (by simp) (by simp)
  | some t =>
    simp only
    cases c with
    | false =>
      rw [if_neg (by simp)]
      exact hQ none (by simp) (by simp) (by simp) (by simp)
    | true =>
      rw [if_pos rfl, M.wp_bind]
      refine wp_analyzeTag (fun h m => hE (fun h' => h' t rfl rfl h) m) (fun h => hP fun h' => h (h' t rfl)) (fun x hx hx' => ?_)
      refine hQ _ (by rintro t' h' -; cases h'; exact hx) ?_ (by simp) (by simp)
      rintro y hy; cases hy; exact hx'

theorem wp_analyzeEvent {ev : Event} {ds : List TagDirective} {Q : Analysis → EState → Ob → Prop}
    (hE : ¬ AnaEvent s.canonical ev.data → ∀ m, E (.emitter m) s b)
    (hP : ¬ TagFits ds ev.data → P .tagSlice)
    (hQ : ∀ a, AnaEvent s.canonical ev.data → AnaOk s ds ev.data a → Q a s b) :
    M.wp step P E (analyzeEvent ev ds) Q s b := by
  obtain ⟨d, m1, m2⟩ := ev
  unfold analyzeEvent
  rw [M.wp_bind, M.wp_get]
  simp only at *
  have triv : AnaEvent s.canonical d → (∀ anchor tag value p q style, d ≠ .scalar anchor tag value p q style) →
      Q {} s b := fun h hd => hQ {} h ⟨by simp, by simp, fun a t v p q st h' => (hd a t v p q st h').elim⟩
  cases d with
  | alias name =>
    simp only [M.wp_bind]
    refine wp_analyzeAnchor (fun h m => hE h m) (fun h => ?_)
    exact hQ _ h ⟨by rintro x hx; cases hx; exact h, by simp, by simp⟩
  | scalar anchor tag value p q style =>
    simp only
    refine wp_optAnchor (fun h m => hE (fun h' => h h'.1) m) (fun x hx hx' => ?_)
    refine wp_optTag (fun h m => hE (fun h' => h fun t ht hc => h'.2 t ht ?_) m) (fun h => hP h) (fun y hy hy' hy2 hy3 => ?_)
    · simpa using hc
    · refine hQ _ ⟨hx, fun t ht hc => hy t ht (by simpa using hc)⟩ ⟨hx', hy', ?_⟩
      rintro a' t' v' p' q' st' h
      cases h
      refine ⟨rfl, fun hn => (hy2 hn).imp id fun h => ?_, hy3⟩
      simp at h
      cases p
      · cases q
        · simp at h
        · exact Or.inr rfl
      · exact Or.inl rfl
  | sequenceStart anchor tag implicit style =>
    simp only
    refine wp_optAnchor (fun h m => hE (fun h' => h h'.1) m) (fun x hx hx' => ?_)
    refine wp_optTag (fun h m => hE (fun h' => h fun t ht hc => h'.2 t ht ?_) m) (fun h => hP h) (fun y hy hy' hy2 hy3 => ?_)
    · simpa using hc
    · exact hQ _ ⟨hx, fun t ht hc => hy t ht (by simpa using hc)⟩ ⟨hx', hy', by simp⟩
  | mappingStart anchor tag implicit style =>
    simp only
    refine wp_optAnchor (fun h m => hE (fun h' => h h'.1) m) (fun x hx hx' => ?_)
    refine wp_optTag (fun h m => hE (fun h' => h fun t ht hc => h'.2 t ht ?_) m) (fun h => hP h) (fun y hy hy' hy2 hy3 => ?_)
    · simpa using hc
    · exact hQ _ ⟨hx, fun t ht hc => hy t ht (by simpa using hc)⟩ ⟨hx', hy', by simp⟩
  | streamStart enc => exact triv trivial (by simp)
  | streamEnd => exact triv trivial (by simp)
  | documentStart v t i => exact triv trivial (by simp)
  | documentEnd i => exact triv trivial (by simp)
  | sequenceEnd => exact triv trivial (by simp)
  | mappingEnd => exact triv trivial (by simp)

end wp

/-! ### Which characters the styles let through -/

theorem special_mono (unicode : Bool) (t : Str) (first : Bool) (f : Flags) (h : (analyzeLoop unicode t first f).specialCharacters = false) :
    f.specialCharacters = false ∧ ∀ c ∈ t, isPrintable c = true ∧ (isAscii c = true ∨ unicode = true) := by
  induction t generalizing first f with
  | nil => exact ⟨h, by simp⟩
  | cons c t ih =>
    obtain ⟨h1, h2⟩ := ih _ _ h
    have ind : ∀ g, (indicatorStep first c (isBlankzO t.head?) g).specialCharacters = g.specialCharacters := by
      intro g
      unfold indicatorStep
      split <;> repeat' split
      all_goals rfl
    have sp : ∀ g, (spaceStep unicode first c t.isEmpty g).specialCharacters
        = (g.specialCharacters || (!isPrintable c || (!isAscii c && !unicode))) := by
      intro g
      unfold spaceStep
      cases h1 : (!isPrintable c || (!isAscii c && !unicode)) <;> cases h2 : isBreak c <;> cases h3 : isSpace c <;> simp
    rw [sp, ind] at h1
    simp only [Bool.or_eq_false_iff, Bool.not_eq_false', Bool.and_eq_false_imp, Bool.not_eq_true'] at h1
    refine ⟨h1.1, fun d hd => ?_⟩
    rcases List.mem_cons.1 hd with rfl | hd
    · refine ⟨h1.2.1, ?_⟩
      cases ha : isAscii d
      · exact Or.inr (h1.2.2 ha)
      · exact Or.inl rfl
    · exact h2 d hd

/-- A value that may be written in another style than double-quoted has acceptable characters. -/
theorem analyze_out {value : Str} (h : (analyzeScalar u value).flowPlainAllowed = true ∨ (analyzeScalar u value).blockPlainAllowed = true
    ∨ (analyzeScalar u value).singleQuotedAllowed = true ∨ (analyzeScalar u value).blockAllowed = true) : OutStr u value := by
  by_cases hv : value = []
  · subst hv; exact OutStr.nil
  · unfold analyzeScalar at h
    rw [if_neg (by simpa using hv)] at h
    simp only [decideStyles] at h
    have : (analyzeLoop u value true
      { blockIndicators := startsWith value (cs! "---") || startsWith value (cs! "..."),
        flowIndicators := startsWith value (cs! "---") || startsWith value (cs! "..."), precededByWhitespace := true }).specialCharacters = false := by
      generalize analyzeLoop u value true _ = f at h ⊢
      cases hs : f.specialCharacters
      · rfl
      · simp [hs] at h
    intro c hc
    have := (special_mono u value true _ this).2 c hc
    exact outChar_printable this.1 (this.2.symm)

theorem analyze_value (value : Str) : (analyzeScalar u value).value = value := by
  unfold analyzeScalar
  by_cases hv : value = []
  · subst hv; rfl
  · rw [if_neg (by simpa using hv)]; rfl

/-- The chosen style is a real one, and if it is not double-quoted the characters are acceptable. -/
theorem chooseStyle_out {s : EState} {value : Str} {noTag p : Bool} {style : ScalarStyle} :
    chooseStyle s (analyzeScalar u value) noTag p style ≠ .any ∧
    (chooseStyle s (analyzeScalar u value) noTag p style ≠ .doubleQuoted → OutStr u value) := by
  generalize hsc : analyzeScalar u value = sc
  have hout : (sc.flowPlainAllowed = true ∨ sc.blockPlainAllowed = true ∨ sc.singleQuotedAllowed = true ∨ sc.blockAllowed = true) →
      OutStr u value := by rw [← hsc]; exact analyze_out
  unfold chooseStyle
  generalize h1 : (if style = .any then ScalarStyle.plain else style) = s1
  have hs1 : s1 ≠ .any := by rw [← h1]; split <;> simp [*]
  simp only
  generalize h2 : (if s.canonical then ScalarStyle.doubleQuoted else s1) = s2
  have hs2 : s2 ≠ .any := by rw [← h2]; split <;> simp [hs1]
  generalize h3 : (if s.simpleKeyContext && sc.multiline then ScalarStyle.doubleQuoted else s2) = s3
  have hs3 : s3 ≠ .any := by rw [← h3]; split <;> simp [hs2]
  clear h1 h2 h3 hs1 hs2
  generalize h4 : (if s3 = .plain then
      if (s.flowLevel != 0 && !sc.flowPlainAllowed) || (s.flowLevel == 0 && !sc.blockPlainAllowed)
          || (sc.value.isEmpty && (s.flowLevel != 0 || s.simpleKeyContext))
          || (noTag && !p) then ScalarStyle.singleQuoted
      else ScalarStyle.plain
    else s3) = s4
  have hs4 : s4 ≠ .any ∧ (s4 = .plain → OutStr u value) := by
    rw [← h4]
    split
    · split
      · simp
      · rename_i hc
        refine ⟨by simp, fun _ => hout ?_⟩
        simp only [Bool.or_eq_true, not_or, Bool.and_eq_true, not_and, Bool.not_eq_true, Bool.not_eq_false'] at hc
        by_cases hfl : s.flowLevel = 0
        · exact Or.inr (Or.inl (by have := hc.1.1.2 (by simp [hfl]); simpa using this))
        · exact Or.inl (by have := hc.1.1.1 (by simp [hfl]); simpa using this)
    · exact ⟨hs3, fun h => absurd h ‹_›⟩
  clear h4
  generalize h5 : (if s4 = .singleQuoted && !sc.singleQuotedAllowed then ScalarStyle.doubleQuoted else s4) = s5
  have hs5 : s5 ≠ .any ∧ (s5 = .plain ∨ s5 = .singleQuoted → OutStr u value) := by
    rw [← h5]
    split
    · simp
    · rename_i hc
      refine ⟨hs4.1, ?_⟩
      rintro (h | h)
      · exact hs4.2 h
      · refine hout (Or.inr (Or.inr (Or.inl ?_)))
        simp [h] at hc
        exact hc
  clear h5
  split
  · simp
  · rename_i hc
    refine ⟨hs5.1, fun hd => ?_⟩
    cases s5 with
    | any => exact absurd rfl hs5.1
    | plain => exact hs5.2 (Or.inl rfl)
    | singleQuoted => exact hs5.2 (Or.inr rfl)
    | doubleQuoted => exact absurd rfl hd
    | literal =>
      refine hout (Or.inr (Or.inr (Or.inr ?_)))
      simp at hc
      exact hc.1.1
    | folded =>
      refine hout (Or.inr (Or.inr (Or.inr ?_)))
      simp at hc
      exact hc.1.1

end Yaml.Emitter
