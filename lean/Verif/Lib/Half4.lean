import Verif.Lib.Half3
import Verif.Lib.Docs3
import Verif.Props.Tiling

/-
C66: over a source that breaks off, the end of the text is never reported.
-/

namespace Yaml.Hf
open Yaml Yaml.Spec Yaml.Cu Reader Scanner
set_option linter.unusedSimpArgs false
set_option linter.unusedVariables false

/-! ### What was delivered -/

/-- All characters delivered are acceptable. -/
def Good (r : Rd) : Prop := ∀ c ∈ r.buffer, isAllowed c = true

theorem good_push {w : Char → Nat} {cs buf : List Char} {off : Nat} (h : ∀ c ∈ buf, isAllowed c = true) :
    ∀ c ∈ (pushChars w cs buf off).2.1, isAllowed c = true := by
  induction cs generalizing buf off with
  | nil => simpa [pushChars] using h
  | cons c cs ih =>
    rw [pushChars]
    split
    · rename_i hc
      refine ih ?_
      intro d hd
      rcases List.mem_append.1 hd with hd | hd
      · exact h d hd
      · simp only [List.mem_singleton] at hd
        rw [hd]; exact hc
    · exact h

theorem good_char8 {b : UInt8} {r : Rd} (h : Good r) : Good (readUtf8Char b r).2 := by
  unfold readUtf8Char
  dsimp only
  generalize readExact (utf8CharWidth b) r.items = q
  obtain ⟨q1, q2⟩ := q
  cases q1 with
  | error k => exact h
  | ok bytes =>
    dsimp only
    split
    · exact good_push (w := fun _ => utf8CharWidth b) h
    · exact h

theorem good_char16 {be : Bool} {r : Rd} (h : Good r) : Good (readUtf16Char be r).2 := by
  unfold readUtf16Char
  dsimp only
  generalize readExact 2 r.items = q
  obtain ⟨q1, q2⟩ := q
  cases q1 with
  | error k => exact h
  | ok bytes =>
    dsimp only
    generalize unit16 be (bytes.getD 0 0) (bytes.getD 1 0) = u
    by_cases hs : isSurrogate u = true
    · rw [if_pos hs]
      generalize readExact 2 q2 = q'
      obtain ⟨q1', q2'⟩ := q'
      cases q1' with
      | error k => exact h
      | ok bytes2 =>
        dsimp only
        generalize decode16 [u, unit16 be (bytes2.getD 0 0) (bytes2.getD 1 0)] = d
        match d with
        | some (.ok (c, k)) => exact good_push (w := fun _ => 4) h
        | some (.error u) => exact h
        | none => exact h
    · rw [if_neg hs]
      exact good_push (w := fun _ => 2) h

theorem good_chunk {r : Rd} (h : Good r) : Good (readChunk r).2 := by
  have h16 : ∀ be, Good (readUtf16 be r).2 := by
    intro be
    unfold readUtf16
    dsimp only
    generalize fillBufRetry r.items = q
    obtain ⟨q1, q2⟩ := q
    match q1 with
    | .error k => exact h
    | .ok [] => exact h
    | .ok (b :: bs) =>
      dsimp only
      generalize utf16Run (units16 be (b :: bs)).length (units16 be (b :: bs)) = run
      have hq := good_push (w := fun c => (utf16Units c).length) (cs := run.map Prod.fst) (off := r.offset) h
      generalize pushChars (fun c => (utf16Units c).length) (run.map Prod.fst) r.buffer r.offset = q at hq
      obtain ⟨q1, qb, qo⟩ := q
      cases q1 with
      | some e => exact hq
      | none =>
        dsimp only
        split
        · exact hq
        · have := good_char16 (be := be) (r := { r with items := q2, buffer := qb, offset := qo }) hq
          generalize readUtf16Char be { r with items := q2, buffer := qb, offset := qo } = c1 at this
          obtain ⟨x1, y1⟩ := c1
          cases x1 <;> exact this
  have h8 : Good (readUtf8 r).2 := by
    unfold readUtf8
    dsimp only
    generalize fillBufRetry r.items = q
    obtain ⟨q1, q2⟩ := q
    match q1 with
    | .error k => exact h
    | .ok [] => exact h
    | .ok (b :: bs) =>
      dsimp only
      generalize utf8Run (b :: bs) = run
      obtain ⟨run1, run2, run3⟩ := run
      dsimp only
      have hq := good_push (w := lenUtf8) (cs := run1) (off := r.offset) h
      generalize pushChars lenUtf8 run1 r.buffer r.offset = q at hq
      obtain ⟨q1, qb, qo⟩ := q
      cases q1 with
      | some e => exact hq
      | none =>
        dsimp only
        cases run3 with
        | done => exact hq
        | invalid => exact hq
        | incomplete =>
          dsimp only
          split
          · exact hq
          · have := good_char8 (b := b) (r := { r with items := q2, buffer := qb, offset := qo }) hq
            generalize readUtf8Char b { r with items := q2, buffer := qb, offset := qo } = c1 at this
            obtain ⟨x1, y1⟩ := c1
            cases x1 <;> exact this
  revert h8 h16 h
  obtain ⟨_, _, _, e, _⟩ := r
  intro h h16 h8
  cases e with
  | any => exact h
  | utf8 => exact h8
  | utf16le => exact h16 _
  | utf16be => exact h16 _

theorem Broken.allowed {e e' : Encoding} {items : List SrcItem} {d : List Char} (h : Broken e items e' d) : ∀ c ∈ d, isAllowed c = true := by
  induction h with
  | stop => simp
  | @more e e' items r t he h hf ih =>
    intro c hc
    have := good_chunk (r := bare e items) (by intro c hc; simp [bare] at hc)
    rw [h] at this
    rcases List.mem_append.1 hc with hc | hc
    · exact this c hc
    · exact ih c hc
  | lost => simp
  | determined _ _ _ ih => exact ih

theorem Broken.fixed {e e' : Encoding} {items : List SrcItem} {d : List Char} (h : Broken e items e' d) : ∃ e2, e2 ≠ .any ∧ Broken e items e2 d := by
  induction h with
  | stop he h => exact ⟨_, he, .stop he h⟩
  | more he h hf ih => obtain ⟨e2, h1, h2⟩ := ih; exact ⟨e2, h1, .more he h h2⟩
  | lost h => exact ⟨.utf8, by simp, .lost h⟩
  | determined he h hf ih => obtain ⟨e2, h1, h2⟩ := ih; exact ⟨e2, h1, .determined he h h2⟩

/-! ### Sources for any text -/

theorem bytes_one (bs : List UInt8) : bytesOf (bs.map fun b => .data [b]) = bs ∧ Quiet (bs.map fun b => .data [b]) ∧
    OneByte (bs.map fun b => .data [b]) ∧ srcSize (bs.map fun b => .data [b]) = 2 * bs.length := by
  refine ⟨?_, ?_, ?_, ?_⟩
  · induction bs with
    | nil => rfl
    | cons b bs ih => simpa [bytesOf] using ih
  · induction bs with
    | nil => trivial
    | cons b bs ih => exact ih
  · intro l hl
    obtain ⟨b, _, hb⟩ := List.mem_map.1 hl
    simp only [SrcItem.data.injEq] at hb
    rw [← hb]; simp
  · induction bs with
    | nil => rfl
    | cons b bs ih => simp only [List.map_cons, srcSize, ih, List.length_cons, List.length_nil]; omega

theorem flat_length {α β : Type} (f : α → List β) (h : ∀ a, (f a).length ≤ 4) (l : List α) : (l.flatMap f).length ≤ 4 * l.length := by
  induction l with
  | nil => simp
  | cons a l ih => have := h a; simp only [List.flatMap_cons, List.length_append, List.length_cons]; omega

theorem source_for {e : Encoding} (he : e ≠ .any) {X : List Char} (ha : ∀ c ∈ X, isAllowed c = true) :
    ∃ items, Clean e items e X ∧ srcSize items ≤ 8 * X.length := by
  have h16 : ∀ be : Bool, ∃ items, Clean (if be then .utf16be else .utf16le) items (if be then .utf16be else .utf16le) X ∧ srcSize items ≤ 8 * X.length := by
    intro be
    obtain ⟨h1, h2, h3, h4⟩ := bytes_one (utf16Encode be X)
    refine ⟨_, clean_utf16 h2 h3 h1 ha, ?_⟩
    rw [h4]
    have := flat_length (utf16Bytes be) (fun c => by
      unfold utf16Bytes utf16Units
      split <;> cases be <;> simp [unitBytes]) X
    unfold utf16Encode
    omega
  cases e with
  | any => exact absurd rfl he
  | utf8 =>
    obtain ⟨h1, h2, h3, h4⟩ := bytes_one (utf8Encode X)
    refine ⟨_, clean_utf8 h2 h1 ha, ?_⟩
    rw [h4]
    have := flat_length utf8Bytes (fun c => by
      unfold utf8Bytes
      exact String.length_utf8EncodeChar c ▸ Char.utf8Size_le_four c) X
    unfold utf8Encode
    omega
  | utf16le => exact h16 false
  | utf16be => exact h16 true

/-! ### Reading tokens -/

theorem Half.reads {enc : Encoding} {o1 o2 : ScannerObj} {n F : Nat} (h : Half enc o1 o2 n) (hF : n + 2 < F) {ts : List Token} {o1' : ScannerObj}
    (hr : ScannerObj.Reads F o1 ts o1') : ∃ o2', ScannerObj.Reads F o2 ts o2' ∧ Half enc o1' o2' n := by
  induction hr with
  | nil => exact ⟨_, .nil, h⟩
  | @snoc ts t p1 q1 hr hs ih =>
    obtain ⟨p2, h1, h2⟩ := ih
    rcases h2.scan hF with ⟨e, _, he⟩ | ⟨g1, g2⟩
    · rw [hs] at he; simp at he
    · have g2 := g2 (.inl ⟨t, by rw [hs]⟩)
      rw [hs] at g1 g2
      exact ⟨(p2.scan F).2, .snoc h1 (Prod.ext g1.symm rfl), g2⟩

theorem first_end {F : Nat} {o o' : ScannerObj} {ts : List Token} (h : ScannerObj.Reads F o ts o') (he : ∃ t ∈ ts, isStreamEnd t = true) :
    ∃ us t o'', ScannerObj.Reads F o (us ++ [t]) o'' ∧ isStreamEnd t = true ∧ EndsOnce (us ++ [t]) := by
  induction h with
  | nil => simp at he
  | @snoc ts t p q hr hs ih =>
    by_cases hh : ∃ t ∈ ts, isStreamEnd t = true
    · exact ih hh
    · refine ⟨ts, t, q, .snoc hr hs, ?_, ?_⟩
      · obtain ⟨u, hu, h1⟩ := he
        rcases List.mem_append.1 hu with hu | hu
        · exact absurd ⟨u, hu, h1⟩ hh
        · simp only [List.mem_singleton] at hu
          rw [← hu]; exact h1
      · intro u hu
        rw [List.dropLast_concat] at hu
        cases h1 : isStreamEnd u with
        | false => rfl
        | true => exact absurd ⟨u, hu, h1⟩ hh

/-- The end, where it is reported. -/
theorem end_index {F : Nat} {enc e : Encoding} {items : List SrcItem} {X : List Char} {us : List Token} {t : Token} {o : ScannerObj} (hc : Clean enc items e X)
    (hF : srcSize items + 2 < F) (h : ScannerObj.Reads F (ScannerObj.new items enc) (us ++ [t]) o) (he : isStreamEnd t = true) (ho : EndsOnce (us ++ [t])) :
    t.endMark.index = strLen X := by
  obtain ⟨a, w, r, h1, _, h2, d, st, _, h3⟩ := Props.C53_each_token_is_in_the_text hc.future hF h ho
  have hd : t.data = .streamEnd := by simpa [isStreamEnd] using he
  unfold Spells at h3
  rw [hd] at h3
  obtain ⟨rfl, rfl⟩ := h3
  simp only [List.append_nil] at h1 h2
  subst h1
  have : ∀ p : List Char, (position p).index = strLen p := fun p => by
    unfold position; rw [Dx.advance_len]; simp
  rcases h2 with h2 | ⟨_, h2⟩
  · rw [h2, this]
  · rw [h2]; show (position X).index = _; rw [this]

theorem end_not_reached {F : Nat} {enc e : Encoding} {items : List SrcItem} {D : List Char} {ts : List Token} {o : ScannerObj} (h : Broken enc items e D)
    (hs : 64 * srcSize items + 64 < maxInput) (hF : 8 * srcSize items + 10 < F) (hr : ScannerObj.Reads F (ScannerObj.new items enc) ts o) :
    ∀ t ∈ ts, isStreamEnd t = false := by
  intro t ht
  cases h1 : isStreamEnd t with
  | false => rfl
  | true =>
    exfalso
    obtain ⟨us, u, o', g1, g2, g3⟩ := first_end hr ⟨t, ht, h1⟩
    obtain ⟨e2, he, hb⟩ := h.fixed
    have hl := hb.length
    have main : ∀ X : List Char, (∀ c ∈ X, isAllowed c = true) → D <+: X → X.length ≤ srcSize items + 1 → u.endMark.index = strLen X := by
      rintro X ha ⟨s, rfl⟩ hx
      obtain ⟨i2, k1, k2⟩ := source_for he ha
      obtain ⟨o2, j1, _⟩ := (Half.start (hb.begins s) k1 (by omega)).reads (by omega) g1
      exact end_index k1 (by omega) j1 g2 g3
    have e1 := main D hb.allowed (List.prefix_refl _) (by omega)
    have e3 := main (D ++ ['x']) (by
      intro c hc
      rcases List.mem_append.1 hc with hc | hc
      · exact hb.allowed c hc
      · simp only [List.mem_singleton] at hc
        subst hc; decide) (List.prefix_append _ _) (by simp; omega)
    rw [e1] at e3
    have : ∀ p : List Char, strLen (p ++ ['x']) = strLen p + 1 := by
      intro p
      induction p with
      | nil => decide
      | cons c p ih => rw [List.cons_append, strLen, strLen, ih]; omega
    rw [this] at e3
    omega

end Yaml.Hf
