import Verif.Lib.Clean2

/-
A source that has not been read to its end: what comes after it does not matter.
-/

namespace Yaml.Nd
open Yaml Reader
set_option linter.unusedSimpArgs false
set_option linter.unusedVariables false

/-- The reader over a source that goes on with `X`. -/
def plus (X : List SrcItem) (r : Rd) : Rd := { r with items := r.items ++ X }

variable {X : List SrcItem}

theorem fillBuf_plus : ∀ {items : List SrcItem} {b : UInt8} {bs : List UInt8} {r : List SrcItem}, fillBuf items = (.ok (b :: bs), r) →
    fillBuf (items ++ X) = (.ok (b :: bs), r ++ X)
  | [], b, bs, r, h => by simp [fillBuf] at h
  | .data [] :: is, b, bs, r, h => by simpa [fillBuf] using fillBuf_plus (items := is) h
  | .data (c :: cs) :: is, b, bs, r, h => by
    simp only [fillBuf, Prod.mk.injEq, Except.ok.injEq] at h
    obtain ⟨h1, rfl⟩ := h
    rw [← h1]; rfl
  | .intr :: is, b, bs, r, h => by simp [fillBuf] at h
  | .fail k :: is, b, bs, r, h => by simp [fillBuf] at h

theorem fillBufRetry_plus : ∀ {items : List SrcItem} {b : UInt8} {bs : List UInt8} {r : List SrcItem}, fillBufRetry items = (.ok (b :: bs), r) →
    fillBufRetry (items ++ X) = (.ok (b :: bs), r ++ X) ∧ ∃ d q, r = .data d :: q
  | [], b, bs, r, h => by simp [fillBufRetry] at h
  | .data [] :: is, b, bs, r, h => by simpa [fillBufRetry] using fillBufRetry_plus (items := is) h
  | .data (c :: cs) :: is, b, bs, r, h => by
    simp only [fillBufRetry, Prod.mk.injEq, Except.ok.injEq] at h
    obtain ⟨h1, rfl⟩ := h
    rw [← h1]; exact ⟨rfl, _, _, rfl⟩
  | .intr :: is, b, bs, r, h => by simpa [fillBufRetry] using fillBufRetry_plus (items := is) h
  | .fail k :: is, b, bs, r, h => by simp [fillBufRetry] at h

theorem readExact_plus : ∀ {items : List SrcItem} {n : Nat} {bs : List UInt8} {r : List SrcItem}, readExact n items = (.ok bs, r) →
    readExact n (items ++ X) = (.ok bs, r ++ X)
  | items, 0, bs, r, h => by
    simp only [readExact, Prod.mk.injEq, Except.ok.injEq] at h ⊢
    exact ⟨h.1, by rw [h.2]⟩
  | [], n + 1, bs, r, h => by simp [readExact] at h
  | .intr :: is, n + 1, bs, r, h => by
    have := readExact_plus (items := is) (n := n + 1) (bs := bs) (r := r) (by simpa [readExact] using h)
    simpa [readExact] using this
  | .fail k :: is, n + 1, bs, r, h => by simp [readExact] at h
  | .data d :: is, n + 1, bs, r, h => by
    rw [List.cons_append]
    unfold readExact at h ⊢
    by_cases hl : n + 1 ≤ d.length
    · rw [if_pos hl] at h ⊢
      simp only [Prod.mk.injEq, Except.ok.injEq] at h ⊢
      obtain ⟨rfl, rfl⟩ := h
      exact ⟨rfl, rfl⟩
    · rw [if_neg hl] at h ⊢
      dsimp only at h ⊢
      generalize hq : readExact (n + 1 - d.length) is = q at h
      obtain ⟨q1, q2⟩ := q
      cases q1 with
      | error k => simp [Except.map] at h
      | ok c =>
        simp only [Except.map, Prod.mk.injEq, Except.ok.injEq] at h
        obtain ⟨rfl, rfl⟩ := h
        rw [readExact_plus hq]
        rfl

theorem determine_plus {items : List SrcItem} {e : Encoding} {r : List SrcItem} (h : determineEncoding items = (.ok (some e), r)) :
    determineEncoding (items ++ X) = (.ok (some e), r ++ X) := by
  unfold determineEncoding at h ⊢
  generalize hf : fillBuf items = f at h
  obtain ⟨f1, f2⟩ := f
  cases f1 with
  | error k => simp at h
  | ok bs =>
    cases bs with
    | nil => simp at h
    | cons b bs =>
      rw [fillBuf_plus hf]
      dsimp only at h ⊢
      split
      · rename_i hb
        rw [if_pos hb] at h
        generalize hr : readExact 3 f2 = q at h
        obtain ⟨q1, q2⟩ := q
        cases q1 with
        | error k => simp at h
        | ok bom =>
          rw [readExact_plus hr]
          dsimp only at h ⊢
          split <;> rename_i hb2
          · rw [if_pos hb2] at h
            simp only [Prod.mk.injEq, Except.ok.injEq, Option.some.injEq] at h ⊢
            exact ⟨h.1, by rw [h.2]⟩
          · rw [if_neg hb2] at h; simp at h
      · rename_i hb
        rw [if_neg hb] at h
        split
        · rename_i hb1
          rw [if_pos hb1] at h
          generalize hr : readExact 2 f2 = q at h
          obtain ⟨q1, q2⟩ := q
          cases q1 with
          | error k => simp at h
          | ok bom =>
            rw [readExact_plus hr]
            dsimp only at h ⊢
            split <;> rename_i hb2
            · rw [if_pos hb2] at h
              simp only [Prod.mk.injEq, Except.ok.injEq, Option.some.injEq] at h ⊢
              exact ⟨h.1, by rw [h.2]⟩
            · rw [if_neg hb2] at h
              split <;> rename_i hb3
              · rw [if_pos hb3] at h
                simp only [Prod.mk.injEq, Except.ok.injEq, Option.some.injEq] at h ⊢
                exact ⟨h.1, by rw [h.2]⟩
              · rw [if_neg hb3] at h; simp at h
        · rename_i hb1
          rw [if_neg hb1] at h
          simp only [Prod.mk.injEq, Except.ok.injEq, Option.some.injEq] at h ⊢
          exact ⟨h.1, by rw [h.2]⟩

theorem consume_plus {n : Nat} {d : List UInt8} {q : List SrcItem} : consume n (.data d :: q ++ X) = consume n (.data d :: q) ++ X := rfl

theorem readUtf8Char_plus {b : UInt8} {r r' : Rd} (h : readUtf8Char b r = (none, r')) : readUtf8Char b (plus X r) = (none, plus X r') := by
  unfold readUtf8Char at h ⊢
  dsimp only at h ⊢
  generalize hr : readExact (utf8CharWidth b) r.items = q at h
  obtain ⟨q1, q2⟩ := q
  have e : (plus X r).items = r.items ++ X := rfl
  cases q1 with
  | error k => simp at h
  | ok bytes =>
    rw [e, readExact_plus hr]
    dsimp only at h ⊢
    split at h
    · rename_i c t2 t3 hu
      have e2 : (plus X r).buffer = r.buffer := rfl
      have e3 : (plus X r).offset = r.offset := rfl
      rw [e2, e3]
      generalize pushChars _ _ _ _ = z at h ⊢
      obtain ⟨z1, z2, z3⟩ := z
      simp only [Prod.mk.injEq] at h ⊢
      obtain ⟨rfl, rfl⟩ := h
      exact ⟨rfl, rfl⟩
    · simp at h

theorem readUtf8_plus {r r' : Rd} (h : readUtf8 r = (.ok true, r')) : readUtf8 (plus X r) = (.ok true, plus X r') := by
  unfold readUtf8 at h ⊢
  generalize hr : fillBufRetry r.items = q at h
  obtain ⟨q1, q2⟩ := q
  have e : (plus X r).items = r.items ++ X := rfl
  cases q1 with
  | error k => simp at h
  | ok bytes =>
    cases bytes with
    | nil => simp at h
    | cons b bs =>
      obtain ⟨g1, d, q, rfl⟩ := fillBufRetry_plus (X := X) hr
      rw [e, g1]
      dsimp only at h ⊢
      have e2 : (plus X r).buffer = r.buffer := rfl
      have e3 : (plus X r).offset = r.offset := rfl
      rw [e2, e3]
      generalize pushChars _ _ _ _ = z at h ⊢
      obtain ⟨z1, z2, z3⟩ := z
      cases z1 with
      | some err => simp at h
      | none =>
        dsimp only at h ⊢
        generalize utf8Run (b :: bs) = run at h ⊢
        obtain ⟨u1, u2, u3⟩ := run
        cases u3 with
        | done =>
          simp only [Prod.mk.injEq, true_and] at h ⊢
          rw [← h]; rfl
        | invalid => simp at h
        | incomplete =>
          dsimp only at h ⊢
          split <;> rename_i hu
          · rw [if_pos hu] at h
            simp only [Prod.mk.injEq, true_and] at h ⊢
            rw [← h]; rfl
          · rw [if_neg hu] at h
            generalize hc : readUtf8Char b { r with items := .data d :: q, buffer := z2, offset := z3 } = c at h
            obtain ⟨c1, c2⟩ := c
            cases c1 with
            | some err => simp at h
            | none =>
              have := readUtf8Char_plus (X := X) hc
              have e4 : plus X { r with items := .data d :: q, buffer := z2, offset := z3 } =
                { plus X r with items := .data d :: q ++ X, buffer := z2, offset := z3 } := rfl
              rw [e4] at this
              rw [this]
              simp only [Prod.mk.injEq, true_and] at h ⊢
              rw [h]

theorem readUtf16Char_plus {be : Bool} {r r' : Rd} (h : readUtf16Char be r = (none, r')) : readUtf16Char be (plus X r) = (none, plus X r') := by
  unfold readUtf16Char at h ⊢
  generalize hr : readExact 2 r.items = q at h
  obtain ⟨q1, q2⟩ := q
  have e : (plus X r).items = r.items ++ X := rfl
  have e2 : (plus X r).buffer = r.buffer := rfl
  have e3 : (plus X r).offset = r.offset := rfl
  cases q1 with
  | error k => simp at h
  | ok bytes =>
    rw [e, readExact_plus hr]
    dsimp only at h ⊢
    split <;> rename_i hs
    · rw [if_pos hs] at h
      generalize hr2 : readExact 2 q2 = q at h
      obtain ⟨q1, q3⟩ := q
      cases q1 with
      | error k => simp at h
      | ok bytes2 =>
        rw [readExact_plus hr2]
        dsimp only at h ⊢
        rw [e2, e3]
        generalize decode16 _ = dd at h ⊢
        cases dd with
        | none =>
          simp only [Prod.mk.injEq, true_and] at h ⊢
          rw [← h]; rfl
        | some v =>
          cases v with
          | error u => simp at h
          | ok v =>
            obtain ⟨c, w⟩ := v
            dsimp only at h ⊢
            generalize pushChars _ _ _ _ = z at h ⊢
            obtain ⟨z1, z2, z3⟩ := z
            simp only [Prod.mk.injEq] at h ⊢
            obtain ⟨rfl, rfl⟩ := h
            exact ⟨rfl, rfl⟩
    · rw [if_neg hs] at h
      rw [e2, e3]
      generalize pushChars _ _ _ _ = z at h ⊢
      obtain ⟨z1, z2, z3⟩ := z
      simp only [Prod.mk.injEq] at h ⊢
      obtain ⟨rfl, rfl⟩ := h
      exact ⟨rfl, rfl⟩

theorem readUtf16_plus {be : Bool} {r r' : Rd} (h : readUtf16 be r = (.ok true, r')) : readUtf16 be (plus X r) = (.ok true, plus X r') := by
  unfold readUtf16 at h ⊢
  generalize hr : fillBufRetry r.items = q at h
  obtain ⟨q1, q2⟩ := q
  have e : (plus X r).items = r.items ++ X := rfl
  cases q1 with
  | error k => simp at h
  | ok bytes =>
    cases bytes with
    | nil => simp at h
    | cons b bs =>
      obtain ⟨g1, d, q, rfl⟩ := fillBufRetry_plus (X := X) hr
      rw [e, g1]
      dsimp only at h ⊢
      have e2 : (plus X r).buffer = r.buffer := rfl
      have e3 : (plus X r).offset = r.offset := rfl
      rw [e2, e3]
      generalize utf16Run _ _ = run at h ⊢
      generalize pushChars _ _ _ _ = z at h ⊢
      obtain ⟨z1, z2, z3⟩ := z
      cases z1 with
      | some err => simp at h
      | none =>
        dsimp only at h ⊢
        split <;> rename_i hu
        · rw [if_pos hu] at h
          simp only [Prod.mk.injEq, true_and] at h ⊢
          rw [← h]; rfl
        · rw [if_neg hu] at h
          generalize hc : readUtf16Char be { r with items := .data d :: q, buffer := z2, offset := z3 } = c at h
          obtain ⟨c1, c2⟩ := c
          cases c1 with
          | some err => simp at h
          | none =>
            have := readUtf16Char_plus (X := X) hc
            have e4 : plus X { r with items := .data d :: q, buffer := z2, offset := z3 } =
              { plus X r with items := .data d :: q ++ X, buffer := z2, offset := z3 } := rfl
            rw [e4] at this
            rw [this]
            simp only [Prod.mk.injEq, true_and] at h ⊢
            rw [h]

theorem readChunk_plus {r r' : Rd} (h : readChunk r = (.ok true, r')) : readChunk (plus X r) = (.ok true, plus X r') := by
  unfold readChunk at h ⊢
  have e : (plus X r).encoding = r.encoding := rfl
  rw [e]
  cases he : r.encoding with
  | any => rw [he] at h; simp at h
  | utf8 => rw [he] at h; exact readUtf8_plus h
  | utf16le => rw [he] at h; exact readUtf16_plus h
  | utf16be => rw [he] at h; exact readUtf16_plus h

theorem updateLoop_plus {length : Nat} : ∀ {fuel : Nat} {r r' : Rd}, updateLoop length fuel r = (none, r') → r'.eof = false →
    updateLoop length fuel (plus X r) = (none, plus X r') := by
  intro fuel
  induction fuel with
  | zero =>
    intro r r' h he
    unfold updateLoop at h ⊢
    have e1 : (plus X r).buffer = r.buffer := rfl
    have e2 : (plus X r).eof = r.eof := rfl
    have e3 : (plus X r).offset = r.offset := rfl
    rw [e1, e2, e3]
    split <;> rename_i hl
    · rw [if_pos hl] at h
      split <;> rename_i hl2
      · rw [if_pos hl2] at h
        simp only [Prod.mk.injEq, true_and] at h
        subst h
        simp [hl2] at he
      · rw [if_neg hl2] at h; simp at h
    · rw [if_neg hl] at h
      split <;> rename_i hl2
      · rw [if_pos hl2] at h; simp at h
      · rw [if_neg hl2] at h
        simp only [Prod.mk.injEq, true_and] at h ⊢
        rw [h]
  | succ fuel ih =>
    intro r r' h he
    unfold updateLoop at h ⊢
    have e1 : (plus X r).buffer = r.buffer := rfl
    have e2 : (plus X r).eof = r.eof := rfl
    have e3 : (plus X r).offset = r.offset := rfl
    rw [e1, e2, e3]
    split <;> rename_i hl
    · rw [if_pos hl] at h
      split <;> rename_i hl2
      · rw [if_pos hl2] at h
        simp only [Prod.mk.injEq, true_and] at h
        subst h
        simp [hl2] at he
      · rw [if_neg hl2] at h
        generalize hc : readChunk r = c at h
        obtain ⟨c1, c2⟩ := c
        cases c1 with
        | error e => simp at h
        | ok bb =>
          cases bb with
          | false =>
            simp only [Prod.mk.injEq, true_and] at h
            rw [← h] at he; simp at he
          | true =>
            rw [readChunk_plus hc]
            exact ih h he
    · rw [if_neg hl] at h
      split <;> rename_i hl2
      · rw [if_pos hl2] at h; simp at h
      · rw [if_neg hl2] at h
        simp only [Prod.mk.injEq, true_and] at h ⊢
        rw [h]

theorem cache_plus {n : Nat} {r r' : Rd} (h : Reader.cache n r = (none, r')) (he : r'.eof = false) : Reader.cache n (plus X r) = (none, plus X r') := by
  unfold Reader.cache updateBuffer at h ⊢
  have e1 : (plus X r).buffer = r.buffer := rfl
  have e2 : (plus X r).encoding = r.encoding := rfl
  have e3 : (plus X r).items = r.items ++ X := rfl
  rw [e1, e2, e3]
  split <;> rename_i hl
  · rw [if_pos hl] at h
    simp only [Prod.mk.injEq, true_and] at h ⊢
    rw [h]
  · rw [if_neg hl, if_neg hl] at h
    split <;> rename_i hl2
    · rw [if_pos hl2] at h
      generalize hd : determineEncoding r.items = d at h
      obtain ⟨d1, d2⟩ := d
      cases d1 with
      | error e => simp at h
      | ok d1 =>
        cases d1 with
        | none =>
          simp only [Prod.mk.injEq, true_and] at h
          rw [← h] at he; simp at he
        | some e =>
          rw [determine_plus hd]
          exact updateLoop_plus (r := { r with items := d2, encoding := e }) h he
    · rw [if_neg hl2] at h
      exact updateLoop_plus h he

/-- A reader that delivers the rest of a text without errors. -/
def RC0 (enc : Encoding) (r : Rd) : Prop := ∃ b : Inp, b.cached = 0 ∧ RC enc b r

theorem RC0.of {enc : Encoding} {b : Inp} {r : Rd} (h : RC enc b r) : RC0 enc r := by
  obtain ⟨t, hc, htext, hcached, heof, henc, hoff⟩ := h
  exact ⟨⟨b.text, 0⟩, rfl, t, hc, htext, Or.inl (Nat.zero_le _), heof, henc.imp id (fun ⟨h1, h2, _⟩ => ⟨h1, h2, rfl⟩), hoff⟩

theorem RC0.cache {enc : Encoding} {r : Rd} (n : Nat) (h : RC0 enc r) : ∃ r', Reader.cache n r = (none, r') ∧ RC0 enc r' := by
  obtain ⟨b, _, h⟩ := h
  obtain ⟨r', h1, h2⟩ := cache_clean n h
  exact ⟨r', h1, RC0.of h2⟩

theorem RC0.pop {enc : Encoding} {r : Rd} (h : RC0 enc r) : RC0 enc { r with buffer := r.buffer.tail } := by
  obtain ⟨b, hb, t, hc, htext, hcached, heof, henc, hoff⟩ := h
  refine ⟨⟨r.buffer.tail ++ t, 0⟩, rfl, t, hc, rfl, Or.inl (Nat.zero_le _), heof, ?_, hoff⟩
  exact henc.imp id (fun ⟨h1, h2, _⟩ => ⟨h1, by simp [h2], rfl⟩)

theorem updateLoop_eof {length : Nat} : ∀ {fuel : Nat} {r r' : Rd} {x : Option Err}, updateLoop length fuel r = (x, r') → r.eof = true → r' = r := by
  intro fuel r r' x h he
  unfold updateLoop at h
  split at h
  · first | rw [if_pos he] at h | skip
    exact (Prod.mk.inj h).2.symm
  · split at h <;> exact (Prod.mk.inj h).2.symm

/-- The end of the input, once met, stays. -/
theorem RC0.cache_eof {enc : Encoding} {n : Nat} {r r' : Rd} {x : Option Err} (hr : RC0 enc r) (h : Reader.cache n r = (x, r')) (he : r.eof = true) : r'.eof = true := by
  unfold Reader.cache updateBuffer at h
  split at h <;> rename_i hx
  · rw [← (Prod.mk.inj h).2]; exact he
  · · split at h
      · have hi : r.items = [] := by obtain ⟨_, _, _, _, _, _, h, _⟩ := hr; exact h he
        rw [hi] at h
        simp [determineEncoding, fillBuf] at h
        rw [← h.2]
      · rw [updateLoop_eof h he]; exact he

/-- A program that did not meet the end of the input does the same if the source goes on. -/
theorem exec_plus {α : Type} {enc : Encoding} (t : Free CharOp CharOp.Ans α) {r : Rd} (h : RC0 enc r) :
    RC0 enc (execA t r).2 ∧ (r.eof = true → (execA t r).2.eof = true) ∧
    ((execA t r).2.eof = false → execA t (plus X r) = ((execA t r).1, plus X (execA t r).2)) := by
  induction t generalizing r with
  | ret a => exact ⟨h, id, fun _ => rfl⟩
  | op o k ih =>
    cases o with
    | cache n =>
      obtain ⟨r', h1, h2⟩ := h.cache n
      obtain ⟨g1, g2, g3⟩ := ih none h2
      simp only [execA]
      rw [h1]
      refine ⟨g1, fun he => g2 (h.cache_eof h1 he), fun he => ?_⟩
      have he' : r'.eof = false := by
        cases hh : r'.eof with
        | false => rfl
        | true => rw [g2 hh] at he; simp at he
      rw [cache_plus h1 he']
      exact g3 he
    | get i => exact ih _ h
    | pop => exact ih _ h.pop
    | enc => exact ih _ h

end Yaml.Nd
