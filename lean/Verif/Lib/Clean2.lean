import Verif.Lib.Clean

/-
Over a clean source the reader behaves like the plain text.
-/

namespace Yaml
open Reader
set_option linter.unusedSimpArgs false
set_option linter.unusedVariables false

/-- The reader `r` delivers the rest of a text without errors; `b` describes it. -/
def RC (enc : Encoding) (b : Inp) (r : Rd) : Prop :=
  ∃ t, Clean r.encoding r.items enc t ∧ b.text = r.buffer ++ t ∧ (b.cached ≤ r.buffer.length ∨ r.eof = true) ∧
    (r.eof = true → r.items = []) ∧ (r.encoding = enc ∨ (r.encoding = .any ∧ r.buffer = [] ∧ b.cached = 0)) ∧
    r.offset + 4 * srcSize r.items < maxInput

theorem RC.toR {enc : Encoding} {b : Inp} {r : Rd} (h : RC enc b r) : R b r := by
  obtain ⟨t, h1, h2, h3, h4, _⟩ := h
  exact ⟨h4, t, h1.future, h2, h3⟩

theorem clean_nil {e : Encoding} : Clean e [] e [] := by
  cases e with
  | any => exact .empty (items' := []) (by simp [determineEncoding, fillBuf])
  | utf8 => exact .eof (by simp) (by simp [readChunk, readUtf8, fillBufRetry, bare])
  | utf16le => exact .eof (by simp) (by simp [readChunk, readUtf16, fillBufRetry, bare])
  | utf16be => exact .eof (by simp) (by simp [readChunk, readUtf16, fillBufRetry, bare])

theorem updateLoop_clean {length : Nat} : ∀ (fuel : Nat) {r : Rd} {t : List Char}, r.encoding ≠ .any →
    Clean r.encoding r.items r.encoding t → (r.eof = true → r.items = []) → r.offset + 4 * srcSize r.items < maxInput →
    length - r.buffer.length ≤ fuel →
    ∃ r' t', updateLoop length fuel r = (none, r') ∧ r'.encoding = r.encoding ∧ Clean r.encoding r'.items r.encoding t' ∧
      r.buffer ++ t = r'.buffer ++ t' ∧ r.buffer.length ≤ r'.buffer.length ∧ (length ≤ r'.buffer.length ∨ r'.eof = true) ∧
      (r'.eof = true → r'.items = []) ∧ (r.eof = true → r'.eof = true) ∧ r'.offset + 4 * srcSize r'.items < maxInput := by
  intro fuel
  induction fuel with
  | zero =>
    intro r t he hc heof hoff hl
    unfold updateLoop
    rw [if_neg (by omega), if_neg (by omega)]
    exact ⟨r, t, rfl, rfl, hc, rfl, Nat.le_refl _, Or.inl (by omega), heof, id, hoff⟩
  | succ fuel ih =>
    intro r t he hc heof hoff hl
    unfold updateLoop
    by_cases hlt : r.buffer.length < length
    · rw [if_pos hlt]
      by_cases hr : r.eof = true
      · rw [if_pos hr]
        exact ⟨r, t, rfl, rfl, hc, rfl, Nat.le_refl _, Or.inr hr, heof, id, hoff⟩
      · rw [if_neg hr]
        have hs := readChunk_same r he
        have hp := readChunk_progress r.encoding r.items
        have hof := readChunk_offset r
        obtain ⟨hrd, hres⟩ := hs
        have hclean : (t = [] ∧ (readChunk (bare r.encoding r.items)).1 = .ok false) ∨
            ∃ r0 t', readChunk (bare r.encoding r.items) = (.ok true, r0) ∧ Clean r.encoding r0.items r.encoding t' ∧ t = r0.buffer ++ t' := by
          revert he hc
          generalize r.encoding = e
          generalize r.items = is
          intro he hc
          cases hc with
          | eof _ h => exact Or.inl ⟨rfl, h⟩
          | more _ h hf => exact Or.inr ⟨_, _, h, hf, rfl⟩
          | empty => exact absurd rfl he
          | determined => exact absurd rfl he
        generalize hc0 : readChunk (bare r.encoding r.items) = c0 at hrd hres hp hclean
        generalize hcc : readChunk r = c at hrd hres hof
        obtain ⟨c1, r1⟩ := c
        obtain ⟨c01, r0⟩ := c0
        dsimp only at hrd hres hclean
        have hof : r1.offset + 4 * r.buffer.length ≤ r.offset + 4 * r1.buffer.length := hof
        have hb1 : r1.buffer = r.buffer ++ r0.buffer := by rw [hrd]
        have hi1 : r1.items = r0.items := by rw [hrd]
        have he1 : r1.encoding = r.encoding := by rw [hrd]
        have hf1 : r1.eof = r.eof := by rw [hrd]
        rcases hclean with ⟨rfl, rfl⟩ | ⟨r0', t', heq, hct, rfl⟩
        · rcases hres with ⟨bb, rfl, hbb⟩ | ⟨e1, e0, _, h0, _⟩
          · simp at hbb; subst hbb
            obtain ⟨hp1, hp2⟩ := hp
            dsimp only
            refine ⟨_, [], rfl, he1, ?_, ?_, ?_, Or.inr rfl, ?_, fun _ => rfl, ?_⟩
            · show Clean _ r1.items _ _
              rw [hi1, hp2]; exact clean_nil
            · show _ = r1.buffer ++ []
              rw [hb1, hp1]; simp
            · show _ ≤ r1.buffer.length
              rw [hb1, hp1]; simp
            · intro _; show r1.items = []; rw [hi1, hp2]
            · show r1.offset + 4 * srcSize r1.items < maxInput
              rw [hi1, hp2]
              have hof2 : r1.offset + 4 * r.buffer.length ≤ r.offset + 4 * r1.buffer.length := hof
              rw [hb1, hp1] at hof2
              simp [srcSize] at hof2 ⊢
              omega
          · simp at h0
        · simp at heq
          obtain ⟨rfl, rfl⟩ := heq
          rcases hres with ⟨bb, rfl, hbb⟩ | ⟨e1, e0, _, h0, _⟩
          · simp at hbb; subst hbb
            obtain ⟨hp1, hp2⟩ := hp
            have hlen := List.length_pos_iff.2 hp1
            have hlb : r1.buffer.length = r.buffer.length + r0.buffer.length := by rw [hb1]; simp
            have hof2 : r1.offset + 4 * r.buffer.length ≤ r.offset + 4 * r1.buffer.length := hof
            rw [hlb] at hof2
            have hp2 : srcSize r0.items + r0.buffer.length ≤ srcSize r.items := hp2
            have := @ih r1 t' (by rw [he1]; exact he) (by rw [he1, hi1]; exact hct) (by rw [hf1]; intro h; exact absurd h hr)
              (by rw [hi1]; omega) (by omega)
            obtain ⟨r', t'', g1, g2, g3, g4, g5, g6, g7, g8, g9⟩ := this
            refine ⟨r', t'', g1, by rw [g2, he1], by rw [he1] at g3; exact g3, ?_, by omega, g6, g7, fun h => absurd h hr, g9⟩
            rw [← g4, hb1]; simp
          · simp at h0
    · rw [if_neg hlt, if_neg (by omega)]
      exact ⟨r, t, rfl, rfl, hc, rfl, Nat.le_refl _, Or.inl (by omega), heof, id, hoff⟩

/-- `Scanner::cache` over a clean source never fails and only moves text into the buffer. -/
theorem cache_clean {enc : Encoding} {b : Inp} {r : Rd} (n : Nat) (h : RC enc b r) :
    ∃ r', Reader.cache n r = (none, r') ∧ RC enc { b with cached := max b.cached n } r' := by
  obtain ⟨t, hc, htext, hcached, heof, henc, hoff⟩ := h
  unfold Reader.cache
  by_cases hn : r.buffer.length ≥ n
  · rw [if_pos hn]
    refine ⟨r, rfl, t, hc, htext, ?_, heof, ?_, hoff⟩
    · rcases hcached with h | h
      · exact Or.inl (by show max _ _ ≤ _; omega)
      · exact Or.inr h
    · refine henc.imp id ?_
      rintro ⟨h1, h2, h3⟩
      rw [h2] at hn
      exact ⟨h1, h2, by simp at hn; show max b.cached n = 0; omega⟩
  · rw [if_neg hn]
    unfold updateBuffer
    rw [if_neg hn]
    have loop : ∀ r1 : Rd, r1.encoding ≠ .any → r1.encoding = enc → Clean r1.encoding r1.items enc t → (r1.eof = true → r1.items = []) →
        r1.offset + 4 * srcSize r1.items < maxInput → r1.buffer = r.buffer → (r.eof = true → r1.eof = true) →
        ∃ r', updateLoop n n r1 = (none, r') ∧ RC enc { b with cached := max b.cached n } r' := by
      intro r1 h1 h2 h3 h4 h5 h6 h7
      subst h2
      obtain ⟨r', t', g1, g2, g3, g4, g5, g6, g7, g8, g9⟩ := updateLoop_clean (length := n) n (t := t) h1 h3 h4 h5 (by omega)
      refine ⟨r', g1, t', by rw [g2]; exact g3, by rw [htext, ← h6]; exact g4, ?_, g7, Or.inl g2, g9⟩
      rcases g6 with g6 | g6
      · rcases hcached with h | h
        · exact Or.inl (by show max _ _ ≤ _; rw [h6] at g5; omega)
        · exact Or.inr (g8 (h7 h))
      · exact Or.inr g6
    by_cases he : r.encoding = .any
    · rw [if_pos he]
      rw [he] at hc
      cases hc with
      | eof h => exact absurd rfl h
      | more h => exact absurd rfl h
      | empty hd =>
        have hi := determineEncoding_none hd
        subst hi
        rw [hd]
        refine ⟨_, rfl, [], ?_, htext, Or.inr rfl, fun _ => rfl, ?_, ?_⟩
        · show Clean r.encoding [] .any []
          rw [he]; exact clean_nil
        · exact Or.inl he
        · show r.offset + 4 * srcSize [] < _
          simp [srcSize]; omega
      | determined hne hd hf =>
        rename_i items' e
        rw [hd]
        dsimp only
        have hsz := determineEncoding_size r.items
        rw [hd] at hsz
        have hsz : srcSize items' ≤ srcSize r.items := hsz
        have henc' : enc = e := hf.enc hne
        refine loop _ hne henc'.symm hf ?_ ?_ rfl id
        · intro h'
          have := heof h'
          rw [this] at hd
          simp [determineEncoding, fillBuf] at hd
        · show r.offset + 4 * srcSize items' < _
          omega
    · rw [if_neg he]
      have := hc.enc he
      exact loop r he this.symm hc heof hoff rfl id

/-- A program that asks for its look-ahead behaves over a clean source as over the plain text. -/
theorem exec_clean {α : Type} (t : Free CharOp CharOp.Ans α) {Q : α → Inp → Prop} {enc : Encoding} {b : Inp} {r : Rd}
    (hw : t.wp stepB Q b) (h : RC enc b r) :
    (execA t r).1 = (execT t ⟨b.text, enc⟩).1 ∧
    ∃ b', RC enc b' (execA t r).2 ∧ b'.text = (execT t ⟨b.text, enc⟩).2.text ∧ Q (execA t r).1 b' := by
  induction t generalizing b r with
  | ret a => exact ⟨rfl, b, h, rfl, hw⟩
  | op o k ih =>
    cases o with
    | cache n =>
      obtain ⟨r', h1, h2⟩ := cache_clean n h
      simp only [execA, execT]
      rw [h1]
      have := ih none (b := { b with cached := max b.cached n }) hw.1 h2
      exact this
    | get i =>
      obtain ⟨t, hc, htext, hcached, heof, henc, hoff⟩ := h
      have e : b.text[i]? = r.buffer[i]? := by
        rw [htext]
        rcases hcached with hc' | hc'
        · exact List.getElem?_append_left (Nat.lt_of_lt_of_le hw.1 hc')
        · rw [heof hc'] at hc; rw [hc.future.nil]; simp
      have hw2 := hw.2
      simp only [execA, execT]
      rw [e] at hw2 ⊢
      exact ih _ hw2 ⟨t, hc, htext, hcached, heof, henc, hoff⟩
    | pop =>
      obtain ⟨t, hc, htext, hcached, heof, henc, hoff⟩ := h
      have hbuf : r.buffer ≠ [] ∨ (r.buffer = [] ∧ t = []) := by
        rcases hcached with hc' | hc'
        · exact Or.inl (List.length_pos_iff.1 (Nat.lt_of_lt_of_le hw.1 hc'))
        · rw [heof hc'] at hc
          by_cases h0 : r.buffer = []
          · exact Or.inr ⟨h0, hc.future.nil⟩
          · exact Or.inl h0
      have e : b.text.head? = r.buffer.head? ∧ b.text.tail = r.buffer.tail ++ t := by
        rw [htext]
        rcases hbuf with h0 | ⟨h0, h1⟩
        · obtain ⟨c, cs, hcs⟩ := List.exists_cons_of_ne_nil h0
          rw [hcs]; simp
        · rw [h0, h1]; simp
      have hw2 := hw.2
      simp only [execA, execT]
      rw [e.1] at hw2 ⊢
      refine ih _ hw2 ⟨t, hc, e.2, ?_, heof, ?_, hoff⟩
      · rcases hcached with hc' | hc'
        · left; show b.cached - 1 ≤ r.buffer.tail.length; rw [List.length_tail]; omega
        · exact Or.inr hc'
      · refine henc.imp id ?_
        rintro ⟨h1, h2, h3⟩
        exact ⟨h1, by simp [h2], by simp [h3]⟩
    | enc =>
      have henc : r.encoding = enc := by
        obtain ⟨t, hc, htext, hcached, heof, henc, hoff⟩ := h
        rcases henc with h' | h'
        · exact h'
        · have := hw.1; omega
      simp only [execA, execT]
      rw [henc]
      exact ih _ (hw.2 _) h

theorem RC.start {enc e' : Encoding} {items : List SrcItem} {T : List Char} (h : Clean enc items e' T)
    (hl : 4 * srcSize items < maxInput) : RC e' ⟨T, 0⟩ { items := items, encoding := enc } := by
  refine ⟨T, h, rfl, Or.inl (Nat.zero_le _), by simp, ?_, by simpa using hl⟩
  by_cases he : enc = .any
  · exact Or.inr ⟨he, rfl, rfl⟩
  · exact Or.inl (h.enc he).symm

end Yaml
