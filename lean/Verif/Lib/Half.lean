import Verif.Lib.Same
import Verif.Lib.Honest2

/-
C66: sources that break off.  What such a source delivers, up to the error, is the beginning of a text; a program
that hands reading errors on behaves until then as over the text.
-/

namespace Yaml.Hf
open Yaml Yaml.Spec Yaml.Cu Reader Scanner
set_option linter.unusedSimpArgs false
set_option linter.unusedVariables false

/-- Reading delivers a beginning of the text, with the encoding `e'`, and then fails; or all of it. -/
inductive Begin : Encoding → List SrcItem → Encoding → List Char → Prop
  | stop {e : Encoding} {items : List SrcItem} {x : Err} {t : List Char} (he : e ≠ .any)
      (h : (readChunk (bare e items)).1 = .error x) : Begin e items e t
  | eof {e : Encoding} {items : List SrcItem} (he : e ≠ .any)
      (h : (readChunk (bare e items)).1 = .ok false) : Begin e items e []
  | more {e e' : Encoding} {items : List SrcItem} {r : Rd} {t : List Char} (he : e ≠ .any)
      (h : readChunk (bare e items) = (.ok true, r)) (hf : Begin e r.items e' t) : Begin e items e' (r.buffer ++ t)
  | lost {items : List SrcItem} {x : Err} {e' : Encoding} {t : List Char} (h : (determineEncoding items).1 = .error x) : Begin .any items e' t
  | empty {items items' : List SrcItem} (h : determineEncoding items = (.ok none, items')) : Begin .any items .any []
  | determined {items items' : List SrcItem} {e e' : Encoding} {t : List Char} (he : e ≠ .any)
      (h : determineEncoding items = (.ok (some e), items')) (hf : Begin e items' e' t) : Begin .any items e' t

theorem Begin.of_clean {e e' : Encoding} {items : List SrcItem} {t : List Char} (h : Clean e items e' t) : Begin e items e' t := by
  induction h with
  | eof he h => exact .eof he h
  | more he h hf ih => exact .more he h ih
  | empty h => exact .empty h
  | determined he h hf ih => exact .determined he h ih

theorem Begin.enc {e e' : Encoding} {items : List SrcItem} {t : List Char} (h : Begin e items e' t) (he : e ≠ .any) : e' = e := by
  induction h with
  | stop => rfl
  | eof => rfl
  | more _ _ _ ih => exact ih he
  | lost => exact absurd rfl he
  | empty => exact absurd rfl he
  | determined => exact absurd rfl he

theorem readChunk_nil {e : Encoding} (he : e ≠ .any) : (readChunk (bare e [])).1 = .ok false := by
  cases e with
  | any => exact absurd rfl he
  | utf8 => simp [readChunk, readUtf8, fillBufRetry, bare]
  | utf16le => simp [readChunk, readUtf16, fillBufRetry, bare]
  | utf16be => simp [readChunk, readUtf16, fillBufRetry, bare]

theorem Begin.nil {e e' : Encoding} {t : List Char} (h : Begin e [] e' t) : t = [] := by
  generalize hi : ([] : List SrcItem) = items at h
  cases h with
  | stop he h => subst hi; rw [readChunk_nil he] at h; simp at h
  | eof => rfl
  | more he h => subst hi; have := readChunk_nil he; rw [h] at this; simp at this
  | lost h => subst hi; simp [determineEncoding, fillBuf] at h
  | empty => rfl
  | determined he h => subst hi; simp [determineEncoding, fillBuf] at h

theorem begin_nil {e : Encoding} : Begin e [] e [] := by
  by_cases he : e = .any
  · subst he; exact .empty (items' := []) (by simp [determineEncoding, fillBuf])
  · exact .eof he (readChunk_nil he)

/-- The reader `r` delivers the rest of a text, or a beginning of it and an error; `b` describes it. -/
def RB (enc : Encoding) (b : Inp) (r : Rd) : Prop :=
  ∃ t, Begin r.encoding r.items enc t ∧ b.text = r.buffer ++ t ∧ (b.cached ≤ r.buffer.length ∨ r.eof = true) ∧
    (r.eof = true → r.items = []) ∧ (r.encoding = enc ∨ (r.encoding = .any ∧ r.buffer = [] ∧ b.cached = 0))

theorem updateLoop_begin {length : Nat} : ∀ (fuel : Nat) {r : Rd} {t : List Char}, r.encoding ≠ .any →
    Begin r.encoding r.items r.encoding t → (r.eof = true → r.items = []) → length - r.buffer.length ≤ fuel →
    (∃ e r', updateLoop length fuel r = (some e, r') ∧ ReaderErr e) ∨
    ∃ r' t', updateLoop length fuel r = (none, r') ∧ r'.encoding = r.encoding ∧ Begin r.encoding r'.items r.encoding t' ∧
      r.buffer ++ t = r'.buffer ++ t' ∧ r.buffer.length ≤ r'.buffer.length ∧ (length ≤ r'.buffer.length ∨ r'.eof = true) ∧
      (r'.eof = true → r'.items = []) ∧ (r.eof = true → r'.eof = true) := by
  intro fuel
  induction fuel with
  | zero =>
    intro r t he hc heof hl
    unfold updateLoop
    rw [if_neg (by omega)]
    split
    · exact .inl ⟨_, _, rfl, rd_err _ _ _⟩
    · exact .inr ⟨r, t, rfl, rfl, hc, rfl, Nat.le_refl _, Or.inl (by omega), heof, id⟩
  | succ fuel ih =>
    intro r t he hc heof hl
    unfold updateLoop
    by_cases hlt : r.buffer.length < length
    · rw [if_pos hlt]
      by_cases hr : r.eof = true
      · rw [if_pos hr]
        exact .inr ⟨r, t, rfl, rfl, hc, rfl, Nat.le_refl _, Or.inr hr, heof, id⟩
      · rw [if_neg hr]
        have hs := readChunk_same r he
        have hp := readChunk_progress r.encoding r.items
        obtain ⟨hrd, hres⟩ := hs
        have hclean : (∃ x, (readChunk (bare r.encoding r.items)).1 = .error x) ∨ (t = [] ∧ (readChunk (bare r.encoding r.items)).1 = .ok false) ∨
            ∃ r0 t', readChunk (bare r.encoding r.items) = (.ok true, r0) ∧ Begin r.encoding r0.items r.encoding t' ∧ t = r0.buffer ++ t' := by
          revert he hc
          generalize r.encoding = e
          generalize r.items = is
          intro he hc
          generalize h' : e = e' at hc
          cases hc with
          | stop _ h => subst h'; exact .inl ⟨_, h⟩
          | eof _ h => subst h'; exact .inr (.inl ⟨rfl, h⟩)
          | more _ h hf => subst h'; exact .inr (.inr ⟨_, _, h, hf, rfl⟩)
          | lost => exact absurd h' he
          | empty => exact absurd h' he
          | determined => exact absurd h' he
        generalize hc0 : readChunk (bare r.encoding r.items) = c0 at hrd hres hp hclean
        generalize hcc : readChunk r = c at hrd hres
        obtain ⟨c1, r1⟩ := c
        obtain ⟨c01, r0⟩ := c0
        dsimp only at hrd hres hclean
        have hb1 : r1.buffer = r.buffer ++ r0.buffer := by rw [hrd]
        have hi1 : r1.items = r0.items := by rw [hrd]
        have he1 : r1.encoding = r.encoding := by rw [hrd]
        have hf1 : r1.eof = r.eof := by rw [hrd]
        rcases hclean with ⟨x, rfl⟩ | ⟨rfl, rfl⟩ | ⟨r0', t', heq, hct, rfl⟩
        · rcases hres with ⟨bb, rfl, hbb⟩ | ⟨e1, e0, rfl, h0, h2, _⟩
          · simp at hbb
          · exact .inl ⟨_, _, rfl, h2⟩
        · rcases hres with ⟨bb, rfl, hbb⟩ | ⟨e1, e0, _, h0, _⟩
          · simp at hbb; subst hbb
            obtain ⟨hp1, hp2⟩ := hp
            dsimp only
            refine .inr ⟨_, [], rfl, he1, ?_, ?_, ?_, Or.inr rfl, ?_, fun _ => rfl⟩
            · show Begin _ r1.items _ _
              rw [hi1, hp2]; exact begin_nil
            · show _ = r1.buffer ++ []
              rw [hb1, hp1]; simp
            · show _ ≤ r1.buffer.length
              rw [hb1, hp1]; simp
            · intro _; show r1.items = []; rw [hi1, hp2]
          · simp at h0
        · simp at heq
          obtain ⟨rfl, rfl⟩ := heq
          rcases hres with ⟨bb, rfl, hbb⟩ | ⟨e1, e0, _, h0, _⟩
          · simp at hbb; subst hbb
            obtain ⟨hp1, hp2⟩ := hp
            have hlen := List.length_pos_iff.2 hp1
            have hlb : r1.buffer.length = r.buffer.length + r0.buffer.length := by rw [hb1]; simp
            have := @ih r1 t' (by rw [he1]; exact he) (by rw [he1, hi1]; exact hct) (by rw [hf1]; intro h; exact absurd h hr)
              (by omega)
            rcases this with h | ⟨r', t'', g1, g2, g3, g4, g5, g6, g7, g8⟩
            · exact .inl h
            · refine .inr ⟨r', t'', g1, by rw [g2, he1], by rw [he1] at g3; exact g3, ?_, by omega, g6, g7, fun h => absurd h hr⟩
              rw [← g4, hb1]; simp
          · simp at h0
    · rw [if_neg hlt]
      split
      · exact .inl ⟨_, _, rfl, rd_err _ _ _⟩
      · exact .inr ⟨r, t, rfl, rfl, hc, rfl, Nat.le_refl _, Or.inl (by omega), heof, id⟩

theorem cache_begin {enc : Encoding} {b : Inp} {r : Rd} (n : Nat) (h : RB enc b r) :
    (∃ e r', Reader.cache n r = (some e, r') ∧ ReaderErr e) ∨ ∃ r', Reader.cache n r = (none, r') ∧ RB enc { b with cached := max b.cached n } r' := by
  obtain ⟨t, hc, htext, hcached, heof, henc⟩ := h
  unfold Reader.cache
  by_cases hn : r.buffer.length ≥ n
  · rw [if_pos hn]
    refine .inr ⟨r, rfl, t, hc, htext, ?_, heof, ?_⟩
    · rcases hcached with h | h
      · exact Or.inl (by show max _ _ ≤ _; omega)
      · exact Or.inr h
    · refine henc.imp id ?_
      rintro ⟨h1, h2, h3⟩
      rw [h2] at hn
      exact ⟨h1, h2, by simp at hn; show max b.cached n = 0; omega⟩
  · rw [if_neg hn]
    unfold updateBuffer
    rw [if_neg hn]
    have loop : ∀ r1 : Rd, r1.encoding ≠ .any → r1.encoding = enc → Begin r1.encoding r1.items enc t → (r1.eof = true → r1.items = []) →
        r1.buffer = r.buffer → (r.eof = true → r1.eof = true) →
        (∃ e r', updateLoop n n r1 = (some e, r') ∧ ReaderErr e) ∨ ∃ r', updateLoop n n r1 = (none, r') ∧ RB enc { b with cached := max b.cached n } r' := by
      intro r1 h1 h2 h3 h4 h6 h7
      subst h2
      rcases updateLoop_begin (length := n) n (t := t) h1 h3 h4 (by omega) with h | ⟨r', t', g1, g2, g3, g4, g5, g6, g7, g8⟩
      · exact .inl h
      refine .inr ⟨r', g1, t', by rw [g2]; exact g3, by rw [htext, ← h6]; exact g4, ?_, g7, Or.inl g2⟩
      rcases g6 with g6 | g6
      · rcases hcached with h | h
        · exact Or.inl (by show max _ _ ≤ _; rw [h6] at g5; omega)
        · exact Or.inr (g8 (h7 h))
      · exact Or.inr g6
    by_cases he : r.encoding = .any
    · rw [if_pos he]
      rw [he] at hc
      cases hc with
      | stop h => exact absurd rfl h
      | eof h => exact absurd rfl h
      | more h => exact absurd rfl h
      | lost hd =>
        generalize hdd : determineEncoding r.items = d at hd
        obtain ⟨d1, d2⟩ := d
        subst hd
        refine .inl ⟨_, _, rfl, ?_⟩
        exact determineEncoding_err hdd
      | empty hd =>
        have hi := determineEncoding_none hd
        subst hi
        rw [hd]
        refine .inr ⟨_, rfl, [], ?_, htext, Or.inr rfl, fun _ => rfl, ?_⟩
        · show Begin r.encoding [] .any []
          rw [he]; exact begin_nil
        · exact Or.inl he
      | determined hne hd hf =>
        rename_i items' e
        rw [hd]
        dsimp only
        have henc' : enc = e := hf.enc hne
        refine loop _ hne henc'.symm hf ?_ rfl id
        · intro h'
          have := heof h'
          rw [this] at hd
          simp [determineEncoding, fillBuf] at hd
    · rw [if_neg he]
      have := hc.enc he
      exact loop r he this.symm hc heof rfl id

/-- A program that asks for its look-ahead and hands errors on: it ends with a reading error, or it did what it does over the text. -/
theorem exec_begin {α S : Type} (t : Free CharOp CharOp.Ans (Out α × S)) {Q : Out α × S → Inp → Prop} {enc : Encoding} : ∀ {b : Inp} {r : Rd},
    t.wp stepB Q b → t.wp (stepF CharOp CharOp.Ans) Told none → RB enc b r →
    (∃ e, ReaderErr e ∧ (execA t r).1.1 = .err e) ∨
    ((execA t r).1 = (execT t ⟨b.text, enc⟩).1 ∧ ∃ b', RB enc b' (execA t r).2 ∧ b'.text = (execT t ⟨b.text, enc⟩).2.text ∧ Q (execA t r).1 b') := by
  induction t with
  | ret a => exact fun hw _ h => .inr ⟨rfl, _, h, rfl, hw⟩
  | op o k ih =>
    rintro b r hw ⟨_, hw'⟩ h
    cases o with
    | cache n =>
      simp only [execA, execT]
      rcases cache_begin n h with ⟨e, r', h1, h2⟩ | ⟨r', h1, h2⟩
      · rw [h1]
        obtain ⟨⟨o', p'⟩, ha, hq⟩ := wp_failed (hw' (some e))
        refine .inl ⟨e, h2, ?_⟩
        show (execA (k (some e)) r').1.1 = _
        rw [ha]
        show o' = _
        cases o' with
        | err e' =>
          rcases hq with hq | hq
          · simp only [Option.some.injEq] at hq
            rw [hq]
          · simp at hq
        | _ => have hq : some e = none := hq
               simp at hq
      · rw [h1]
        exact ih none (b := { b with cached := max b.cached n }) hw.1 (hw' none) h2
    | get i =>
      obtain ⟨t, hc, htext, hcached, heof, henc⟩ := h
      have e : b.text[i]? = r.buffer[i]? := by
        rw [htext]
        rcases hcached with hc' | hc'
        · exact List.getElem?_append_left (Nat.lt_of_lt_of_le hw.1 hc')
        · rw [heof hc'] at hc; rw [hc.nil]; simp
      have hw2 := hw.2
      simp only [execA, execT]
      rw [e] at hw2 ⊢
      exact ih _ hw2 (hw' _) ⟨t, hc, htext, hcached, heof, henc⟩
    | pop =>
      obtain ⟨t, hc, htext, hcached, heof, henc⟩ := h
      have hbuf : r.buffer ≠ [] ∨ (r.buffer = [] ∧ t = []) := by
        rcases hcached with hc' | hc'
        · exact Or.inl (List.length_pos_iff.1 (Nat.lt_of_lt_of_le hw.1 hc'))
        · rw [heof hc'] at hc
          by_cases h0 : r.buffer = []
          · exact Or.inr ⟨h0, hc.nil⟩
          · exact Or.inl h0
      have e : b.text.head? = r.buffer.head? ∧ b.text.tail = r.buffer.tail ++ t := by
        rw [htext]
        rcases hbuf with h0 | ⟨h0, h1⟩
        · obtain ⟨c, cs, hcs⟩ := List.exists_cons_of_ne_nil h0
          rw [hcs]; simp
        · rw [h0, h1]; simp
      have hw2 := hw.2
      simp only [execA, execT]
      rw [e.1] at hw2 ⊢
      refine ih _ hw2 (hw' _) ⟨t, hc, e.2, ?_, heof, ?_⟩
      · rcases hcached with hc' | hc'
        · left; show b.cached - 1 ≤ r.buffer.tail.length; rw [List.length_tail]; omega
        · exact Or.inr hc'
      · refine henc.imp id ?_
        rintro ⟨h1, h2, h3⟩
        exact ⟨h1, by simp [h2], by simp [h3]⟩
    | enc =>
      have henc : r.encoding = enc := by
        obtain ⟨t, hc, htext, hcached, heof, henc⟩ := h
        rcases henc with h' | h'
        · exact h'
        · have := hw.1; omega
      simp only [execA, execT]
      rw [henc]
      exact ih _ (hw.2 _) (hw' _) h

theorem RB.start {enc e' : Encoding} {items : List SrcItem} {T : List Char} (h : Begin enc items e' T) : RB e' ⟨T, 0⟩ { items := items, encoding := enc } := by
  refine ⟨T, h, rfl, Or.inl (Nat.zero_le _), by simp, ?_⟩
  by_cases he : enc = .any
  · exact Or.inr ⟨he, rfl, rfl⟩
  · exact Or.inl (h.enc he).symm

/-! ### The scanner -/

/-- A scanner over a source that may break off, and one over the text. -/
structure Half (enc : Encoding) (o1 o2 : ScannerObj) (n : Nat) : Prop where
  s : o1.s = o2.s
  r : ∃ b1 b2, RB enc b1 o1.r ∧ RC enc b2 o2.r ∧ b1.text = b2.text ∧ b1.text.length ≤ n
  st : Idle o1.s ∨ SDone o1.s

theorem Half.scan {enc : Encoding} {o1 o2 : ScannerObj} {n F : Nat} (h : Half enc o1 o2 n) (hF : n + 2 < F) :
    (∃ e, ReaderErr e ∧ (o1.scan F).1 = .err e) ∨
    ((o1.scan F).1 = (o2.scan F).1 ∧ ((∃ t, (o1.scan F).1 = .ok t) ∨ (∃ e, (o1.scan F).1 = .err e) → Half enc (o1.scan F).2 (o2.scan F).2 n)) := by
  obtain ⟨hs, ⟨b1, b2, hr1, hr2, ht, hl⟩, hst⟩ := h
  rcases hst with hi | hd
  · have w1 := wpB_scan_idle (F := F) hi (b := b1) (by omega)
    have w2 := wpB_scan_idle (F := F) (hs ▸ hi) (b := b2) (by rw [← ht]; omega)
    obtain ⟨x2, c2, y2, z2, q2⟩ := exec_clean _ w2 hr2
    rcases exec_begin _ w1 ((inferInstance : Honest (Scanner.scan F)).told o1.s) hr1 with ⟨e, h1, h2⟩ | ⟨x1, c1, y1, z1, q1⟩
    · exact .inl ⟨e, h1, h2⟩
    right
    have e : execT (Scanner.scan F o1.s) ⟨b1.text, enc⟩ = execT (Scanner.scan F o2.s) ⟨b2.text, enc⟩ := by rw [hs, ht]
    have e1 : (execA (Scanner.scan F o1.s) o1.r).1 = (execA (Scanner.scan F o2.s) o2.r).1 := by rw [x1, x2, e]
    have hlen := (execT_text (Scanner.scan F o1.s) ⟨b1.text, enc⟩).2
    obtain ⟨p, hp⟩ := hlen
    have hp : b1.text = p ++ _ := hp
    refine ⟨by simp only [ScannerObj.scan, runA, e1], ?_⟩
    intro hok
    refine ⟨by simp only [ScannerObj.scan, runA, e1], ⟨c1, c2, y1, y2, by rw [z1, z2, e], ?_⟩, ?_⟩
    · rw [z1]
      rw [hp] at hl
      simp at hl
      omega
    · unfold ScannerObj.scan runA at hok ⊢
      revert q1 hok
      generalize execA (Scanner.scan F o1.s) o1.r = q
      obtain ⟨⟨out, s'⟩, r'⟩ := q
      intro q1 hok
      cases out with
      | ok t => exact q1
      | err e => exact q1
      | panic p => simp at hok
      | fuel => simp at hok
  · have h1 := (hd.scan F).1
    have h2 := (SDone.scan (o := o2) (hs ▸ hd) F).1
    rw [h1, h2]
    exact .inr ⟨rfl, fun _ => ⟨hs, ⟨b1, b2, hr1, hr2, ht, hl⟩, Or.inr hd⟩⟩

theorem Half.start {enc1 enc2 e : Encoding} {items1 items2 : List SrcItem} {T : List Char} (h1 : Begin enc1 items1 e T)
    (h2 : Clean enc2 items2 e T) (hs2 : 4 * srcSize items2 < maxInput) :
    Half e (ScannerObj.new items1 enc1) (ScannerObj.new items2 enc2) T.length :=
  ⟨rfl, ⟨_, _, RB.start h1, RC.start h2 hs2, rfl, Nat.le_refl _⟩, Or.inl (Or.inl rfl)⟩

end Yaml.Hf
