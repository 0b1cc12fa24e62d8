import Verif.Lib.Half2
import Verif.Props.Culprit
import Verif.Props.Same
import Verif.Spec.BreaksOff

/-
C66: which sources break off.
-/

namespace Yaml.Hf
open Yaml Yaml.Spec Yaml.Cu Reader
set_option linter.unusedSimpArgs false
set_option linter.unusedVariables false

/-- Reading delivers the characters and then fails. -/
inductive Broken : Encoding → List SrcItem → Encoding → List Char → Prop
  | stop {e : Encoding} {items : List SrcItem} {x : Err} (he : e ≠ .any)
      (h : (readChunk (bare e items)).1 = .error x) : Broken e items e []
  | more {e e' : Encoding} {items : List SrcItem} {r : Rd} {t : List Char} (he : e ≠ .any)
      (h : readChunk (bare e items) = (.ok true, r)) (hf : Broken e r.items e' t) : Broken e items e' (r.buffer ++ t)
  | lost {items : List SrcItem} {x : Err} {e' : Encoding} (h : (determineEncoding items).1 = .error x) : Broken .any items e' []
  | determined {items items' : List SrcItem} {e e' : Encoding} {t : List Char} (he : e ≠ .any)
      (h : determineEncoding items = (.ok (some e), items')) (hf : Broken e items' e' t) : Broken .any items e' t

theorem Broken.begins {e e' : Encoding} {items : List SrcItem} {d : List Char} (h : Broken e items e' d) (t : List Char) : Begin e items e' (d ++ t) := by
  induction h with
  | stop he h => exact .stop he h
  | more he h hf ih => rw [List.append_assoc]; exact .more he h ih
  | lost h => exact .lost h
  | determined he h hf ih => exact .determined he h ih

theorem Broken.length {e e' : Encoding} {items : List SrcItem} {d : List Char} (h : Broken e items e' d) : d.length ≤ srcSize items := by
  induction h with
  | stop => simp
  | @more e e' items r t he h hf ih =>
    have := readChunk_progress e items
    rw [h] at this
    have := this.2
    rw [List.length_append]; omega
  | lost => simp
  | @determined items items' e e' t he h hf ih =>
    have := determineEncoding_size items
    rw [h] at this
    have : srcSize items' ≤ srcSize items := this
    omega

/-! ### Failing sources -/

/-- The first fails where the second may go on. -/
def Cut (i1 i2 : List SrcItem) : Prop := ∃ p k post rest, i1 = p ++ .fail k :: post ∧ i2 = p ++ rest

theorem Cut.cons {i1 i2 : List SrcItem} (x : SrcItem) (h : Cut i1 i2) : Cut (x :: i1) (x :: i2) := by
  obtain ⟨p, k, post, rest, rfl, rfl⟩ := h
  exact ⟨x :: p, k, post, rest, rfl, rfl⟩

/-- One step on both. -/
inductive Cut2 : List SrcItem → List SrcItem → Prop
  | fail {k : IoKind} {post rest : List SrcItem} : Cut2 (.fail k :: post) rest
  | cons {i1 i2 : List SrcItem} (x : SrcItem) : Cut i1 i2 → Cut2 (x :: i1) (x :: i2)

theorem Cut.cases {i1 i2 : List SrcItem} (h : Cut i1 i2) : Cut2 i1 i2 := by
  obtain ⟨p, k, post, rest, rfl, rfl⟩ := h
  cases p with
  | nil => exact .fail
  | cons x p => exact .cons x ⟨p, k, post, rest, rfl, rfl⟩

theorem fillBuf_cut : ∀ {i1 i2 : List SrcItem}, Cut i1 i2 → (∃ k, (fillBuf i1).1 = .error k) ∨
    ∃ b bs r1 r2, fillBuf i1 = (.ok (b :: bs), r1) ∧ fillBuf i2 = (.ok (b :: bs), r2) ∧ Cut r1 r2 := by
  intro i1
  induction i1 with
  | nil => intro i2 h; cases h.cases
  | cons x xs ih =>
    intro i2 h
    cases h.cases with
    | fail => exact .inl ⟨_, rfl⟩
    | cons _ h' =>
      cases x with
      | data d =>
        cases d with
        | nil => exact (ih h' :)
        | cons b bs => exact .inr ⟨b, bs, _, _, rfl, rfl, h'.cons _⟩
      | intr => exact .inl ⟨_, rfl⟩
      | fail k => exact .inl ⟨_, rfl⟩

theorem fillBufRetry_cut : ∀ {i1 i2 : List SrcItem}, Cut i1 i2 → (∃ k, (fillBufRetry i1).1 = .error k) ∨
    ∃ b bs r1 r2, fillBufRetry i1 = (.ok (b :: bs), r1) ∧ fillBufRetry i2 = (.ok (b :: bs), r2) ∧ Cut r1 r2 := by
  intro i1
  induction i1 with
  | nil => intro i2 h; cases h.cases
  | cons x xs ih =>
    intro i2 h
    cases h.cases with
    | fail => exact .inl ⟨_, rfl⟩
    | cons _ h' =>
      cases x with
      | data d =>
        cases d with
        | nil => exact (ih h' :)
        | cons b bs => exact .inr ⟨b, bs, _, _, rfl, rfl, h'.cons _⟩
      | intr => exact (ih h' :)
      | fail k => exact .inl ⟨_, rfl⟩

theorem consume_cut {i1 i2 : List SrcItem} (n : Nat) (h : Cut i1 i2) : Cut (consume n i1) (consume n i2) := by
  cases h.cases with
  | fail => exact ⟨[], _, _, _, rfl, rfl⟩
  | cons x h' =>
    cases x with
    | data d => exact h'.cons _
    | intr => exact h
    | fail k => exact h

theorem readExact_cut : ∀ (i1 : List SrcItem) (n : Nat) {i2 : List SrcItem}, Cut i1 i2 → (∃ k, (readExact n i1).1 = .error k) ∨
    ∃ bs r1 r2, readExact n i1 = (.ok bs, r1) ∧ readExact n i2 = (.ok bs, r2) ∧ Cut r1 r2 := by
  intro i1
  induction i1 with
  | nil => intro n i2 h; cases h.cases
  | cons x xs ih =>
    intro n i2 h
    cases n with
    | zero => exact .inr ⟨[], _, _, by simp [readExact], by simp [readExact], h⟩
    | succ n =>
      cases h.cases with
      | fail => exact .inl ⟨_, by rw [readExact]⟩
      | cons _ h' =>
        cases x with
        | data d =>
          simp only [readExact]
          split
          · exact .inr ⟨_, _, _, rfl, rfl, h'.cons _⟩
          · rcases ih (n + 1 - d.length) h' with ⟨k, hk⟩ | ⟨bs, r1, r2, h1, h2, h3⟩
            · left
              exact ⟨k, by rw [hk]; rfl⟩
            · right
              exact ⟨d ++ bs, r1, r2, by rw [h1]; rfl, by rw [h2]; rfl, h3⟩
        | intr => simp only [readExact]; exact ih (n + 1) h'
        | fail k => exact .inl ⟨_, by rw [readExact]⟩

/-- Two readers that differ in what is to come. -/
def CutR (r1 r2 : Rd) : Prop := ∃ i, r2 = { r1 with items := i } ∧ Cut r1.items i

theorem readUtf8Char_cut {r1 r2 : Rd} (b : UInt8) (h : CutR r1 r2) : (∃ e, (readUtf8Char b r1).1 = some e) ∨
    ((readUtf8Char b r1).1 = none ∧ (readUtf8Char b r2).1 = none ∧ CutR (readUtf8Char b r1).2 (readUtf8Char b r2).2) := by
  obtain ⟨i, rfl, hc⟩ := h
  unfold readUtf8Char
  dsimp only
  rcases readExact_cut r1.items (utf8CharWidth b) hc with ⟨k, hk⟩ | ⟨bs, j1, j2, h1, h2, h3⟩
  · left
    generalize readExact (utf8CharWidth b) r1.items = q at hk
    obtain ⟨q1, q2⟩ := q
    dsimp only at hk
    subst hk
    exact ⟨_, rfl⟩
  · rw [h1, h2]
    dsimp only
    split
    · rename_i c _ _ _
      generalize pushChars (fun _ => utf8CharWidth b) [c] r1.buffer r1.offset = q
      obtain ⟨q1, q2, q3⟩ := q
      cases q1 with
      | some e => exact .inl ⟨e, rfl⟩
      | none => exact .inr ⟨rfl, rfl, j2, rfl, h3⟩
    · exact .inl ⟨_, rfl⟩

theorem readUtf16Char_cut {r1 r2 : Rd} (be : Bool) (h : CutR r1 r2) : (∃ e, (readUtf16Char be r1).1 = some e) ∨
    ((readUtf16Char be r1).1 = none ∧ (readUtf16Char be r2).1 = none ∧ CutR (readUtf16Char be r1).2 (readUtf16Char be r2).2) := by
  obtain ⟨i, rfl, hc⟩ := h
  unfold readUtf16Char
  dsimp only
  rcases readExact_cut r1.items 2 hc with ⟨k, hk⟩ | ⟨bs, j1, j2, h1, h2, h3⟩
  · left
    generalize readExact 2 r1.items = q at hk
    obtain ⟨q1, q2⟩ := q
    dsimp only at hk
    subst hk
    exact ⟨_, rfl⟩
  · rw [h1, h2]
    dsimp only
    generalize unit16 be (bs.getD 0 0) (bs.getD 1 0) = u
    by_cases hs : isSurrogate u = true
    · rw [if_pos hs, if_pos hs]
      rcases readExact_cut j1 2 h3 with ⟨k, hk⟩ | ⟨bs2, l1, l2, g1, g2, g3⟩
      · left
        generalize readExact 2 j1 = q at hk
        obtain ⟨q1, q2⟩ := q
        dsimp only at hk
        subst hk
        exact ⟨_, rfl⟩
      · rw [g1, g2]
        dsimp only
        generalize decode16 [u, unit16 be (bs2.getD 0 0) (bs2.getD 1 0)] = d
        match d with
        | some (.ok (c, k)) =>
          dsimp only
          generalize pushChars (fun _ => 4) [c] r1.buffer r1.offset = q
          obtain ⟨q1, q2, q3⟩ := q
          cases q1 with
          | some e => exact .inl ⟨e, rfl⟩
          | none => exact .inr ⟨rfl, rfl, l2, rfl, g3⟩
        | some (.error u) => exact .inl ⟨_, rfl⟩
        | none => exact .inr ⟨rfl, rfl, l2, rfl, g3⟩
    · rw [if_neg hs, if_neg hs]
      generalize pushChars (fun _ => 2) [Char.ofNat u] r1.buffer r1.offset = q
      obtain ⟨q1, q2, q3⟩ := q
      cases q1 with
      | some e => exact .inl ⟨e, rfl⟩
      | none => exact .inr ⟨rfl, rfl, j2, rfl, h3⟩

/-- A chunk. -/
theorem readChunk_cut {r1 r2 : Rd} (h : CutR r1 r2) : (∃ e, (readChunk r1).1 = .error e) ∨
    ((readChunk r1).1 = .ok true ∧ (readChunk r2).1 = .ok true ∧ CutR (readChunk r1).2 (readChunk r2).2) := by
  obtain ⟨i, rfl, hc⟩ := h
  have h16 : ∀ be, (∃ e, (readUtf16 be r1).1 = .error e) ∨
      ((readUtf16 be r1).1 = .ok true ∧ (readUtf16 be { r1 with items := i }).1 = .ok true ∧ CutR (readUtf16 be r1).2 (readUtf16 be { r1 with items := i }).2) := by
    intro be
    unfold readUtf16
    dsimp only
    rcases fillBufRetry_cut hc with ⟨k, hk⟩ | ⟨b, bs, j1, j2, h1, h2, h3⟩
    · left
      generalize fillBufRetry r1.items = q at hk
      obtain ⟨q1, q2⟩ := q
      dsimp only at hk
      subst hk
      exact ⟨_, rfl⟩
    · rw [h1, h2]
      dsimp only
      generalize utf16Run (units16 be (b :: bs)).length (units16 be (b :: bs)) = run
      generalize pushChars (fun c => (utf16Units c).length) (run.map Prod.fst) r1.buffer r1.offset = q
      obtain ⟨q1, q2, q3⟩ := q
      cases q1 with
      | some e => exact .inl ⟨e, rfl⟩
      | none =>
        dsimp only
        split
        · exact .inr ⟨rfl, rfl, _, rfl, consume_cut _ h3⟩
        · have := readUtf16Char_cut (r1 := { r1 with items := j1, buffer := q2, offset := q3 }) (r2 := { r1 with items := j2, buffer := q2, offset := q3 }) be ⟨j2, rfl, h3⟩
          generalize readUtf16Char be { r1 with items := j1, buffer := q2, offset := q3 } = c1 at this
          generalize readUtf16Char be { r1 with items := j2, buffer := q2, offset := q3 } = c2 at this
          obtain ⟨x1, y1⟩ := c1
          obtain ⟨x2, y2⟩ := c2
          dsimp only at this
          rcases this with ⟨e, rfl⟩ | ⟨rfl, rfl, hh⟩
          · exact .inl ⟨_, rfl⟩
          · exact .inr ⟨rfl, rfl, hh⟩
  have h8 : (∃ e, (readUtf8 r1).1 = .error e) ∨
      ((readUtf8 r1).1 = .ok true ∧ (readUtf8 { r1 with items := i }).1 = .ok true ∧ CutR (readUtf8 r1).2 (readUtf8 { r1 with items := i }).2) := by
    unfold readUtf8
    dsimp only
    rcases fillBufRetry_cut hc with ⟨k, hk⟩ | ⟨b, bs, j1, j2, h1, h2, h3⟩
    · left
      generalize fillBufRetry r1.items = q at hk
      obtain ⟨q1, q2⟩ := q
      dsimp only at hk
      subst hk
      exact ⟨_, rfl⟩
    · rw [h1, h2]
      dsimp only
      generalize utf8Run (b :: bs) = run
      obtain ⟨run1, run2, run3⟩ := run
      dsimp only
      generalize pushChars lenUtf8 run1 r1.buffer r1.offset = q
      obtain ⟨q1, q2, q3⟩ := q
      cases q1 with
      | some e => exact .inl ⟨e, rfl⟩
      | none =>
        dsimp only
        cases run3 with
        | done => exact .inr ⟨rfl, rfl, _, rfl, consume_cut _ h3⟩
        | invalid => exact .inl ⟨_, rfl⟩
        | incomplete =>
          dsimp only
          split
          · exact .inr ⟨rfl, rfl, _, rfl, consume_cut _ h3⟩
          · have := readUtf8Char_cut (r1 := { r1 with items := j1, buffer := q2, offset := q3 }) (r2 := { r1 with items := j2, buffer := q2, offset := q3 }) b ⟨j2, rfl, h3⟩
            generalize readUtf8Char b { r1 with items := j1, buffer := q2, offset := q3 } = c1 at this
            generalize readUtf8Char b { r1 with items := j2, buffer := q2, offset := q3 } = c2 at this
            obtain ⟨x1, y1⟩ := c1
            obtain ⟨x2, y2⟩ := c2
            dsimp only at this
            rcases this with ⟨e, rfl⟩ | ⟨rfl, rfl, hh⟩
            · exact .inl ⟨_, rfl⟩
            · exact .inr ⟨rfl, rfl, hh⟩
  revert h8 h16
  obtain ⟨_, _, _, e, _⟩ := r1
  intro h16 h8
  cases e with
  | any => exact .inl ⟨_, rfl⟩
  | utf8 => exact h8
  | utf16le => exact h16 _
  | utf16be => exact h16 _

theorem determine_cut {i1 i2 : List SrcItem} (h : Cut i1 i2) : (∃ e, (determineEncoding i1).1 = .error e) ∨
    ∃ e r1 r2, determineEncoding i1 = (.ok (some e), r1) ∧ determineEncoding i2 = (.ok (some e), r2) ∧ Cut r1 r2 := by
  unfold determineEncoding
  rcases fillBuf_cut h with ⟨k, hk⟩ | ⟨b, bs, j1, j2, h1, h2, h3⟩
  · left
    generalize fillBuf i1 = q at hk
    obtain ⟨q1, q2⟩ := q
    dsimp only at hk
    subst hk
    exact ⟨_, rfl⟩
  · rw [h1, h2]
    dsimp only
    split
    · rcases readExact_cut j1 3 h3 with ⟨k, hk⟩ | ⟨bs, l1, l2, g1, g2, g3⟩
      · left
        generalize readExact 3 j1 = q at hk
        obtain ⟨q1, q2⟩ := q
        dsimp only at hk
        subst hk
        exact ⟨_, rfl⟩
      · rw [g1, g2]
        dsimp only
        split
        · exact .inr ⟨_, _, _, rfl, rfl, g3⟩
        · exact .inl ⟨_, rfl⟩
    · split
      · rcases readExact_cut j1 2 h3 with ⟨k, hk⟩ | ⟨bs, l1, l2, g1, g2, g3⟩
        · left
          generalize readExact 2 j1 = q at hk
          obtain ⟨q1, q2⟩ := q
          dsimp only at hk
          subst hk
          exact ⟨_, rfl⟩
        · rw [g1, g2]
          dsimp only
          split
          · exact .inr ⟨_, _, _, rfl, rfl, g3⟩
          · split
            · exact .inr ⟨_, _, _, rfl, rfl, g3⟩
            · exact .inl ⟨_, rfl⟩
      · exact .inr ⟨_, _, _, rfl, rfl, h3⟩

theorem Clean.cut {enc e : Encoding} {i2 : List SrcItem} {X : List Char} (h : Clean enc i2 e X) : ∀ {i1 : List SrcItem}, Cut i1 i2 →
    ∃ D, Broken enc i1 e D ∧ D <+: X := by
  induction h with
  | @eof e items he h =>
    intro i1 hc
    rcases readChunk_cut (r1 := bare e i1) (r2 := bare e items) ⟨items, rfl, hc⟩ with ⟨x, hx⟩ | ⟨_, h2, _⟩
    · exact ⟨[], .stop he hx, List.nil_prefix⟩
    · rw [h] at h2; simp at h2
  | @more e e' items r t he h hf ih =>
    intro i1 hc
    rcases readChunk_cut (r1 := bare e i1) (r2 := bare e items) ⟨items, rfl, hc⟩ with ⟨x, hx⟩ | ⟨h1, _, i, h3, h4⟩
    · rw [hf.enc he]; exact ⟨[], .stop he hx, List.nil_prefix⟩
    · rw [h] at h3
      have h3 : r = _ := h3
      have e1 : r.items = i := by rw [h3]
      have e2 : r.buffer = (readChunk (bare e i1)).2.buffer := by rw [h3]
      obtain ⟨D, g1, g2⟩ := ih (i1 := (readChunk (bare e i1)).2.items) (by rw [e1]; exact h4)
      rw [e2]
      refine ⟨_, .more he (Prod.ext h1 rfl) g1, ?_⟩
      exact List.prefix_append_right_inj _ |>.2 g2
  | @empty items items' h =>
    intro i1 hc
    rcases determine_cut hc with ⟨x, hx⟩ | ⟨e, r1, r2, _, h2, _⟩
    · exact ⟨[], .lost hx, List.nil_prefix⟩
    · rw [h] at h2; simp at h2
  | @determined items items' e e' t he h hf ih =>
    intro i1 hc
    rcases determine_cut hc with ⟨x, hx⟩ | ⟨e, r1, r2, h1, h2, h3⟩
    · exact ⟨[], .lost hx, List.nil_prefix⟩
    · rw [h] at h2
      simp only [Prod.mk.injEq, Except.ok.injEq, Option.some.injEq] at h2
      obtain ⟨rfl, rfl⟩ := h2
      obtain ⟨D, g1, g2⟩ := ih h3
      exact ⟨D, .determined he h1 g1, g2⟩

/-! ### Bytes that are no text -/

theorem firstBad_broken : ∀ (n : Nat) {items : List SrcItem} {T : List Char} {Y : List UInt8}, srcSize items ≤ n → FirstBad (bytesOf items) T Y →
    ∃ D, Broken .utf8 items .utf8 D ∧ D <+: T := by
  intro n
  induction n with
  | zero =>
    intro items T Y hn h
    have := bytesOf_length items
    have h0 : bytesOf items = [] := List.length_eq_zero_iff.1 (by omega)
    have := h.bytes
    rw [h0] at this
    exact absurd (List.append_eq_nil_iff.1 this.symm).2 h.some
  | succ n ih =>
    intro items T Y hn h
    have h8 : Refilled items (bytesOf items) [] (bare .utf8 items) (readUtf8 (bare .utf8 items)) :=
      readUtf8_trk ⟨rfl, by simp [bare, utf8Encode], by simp [bare], by simp [bare, utf8Encode], Sub.refl _, by simp [bare]⟩ rfl
    have hp := readChunk_progress .utf8 items
    have e : readChunk (bare .utf8 items) = readUtf8 (bare .utf8 items) := rfl
    rw [← e] at h8
    generalize hq : readChunk (bare .utf8 items) = q at h8 hp
    obtain ⟨q1, r⟩ := q
    cases q1 with
    | error x => exact ⟨[], .stop (by simp) (by rw [hq]), List.nil_prefix⟩
    | ok b =>
      obtain ⟨hT, _, _, hf⟩ := h8
      have hb := hT.bytes
      simp only [List.nil_append] at hb
      obtain ⟨U, h1, h2⟩ := h.prefix hb (fun c hc => allowed_iff.1 (hT.good c (by simpa using hc)))
      cases b with
      | false =>
        rw [hf rfl] at h2
        exact absurd (List.append_eq_nil_iff.1 h2.symm).2 h.some
      | true =>
        obtain ⟨hp1, hp2⟩ := hp
        have := List.length_pos_iff.2 hp1
        obtain ⟨D, g1, g2⟩ := ih (items := r.items) (T := U) (Y := Y) (by omega) ⟨h2, fun t ht => h.good t (by rw [h1]; simp [ht]), h.some, h.bad⟩
        rw [h1]
        exact ⟨_, .more (by simp) hq g1, List.prefix_append_right_inj _ |>.2 g2⟩

/-- Every source that breaks off is broken. -/
theorem broken_of {items : List SrcItem} {enc e : Encoding} {X : List Char} (h : BreaksOff items enc e X) : ∃ D, Broken enc items e D ∧ D <+: X := by
  cases h with
  | failed h hend => exact Clean.cut (Props.clean_of_pull h hend) ⟨_, _, _, _, rfl, rfl⟩
  | @bad _ _ T _ Y h8 hb hg hn hbad hp =>
    have hS : FirstBad (textBytes enc (bytesOf items)) T Y := ⟨hb, hg, hn, hbad⟩
    have fin : ∀ D, Broken enc items .utf8 D → D <+: T → ∃ D, Broken enc items .utf8 D ∧ D <+: X := fun D h1 h2 => ⟨D, h1, h2.trans hp⟩
    rcases h8 with rfl | ⟨rfl, hno⟩
    · have : textBytes .utf8 (bytesOf items) = bytesOf items := by unfold textBytes; rfl
      rw [this] at hS
      obtain ⟨D, g1, g2⟩ := firstBad_broken _ (Nat.le_refl _) hS
      exact fin D g1 g2
    · have hd := determine_cases items
      generalize hq : determineEncoding items = q at hd
      obtain ⟨q1, q2⟩ := q
      cases q1 with
      | error x => exact fin [] (.lost (by rw [hq])) List.nil_prefix
      | ok o =>
        cases o with
        | none =>
          obtain ⟨_, h0⟩ := hd
          have := hS.bytes
          rw [h0] at this
          have : ([] : List UInt8) = utf8Encode T ++ Y := this
          exact absurd (List.append_eq_nil_iff.1 this.symm).2 hn
        | some e =>
          obtain ⟨_, ⟨rfl, h1⟩ | ⟨be, _, h1⟩⟩ := hd
          · rw [h1] at hS
            obtain ⟨D, g1, g2⟩ := firstBad_broken _ (Nat.le_refl _) hS
            exact fin D (.determined (by simp) hq g1) g2
          · exact absurd ⟨_, h1.symm⟩ (hno be)

end Yaml.Hf
