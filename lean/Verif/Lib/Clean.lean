import Verif.Lib.Utf
import Verif.Lib.Sim
import Verif.Spec.Source

/-
Sources that deliver a text without errors.
-/

namespace Yaml
open Reader
set_option linter.unusedSimpArgs false
set_option linter.unusedVariables false

/-- Reading everything succeeds, with the encoding `e'` in the end, and delivers the text. -/
inductive Clean : Encoding → List SrcItem → Encoding → List Char → Prop
  | eof {e : Encoding} {items : List SrcItem} (he : e ≠ .any)
      (h : (readChunk (bare e items)).1 = .ok false) : Clean e items e []
  | more {e e' : Encoding} {items : List SrcItem} {r : Rd} {t : List Char} (he : e ≠ .any)
      (h : readChunk (bare e items) = (.ok true, r)) (hf : Clean e r.items e' t) : Clean e items e' (r.buffer ++ t)
  | empty {items items' : List SrcItem} (h : determineEncoding items = (.ok none, items')) : Clean .any items .any []
  | determined {items items' : List SrcItem} {e e' : Encoding} {t : List Char} (he : e ≠ .any)
      (h : determineEncoding items = (.ok (some e), items')) (hf : Clean e items' e' t) : Clean .any items e' t

theorem Clean.future {e e' : Encoding} {items : List SrcItem} {t : List Char} (h : Clean e items e' t) : Future e items t := by
  induction h with
  | eof he h => exact .stop he (by rw [h]; simp)
  | more he h hf ih => exact .more he h ih
  | empty h => exact .undetermined (by intro e; rw [h]; simp)
  | determined he h hf ih => exact .determined he h ih

theorem Clean.enc {e e' : Encoding} {items : List SrcItem} {t : List Char} (h : Clean e items e' t) (he : e ≠ .any) : e' = e := by
  induction h with
  | eof he h => rfl
  | more he h hf ih => exact ih he
  | empty h => exact absurd rfl he
  | determined => exact absurd rfl he

theorem fillBufRetry_quiet : ∀ {items : List SrcItem}, Quiet items →
    (bytesOf items = [] ∧ fillBufRetry items = (.ok [], [])) ∨
    ∃ b bs r, fillBufRetry items = (.ok (b :: bs), .data (b :: bs) :: r) ∧ Quiet r ∧ bytesOf items = b :: bs ++ bytesOf r
  | [], _ => Or.inl ⟨rfl, rfl⟩
  | .data [] :: r, h => by
    rcases fillBufRetry_quiet (items := r) h with h' | h'
    · exact Or.inl h'
    · exact Or.inr h'
  | .data (b :: bs) :: r, h => Or.inr ⟨b, bs, r, rfl, h, rfl⟩
  | .intr :: r, h => by
    rcases fillBufRetry_quiet (items := r) h with h' | h'
    · exact Or.inl h'
    · exact Or.inr h'
  | .fail _ :: _, h => h.elim

theorem fillBuf_quiet : ∀ {items : List SrcItem}, Quiet items → Prompt items →
    (bytesOf items = [] ∧ fillBuf items = (.ok [], [])) ∨
    ∃ b bs r, fillBuf items = (.ok (b :: bs), .data (b :: bs) :: r) ∧ Quiet r ∧ bytesOf items = b :: bs ++ bytesOf r
  | [], _, _ => Or.inl ⟨rfl, rfl⟩
  | .data [] :: r, h, h2 => by
    rcases fillBuf_quiet (items := r) h h2 with h' | h'
    · exact Or.inl h'
    · exact Or.inr h'
  | .data (b :: bs) :: r, h, _ => Or.inr ⟨b, bs, r, rfl, h, rfl⟩
  | .intr :: r, _, h => h.elim
  | .fail _ :: _, h, _ => h.elim

theorem readExact_quiet : ∀ (n : Nat) {items : List SrcItem}, Quiet items → n ≤ (bytesOf items).length →
    ∃ items', readExact n items = (.ok ((bytesOf items).take n), items') ∧ bytesOf items' = (bytesOf items).drop n ∧ Quiet items'
  | 0, items, h, _ => ⟨items, by simp [readExact], by simp, h⟩
  | n + 1, [], _, h => by simp [bytesOf] at h
  | n + 1, .intr :: r, h, hl => by
    have := readExact_quiet (n + 1) (items := r) h hl
    simpa [readExact, bytesOf] using this
  | n + 1, .fail _ :: _, h, _ => h.elim
  | n + 1, .data bs :: r, h, hl => by
    unfold readExact
    by_cases hb : n + 1 ≤ bs.length
    · rw [if_pos hb]
      refine ⟨.data (bs.drop (n + 1)) :: r, ?_, ?_, ?_⟩
      · simp only [bytesOf]; rw [List.take_append_of_le_length hb]
      · simp only [bytesOf]; rw [List.drop_append_of_le_length hb]
      · exact h
    · rw [if_neg hb]
      simp only [bytesOf, List.length_append] at hl
      obtain ⟨items', h1, h2, h3⟩ := readExact_quiet (n + 1 - bs.length) (items := r) h (by omega)
      refine ⟨items', ?_, ?_, h3⟩
      · dsimp only
        rw [h1]
        simp only [bytesOf, Except.map]
        rw [List.take_append, List.take_of_length_le (l := bs) (by omega)]
      · simp only [bytesOf]
        rw [h2, List.drop_append, List.drop_of_length_le (l := bs) (by omega)]; simp

theorem bytesOf_length (items : List SrcItem) : (bytesOf items).length ≤ srcSize items := by
  induction items with
  | nil => simp [bytesOf, srcSize]
  | cons x xs ih => cases x <;> simp [bytesOf, srcSize] <;> omega

theorem utf8CharWidth_bytes {c : Char} {b : UInt8} {bs : List UInt8} (h : utf8Bytes c = b :: bs) :
    utf8CharWidth b = (utf8Bytes c).length := by
  have hb := char_bound c
  unfold utf8CharWidth
  rcases utf8Bytes_cases c with ⟨g, b0, he, h0⟩ | ⟨g, g', b0, b1, he, h0, h1⟩ | ⟨g, g', b0, b1, b2, he, h0, h1, h2⟩ |
    ⟨g, b0, b1, b2, b3, he, h0, h1, h2, h3⟩
  · rw [he] at h ⊢; simp at h; rw [← h.1, if_pos (by omega)]; simp
  · rw [he] at h ⊢; simp at h; rw [← h.1, if_neg (by omega), if_pos (by simp; omega)]; simp
  · rw [he] at h ⊢; simp at h
    rw [← h.1, if_neg (by omega), if_neg (by simp; omega), if_pos (by simp; omega)]; simp
  · rw [he] at h ⊢; simp at h
    rw [← h.1, if_neg (by omega), if_neg (by simp; omega), if_neg (by simp; omega), if_pos (by simp; omega)]; simp

/-- One chunk of well-formed UTF-8. -/
theorem readUtf8_text {items : List SrcItem} {T : List Char} (hq : Quiet items) (hb : bytesOf items = utf8Encode T)
    (ha : ∀ c ∈ T, isAllowed c = true) :
    (T = [] ∧ (readUtf8 (bare .utf8 items)).1 = .ok false) ∨
    ∃ t1 t2 r, T = t1 ++ t2 ∧ t1 ≠ [] ∧ readUtf8 (bare .utf8 items) = (.ok true, r) ∧ r.buffer = t1 ∧ Quiet r.items ∧
      bytesOf r.items = utf8Encode t2 := by
  unfold readUtf8
  dsimp only [bare]
  rcases fillBufRetry_quiet hq with ⟨h0, hf⟩ | ⟨b, bs, rr, hf, hqr, hbr⟩
  · rw [hf]
    left
    refine ⟨?_, rfl⟩
    cases T with
    | nil => rfl
    | cons c t =>
      rw [h0, utf8Encode_cons] at hb
      have := utf8Bytes_ne c
      simp at hb
      exact absurd hb.1 this
  · rw [hf]
    right
    dsimp only
    rw [hb] at hbr
    obtain ⟨t1, t2, p, g1, g2, g3, g4⟩ := utf8Encode_cut T hbr
    have hrun : utf8Run (b :: bs) = (t1, p, if p = [] then .done else .incomplete) := by
      rw [g2]; exact utf8Run_split t1 (g4.imp id (fun ⟨c, t3, q, _, h1, h2⟩ => ⟨c, q, h1, h2⟩))
    rw [hrun]
    dsimp only
    rw [pushChars_ok lenUtf8 (fun c hc => ha c (by rw [g1]; simp [hc]))]
    dsimp only
    by_cases hp : p = []
    · subst hp
      rw [if_pos rfl]
      dsimp only
      refine ⟨t1, t2, _, g1, ?_, rfl, by simp, ?_, ?_⟩
      · intro h; subst h; simp [utf8Encode] at g2
      · exact hqr
      · simp [consume, bytesOf]; simpa using g3
    · rw [if_neg hp]
      dsimp only
      by_cases h1 : t1 = []
      · rw [if_neg (by simpa using h1)]
        subst h1
        have g2 : b :: bs = p := by simpa [utf8Encode] using g2
        obtain ⟨c, t3, q, rfl, hc, hqne⟩ := g4.resolve_left hp
        rw [← g2] at hc
        have hw := utf8CharWidth_bytes hc
        unfold readUtf8Char
        dsimp only
        rw [hw]
        have hbytes : bytesOf (.data (b :: bs) :: rr) = utf8Bytes c ++ utf8Encode t3 := by
          rw [← utf8Encode_cons, ← g3, ← g2]; rfl
        obtain ⟨items', k1, k2, k3⟩ := readExact_quiet (utf8Bytes c).length (items := .data (b :: bs) :: rr) hqr
          (by rw [hbytes]; simp)
        rw [hbytes, List.take_append_of_le_length (Nat.le_refl _), List.take_length] at k1
        rw [hbytes, List.drop_append_of_le_length (Nat.le_refl _), List.drop_length, List.nil_append] at k2
        rw [k1]
        dsimp only
        have hr2 : utf8Run (utf8Bytes c) = ([c], [], .done) := by
          have := utf8Run_split [c] (p := []) (Or.inl rfl)
          simpa [utf8Encode] using this
        rw [hr2]
        dsimp only
        rw [pushChars_ok _ (cs := [c]) (fun x hx => ha x (by rw [g1]; simp at hx ⊢; exact Or.inl hx))]
        exact ⟨[c], t3, _, by simpa using g1, by simp, rfl, by simp, k3, k2⟩
      · rw [if_pos h1]
        refine ⟨t1, t2, _, g1, h1, rfl, by simp, ?_, ?_⟩
        · exact hqr
        · have e : (b :: bs).length - p.length = (utf8Encode t1).length := by rw [g2]; simp
          simp only [consume, bytesOf]
          rw [e, ← g3, g2, List.drop_append_of_le_length (Nat.le_refl _), List.drop_length, List.nil_append]

/-- UTF-8 bytes in any chunks, without a byte order mark. -/
theorem clean_utf8 {items : List SrcItem} {T : List Char} (hq : Quiet items) (hb : bytesOf items = utf8Encode T)
    (ha : ∀ c ∈ T, isAllowed c = true) : Clean .utf8 items .utf8 T := by
  induction hn : T.length using Nat.strongRecOn generalizing T items with
  | _ n ih =>
    rcases readUtf8_text hq hb ha with ⟨rfl, h⟩ | ⟨t1, t2, r, rfl, hne, h, hbuf, hq2, hb2⟩
    · exact .eof (by simp) h
    · have hl := List.length_pos_iff.2 hne
      have := ih t2.length (by rw [← hn]; simp; omega) hq2 hb2 (fun c hc => ha c (by simp [hc])) rfl
      rw [← hbuf]
      exact .more (by simp) h this

/-- UTF-8 bytes in any chunks, with or without a byte order mark. -/
theorem clean_any {items : List SrcItem} {T : List Char} (hq : Quiet items) (hp : Prompt items)
    (ha : ∀ c ∈ T, isAllowed c = true)
    (hb : (bytesOf items = utf8Encode T ∧ ∀ c, T.head? = some c → ¬ (0xF000 ≤ c.toNat ∧ c.toNat ≤ 0xFFFF)) ∨ bytesOf items = bom8 ++ utf8Encode T) :
    ∃ e, Clean .any items e T ∧ (bytesOf items = [] → e = .any) ∧ (bytesOf items ≠ [] → e = .utf8) := by
  rcases fillBuf_quiet hq hp with ⟨h0, hf⟩ | ⟨b, bs, rr, hf, hqr, hbr⟩
  · have hT : T = [] := by
      rcases hb with ⟨hb, _⟩ | hb
      · cases T with
        | nil => rfl
        | cons c t =>
          rw [h0, utf8Encode_cons] at hb
          have := utf8Bytes_ne c
          simp at hb
          exact absurd hb.1 this
      · rw [h0] at hb; simp [bom8] at hb
    subst hT
    refine ⟨.any, .empty (items' := []) ?_, fun _ => rfl, fun h => absurd h0 h⟩
    unfold determineEncoding; rw [hf]
  · have hne : bytesOf items ≠ [] := by rw [hbr]; simp
    refine ⟨.utf8, ?_, fun h => absurd h hne, fun _ => rfl⟩
    rcases hb with ⟨hb, hh⟩ | hb
    · have hbr' : bytesOf (.data (b :: bs) :: rr) = utf8Encode T := by rw [← hb, hbr]; rfl
      refine .determined (by simp) (items' := .data (b :: bs) :: rr) ?_ (clean_utf8 hqr hbr' ha)
      unfold determineEncoding
      rw [hf]
      dsimp only
      cases T with
      | nil => simp [utf8Encode] at hb; exact absurd hb hne
      | cons c t =>
        have hh := hh c rfl
        rw [hbr, utf8Encode_cons] at hb
        have hbd := char_bound c
        have hlead : b.toNat ≠ 0xEF ∧ ¬ (b.toNat = 0xFF ∨ b.toNat = 0xFE) := by
          rcases utf8Bytes_cases c with ⟨g, b0, he, h0⟩ | ⟨g, g', b0, b1, he, h0, h1⟩ | ⟨g, g', b0, b1, b2, he, h0, h1, h2⟩ |
            ⟨g, b0, b1, b2, b3, he, h0, h1, h2, h3⟩
          all_goals
            rw [he] at hb
            simp at hb
            rw [hb.1]
            omega
        rw [if_neg hlead.1, if_neg hlead.2]
    · rw [hb] at hbr
      have h1 : b = 0xEF := by simp [bom8] at hbr; exact hbr.1.symm
      obtain ⟨items', k1, k2, k3⟩ := readExact_quiet 3 (items := .data (b :: bs) :: rr) hqr
        (by show 3 ≤ (b :: bs ++ bytesOf rr).length; rw [← hbr]; simp [bom8])
      have hbb : bytesOf (.data (b :: bs) :: rr) = bom8 ++ utf8Encode T := hbr.symm
      rw [hbb] at k1 k2
      refine .determined (by simp) (items' := items') ?_ (clean_utf8 k3 (by rw [k2]; simp [bom8]) ha)
      unfold determineEncoding
      rw [hf]
      dsimp only
      rw [h1] at k1 ⊢
      rw [if_pos (by decide), k1]
      simp [bom8]

/-! ### The running offset -/

theorem pushChars_offset {w : Char → Nat} {n : Nat} (hw : ∀ c, w c ≤ n) (cs buf : List Char) (off : Nat) :
    (pushChars w cs buf off).2.2 + n * buf.length ≤ off + n * (pushChars w cs buf off).2.1.length := by
  induction cs generalizing buf off with
  | nil => simp [pushChars]
  | cons c cs ih =>
    rw [pushChars]
    split
    · have := ih (buf ++ [c]) (off + w c)
      have h1 := hw c
      simp only [List.length_append, List.length_singleton, Nat.mul_add, Nat.mul_one] at this
      omega
    · simp

theorem lenUtf8_le (c : Char) : lenUtf8 c ≤ 4 := by
  unfold lenUtf8; repeat' split
  all_goals omega

theorem utf8CharWidth_le (b : UInt8) : utf8CharWidth b ≤ 4 := by
  unfold utf8CharWidth; repeat' split
  all_goals omega

theorem utf16Units_le (c : Char) : (utf16Units c).length ≤ 2 := by
  unfold utf16Units; split <;> simp

theorem utf16Run_two {n : Nat} {us : List Nat} : ∀ x ∈ utf16Run n us, x.2 ≤ 2 := by
  induction n generalizing us with
  | zero => simp [utf16Run]
  | succ n ih =>
    unfold utf16Run
    split
    · rename_i c k hd
      intro x hx
      rcases List.mem_cons.1 hx with rfl | hx
      · unfold decode16 at hd
        split at hd
        · simp at hd
        · split at hd
          · simp at hd; simp; omega
          · split at hd
            · simp at hd
            · split at hd
              · simp at hd
              · split at hd
                · simp at hd; simp; omega
                · simp at hd
      · exact ih x hx
    · simp

/-- The offset grows by at most four for each character. -/
def OffOk (r r' : Rd) : Prop := r'.offset + 4 * r.buffer.length ≤ r.offset + 4 * r'.buffer.length

theorem OffOk.refl (r : Rd) (items : List SrcItem) : OffOk r { r with items := items } := Nat.le_refl _

theorem readUtf8Char_offset (b : UInt8) (r : Rd) : OffOk r (readUtf8Char b r).2 := by
  unfold readUtf8Char
  dsimp only
  split
  · exact OffOk.refl _ _
  · split
    · exact pushChars_offset (w := fun _ => utf8CharWidth b) (n := 4) (fun _ => utf8CharWidth_le b) _ _ _
    · exact OffOk.refl _ _

theorem readUtf16Char_offset (be : Bool) (r : Rd) : OffOk r (readUtf16Char be r).2 := by
  unfold readUtf16Char
  dsimp only
  split
  · exact OffOk.refl _ _
  · split
    · split
      · exact OffOk.refl _ _
      · split
        · exact pushChars_offset (w := fun _ => 4) (n := 4) (fun _ => Nat.le_refl _) _ _ _
        · exact OffOk.refl _ _
        · exact OffOk.refl _ _
    · exact pushChars_offset (w := fun _ => 2) (n := 4) (fun _ => by omega) _ _ _

theorem OffOk.trans {r r' r'' : Rd} (h : OffOk r r') (h' : OffOk r' r'') : OffOk r r'' := by
  unfold OffOk at *; omega

theorem readChunk_offset (r : Rd) : OffOk r (readChunk r).2 := by
  have h16 : ∀ be, OffOk r (readUtf16 be r).2 := by
    intro be
    unfold readUtf16
    split
    · exact OffOk.refl _ _
    · exact OffOk.refl _ _
    · rename_i b bs items _
      dsimp only
      generalize hrun : utf16Run (units16 be (b :: bs)).length (units16 be (b :: bs)) = run
      have h2 : ∀ x ∈ run, x.2 ≤ 2 := by rw [← hrun]; exact utf16Run_two
      have hp := pushChars_offset (w := fun c => (utf16Units c).length) (n := 2) utf16Units_le (run.map Prod.fst) r.buffer r.offset
      have hbase : OffOk r { r with items := items, buffer := (pushChars (fun c => (utf16Units c).length) (run.map Prod.fst) r.buffer r.offset).2.1, offset := (pushChars (fun c => (utf16Units c).length) (run.map Prod.fst) r.buffer r.offset).2.2 } :=
        pushChars_offset (w := fun c => (utf16Units c).length) (n := 4) (fun c => Nat.le_trans (utf16Units_le c) (by omega)) _ _ _
      split
      · exact hbase
      · rename_i hnone
        have hcs := (pushChars_none hnone).1
        split
        · have hs : (run.map Prod.snd).sum ≤ 2 * run.length := by
            rename_i hnz
            clear hrun hp hbase hnone hcs hnz
            induction run with
            | nil => simp
            | cons x xs ih =>
              have h1 := ih (fun y hy => h2 y (by simp [hy]))
              have h3 := h2 x (by simp)
              simp at h1 ⊢; omega
          unfold OffOk
          dsimp only
          rw [hcs] at hp ⊢
          simp only [List.length_append, List.length_map] at hp ⊢
          omega
        · split
          · rename_i q e r' hq
            have := readUtf16Char_offset be { r with items := items, buffer := (pushChars (fun c => (utf16Units c).length) (run.map Prod.fst) r.buffer r.offset).2.1, offset := (pushChars (fun c => (utf16Units c).length) (run.map Prod.fst) r.buffer r.offset).2.2 }
            rw [hq] at this
            exact hbase.trans this
          · rename_i q r' hq
            have := readUtf16Char_offset be { r with items := items, buffer := (pushChars (fun c => (utf16Units c).length) (run.map Prod.fst) r.buffer r.offset).2.1, offset := (pushChars (fun c => (utf16Units c).length) (run.map Prod.fst) r.buffer r.offset).2.2 }
            rw [hq] at this
            exact hbase.trans this
  unfold readChunk
  split
  · exact OffOk.refl _ _
  · unfold readUtf8
    split
    · exact OffOk.refl _ _
    · exact OffOk.refl _ _
    · rename_i b bs items _
      dsimp only
      generalize utf8Run (b :: bs) = run
      have hbase : OffOk r { r with items := items, buffer := (pushChars lenUtf8 run.1 r.buffer r.offset).2.1, offset := (pushChars lenUtf8 run.1 r.buffer r.offset).2.2 } :=
        pushChars_offset (w := lenUtf8) (n := 4) lenUtf8_le _ _ _
      split
      · exact hbase
      · split
        · exact hbase
        · exact hbase
        · split
          · exact hbase
          · split
            · rename_i q
              have := readUtf8Char_offset b { r with items := items, buffer := (pushChars lenUtf8 run.1 r.buffer r.offset).2.1, offset := (pushChars lenUtf8 run.1 r.buffer r.offset).2.2 }
              rw [q] at this
              exact hbase.trans this
            · rename_i q
              have := readUtf8Char_offset b { r with items := items, buffer := (pushChars lenUtf8 run.1 r.buffer r.offset).2.1, offset := (pushChars lenUtf8 run.1 r.buffer r.offset).2.2 }
              rw [q] at this
              exact hbase.trans this
  · exact h16 false
  · exact h16 true
end Yaml
