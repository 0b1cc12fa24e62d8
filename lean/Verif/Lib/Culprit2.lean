import Verif.Lib.Culprit

/-
C65: the reader through `cache`, and clients.
-/

namespace Yaml.Cu
open Yaml Yaml.Spec Reader
set_option linter.unusedSimpArgs false
set_option linter.unusedVariables false

/-- What filling the buffer does. -/
def Filled (items0 : List SrcItem) (S : List UInt8) (T : List Char) (n : Nat) : Option Err × Rd → Prop
  | (none, r') => Trk items0 S T r' ∧ (n ≤ r'.buffer.length ∨ r'.eof = true)
  | (some e, _) => Bad items0 S e

theorem updateLoop_trk {items0 : List SrcItem} {S : List UInt8} {T : List Char} {length : Nat} : ∀ (fuel : Nat) {r : Rd}, Trk items0 S T r →
    length ≤ fuel + r.buffer.length → Filled items0 S T length (updateLoop length fuel r) := by
  have full : ∀ {r : Rd}, Trk items0 S T r → ¬ r.buffer.length < length →
      Filled items0 S T length (if r.offset ≥ maxInput then (some (.reader "input is too long" r.offset (-1)), r) else (none, r)) := by
    intro r h hl
    split
    · rename_i hm
      show Bad items0 S _
      rw [h.off] at hm ⊢
      exact .text (.tooLong h.bytes (fun c hc => allowed_iff.1 (h.good c hc)) hm)
    · exact ⟨h, .inl (by omega)⟩
  intro fuel
  induction fuel with
  | zero =>
    intro r h hf
    unfold updateLoop
    split
    · omega
    · rename_i hl
      exact full h hl
  | succ fuel ih =>
    intro r h hf
    unfold updateLoop
    split
    · split
      · rename_i he
        exact ⟨h, .inr he⟩
      · rename_i he
        have he : r.eof = false := by simpa using he
        have hc := readUtf8_trk h he
        have hch : readChunk r = readUtf8 r := by unfold readChunk; rw [h.enc]
        dsimp only
        rw [hch]
        generalize readUtf8 r = q at hc
        obtain ⟨q1, q2⟩ := q
        cases q1 with
        | error e => exact hc
        | ok x =>
          obtain ⟨h1, h2, h3, h4⟩ := hc
          cases x with
          | false =>
            refine ⟨⟨h1.enc, h1.bytes, h1.good, h1.off, h1.sub, fun _ => h4 rfl⟩, .inr rfl⟩
          | true => exact ih h1 (by have := h2 rfl; omega)
    · rename_i hl
      exact full h hl

/-- Before the encoding is known. -/
structure Fresh (items0 : List SrcItem) (r : Rd) : Prop where
  enc : r.encoding = .any
  buf : r.buffer = []
  off : r.offset = 0
  items : (r.items = items0 ∧ r.eof = false) ∨ (r.items = [] ∧ bytesOf items0 = [])

theorem textBytes_plain {b : UInt8} {bs : List UInt8} (h : b ≠ 0xEF) : textBytes .any (b :: bs) = b :: bs := by
  unfold textBytes
  split
  · rename_i heq
    simp at heq
    exact absurd heq.1 h
  · rfl

/-- Finding out the encoding. -/
def Detected (items0 : List SrcItem) : Except Err (Option Encoding) × List SrcItem → Prop
  | (.error e, _) => ReadFault items0 .any e
  | (.ok none, items) => items = [] ∧ bytesOf items0 = []
  | (.ok (some e), items) => Sub items items0 ∧ ((e = .utf8 ∧ textBytes .any (bytesOf items0) = bytesOf items) ∨
      ∃ be, e = (if be then .utf16be else .utf16le) ∧ bytesOf items0 = bom16 be ++ bytesOf items)

theorem uint8_eq {a : UInt8} {n : Nat} (h : a.toNat = n) (hn : n < 256) : a = UInt8.ofNat n := by
  subst h; simp

theorem determine_cases (items0 : List SrcItem) : Detected items0 (determineEncoding items0) := by
  unfold determineEncoding
  have hs := fillBuf_sub items0
  cases hf : fillBuf items0 with
  | mk a r =>
  rw [hf] at hs
  cases a with
  | error k =>
    rcases hs.2 k rfl with h | ⟨rfl, h⟩
    · exact ReadFault.failed h
    · exact ReadFault.interrupted rfl h
  | ok bs =>
  have hb := fillBuf_bytes hf
  cases bs with
  | nil =>
    refine ⟨?_, hb.2.1 rfl⟩
    have key : ∀ (items : List SrcItem), (fillBuf items).1 = .ok [] → (fillBuf items).2 = [] := by
      intro items
      induction items with
      | nil => intro _; rfl
      | cons x xs ih =>
        cases x with
        | data d =>
          cases d with
          | nil => exact ih
          | cons y ys => simp [fillBuf]
        | intr => simp [fillBuf]
        | fail k => simp [fillBuf]
    have := key items0 (by rw [hf])
    rw [hf] at this
    exact this
  | cons b bs =>
  obtain ⟨rr, rfl⟩ := hb.2.2 (by simp)
  have hbb : bytesOf items0 = b :: (bs ++ bytesOf rr) := hb.1
  dsimp only
  split
  · rename_i h1
    have hbe : b = 0xEF := uint8_eq (n := 0xEF) h1 (by decide)
    have hx := readExact_sub 3 (.data (b :: bs) :: rr)
    cases hxx : readExact 3 (.data (b :: bs) :: rr) with
    | mk a items =>
    rw [hxx] at hx
    cases a with
    | error k =>
      rcases hx.2 k rfl with h | ⟨rfl, hl⟩
      · exact ReadFault.failed (hs.1.1 k h)
      · exact ReadFault.cutBom rfl hbb (.inl ⟨hbe, rfl⟩) (by simp only [bytesOf, List.length_append, List.length_cons] at hl ⊢; omega)
    | ok bom =>
      have hxb := readExact_bytes hxx
      match bom, hxb with
      | [x, y, z], hxb =>
        have e : b :: (bs ++ bytesOf rr) = [x, y, z] ++ bytesOf items := hxb.1
        rw [e] at hbb
        have hx0 : x = 0xEF := by
          rw [← hbe]; simp at e; exact e.1.symm
        subst hx0
        dsimp only
        split
        · rename_i hbm
          simp at hbm
          obtain ⟨rfl, rfl⟩ := hbm
          refine ⟨hx.1.trans hs.1, .inl ⟨rfl, ?_⟩⟩
          rw [hbb]; rfl
        · rename_i hbm
          have hv : i32OfBytes 0xEF y z 0 = 0xEF * 16777216 + y.toNat * 65536 + z.toNat * 256 - 4294967296 := by
            unfold i32OfBytes
            have := y.toNat_lt
            have := z.toNat_lt
            simp
            intro; omega
          show ReadFault items0 .any _
          simp only [List.getD_cons_zero, List.getD_cons_succ]
          rw [hv]
          refine ReadFault.bom3 rfl hbb fun hh => hbm (by rw [hh.1, hh.2])
  · rename_i h1
    split
    · rename_i h2
      have h2' : b = 0xFF ∨ b = 0xFE := h2.imp (fun h => uint8_eq (n := 0xFF) h (by decide)) fun h => uint8_eq (n := 0xFE) h (by decide)
      have hx := readExact_sub 2 (.data (b :: bs) :: rr)
      cases hxx : readExact 2 (.data (b :: bs) :: rr) with
      | mk a items =>
      rw [hxx] at hx
      cases a with
      | error k =>
        rcases hx.2 k rfl with h | ⟨rfl, hl⟩
        · exact ReadFault.failed (hs.1.1 k h)
        · exact ReadFault.cutBom rfl hbb (.inr ⟨h2', rfl⟩) (by simp only [bytesOf, List.length_append, List.length_cons] at hl ⊢; omega)
      | ok bom =>
        have hxb := readExact_bytes hxx
        match bom, hxb with
        | [x, y], hxb =>
          have e : b :: (bs ++ bytesOf rr) = [x, y] ++ bytesOf items := hxb.1
          rw [e] at hbb
          have hx0 : b = x := by simp at e; exact e.1
          subst hx0
          dsimp only
          split
          · rename_i hbm
            rw [hbm] at hbb
            exact ⟨hx.1.trans hs.1, .inr ⟨false, rfl, hbb⟩⟩
          · split
            · rename_i hbm
              rw [hbm] at hbb
              exact ⟨hx.1.trans hs.1, .inr ⟨true, rfl, hbb⟩⟩
            · have hv : i32OfBytes 0 0 y b = y.toNat * 256 + b.toNat := by
                unfold i32OfBytes
                have := y.toNat_lt
                have := b.toNat_lt
                simp
                intro; omega
              show ReadFault items0 .any _
              simp only [List.getD_cons_zero, List.getD_cons_succ]
              rw [hv]
              exact ReadFault.bom2 rfl hbb h2'
    · refine ⟨hs.1, .inl ⟨rfl, ?_⟩⟩
      rw [hbb, textBytes_plain (by rintro rfl; exact h1 (by decide))]
      rfl

/-- The state of a client's reader: not started, or at a place in the text. -/
def Here (items0 : List SrcItem) (enc : Encoding) (T : List Char) (r : Rd) : Prop :=
  (enc = .any ∧ T = [] ∧ Fresh items0 r) ∨ Trk items0 (textBytes enc (bytesOf items0)) T r

theorem Bad.fault {items0 : List SrcItem} {enc : Encoding} {e : Err} (h : Bad items0 (textBytes enc (bytesOf items0)) e) : ReadFault items0 enc e := by
  cases h with
  | text h => exact .text h
  | cut h => exact .cut h
  | failed h => exact .failed h

/-- What a request for characters does. -/
def Cached (items0 : List SrcItem) (enc : Encoding) (T : List Char) (n : Nat) : Option Err × Rd → Prop
  | (none, r') => Here items0 enc T r' ∧ (n ≤ r'.buffer.length ∨ r'.eof = true)
  | (some e, _) => ReadFault items0 enc e

theorem Filled.cached {items0 : List SrcItem} {enc : Encoding} {T : List Char} {n : Nat} {q : Option Err × Rd} (h : Filled items0 (textBytes enc (bytesOf items0)) T n q) :
    Cached items0 enc T n q := by
  obtain ⟨q1, q2⟩ := q
  cases q1 with
  | none => exact ⟨.inr h.1, h.2⟩
  | some e => exact Bad.fault h

theorem cache_here {items0 : List SrcItem} {enc : Encoding} {T : List Char} {r : Rd} (h8 : Utf8Stream enc (bytesOf items0)) (h : Here items0 enc T r) (n : Nat) :
    Cached items0 enc T n (cache n r) := by
  unfold cache updateBuffer
  by_cases hl : r.buffer.length ≥ n
  · rw [if_pos hl]; exact ⟨h, .inl hl⟩
  rw [if_neg hl]
  rw [if_neg hl]
  rcases h with ⟨rfl, rfl, hF⟩ | hT
  · rw [if_pos hF.enc]
    have hno : ∀ be, ¬ bom16 be <+: bytesOf items0 := by
      rcases h8 with h | h
      · simp at h
      · exact h.2
    rcases hF.items with ⟨hi, he⟩ | ⟨hi, hb⟩
    · rw [hi]
      have hd := determine_cases items0
      generalize determineEncoding items0 = d at hd
      obtain ⟨d1, d2⟩ := d
      cases d1 with
      | error e => exact hd
      | ok oe =>
        cases oe with
        | none => exact ⟨.inl ⟨rfl, rfl, ⟨hF.enc, hF.buf, hF.off, .inr hd⟩⟩, .inr rfl⟩
        | some e =>
          obtain ⟨h1, h2⟩ := hd
          rcases h2 with ⟨rfl, h2⟩ | ⟨be, _, h2⟩
          · refine Filled.cached (updateLoop_trk n ⟨rfl, ?_, ?_, ?_, h1, ?_⟩ (by omega))
            · show _ = utf8Encode ([] ++ r.buffer) ++ bytesOf d2
              rw [hF.buf, h2]; rfl
            · show ∀ c ∈ [] ++ r.buffer, _
              rw [hF.buf]; simp
            · show r.offset = (utf8Encode ([] ++ r.buffer)).length
              rw [hF.buf, hF.off]; rfl
            · intro h; rw [he] at h; simp at h
          · exact absurd ⟨_, h2.symm⟩ (hno be)
    · rw [hi]
      exact ⟨.inl ⟨rfl, rfl, ⟨hF.enc, hF.buf, hF.off, .inr ⟨rfl, hb⟩⟩⟩, .inr rfl⟩
  · rw [if_neg (by rw [hT.enc]; simp)]
    exact Filled.cached (updateLoop_trk n hT (by omega))

theorem Here.start {items0 : List SrcItem} {enc : Encoding} (h8 : Utf8Stream enc (bytesOf items0)) : Here items0 enc [] { items := items0, encoding := enc } := by
  rcases h8 with rfl | ⟨rfl, _⟩
  · right
    exact ⟨rfl, by simp [utf8Encode, textBytes], by simp, rfl, .refl _, by simp⟩
  · left
    exact ⟨rfl, rfl, rfl, rfl, rfl, .inl ⟨rfl, rfl⟩⟩

theorem Here.take {items0 : List SrcItem} {enc : Encoding} {T : List Char} {r : Rd} (h : Here items0 enc T r) (n : Nat) :
    Here items0 enc (T ++ r.buffer.take n) { r with buffer := r.buffer.drop n } := by
  rcases h with ⟨h1, h2, h3⟩ | h
  · left
    refine ⟨h1, by rw [h2, h3.buf]; simp, ⟨h3.enc, by simp [h3.buf], h3.off, h3.items⟩⟩
  · right
    have e : T ++ r.buffer.take n ++ r.buffer.drop n = T ++ r.buffer := by rw [List.append_assoc, List.take_append_drop]
    exact ⟨h.enc, by show _ = utf8Encode (_ ++ r.buffer.drop n) ++ _; rw [e]; exact h.bytes, by show ∀ c ∈ _ ++ r.buffer.drop n, _; rw [e]; exact h.good,
      by show r.offset = (utf8Encode (_ ++ r.buffer.drop n)).length; rw [e]; exact h.off, h.sub, h.eof⟩

end Yaml.Cu
