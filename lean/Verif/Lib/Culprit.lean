import Verif.Spec.Culprit
import Verif.Lib.Read8

/-
C65: reading as UTF-8 fails only for a reason, and says where.
-/

namespace Yaml.Cu
open Yaml Yaml.Spec Reader
set_option linter.unusedSimpArgs false
set_option linter.unusedVariables false

/-- The errors left over in `items'` are among those of `items`. -/
def Sub (items' items : List SrcItem) : Prop := (∀ k, SrcItem.fail k ∈ items' → SrcItem.fail k ∈ items) ∧ (SrcItem.intr ∈ items' → SrcItem.intr ∈ items)

theorem Sub.refl (items : List SrcItem) : Sub items items := ⟨fun _ h => h, fun h => h⟩
theorem Sub.trans {a b c : List SrcItem} (h : Sub a b) (h' : Sub b c) : Sub a c := ⟨fun k hk => h'.1 k (h.1 k hk), fun hk => h'.2 (h.2 hk)⟩
theorem Sub.tail {x : SrcItem} {xs : List SrcItem} : Sub xs (x :: xs) := ⟨fun k h => .tail _ h, fun h => .tail _ h⟩
theorem Sub.data {b b' : List UInt8} {xs : List SrcItem} : Sub (.data b :: xs) (.data b' :: xs) := by constructor <;> simp

theorem fillBufRetry_sub : ∀ (items : List SrcItem), Sub (fillBufRetry items).2 items ∧ ∀ k, (fillBufRetry items).1 = .error k → .fail k ∈ items
  | [] => ⟨Sub.refl _, by simp [fillBufRetry]⟩
  | .data [] :: r => ⟨(fillBufRetry_sub r).1.trans .tail, fun k h => .tail _ ((fillBufRetry_sub r).2 k h)⟩
  | .data (b :: bs) :: r => ⟨Sub.refl _, by simp [fillBufRetry]⟩
  | .intr :: r => ⟨(fillBufRetry_sub r).1.trans .tail, fun k h => .tail _ ((fillBufRetry_sub r).2 k h)⟩
  | .fail k :: r => ⟨.tail, by simp [fillBufRetry]⟩

theorem fillBuf_sub : ∀ (items : List SrcItem), Sub (fillBuf items).2 items ∧
    ∀ k, (fillBuf items).1 = .error k → .fail k ∈ items ∨ (k = .interrupted ∧ ¬ Prompt items)
  | [] => ⟨Sub.refl _, by simp [fillBuf]⟩
  | .data [] :: r => ⟨(fillBuf_sub r).1.trans .tail, fun k h => ((fillBuf_sub r).2 k h).imp (fun h => .tail _ h) fun h => ⟨h.1, h.2⟩⟩
  | .data (b :: bs) :: r => ⟨Sub.refl _, by simp [fillBuf]⟩
  | .intr :: r => ⟨.tail, by simp [fillBuf, Prompt]⟩
  | .fail k :: r => ⟨.tail, by simp [fillBuf]⟩

theorem consume_sub (n : Nat) (items : List SrcItem) : Sub (consume n items) items := by
  unfold consume
  split
  · exact .data
  · exact .refl _

theorem readExact_sub : ∀ (n : Nat) (items : List SrcItem), Sub (readExact n items).2 items ∧
    ∀ k, (readExact n items).1 = .error k → .fail k ∈ items ∨ (k = .unexpectedEof ∧ (bytesOf items).length < n)
  | 0, items => ⟨by simpa [readExact] using Sub.refl items, by simp [readExact]⟩
  | n + 1, [] => ⟨Sub.refl _, by simp [readExact, bytesOf]⟩
  | n + 1, .intr :: r => by
    have := readExact_sub (n + 1) r
    refine ⟨?_, ?_⟩
    · simpa [readExact] using this.1.trans .tail
    · intro k hk
      exact (this.2 k (by simpa [readExact] using hk)).imp (fun h => .tail _ h) id
  | n + 1, .fail k :: r => ⟨by simpa [readExact] using Sub.tail, by simp [readExact]⟩
  | n + 1, .data bs :: r => by
    unfold readExact
    split
    · exact ⟨.data, by simp⟩
    · rename_i hl
      have := readExact_sub (n + 1 - bs.length) r
      refine ⟨this.1.trans .tail, ?_⟩
      intro k hk
      have hk' : (readExact (n + 1 - bs.length) r).1 = .error k := by
        dsimp only at hk
        cases hq : (readExact (n + 1 - bs.length) r).1 with
        | ok a => rw [hq] at hk; simp [Except.map] at hk
        | error k' => rw [hq] at hk; simpa [Except.map] using hk
      rcases this.2 k hk' with h | ⟨h1, h2⟩
      · exact .inl (.tail _ h)
      · refine .inr ⟨h1, ?_⟩
        simp only [bytesOf, List.length_append]; omega

theorem pushChars_some {w : Char → Nat} : ∀ {cs buf : List Char} {off : Nat} {e : Err}, (pushChars w cs buf off).1 = some e →
    ∃ c1 c c2, cs = c1 ++ c :: c2 ∧ (∀ x ∈ c1, isAllowed x = true) ∧ ¬ isAllowed c = true ∧
      e = .reader "control characters are not allowed" (off + (c1.map w).sum) c.toNat
  | [], buf, off, e, h => by simp [pushChars] at h
  | c :: cs, buf, off, e, h => by
    rw [pushChars] at h
    split at h
    · rename_i hc
      obtain ⟨c1, c', c2, h1, h2, h3, h4⟩ := pushChars_some h
      refine ⟨c :: c1, c', c2, by rw [h1]; rfl, ?_, h3, by rw [h4]; simp [Nat.add_assoc]⟩
      intro x hx
      rcases List.mem_cons.1 hx with rfl | hx
      · exact hc
      · exact h2 x hx
    · rename_i hc
      simp at h
      exact ⟨[], c, cs, rfl, by simp, hc, h.symm⟩

theorem lenUtf8_bytes (c : Char) : lenUtf8 c = (utf8Bytes c).length := by
  rw [lenUtf8_eq]; exact (String.length_utf8EncodeChar c).symm

theorem sum_len (cs : List Char) : (cs.map lenUtf8).sum = (utf8Encode cs).length := by
  induction cs with
  | nil => rfl
  | cons c cs ih => rw [utf8Encode_cons, List.map_cons, List.sum_cons, List.length_append, ih, lenUtf8_bytes]

theorem invalid_prefix {b : UInt8} {bs : List UInt8} (h : decodeOne b bs = .invalid) (more : List UInt8) (c : Char) : ¬ utf8Bytes c <+: b :: bs ++ more := by
  rintro ⟨q, hq⟩
  rcases List.append_eq_append_iff.1 hq with ⟨a, h1, h2⟩ | ⟨a, h1, h2⟩
  · obtain ⟨b', t, h3, h4⟩ := decodeOne_encode c a
    rw [h3] at h1
    simp at h1
    obtain ⟨rfl, rfl⟩ := h1
    rw [h] at h4
    simp at h4
  · by_cases ha : a = []
    · subst ha
      obtain ⟨b', t, h3, h4⟩ := decodeOne_encode c []
      rw [h3] at h1
      simp at h1
      obtain ⟨rfl, rfl⟩ := h1
      simp at h4
      rw [h] at h4
      simp at h4
    · have := decodeOne_prefix h1 ha
      rw [h] at this
      simp at this

theorem run_end : ∀ (n : Nat) (bs : List UInt8), bs.length ≤ n →
    ((utf8RunF n bs).2.2 = .invalid → ∃ b t, (utf8RunF n bs).2.1 = b :: t ∧ decodeOne b t = .invalid) ∧
    ((utf8RunF n bs).2.2 = .incomplete → ∃ b t, (utf8RunF n bs).2.1 = b :: t ∧ decodeOne b t = .incomplete) := by
  intro n
  induction n with
  | zero => intro bs h; have : bs = [] := by simpa using h
            subst this; simp [utf8RunF]
  | succ n ih =>
    intro bs h
    cases bs with
    | nil => simp [utf8RunF]
    | cons b bs =>
      unfold utf8RunF
      cases hd : decodeOne b bs with
      | char c rest =>
        have := decodeOne_rest hd
        exact ih rest (by simp at h; omega)
      | invalid => exact ⟨fun _ => ⟨b, bs, rfl, hd⟩, by simp⟩
      | incomplete => exact ⟨by simp, fun _ => ⟨b, bs, rfl, hd⟩⟩

/-- The first byte of an unfinished character announces how much is needed. -/
theorem incomplete_lead {b : UInt8} {bs : List UInt8} (h : decodeOne b bs = .incomplete) : 0xC2 ≤ b.toNat ∧ b.toNat < 0xF5 := by
  unfold decodeOne at h
  by_cases h1 : b.toNat < 0x80
  · rw [if_pos h1] at h; simp at h
  rw [if_neg h1] at h
  by_cases h2 : b.toNat < 0xC2
  · rw [if_pos h2] at h; simp at h
  rw [if_neg h2] at h
  by_cases h3 : b.toNat < 0xF5
  · exact ⟨by omega, h3⟩
  · rw [if_neg (by omega), if_neg (by omega), if_neg h3] at h; simp at h

/-- A character beginning with the byte. -/
def witness (b : Nat) : Char :=
  if b < 0xE0 then Char.ofNat ((b - 0xC0) * 64)
  else if b = 0xE0 then Char.ofNat 0x800
  else if b < 0xF0 then Char.ofNat ((b - 0xE0) * 4096)
  else if b = 0xF0 then Char.ofNat 0x10000
  else Char.ofNat ((b - 0xF0) * 262144)

theorem lead_witness {b : UInt8} (h : 0xC2 ≤ b.toNat ∧ b.toNat < 0xF5) : ∃ c q, utf8Bytes c = b :: q := by
  have key : ∀ n : Fin 256, 0xC2 ≤ n.val → n.val < 0xF5 → (utf8Bytes (witness n.val)).head? = some (UInt8.ofNat n.val) := by decide +kernel
  have := key ⟨b.toNat, b.toNat_lt⟩ h.1 h.2
  refine ⟨witness b.toNat, (utf8Bytes (witness b.toNat)).tail, ?_⟩
  have hb : UInt8.ofNat b.toNat = b := by simp
  cases hq : utf8Bytes (witness b.toNat) with
  | nil => exact absurd hq (utf8Bytes_ne _)
  | cons x xs =>
    rw [hq] at this
    simp at this
    rw [this]
    rfl

/-! ### The state of the reader -/

/-- Of the bytes `S` the characters `T` were taken, and those of the buffer decoded. -/
structure Trk (items0 : List SrcItem) (S : List UInt8) (T : List Char) (r : Rd) : Prop where
  enc : r.encoding = .utf8
  bytes : S = utf8Encode (T ++ r.buffer) ++ bytesOf r.items
  good : ∀ c ∈ T ++ r.buffer, isAllowed c = true
  off : r.offset = (utf8Encode (T ++ r.buffer)).length
  sub : Sub r.items items0
  eof : r.eof = true → bytesOf r.items = []

/-- The errors met while reading text. -/
inductive Bad (items0 : List SrcItem) (S : List UInt8) : Err → Prop
  | text {p : String} {off : Nat} {v : Int} : Culprit S p off v → Bad items0 S (.reader p off v)
  | cut : CutOff S → Bad items0 S (.io .unexpectedEof)
  | failed {k : IoKind} : .fail k ∈ items0 → Bad items0 S (.io k)

theorem Bad.forbidden {items0 : List SrcItem} {S : List UInt8} {T c1 c2 : List Char} {c : Char} {more : List UInt8} {off : Nat} {v : Int}
    (hS : S = utf8Encode T ++ (utf8Encode (c1 ++ c :: c2) ++ more)) (hT : ∀ x ∈ T, isAllowed x = true) (h1 : ∀ x ∈ c1, isAllowed x = true)
    (hc : ¬ isAllowed c = true) (ho : off = (utf8Encode T).length + (utf8Encode c1).length) (hv : v = c.toNat) :
    Bad items0 S (.reader "control characters are not allowed" off v) := by
  subst ho hv
  have e : (utf8Encode T).length + (utf8Encode c1).length = (utf8Encode (T ++ c1)).length := by rw [utf8Encode_append]; simp
  rw [e]
  refine .text (.forbidden (rest := utf8Encode c2 ++ more) ?_ ?_ fun h => hc (allowed_iff.2 h))
  · rw [hS, utf8Encode_append, utf8Encode_append, utf8Encode_cons]; simp
  · intro x hx
    rcases List.mem_append.1 hx with hx | hx
    · exact allowed_iff.1 (hT x hx)
    · exact allowed_iff.1 (h1 x hx)

/-- What one refill does. -/
def Refilled (items0 : List SrcItem) (S : List UInt8) (T : List Char) (r : Rd) : Except Err Bool × Rd → Prop
  | (.ok x, r') => Trk items0 S T r' ∧ (x = true → r.buffer.length < r'.buffer.length) ∧ r'.eof = r.eof ∧ (x = false → bytesOf r'.items = [])
  | (.error e, _) => Bad items0 S e

theorem readUtf8_trk {items0 : List SrcItem} {S : List UInt8} {T : List Char} {r : Rd} (h : Trk items0 S T r) (he : r.eof = false) : Refilled items0 S T r (readUtf8 r) := by
  unfold readUtf8
  have hsub := fillBufRetry_sub r.items
  cases hf : fillBufRetry r.items with
  | mk a items =>
  rw [hf] at hsub
  cases a with
  | error k => exact .failed (h.sub.1 k (hsub.2 k rfl))
  | ok bs =>
  cases bs with
  | nil =>
    have := fillBufRetry_bytes hf
    exact ⟨⟨h.enc, by rw [h.bytes, this.1], h.good, h.off, hsub.1.trans h.sub, fun h' => by rw [he] at h'; simp at h'⟩, by simp, rfl, fun _ => by
      show bytesOf items = []
      rw [← this.1]; exact this.2.1 rfl⟩
  | cons b bs =>
  have hfb := fillBufRetry_bytes hf
  obtain ⟨rr, rfl⟩ := hfb.2.2 (by simp)
  dsimp only
  have hrun := utf8Run_inv (b :: bs)
  have hend := run_end _ (b :: bs) (Nat.le_refl _)
  change ((utf8Run (b :: bs)).2.2 = .invalid → _) ∧ _ at hend
  have hdone := utf8Run_done (bs := b :: bs) (by simp)
  generalize hru : utf8Run (b :: bs) = run at hrun hend hdone
  have hrune : utf8RunF (b :: bs).length (b :: bs) = run := hru
  rw [hrune] at hend
  have hS : S = utf8Encode (T ++ r.buffer) ++ (b :: bs ++ bytesOf rr) := by rw [h.bytes, hfb.1]; rfl
  generalize hq : pushChars lenUtf8 run.1 r.buffer r.offset = q
  obtain ⟨q1, q2, q3⟩ := q
  cases q1 with
  | some e =>
    obtain ⟨c1, c, c2, k1, k2, k3, k4⟩ := pushChars_some (by rw [hq])
    subst k4
    refine Bad.forbidden (c1 := c1) (c2 := c2) (more := run.2.1 ++ bytesOf rr) (T := T ++ r.buffer) ?_ h.good k2 k3 (by rw [sum_len, h.off]) rfl
    rw [hS, hrun.1, k1]; simp
  | none =>
  have hp := pushChars_none (w := lenUtf8) (cs := run.1) (buf := r.buffer) (off := r.offset) (by rw [hq])
  have ho := pushChars_ok lenUtf8 hp.2 r.buffer r.offset
  rw [hq] at hp ho
  obtain ⟨ho1, ho2⟩ := Prod.mk.inj (Prod.mk.inj ho).2
  subst ho1 ho2
  have hg : ∀ c ∈ T ++ (r.buffer ++ run.1), isAllowed c = true := by
    intro c hc
    rw [← List.append_assoc] at hc
    rcases List.mem_append.1 hc with hc | hc
    · exact h.good c hc
    · exact hp.2 c hc
  have hoff : r.offset + (run.1.map lenUtf8).sum = (utf8Encode (T ++ (r.buffer ++ run.1))).length := by
    rw [sum_len, h.off, ← List.append_assoc, utf8Encode_append (T ++ r.buffer)]; simp
  dsimp only
  cases hk : run.2.2 with
  | done =>
    dsimp only
    refine ⟨⟨h.enc, ?_, hg, hoff, (consume_sub _ _).trans (hsub.1.trans h.sub), fun h' => by rw [he] at h'; simp at h'⟩, ?_, rfl, by simp⟩
    · have h1 := hrun.2 hk
      rw [h1] at hrun
      rw [hS]
      simp only [consume, bytesOf, List.drop_length, List.nil_append]
      rw [← List.append_assoc T, utf8Encode_append (T ++ r.buffer), List.append_assoc]
      congr 1
      simpa using congrArg (· ++ bytesOf rr) hrun.1
    · intro _
      have := hdone hk
      have := List.length_pos_iff.2 this
      simp; omega
  | invalid =>
    dsimp only
    obtain ⟨b', t, k1, k2⟩ := hend.1 hk
    rw [k1]
    rw [hoff]
    refine .text (.malformed (rest := t ++ bytesOf rr) ?_ (fun c hc => allowed_iff.1 (hg c hc)) fun c => ?_)
    · rw [hS, hrun.1, k1, ← List.append_assoc T, utf8Encode_append (T ++ r.buffer)]; simp
    · exact invalid_prefix k2 (bytesOf rr) c
  | incomplete =>
    dsimp only
    obtain ⟨b', t, k1, k2⟩ := hend.2 hk
    split
    · rename_i hne
      refine ⟨⟨h.enc, ?_, hg, hoff, (consume_sub _ _).trans (hsub.1.trans h.sub), fun h' => by rw [he] at h'; simp at h'⟩, ?_, rfl, by simp⟩
      · rw [hS]
        simp only [consume, bytesOf]
        have e2 : (b :: bs).length - run.2.1.length = (utf8Encode run.1).length := by
          conv => lhs; rw [hrun.1]
          simp
        rw [e2, ← List.append_assoc T, utf8Encode_append (T ++ r.buffer), List.append_assoc, ← List.append_assoc (utf8Encode run.1)]
        congr 2
        conv => rhs; rw [hrun.1]
        rw [List.drop_append_of_le_length (Nat.le_refl _), List.drop_length, List.nil_append]
        exact hrun.1
      · intro _
        have := List.length_pos_iff.2 hne
        simp; omega
    · rename_i hr1
      have hr1 : run.1 = [] := by simpa using hr1
      rw [hr1] at hrun hoff hg ⊢
      simp only [List.append_nil] at hoff hg ⊢
      have hbt : b :: bs = b' :: t := by rw [hrun.1, k1]; rfl
      obtain ⟨rfl, rfl⟩ := List.cons.inj hbt
      have hlead := incomplete_lead k2
      unfold readUtf8Char
      dsimp only
      have hex := readExact_sub (utf8CharWidth b) (.data (b :: bs) :: rr)
      cases hx : readExact (utf8CharWidth b) (.data (b :: bs) :: rr) with
      | mk a items2 =>
      rw [hx] at hex
      have hbb : bytesOf (.data (b :: bs) :: rr) = b :: (bs ++ bytesOf rr) := rfl
      cases a with
      | error k =>
        dsimp only
        rcases hex.2 k rfl with hk' | ⟨rfl, hl⟩
        · exact .failed (h.sub.1 k (hsub.1.1 k hk'))
        · refine .cut ⟨T ++ r.buffer, b, bs ++ bytesOf rr, by rw [hS]; rfl, fun c hc => allowed_iff.1 (h.good c hc), lead_witness hlead, ?_⟩
          intro c q hcq
          rw [utf8CharWidth_bytes hcq, hcq, hbb] at hl
          simpa using hl
      | ok bytes =>
        have hxb := readExact_bytes hx
        dsimp only
        have hin := utf8Run_inv bytes
        have hbytes : ∃ t, bytes = b :: t := by
          have hw : utf8CharWidth b ≠ 0 := by
            obtain ⟨c, q, hcq⟩ := lead_witness hlead
            rw [utf8CharWidth_bytes hcq, hcq]; simp
          cases bytes with
          | nil => exact absurd hxb.2.symm (by simpa using hw)
          | cons x xs =>
            have := hxb.1
            rw [hbb] at this
            simp at this
            exact ⟨xs, by rw [this.1]⟩
        obtain ⟨t2, rfl⟩ := hbytes
        have hsuf : bs ++ bytesOf rr = t2 ++ bytesOf items2 := by
          have := hxb.1
          rw [hbb] at this
          simpa using this
        -- a character
        have hchar : ∀ c cs, (utf8Run (b :: t2)).1 = c :: cs → (utf8Run (b :: t2)).2 = ([], .done) → cs = [] ∧ b :: t2 = utf8Bytes c := by
          intro c cs e1 e2
          rw [e1, e2] at hin
          have h1 := hin.1
          rw [utf8Encode_cons] at h1
          simp only [List.append_nil] at h1
          obtain ⟨z, zs, hz, _⟩ := decodeOne_encode c []
          have hzb : z = b := by rw [hz] at h1; simp at h1; exact h1.1.symm
          subst hzb
          have hl := hxb.2
          rw [utf8CharWidth_bytes hz, h1] at hl
          simp at hl
          have hcs : utf8Encode cs = [] := by simpa using hl
          have : cs = [] := by
            cases cs with
            | nil => rfl
            | cons d ds => rw [utf8Encode_cons] at hcs; simp [utf8Bytes_ne] at hcs
          exact ⟨this, by rw [h1, hcs]; simp⟩
        have hmal : (∀ c cs x, utf8Run (b :: t2) ≠ (c :: cs, x, .done)) → ∀ c, ¬ utf8Bytes c <+: b :: (bs ++ bytesOf rr) := by
          rintro hno c ⟨q, hq⟩
          obtain ⟨z, zs, hz, hdz⟩ := decodeOne_encode c []
          have hzb : z = b := by rw [hz] at hq; simp at hq; exact hq.1
          subst hzb
          have hw := hxb.2
          rw [utf8CharWidth_bytes hz] at hw
          rw [hsuf, ← List.cons_append] at hq
          have e := List.append_inj_left hq (by simpa using hw.symm)
          refine hno c [] [] ?_
          rw [hz] at e
          simp only [List.append_nil] at hdz
          rw [← e]
          unfold utf8Run
          simp [utf8RunF, hdz]
        cases hu : utf8Run (b :: t2) with
        | mk u1 u2 =>
        obtain ⟨u2, u3⟩ := u2
        have badI : (∀ c cs x, utf8Run (b :: t2) ≠ (c :: cs, x, .done)) → Bad items0 S (.reader "invalid UTF-8" r.offset (((b :: t2).getD 0 0).toNat : Int)) := by
          intro hno
          rw [h.off]
          exact .text (.malformed (rest := bs ++ bytesOf rr) (by rw [hS]; rfl) (fun c hc => allowed_iff.1 (h.good c hc)) (hmal hno))
        cases u1 with
        | nil => exact badI (by rw [hu]; simp)
        | cons c cs =>
        cases u3 with
        | invalid => exact badI (by rw [hu]; simp)
        | incomplete => exact badI (by rw [hu]; simp)
        | done =>
          have hu2 : u2 = [] := by have := hin.2 (by rw [hu]); rw [hu] at this; exact this
          subst hu2
          obtain ⟨hcs, hby⟩ := hchar c cs (by rw [hu]) (by rw [hu])
          subst hcs
          have hwc : utf8CharWidth b = (utf8Bytes c).length := utf8CharWidth_bytes hby.symm
          simp only [List.map_nil, List.sum_nil, Nat.add_zero]
          by_cases hal : isAllowed c = true
          · simp only [pushChars, if_pos hal]
            refine ⟨⟨h.enc, ?_, ?_, ?_, hex.1.trans (hsub.1.trans h.sub), fun h' => by rw [he] at h'; simp at h'⟩, fun _ => by simp, rfl, by simp⟩
            · rw [hS, ← List.append_assoc T, utf8Encode_append (T ++ r.buffer), utf8Encode_cons]
              show _ = _ ++ bytesOf items2
              rw [List.cons_append, hsuf, ← List.cons_append, hby]
              simp [utf8Encode]
            · intro x hx
              rw [← List.append_assoc] at hx
              rcases List.mem_append.1 hx with hx | hx
              · exact h.good x hx
              · simp at hx; rw [hx]; exact hal
            · show r.offset + utf8CharWidth b = _
              rw [h.off, hwc, ← List.append_assoc, utf8Encode_append (T ++ r.buffer), utf8Encode_cons]
              simp [utf8Encode, Nat.add_assoc]
          · simp only [pushChars, if_neg hal]
            refine Bad.forbidden (c1 := []) (c2 := []) (c := c) (more := bytesOf items2) (T := T ++ r.buffer) ?_ h.good (by simp) hal (by rw [h.off]; simp [utf8Encode]) rfl
            rw [hS, List.cons_append, hsuf, ← List.cons_append, hby]
            simp [utf8Encode]

end Yaml.Cu
