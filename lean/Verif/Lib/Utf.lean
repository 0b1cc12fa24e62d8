import Verif.Utf

/-
Facts about the UTF-8 decoder and encoder.
-/

namespace Yaml
set_option linter.unusedSimpArgs false

theorem char_bound (c : Char) : c.toNat < 0xD800 ∨ (0xDFFF < c.toNat ∧ c.toNat < 0x110000) := by
  have := c.valid
  simp only [UInt32.isValidChar, Nat.isValidChar] at this
  exact this

theorem ofNat_toNat' {n : Nat} (h : n < 0xD800 ∨ (0xDFFF < n ∧ n < 0x110000)) : (Char.ofNat n).toNat = n := by
  have hv : n.isValidChar := h
  simp only [Char.ofNat, hv, dif_pos]
  rfl

theorem char_ext {c d : Char} (h : c.toNat = d.toNat) : c = d := by
  apply Char.ext
  apply UInt32.toNat_inj.1
  exact h

theorem uint8_ext {a b : UInt8} (h : a.toNat = b.toNat) : a = b := UInt8.toNat_inj.1 h

theorem ofNat8 {n : Nat} (h : n < 256) : (UInt8.ofNat n).toNat = n := by
  simp [UInt8.toNat_ofNat', Nat.mod_eq_of_lt h]

/-- The bytes of a character, by length. -/
theorem utf8Bytes_cases (c : Char) :
    (c.toNat < 0x80 ∧ ∃ b0 : UInt8, utf8Bytes c = [b0] ∧ b0.toNat = c.toNat) ∨
    (0x80 ≤ c.toNat ∧ c.toNat < 0x800 ∧ ∃ b0 b1 : UInt8, utf8Bytes c = [b0, b1] ∧ b0.toNat = 0xC0 + c.toNat / 64 ∧
      b1.toNat = 0x80 + c.toNat % 64) ∨
    (0x800 ≤ c.toNat ∧ c.toNat < 0x10000 ∧ ∃ b0 b1 b2 : UInt8, utf8Bytes c = [b0, b1, b2] ∧ b0.toNat = 0xE0 + c.toNat / 4096 ∧
      b1.toNat = 0x80 + c.toNat / 64 % 64 ∧ b2.toNat = 0x80 + c.toNat % 64) ∨
    (0x10000 ≤ c.toNat ∧ ∃ b0 b1 b2 b3 : UInt8, utf8Bytes c = [b0, b1, b2, b3] ∧ b0.toNat = 0xF0 + c.toNat / 262144 ∧
      b1.toNat = 0x80 + c.toNat / 4096 % 64 ∧ b2.toNat = 0x80 + c.toNat / 64 % 64 ∧ b3.toNat = 0x80 + c.toNat % 64) := by
  have hb := char_bound c
  have hv : c.val.toNat = c.toNat := rfl
  unfold utf8Bytes String.utf8EncodeChar
  simp only [hv]
  by_cases h1 : c.toNat ≤ 0x7f
  · left
    rw [if_pos h1]
    exact ⟨by omega, _, rfl, ofNat8 (by omega)⟩
  · rw [if_neg h1]
    right
    by_cases h2 : c.toNat ≤ 0x7ff
    · left
      rw [if_pos h2]
      refine ⟨by omega, by omega, _, _, rfl, ?_, ?_⟩ <;> rw [ofNat8 (by omega)] <;> omega
    · rw [if_neg h2]
      right
      by_cases h3 : c.toNat ≤ 0xffff
      · left
        rw [if_pos h3]
        refine ⟨by omega, by omega, _, _, _, rfl, ?_, ?_, ?_⟩ <;> rw [ofNat8 (by omega)] <;> omega
      · rw [if_neg h3]
        right
        refine ⟨by omega, _, _, _, _, rfl, ?_, ?_, ?_, ?_⟩ <;> rw [ofNat8 (by omega)] <;> omega

theorem isCont_iff {b : UInt8} : isCont b = true ↔ 0x80 ≤ b.toNat ∧ b.toNat ≤ 0xBF := by
  simp [isCont]

theorem second3_iff {a b : UInt8} : second3Ok a b = true ↔
    (0x80 ≤ b.toNat ∧ b.toNat ≤ 0xBF ∧ (a.toNat = 0xE0 → 0xA0 ≤ b.toNat) ∧ (a.toNat = 0xED → b.toNat ≤ 0x9F)) := by
  unfold second3Ok
  split
  · simp; omega
  · split
    · simp; omega
    · rw [isCont_iff]; omega

theorem second4_iff {a b : UInt8} : second4Ok a b = true ↔
    (0x80 ≤ b.toNat ∧ b.toNat ≤ 0xBF ∧ (a.toNat = 0xF0 → 0x90 ≤ b.toNat) ∧ (a.toNat = 0xF4 → b.toNat ≤ 0x8F)) := by
  unfold second4Ok
  split
  · simp; omega
  · split
    · simp; omega
    · rw [isCont_iff]; omega

/-- Decoding an encoded character. -/
theorem decodeOne_encode (c : Char) (rest : List UInt8) :
    ∃ b bs, utf8Bytes c = b :: bs ∧ decodeOne b (bs ++ rest) = .char c rest := by
  have hb := char_bound c
  rcases utf8Bytes_cases c with ⟨h, b0, he, h0⟩ | ⟨h, h', b0, b1, he, h0, h1⟩ | ⟨h, h', b0, b1, b2, he, h0, h1, h2⟩ |
    ⟨h, b0, b1, b2, b3, he, h0, h1, h2, h3⟩
  · refine ⟨_, _, he, ?_⟩
    unfold decodeOne
    rw [if_pos (by omega)]
    simp [h0]
  · refine ⟨_, _, he, ?_⟩
    unfold decodeOne
    rw [if_neg (by omega), if_neg (by omega), if_pos (by omega)]
    have : isCont b1 = true := by rw [isCont_iff]; omega
    simp only [List.cons_append, List.nil_append, this, if_true]
    refine congrArg (fun x => Dec.char x rest) (char_ext ?_)
    rw [ofNat_toNat' (by omega)]; omega
  · refine ⟨_, _, he, ?_⟩
    unfold decodeOne
    rw [if_neg (by omega), if_neg (by omega), if_neg (by omega), if_pos (by omega)]
    have g1 : second3Ok b0 b1 = true := by rw [second3_iff]; omega
    have g2 : isCont b2 = true := by rw [isCont_iff]; omega
    simp only [List.cons_append, List.nil_append, g1, g2, if_true]
    refine congrArg (fun x => Dec.char x rest) (char_ext ?_)
    rw [ofNat_toNat' (by omega)]; omega
  · refine ⟨_, _, he, ?_⟩
    unfold decodeOne
    rw [if_neg (by omega), if_neg (by omega), if_neg (by omega), if_neg (by omega), if_pos (by omega)]
    have g1 : second4Ok b0 b1 = true := by rw [second4_iff]; omega
    have g2 : isCont b2 = true := by rw [isCont_iff]; omega
    have g3 : isCont b3 = true := by rw [isCont_iff]; omega
    simp only [List.cons_append, List.nil_append, g1, g2, g3, if_true]
    refine congrArg (fun x => Dec.char x rest) (char_ext ?_)
    rw [ofNat_toNat' (by omega)]; omega

/-- A decoded character was encoded. -/
theorem decodeOne_inv {b : UInt8} {bs rest : List UInt8} {c : Char} (h : decodeOne b bs = .char c rest) :
    b :: bs = utf8Bytes c ++ rest := by
  have key : ∀ (n : Nat), (n < 0xD800 ∨ (0xDFFF < n ∧ n < 0x110000)) → Char.ofNat n = c → c.toNat = n := by
    rintro n hn rfl; exact ofNat_toNat' hn
  have hlt := b.toNat_lt
  unfold decodeOne at h
  split at h
  · rename_i h0
    simp at h
    obtain ⟨h, rfl⟩ := h
    have := key _ (by omega) h
    rcases utf8Bytes_cases c with ⟨_, b0, he, h0⟩ | ⟨_, _, b0, b1, he, h0, h1⟩ | ⟨_, _, b0, b1, b2, he, h0, h1, h2⟩ |
      ⟨_, b0, b1, b2, b3, he, h0, h1, h2, h3⟩
    · rw [he, uint8_ext (show b.toNat = b0.toNat by omega)]; rfl
    all_goals omega
  · split at h
    · simp at h
    · split at h
      · split at h
        · simp at h
        · split at h
          · rename_i b1 r hc
            rw [isCont_iff] at hc
            simp at h
            obtain ⟨h, rfl⟩ := h
            have := key _ (by omega) h
            rcases utf8Bytes_cases c with ⟨_, c0, he, h0⟩ | ⟨_, _, c0, c1, he, h0, h1⟩ | ⟨_, _, c0, c1, c2, he, h0, h1, h2⟩ |
              ⟨_, c0, c1, c2, c3, he, h0, h1, h2, h3⟩
            · omega
            · rw [he, uint8_ext (show b.toNat = c0.toNat by omega), uint8_ext (show b1.toNat = c1.toNat by omega)]; rfl
            all_goals omega
          · simp at h
      · split at h
        · split at h
          · simp at h
          · split at h
            · split at h
              · simp at h
              · split at h
                · rename_i b1 hs _ b2 r hc
                  rw [second3_iff] at hs
                  rw [isCont_iff] at hc
                  simp at h
                  obtain ⟨h, rfl⟩ := h
                  have := key _ (by omega) h
                  rcases utf8Bytes_cases c with ⟨_, c0, he, h0⟩ | ⟨_, _, c0, c1, he, h0, h1⟩ | ⟨_, _, c0, c1, c2, he, h0, h1, h2⟩ |
                    ⟨_, c0, c1, c2, c3, he, h0, h1, h2, h3⟩
                  · omega
                  · omega
                  · rw [he, uint8_ext (show b.toNat = c0.toNat by omega), uint8_ext (show b1.toNat = c1.toNat by omega),
                      uint8_ext (show b2.toNat = c2.toNat by omega)]; rfl
                  · omega
                · simp at h
            · simp at h
        · split at h
          · split at h
            · simp at h
            · split at h
              · split at h
                · simp at h
                · split at h
                  · split at h
                    · simp at h
                    · split at h
                      · rename_i b1 hs _ b2 hc2 _ b3 r hc
                        rw [second4_iff] at hs
                        rw [isCont_iff] at hc hc2
                        simp at h
                        obtain ⟨h, rfl⟩ := h
                        have := key _ (by omega) h
                        rcases utf8Bytes_cases c with ⟨_, c0, he, h0⟩ | ⟨_, _, c0, c1, he, h0, h1⟩ | ⟨_, _, c0, c1, c2, he, h0, h1, h2⟩ |
                          ⟨_, c0, c1, c2, c3, he, h0, h1, h2, h3⟩
                        · omega
                        · omega
                        · omega
                        · rw [he, uint8_ext (show b.toNat = c0.toNat by omega), uint8_ext (show b1.toNat = c1.toNat by omega),
                            uint8_ext (show b2.toNat = c2.toNat by omega), uint8_ext (show b3.toNat = c3.toNat by omega)]; rfl
                      · simp at h
                  · simp at h
              · simp at h
          · simp at h

/-- A buffer that ends inside a character. -/
theorem decodeOne_prefix {c : Char} {b : UInt8} {p q : List UInt8} (h : utf8Bytes c = b :: p ++ q) (hq : q ≠ []) :
    decodeOne b p = .incomplete := by
  have hb := char_bound c
  rcases utf8Bytes_cases c with ⟨_, b0, he, h0⟩ | ⟨_, _, b0, b1, he, h0, h1⟩ | ⟨_, _, b0, b1, b2, he, h0, h1, h2⟩ |
    ⟨_, b0, b1, b2, b3, he, h0, h1, h2, h3⟩
  · rw [he] at h
    simp at h
    exact absurd h.2.2 hq
  · rw [he] at h
    match p with
    | [] =>
      simp at h
      unfold decodeOne
      rw [← h.1, if_neg (by omega), if_neg (by omega), if_pos (by omega)]
    | p0 :: p => simp at h; exact absurd h.2.2.2 hq
  · rw [he] at h
    match p with
    | [] =>
      simp at h
      unfold decodeOne
      rw [← h.1, if_neg (by omega), if_neg (by omega), if_neg (by omega), if_pos (by omega)]
    | [p0] =>
      simp at h
      unfold decodeOne
      rw [← h.1, if_neg (by omega), if_neg (by omega), if_neg (by omega), if_pos (by omega)]
      have g1 : second3Ok b0 p0 = true := by rw [second3_iff, ← h.2.1]; omega
      simp only [g1, if_true]
    | p0 :: p1 :: p => simp at h; exact absurd h.2.2.2.2 hq
  · rw [he] at h
    match p with
    | [] =>
      simp at h
      unfold decodeOne
      rw [← h.1, if_neg (by omega), if_neg (by omega), if_neg (by omega), if_neg (by omega), if_pos (by omega)]
    | [p0] =>
      simp at h
      unfold decodeOne
      rw [← h.1, if_neg (by omega), if_neg (by omega), if_neg (by omega), if_neg (by omega), if_pos (by omega)]
      have g1 : second4Ok b0 p0 = true := by rw [second4_iff, ← h.2.1]; omega
      simp only [g1, if_true]
    | [p0, p1] =>
      simp at h
      unfold decodeOne
      rw [← h.1, if_neg (by omega), if_neg (by omega), if_neg (by omega), if_neg (by omega), if_pos (by omega)]
      have g1 : second4Ok b0 p0 = true := by rw [second4_iff, ← h.2.1]; omega
      have g2 : isCont p1 = true := by rw [isCont_iff, ← h.2.2.1]; omega
      simp only [g1, g2, if_true]
    | p0 :: p1 :: p2 :: p => simp at h; exact absurd h.2.2.2.2.2 hq

theorem utf8Encode_cons (c : Char) (t : List Char) : utf8Encode (c :: t) = utf8Bytes c ++ utf8Encode t := by
  simp [utf8Encode]
theorem utf8Encode_append (s t : List Char) : utf8Encode (s ++ t) = utf8Encode s ++ utf8Encode t := by
  simp [utf8Encode]

theorem utf8Bytes_ne (c : Char) : utf8Bytes c ≠ [] := by
  obtain ⟨b, bs, h, _⟩ := decodeOne_encode c []
  rw [h]; simp

/-- `from_utf8` on whole characters followed by part of one. -/
theorem utf8Run_split (t : List Char) {p : List UInt8}
    (hp : p = [] ∨ ∃ c q, utf8Bytes c = p ++ q ∧ q ≠ []) :
    utf8Run (utf8Encode t ++ p) = (t, p, if p = [] then .done else .incomplete) := by
  have main : ∀ (t : List Char) (n : Nat), (utf8Encode t ++ p).length ≤ n →
      utf8RunF n (utf8Encode t ++ p) = (t, p, if p = [] then .done else .incomplete) := by
    intro t
    induction t with
    | nil =>
      intro n hn
      simp only [utf8Encode, List.flatMap_nil, List.nil_append] at *
      match p, n with
      | [], _ => unfold utf8RunF; rfl
      | b :: p, 0 => simp at hn
      | b :: p, n + 1 =>
        unfold utf8RunF
        rcases hp with hp | ⟨c, q, h1, h2⟩
        · simp at hp
        · rw [decodeOne_prefix (q := q) h1 h2]
          simp
    | cons c t ih =>
      intro n hn
      rw [utf8Encode_cons, List.append_assoc] at hn ⊢
      obtain ⟨b, bs, h1, h2⟩ := decodeOne_encode c (utf8Encode t ++ p)
      rw [h1] at hn ⊢
      cases n with
      | zero => simp at hn
      | succ n =>
        rw [List.cons_append] at hn ⊢
        unfold utf8RunF
        rw [h2]
        simp only
        rw [ih n (by simp at hn ⊢; omega)]
  exact main t _ (Nat.le_refl _)

/-- What `from_utf8` accepted is the encoding of what it delivered. -/
theorem utf8Run_inv (bs : List UInt8) : bs = utf8Encode (utf8Run bs).1 ++ (utf8Run bs).2.1 ∧
    ((utf8Run bs).2.2 = .done → (utf8Run bs).2.1 = []) := by
  have main : ∀ (n : Nat) (bs : List UInt8), bs.length ≤ n → bs = utf8Encode (utf8RunF n bs).1 ++ (utf8RunF n bs).2.1 ∧
      ((utf8RunF n bs).2.2 = .done → (utf8RunF n bs).2.1 = []) := by
    intro n
    induction n with
    | zero => intro bs h; have : bs = [] := by simpa using h
              subst this; simp [utf8RunF, utf8Encode]
    | succ n ih =>
      intro bs h
      cases bs with
      | nil => simp [utf8RunF, utf8Encode]
      | cons b bs =>
        unfold utf8RunF
        cases hd : decodeOne b bs with
        | char c rest =>
          have := decodeOne_inv hd
          dsimp only
          have hne := utf8Bytes_ne c
          have hl : rest.length ≤ n := by
            have h1 := congrArg List.length this
            have h2 := List.length_pos_iff.2 hne
            simp at h1 h; omega
          obtain ⟨g1, g2⟩ := ih rest hl
          refine ⟨?_, g2⟩
          rw [this, utf8Encode_cons, List.append_assoc, ← g1]
        | invalid => simp [utf8Encode]
        | incomplete => simp [utf8Encode]
  exact main _ bs (Nat.le_refl _)

/-- Cutting an encoded text anywhere. -/
theorem utf8Encode_cut : ∀ (t : List Char) {a b : List UInt8}, utf8Encode t = a ++ b →
    ∃ t1 t2 p, t = t1 ++ t2 ∧ a = utf8Encode t1 ++ p ∧ p ++ b = utf8Encode t2 ∧
      (p = [] ∨ ∃ c t3 q, t2 = c :: t3 ∧ utf8Bytes c = p ++ q ∧ q ≠ []) := by
  intro t
  induction t with
  | nil => intro a b h; exact ⟨[], [], [], rfl, by simp [utf8Encode] at h ⊢; exact h.1, by simp [utf8Encode] at h ⊢; exact h.2, Or.inl rfl⟩
  | cons c t ih =>
    intro a b h
    by_cases hl : a.length < (utf8Bytes c).length
    · have h' := h
      rw [utf8Encode_cons] at h
      have : ∃ q, utf8Bytes c = a ++ q ∧ q ≠ [] := by
        refine ⟨(utf8Bytes c).drop a.length, ?_, ?_⟩
        · have h1 := congrArg (List.take a.length) h
          rw [List.take_append_of_le_length (by omega), List.take_append_of_le_length (by omega), List.take_length] at h1
          conv => lhs; rw [← List.take_append_drop a.length (utf8Bytes c), h1]
        · intro h0
          have := congrArg List.length h0
          simp at this; omega
      obtain ⟨q, h1, h2⟩ := this
      exact ⟨[], c :: t, a, rfl, by simp [utf8Encode], h'.symm, Or.inr ⟨c, t, q, rfl, h1, h2⟩⟩
    · rw [utf8Encode_cons] at h
      have ha : a = utf8Bytes c ++ a.drop (utf8Bytes c).length := by
        have h1 := congrArg (List.take (utf8Bytes c).length) h
        rw [List.take_append_of_le_length (Nat.le_refl _), List.take_append_of_le_length (by omega), List.take_length] at h1
        conv => lhs; rw [← List.take_append_drop (utf8Bytes c).length a, ← h1]
      have hb : utf8Encode t = a.drop (utf8Bytes c).length ++ b := by
        rw [ha, List.append_assoc] at h
        exact List.append_cancel_left h
      obtain ⟨t1, t2, p, g1, g2, g3, g4⟩ := ih hb
      refine ⟨c :: t1, t2, p, by rw [g1]; rfl, ?_, g3, g4⟩
      rw [utf8Encode_cons, List.append_assoc, ← g2]; exact ha
end Yaml
