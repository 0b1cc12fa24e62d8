import Verif.Lib.Clean2

/-
What a successful read of UTF-8 says about the bytes, and UTF-16 delivered byte by byte.
-/

namespace Yaml
open Reader
set_option linter.unusedSimpArgs false
set_option linter.unusedVariables false

theorem allowed_iff {c : Char} : isAllowed c = true ↔ Allowed c := by
  have hb := char_bound c
  unfold isAllowed Allowed
  have e : ∀ d : Char, c = d ↔ c.toNat = d.toNat := fun d => ⟨fun h => by rw [h], char_ext⟩
  have l1 : ' ' ≤ c ↔ 0x20 ≤ c.toNat := by rw [Char.le_def, UInt32.le_iff_toNat_le]; exact Iff.rfl
  have l2 : c ≤ '~' ↔ c.toNat ≤ 0x7E := by rw [Char.le_def, UInt32.le_iff_toNat_le]; exact Iff.rfl
  simp only [e, l1, l2, Bool.or_eq_true, beq_iff_eq, Bool.and_eq_true, decide_eq_true_eq]
  have k1 : '\t'.toNat = 9 := rfl
  have k2 : '\n'.toNat = 10 := rfl
  have k3 : '\r'.toNat = 13 := rfl
  have k4 : '\u0085'.toNat = 0x85 := rfl
  rw [k1, k2, k3, k4]
  omega

theorem fillBufRetry_bytes : ∀ {items items' : List SrcItem} {bs : List UInt8}, fillBufRetry items = (.ok bs, items') →
    bytesOf items = bytesOf items' ∧ (bs = [] → bytesOf items = []) ∧ (bs ≠ [] → ∃ r, items' = .data bs :: r)
  | [], _, _, h => by simp [fillBufRetry] at h; obtain ⟨rfl, rfl⟩ := h; simp [bytesOf]
  | .data [] :: r, _, _, h => fillBufRetry_bytes (items := r) h
  | .data (b :: bs) :: r, _, _, h => by simp [fillBufRetry] at h; rw [← h.1, ← h.2]; simp
  | .intr :: r, _, _, h => fillBufRetry_bytes (items := r) h
  | .fail _ :: _, _, _, h => by simp [fillBufRetry] at h

theorem fillBuf_bytes : ∀ {items items' : List SrcItem} {bs : List UInt8}, fillBuf items = (.ok bs, items') →
    bytesOf items = bytesOf items' ∧ (bs = [] → bytesOf items = []) ∧ (bs ≠ [] → ∃ r, items' = .data bs :: r)
  | [], _, _, h => by simp [fillBuf] at h; obtain ⟨rfl, rfl⟩ := h; simp [bytesOf]
  | .data [] :: r, _, _, h => fillBuf_bytes (items := r) h
  | .data (b :: bs) :: r, _, _, h => by simp [fillBuf] at h; rw [← h.1, ← h.2]; simp
  | .intr :: r, _, _, h => by simp [fillBuf] at h
  | .fail _ :: _, _, _, h => by simp [fillBuf] at h

theorem readExact_bytes : ∀ {n : Nat} {items items' : List SrcItem} {bs : List UInt8}, readExact n items = (.ok bs, items') →
    bytesOf items = bs ++ bytesOf items' ∧ bs.length = n
  | 0, items, _, _, h => by simp [readExact] at h; obtain ⟨rfl, rfl⟩ := h; simp
  | n + 1, [], _, _, h => by simp [readExact] at h
  | n + 1, .intr :: r, _, _, h => by
    have := readExact_bytes (n := n + 1) (items := r) (by simpa [readExact] using h)
    exact this
  | n + 1, .fail _ :: _, _, _, h => by simp [readExact] at h
  | n + 1, .data bs :: r, items', out, h => by
    unfold readExact at h
    split at h
    · rename_i hl
      simp at h
      rw [← h.1, ← h.2]
      simp only [bytesOf, ← List.append_assoc, List.take_append_drop, List.length_take]
      exact ⟨trivial, by omega⟩
    · rename_i hl
      dsimp only at h
      generalize hq : readExact (n + 1 - bs.length) r = q at h
      obtain ⟨q1, q2⟩ := q
      cases q1 with
      | error => simp [Except.map] at h
      | ok o =>
        simp [Except.map] at h
        have := readExact_bytes hq
        rw [← h.1, ← h.2]
        simp only [bytesOf, this.1, List.append_assoc, List.length_append, this.2]
        exact ⟨trivial, by omega⟩

theorem readUtf8_bytes {r r' : Rd} {x : Bool} (h : readUtf8 r = (.ok x, r')) :
    ∃ cs, r'.buffer = r.buffer ++ cs ∧ bytesOf r.items = utf8Encode cs ++ bytesOf r'.items ∧ (∀ c ∈ cs, isAllowed c = true) ∧
      r'.encoding = r.encoding ∧ r'.eof = r.eof ∧ (x = false → bytesOf r'.items = []) := by
  unfold readUtf8 at h
  split at h
  · simp at h
  · rename_i items hf
    have := fillBufRetry_bytes hf
    simp at h
    obtain ⟨rfl, rfl⟩ := h
    exact ⟨[], by simp, by simpa [utf8Encode] using this.1, by simp, rfl, rfl, fun _ => by rw [← this.1]; exact this.2.1 rfl⟩
  · rename_i b bs items hf
    have hfb := fillBufRetry_bytes hf
    obtain ⟨rr, rfl⟩ := hfb.2.2 (by simp)
    dsimp only at h
    have hrun := utf8Run_inv (b :: bs)
    generalize hru : utf8Run (b :: bs) = run at h hrun
    generalize hq : pushChars lenUtf8 run.1 r.buffer r.offset = q at h
    obtain ⟨q1, q2, q3⟩ := q
    cases q1 with
    | some e => simp at h
    | none =>
      have hp := pushChars_none (w := lenUtf8) (cs := run.1) (buf := r.buffer) (off := r.offset) (by rw [hq])
      rw [hq] at hp
      dsimp only at hp h
      split at h
      · rename_i hd
        simp at h
        obtain ⟨rfl, rfl⟩ := h
        refine ⟨run.1, hp.1, ?_, hp.2, rfl, rfl, by simp⟩
        have h1 := hrun.2 hd
        rw [h1] at hrun
        rw [hfb.1]
        simp [consume, bytesOf]
        simpa using congrArg (· ++ bytesOf rr) hrun.1
      · simp at h
      · split at h
        · simp at h
          obtain ⟨rfl, rfl⟩ := h
          refine ⟨run.1, hp.1, ?_, hp.2, rfl, rfl, by simp⟩
          rw [hfb.1]
          have e : (b :: bs).length - run.2.1.length = (utf8Encode run.1).length := by rw [hrun.1]; simp
          simp only [consume, bytesOf]
          have e2 : bs.length + 1 - run.2.1.length = (utf8Encode run.1).length := by simpa using e
          rw [e2, ← List.append_assoc]
          congr 1
          conv => rhs; rw [hrun.1]
          rw [List.drop_append_of_le_length (Nat.le_refl _), List.drop_length, List.nil_append]
          exact hrun.1
        · rename_i hr1
          have hr1 : run.1 = [] := by simpa using hr1
          have hq2 : q2 = r.buffer := by rw [hp.1, hr1]; simp
          subst hq2
          generalize hc : readUtf8Char b { items := SrcItem.data (b :: bs) :: rr, eof := r.eof, buffer := r.buffer, encoding := r.encoding, offset := q3 } = c at h
          obtain ⟨c1, c2⟩ := c
          cases c1 with
          | some e => simp at h
          | none =>
            simp at h
            obtain ⟨rfl, rfl⟩ := h
            unfold readUtf8Char at hc
            dsimp only at hc
            split at hc
            · simp at hc
            · rename_i bytes items he
              have hex := readExact_bytes he
              split at hc
              · rename_i ch rest y hut
                simp at hc
                have hp2 := pushChars_none (w := fun _ => utf8CharWidth b) (cs := [ch]) (buf := r.buffer) (off := q3) hc.1
                have hin := utf8Run_inv bytes
                rw [hut] at hin
                have hy : y = [] := hin.2 rfl
                have hby : bytes = utf8Bytes ch ++ utf8Encode rest := by
                  have := hin.1
                  simp only [hy] at this
                  rw [utf8Encode_cons] at this
                  simpa using this
                have hbb : ∃ t, bytes = b :: t := by
                  have h1 := hex.1
                  rw [show bytesOf (.data (b :: bs) :: rr) = b :: (bs ++ bytesOf rr) from rfl] at h1
                  cases hbs : bytes with
                  | nil =>
                    rw [hbs] at hby
                    have := utf8Bytes_ne ch
                    simp at hby
                    exact absurd hby.1 this
                  | cons z zs => rw [hbs] at h1; simp at h1; exact ⟨zs, by rw [h1.1]⟩
                obtain ⟨t, hbt⟩ := hbb
                obtain ⟨z, zs, hz, _⟩ := decodeOne_encode ch []
                have hzb : z = b := by rw [hby, hz] at hbt; simp at hbt; exact hbt.1
                rw [hzb] at hz
                have hw := utf8CharWidth_bytes hz
                have hlen := hex.2
                rw [hw, hby] at hlen
                simp at hlen
                have hbytes : bytes = utf8Bytes ch := by rw [hby, hlen]; simp
                rw [← hc.2]
                refine ⟨[ch], hp2.1, ?_, hp2.2, rfl, rfl, by simp⟩
                rw [hfb.1, hex.1, hbytes]
                simp [utf8Encode]
              · simp at hc

theorem readChunk_bytes {r r' : Rd} {x : Bool} (he : r.encoding = .utf8) (h : readChunk r = (.ok x, r')) :
    ∃ cs, r'.buffer = r.buffer ++ cs ∧ bytesOf r.items = utf8Encode cs ++ bytesOf r'.items ∧ (∀ c ∈ cs, isAllowed c = true) ∧
      r'.encoding = .utf8 ∧ r'.eof = r.eof ∧ (x = false → bytesOf r'.items = []) := by
  unfold readChunk at h
  rw [he] at h
  obtain ⟨cs, h1, h2, h3, h4, h5⟩ := readUtf8_bytes h
  exact ⟨cs, h1, h2, h3, by rw [h4, he], h5⟩

theorem updateLoop_bytes {length : Nat} : ∀ (fuel : Nat) {r r' : Rd}, r.encoding = .utf8 → updateLoop length fuel r = (none, r') →
    (r.eof = true → bytesOf r.items = []) →
    ∃ cs, r'.buffer = r.buffer ++ cs ∧ bytesOf r.items = utf8Encode cs ++ bytesOf r'.items ∧ (∀ c ∈ cs, isAllowed c = true) ∧
      r'.encoding = .utf8 ∧ (r'.eof = true → bytesOf r'.items = []) ∧ (length ≤ r'.buffer.length ∨ r'.eof = true) := by
  intro fuel
  induction fuel with
  | zero =>
    intro r r' he h hof
    unfold updateLoop at h
    split at h
    · split at h
      · rename_i h1 h2
        simp at h; subst h
        exact ⟨[], by simp, by simp [utf8Encode], by simp, he, hof, Or.inr h2⟩
      · simp at h
    · split at h
      · simp at h
      · simp at h; subst h
        exact ⟨[], by simp, by simp [utf8Encode], by simp, he, hof, Or.inl (by omega)⟩
  | succ fuel ih =>
    intro r r' he h hof
    unfold updateLoop at h
    split at h
    · split at h
      · rename_i h1 h2
        simp at h; subst h
        exact ⟨[], by simp, by simp [utf8Encode], by simp, he, hof, Or.inr h2⟩
      · rename_i hne
        dsimp only at h
        generalize hc : readChunk r = c at h
        obtain ⟨c1, c2⟩ := c
        cases c1 with
        | error e => simp at h
        | ok x =>
          obtain ⟨cs, h1, h2, h3, h4, h5, h6⟩ := readChunk_bytes he hc
          cases x with
          | false =>
            simp at h; subst h
            exact ⟨cs, h1, h2, h3, h4, fun _ => h6 rfl, Or.inr rfl⟩
          | true =>
            dsimp only at h
            obtain ⟨cs', g1, g2, g3, g4, g5, g6⟩ := ih h4 h (by rw [h5]; intro hh; exact absurd hh hne)
            refine ⟨cs ++ cs', ?_, ?_, ?_, g4, g5, g6⟩
            · rw [g1, h1]; simp
            · rw [h2, g2, utf8Encode_append]; simp
            · intro c hc
              rcases List.mem_append.1 hc with hc | hc
              · exact h3 c hc
              · exact g3 c hc
    · split at h
      · simp at h
      · simp at h; subst h
        exact ⟨[], by simp, by simp [utf8Encode], by simp, he, hof, Or.inl (by omega)⟩

/-- What `determineEncoding` did to the bytes. -/
theorem determineEncoding_bytes {items items' : List SrcItem} {oe : Option Encoding} (h : determineEncoding items = (.ok oe, items')) :
    (oe = none ∧ bytesOf items = [] ∧ bytesOf items' = []) ∨
    (oe = some .utf8 ∧ bytesOf items ≠ [] ∧ (bytesOf items = bytesOf items' ∨ bytesOf items = bom8 ++ bytesOf items')) ∨
    (oe = some .utf16le ∧ bytesOf items = bom16 false ++ bytesOf items') ∨
    (oe = some .utf16be ∧ bytesOf items = bom16 true ++ bytesOf items') := by
  unfold determineEncoding at h
  split at h
  · simp at h
  · rename_i r hf
    simp at h
    have := fillBuf_bytes hf
    left
    exact ⟨h.1.symm, this.2.1 rfl, by rw [← h.2, ← this.1]; exact this.2.1 rfl⟩
  · rename_i b bs r hf
    have hfb := fillBuf_bytes hf
    obtain ⟨rr, hrr⟩ := hfb.2.2 (by simp)
    have hne : bytesOf items ≠ [] := by rw [hfb.1, hrr]; simp [bytesOf]
    split at h
    · split at h
      · simp at h
      · rename_i bom r2 hx
        have hex := readExact_bytes hx
        split at h
        · rename_i hb
          simp at h
          right; left
          refine ⟨h.1.symm, hne, Or.inr ?_⟩
          rw [hfb.1, hex.1, ← h.2, hb]; rfl
        · simp at h
    · split at h
      · split at h
        · simp at h
        · rename_i bom r2 hx
          have hex := readExact_bytes hx
          split at h
          · rename_i hb
            simp at h
            right; right; left
            refine ⟨h.1.symm, ?_⟩
            rw [hfb.1, hex.1, ← h.2, hb]; rfl
          · split at h
            · rename_i hb
              simp at h
              right; right; right
              refine ⟨h.1.symm, ?_⟩
              rw [hfb.1, hex.1, ← h.2, hb]; rfl
            · simp at h
      · simp at h
        right; left
        exact ⟨h.1.symm, hne, Or.inl (by rw [hfb.1, h.2])⟩

theorem readChunk_enc (r : Rd) (h : r.encoding ≠ .any) : (readChunk r).2.encoding = r.encoding := by
  have := (readChunk_same r h).1
  rw [this]

theorem updateLoop_enc (len f : Nat) : ∀ (r : Rd), r.encoding ≠ .any → (updateLoop len f r).2.encoding = r.encoding := by
  induction f with
  | zero =>
    intro r h
    unfold updateLoop
    split <;> split <;> rfl
  | succ f ih =>
    intro r h
    have hc := readChunk_enc r h
    unfold updateLoop
    split
    · split
      · rfl
      · dsimp only
        generalize readChunk r = c at hc
        obtain ⟨c1, c2⟩ := c
        cases c1 with
        | error => exact hc
        | ok x =>
          cases x with
          | false => exact hc
          | true =>
            dsimp only at hc ⊢
            rw [ih c2 (by rw [hc]; exact h), hc]
    · split <;> rfl

theorem cache_enc (n : Nat) (r : Rd) (h : r.encoding ≠ .any) : (Reader.cache n r).2.encoding = r.encoding := by
  unfold Reader.cache
  split
  · rfl
  · unfold updateBuffer
    split
    · rfl
    · exact updateLoop_enc _ _ _ h

/-- Is it one of the UTF-16 encodings? -/
def Is16 (e : Encoding) : Prop := e = .utf16le ∨ e = .utf16be

theorem Is16.ne {e : Encoding} (h : Is16 e) : e ≠ .any ∧ e ≠ .utf8 := by
  rcases h with rfl | rfl <;> simp

/-- The reader has delivered `out` of the bytes `bs`. -/
def Deliv (bs : List UInt8) (out : List Char) (r : Rd) : Prop :=
  Is16 r.encoding ∨ ((r.eof = true → bytesOf r.items = []) ∧
  ((r.encoding = .utf8 ∧ (bs = utf8Encode (out ++ r.buffer) ++ bytesOf r.items ∨ bs = bom8 ++ utf8Encode (out ++ r.buffer) ++ bytesOf r.items) ∧
      ∀ c ∈ out ++ r.buffer, isAllowed c = true) ∨
    (r.encoding = .any ∧ out = [] ∧ r.buffer = [] ∧ bytesOf r.items = bs ∧ (r.eof = true → bs = []))))

theorem cache_deliv {bs : List UInt8} {out : List Char} {r r' : Rd} {n : Nat} (h : Deliv bs out r) (hc : Reader.cache n r = (none, r')) :
    Deliv bs out r' ∧ (n ≤ r'.buffer.length ∨ r'.eof = true ∨ Is16 r'.encoding) := by
  by_cases h16 : Is16 r.encoding
  · have := cache_enc n r h16.ne.1
    rw [hc] at this
    have this : r'.encoding = r.encoding := this
    rw [← this] at h16
    exact ⟨Or.inl h16, Or.inr (Or.inr h16)⟩
  have h := h.resolve_left h16
  unfold Reader.cache at hc
  split at hc
  · simp at hc; subst hc; exact ⟨Or.inr h, Or.inl (by assumption)⟩
  · unfold updateBuffer at hc
    rw [if_neg (by assumption)] at hc
    have key : ∀ r1 : Rd, (r1.eof = true → bytesOf r1.items = []) → r1.encoding = .utf8 →
        (bs = utf8Encode (out ++ r1.buffer) ++ bytesOf r1.items ∨ bs = bom8 ++ utf8Encode (out ++ r1.buffer) ++ bytesOf r1.items) →
        (∀ c ∈ out ++ r1.buffer, isAllowed c = true) → updateLoop n n r1 = (none, r') →
        Deliv bs out r' ∧ (n ≤ r'.buffer.length ∨ r'.eof = true ∨ Is16 r'.encoding) := by
      intro r1 hf he hbs hal hl
      obtain ⟨cs, h1, h2, h3, h4, h5, h6⟩ := updateLoop_bytes n he hl hf
      refine ⟨Or.inr ⟨h5, Or.inl ⟨h4, ?_, ?_⟩⟩, h6.imp id Or.inl⟩
      · rw [h1, ← List.append_assoc, utf8Encode_append]
        rw [h2] at hbs
        simpa [List.append_assoc] using hbs
      · rw [h1]
        intro c hc
        simp only [List.mem_append] at hc hal
        rcases hc with hc | hc | hc
        · exact hal c (Or.inl hc)
        · exact hal c (Or.inr hc)
        · exact h3 c hc
    split at hc
    · rename_i he
      have h0 : out = [] ∧ r.buffer = [] ∧ bytesOf r.items = bs ∧ (r.eof = true → bs = []) := by
        rcases h.2 with ⟨ha, _⟩ | ⟨_, hb⟩
        · rw [he] at ha; exact absurd ha (by decide)
        · exact hb
      obtain ⟨rfl, hb0, hbs, hbe⟩ := h0
      generalize hd : determineEncoding r.items = d at hc
      obtain ⟨d1, d2⟩ := d
      cases d1 with
      | error e => simp at hc
      | ok oe =>
        have k16 : ∀ e, Is16 e → oe = some e → Deliv bs [] r' ∧ (n ≤ r'.buffer.length ∨ r'.eof = true ∨ Is16 r'.encoding) := by
          rintro e he16 rfl
          dsimp only at hc
          have := updateLoop_enc n n { r with items := d2, encoding := e } he16.ne.1
          rw [hc] at this
          have this : r'.encoding = e := this
          rw [← this] at he16
          exact ⟨Or.inl he16, Or.inr (Or.inr he16)⟩
        rcases determineEncoding_bytes hd with ⟨rfl, g1, g2⟩ | ⟨rfl, g0, g1⟩ | ⟨rfl, g1⟩ | ⟨rfl, g1⟩
        · simp at hc
          subst hc
          exact ⟨Or.inr ⟨fun _ => g2, Or.inr ⟨he, rfl, hb0, by show bytesOf d2 = bs; rw [g2, ← hbs, g1], fun _ => by rw [← hbs, g1]⟩⟩, Or.inr (Or.inl rfl)⟩
        · dsimp only at hc
          refine key _ ?_ rfl ?_ ?_ hc
          · intro hf; exact absurd (by rw [hbs]; exact hbe hf) g0
          · show bs = utf8Encode ([] ++ r.buffer) ++ bytesOf d2 ∨ bs = bom8 ++ utf8Encode ([] ++ r.buffer) ++ bytesOf d2
            rw [hb0, ← hbs]
            simpa [utf8Encode] using g1
          · intro c hc'
            have : c ∈ ([] : List Char) ++ r.buffer := hc'
            rw [hb0] at this; simp at this
        · exact k16 _ (Or.inl rfl) rfl
        · exact k16 _ (Or.inr rfl) rfl
    · rename_i he
      rcases h.2 with ⟨ha, hbs, hal⟩ | ⟨ha, _⟩
      · exact key r h.1 ha hbs hal hc
      · exact absurd ha he

theorem pull_enc : ∀ (ns : List Nat) {r r' : Rd} {o : Except Err (List Char)}, pull ns r = (o, r') →
    (r.encoding ≠ .any → r'.encoding = r.encoding) := by
  intro ns
  induction ns with
  | nil => intro r r' o h _; simp [pull] at h; rw [h.2]
  | cons n ns ih =>
    intro r r' o h he
    have hc := cache_enc n r he
    unfold pull at h
    generalize Reader.cache n r = c at h hc
    obtain ⟨c1, c2⟩ := c
    cases c1 with
    | some e => simp at h; rw [← h.2]; exact hc
    | none =>
      dsimp only at h hc
      generalize hq : pull ns { c2 with buffer := c2.buffer.drop n } = q at h
      obtain ⟨q1, q2⟩ := q
      simp at h
      have := ih hq (by show c2.encoding ≠ _; rw [hc]; exact he)
      rw [← h.2, this, ← hc]

theorem pull_eof : ∀ (ns : List Nat) {r r' : Rd} {new : List Char}, r.eof = true → r.buffer = [] → bytesOf r.items = [] →
    (r.encoding = .any ∨ r.encoding = .utf8) → pull ns r = (.ok new, r') → new = [] ∧ r'.eof = true ∧ r'.buffer = [] := by
  intro ns
  induction ns with
  | nil => intro r r' new h1 h2 _ _ h; simp [pull] at h; obtain ⟨rfl, rfl⟩ := h; exact ⟨rfl, h1, h2⟩
  | cons n ns ih =>
    intro r r' new h1 h2 h3 h4 h
    unfold pull at h
    generalize hc : Reader.cache n r = c at h
    obtain ⟨c1, c2⟩ := c
    cases c1 with
    | some e => simp at h
    | none =>
      have hc2 : c2.eof = true ∧ c2.buffer = [] ∧ bytesOf c2.items = [] ∧ (c2.encoding = .any ∨ c2.encoding = .utf8) := by
        unfold Reader.cache at hc
        split at hc
        · simp at hc; rw [← hc]; exact ⟨h1, h2, h3, h4⟩
        · rename_i hn
          unfold updateBuffer at hc
          rw [if_neg hn] at hc
          split at hc
          · generalize hd : determineEncoding r.items = d at hc
            obtain ⟨d1, d2⟩ := d
            cases d1 with
            | error e => simp at hc
            | ok oe =>
              rcases determineEncoding_bytes hd with ⟨rfl, g1, g2⟩ | ⟨rfl, g0, g1⟩ | ⟨rfl, g1⟩ | ⟨rfl, g1⟩
              · simp at hc; rw [← hc]; exact ⟨rfl, h2, g2, h4⟩
              · exact absurd h3 g0
              · rw [h3] at g1; simp [bom16] at g1
              · rw [h3] at g1; simp [bom16] at g1
          · have hl : updateLoop n n r = (none, r) := by
              have hlt : r.buffer.length < n := by omega
              cases n <;> (unfold updateLoop; rw [if_pos hlt, if_pos h1])
            rw [hl] at hc; simp at hc; rw [← hc]; exact ⟨h1, h2, h3, h4⟩
      dsimp only at h
      generalize hq : pull ns { c2 with buffer := c2.buffer.drop n } = q at h
      obtain ⟨q1, q2⟩ := q
      cases q1 with
      | error e => simp [Except.map] at h
      | ok new' =>
        simp [Except.map] at h
        have := ih (r := { c2 with buffer := c2.buffer.drop n }) hc2.1 (by show c2.buffer.drop n = []; rw [hc2.2.1]; simp) hc2.2.2.1 hc2.2.2.2 hq
        rw [← h.1, ← h.2, hc2.2.1, this.1]
        exact ⟨by simp, this.2⟩

theorem pull_deliv {bs : List UInt8} : ∀ (ns : List Nat) {out new : List Char} {r r' : Rd}, Deliv bs out r → pull ns r = (.ok new, r') →
    Deliv bs (out ++ new) r' ∧ (new.length = ns.sum ∨ (new.length < ns.sum ∧ r'.eof = true ∧ r'.buffer = []) ∨ Is16 r'.encoding) := by
  intro ns
  induction ns with
  | nil => intro out new r r' h hp; simp [pull] at hp; obtain ⟨rfl, rfl⟩ := hp; simpa using h
  | cons n ns ih =>
    intro out new r r' h hp
    unfold pull at hp
    generalize hc : Reader.cache n r = c at hp
    obtain ⟨c1, c2⟩ := c
    cases c1 with
    | some e => simp at hp
    | none =>
      dsimp only at hp
      obtain ⟨hd, hlen⟩ := cache_deliv h hc
      generalize hq : pull ns { c2 with buffer := c2.buffer.drop n } = q at hp
      obtain ⟨q1, q2⟩ := q
      cases q1 with
      | error e => simp [Except.map] at hp
      | ok new' =>
        simp [Except.map] at hp
        obtain ⟨rfl, rfl⟩ := hp
        have hd' : Deliv bs (out ++ c2.buffer.take n) { c2 with buffer := c2.buffer.drop n } := by
          rcases hd with hd | ⟨hd1, hd2⟩
          · exact Or.inl hd
          · right
            refine ⟨hd1, ?_⟩
            rcases hd2 with ⟨g1, g2, g3⟩ | ⟨g1, g2, g3, g4, g5⟩
            · left
              refine ⟨g1, ?_, ?_⟩
              · show bs = utf8Encode (out ++ c2.buffer.take n ++ c2.buffer.drop n) ++ _ ∨ bs = bom8 ++ utf8Encode (out ++ c2.buffer.take n ++ c2.buffer.drop n) ++ _
                rw [List.append_assoc, List.take_append_drop]; exact g2
              · show ∀ c ∈ out ++ c2.buffer.take n ++ c2.buffer.drop n, _
                rw [List.append_assoc, List.take_append_drop]; exact g3
            · right
              exact ⟨g1, by rw [g2, g3]; simp, by show c2.buffer.drop n = []; rw [g3]; simp, g4, g5⟩
        obtain ⟨k1, k2⟩ := ih hd' hq
        refine ⟨by rw [List.append_assoc] at k1; exact k1, ?_⟩
        rcases k2 with k2 | k2 | k2
        · rcases hlen with hl | hl | hl
          · left; simp [k2]; omega
          · by_cases hge : n ≤ c2.buffer.length
            · left; simp [k2]; omega
            · right
              have h1 : (c2.buffer.drop n) = [] := List.drop_eq_nil_of_le (by omega)
              rcases hd' with hd' | ⟨hd1, hd2⟩
              · right
                have := pull_enc ns hq hd'.ne.1
                rw [this]; exact hd'
              · left
                obtain ⟨z1, z2, z3⟩ := pull_eof ns (r := { c2 with buffer := c2.buffer.drop n }) hl h1 (hd1 hl) (hd2.elim (fun h => Or.inr h.1) (fun h => Or.inl h.1)) hq
                rw [z1] at k2 ⊢
                refine ⟨by simp at k2 ⊢; omega, z2, z3⟩
          · right; right
            have := pull_enc ns hq (by exact hl.ne.1)
            rw [this]; exact hl
        · right; left
          refine ⟨?_, k2.2⟩
          simp; omega
        · exact Or.inr (Or.inr k2)

/-! ### UTF-16, one byte at a time -/

theorem readExact_one : ∀ (n : Nat) {items : List SrcItem}, OneByte items → OneByte (readExact n items).2
  | 0, items, h => by simpa [readExact] using h
  | n + 1, [], h => by simpa [readExact] using h
  | n + 1, .intr :: r, h => by
    have := readExact_one (n + 1) (items := r) (fun bs hb => h bs (by simp [hb]))
    simpa [readExact] using this
  | n + 1, .fail _ :: r, h => by
    simp only [readExact]; exact fun bs hb => h bs (by simp [hb])
  | n + 1, .data bs :: r, h => by
    unfold readExact
    split
    · intro cs hc
      simp at hc
      rcases hc with rfl | hc
      · have := h bs (by simp)
        simp; omega
      · exact h cs (by simp [hc])
    · exact readExact_one _ (items := r) (fun cs hb => h cs (by simp [hb]))

theorem fillBufRetry_one : ∀ {items : List SrcItem}, OneByte items → OneByte (fillBufRetry items).2
  | [], h => h
  | .data [] :: r, h => fillBufRetry_one (items := r) (fun bs hb => h bs (by simp [hb]))
  | .data (b :: bs) :: r, h => h
  | .intr :: r, h => fillBufRetry_one (items := r) (fun bs hb => h bs (by simp [hb]))
  | .fail _ :: r, h => fun bs hb => h bs (by simp [fillBufRetry] at hb; simp [hb])

theorem unit16_bytes (be : Bool) {u : Nat} (h : u < 0x10000) : ∃ a b, unitBytes be u = [a, b] ∧ unit16 be a b = u := by
  cases be
  · refine ⟨_, _, rfl, ?_⟩
    simp only [unit16]
    rw [ofNat8 (by omega), ofNat8 (by omega)]; simp; omega
  · refine ⟨_, _, rfl, ?_⟩
    simp only [unit16]
    rw [ofNat8 (by omega), ofNat8 (by omega)]; simp; omega

theorem utf16Encode_cons (be : Bool) (c : Char) (t : List Char) : utf16Encode be (c :: t) = utf16Bytes be c ++ utf16Encode be t := by
  simp [utf16Encode]

theorem utf16Bytes_len (be : Bool) (c : Char) : 2 ≤ (utf16Bytes be c).length := by
  unfold utf16Bytes utf16Units
  cases be <;> (split <;> simp [unitBytes])

theorem decode16_two {u v : Nat} (h1 : 0xD800 ≤ u) (h2 : u < 0xDC00) (h3 : 0xDC00 ≤ v) (h4 : v ≤ 0xDFFF) :
    decode16 [u, v] = some (.ok (Char.ofNat (0x10000 + (u - 0xD800) * 1024 + (v - 0xDC00)), 2)) := by
  have hs : isSurrogate u = true := by
    unfold isSurrogate; rw [Bool.and_eq_true]; exact ⟨decide_eq_true h1, decide_eq_true (by omega)⟩
  unfold decode16
  dsimp only
  rw [hs, if_neg (by decide), if_neg (by omega), if_pos ⟨h3, h4⟩]

theorem units_low {c : Char} (h : c.toNat < 0x10000) : utf16Units c = [c.toNat] ∧ isSurrogate c.toNat = false := by
  have hbd := char_bound c
  refine ⟨by unfold utf16Units; rw [if_pos h], ?_⟩
  unfold isSurrogate
  rw [Bool.and_eq_false_iff]
  rcases hbd with h | h
  · exact Or.inl (decide_eq_false (by omega))
  · exact Or.inr (decide_eq_false (by omega))

theorem units_pair {c : Char} (h : ¬ c.toNat < 0x10000) :
    ∃ u v, utf16Units c = [u, v] ∧ u < 0x10000 ∧ v < 0x10000 ∧ isSurrogate u = true ∧ decode16 [u, v] = some (.ok (c, 2)) := by
  have hbd := char_bound c
  have hu : utf16Units c = [0xD800 + (c.toNat - 0x10000) / 1024, 0xDC00 + (c.toNat - 0x10000) % 1024] := by
    unfold utf16Units; rw [if_neg h]
  obtain ⟨u, eu⟩ : ∃ u, u = 0xD800 + (c.toNat - 0x10000) / 1024 := ⟨_, rfl⟩
  obtain ⟨v, ev⟩ : ∃ v, v = 0xDC00 + (c.toNat - 0x10000) % 1024 := ⟨_, rfl⟩
  rw [← eu, ← ev] at hu
  have e : 0x10000 + (u - 0xD800) * 1024 + (v - 0xDC00) = c.toNat := by omega
  have hc : Char.ofNat c.toNat = c := char_ext (ofNat_toNat' hbd)
  refine ⟨u, v, hu, by omega, by omega, ?_, ?_⟩
  · unfold isSurrogate; rw [Bool.and_eq_true]; exact ⟨decide_eq_true (by omega), decide_eq_true (by omega)⟩
  · rw [decode16_two (by omega) (by omega) (by omega) (by omega), e, hc]

theorem readUtf16Char_text {be : Bool} {e : Encoding} {items : List SrcItem} {c : Char} {t : List Char} (hq : Quiet items)
    (hb : bytesOf items = utf16Encode be (c :: t)) (ha : isAllowed c = true) :
    ∃ r, readUtf16Char be (bare e items) = (none, r) ∧ r.buffer = [c] ∧ Quiet r.items ∧ bytesOf r.items = utf16Encode be t ∧
      (OneByte items → OneByte r.items) := by
  have hbd := char_bound c
  rw [utf16Encode_cons] at hb
  unfold readUtf16Char
  dsimp only [bare]
  obtain ⟨items1, k1, k2, k3⟩ := readExact_quiet 2 hq (by rw [hb]; have := utf16Bytes_len be c; simp; omega)
  have ho1 := readExact_one 2 (items := items)
  rw [k1] at ho1 ⊢
  dsimp only at ho1 ⊢
  by_cases hlow : c.toNat < 0x10000
  · obtain ⟨hun, hsu⟩ := units_low hlow
    have hu : utf16Bytes be c = unitBytes be c.toNat := by simp [utf16Bytes, hun]
    obtain ⟨a, b, h1, h2⟩ := unit16_bytes be hlow
    have ht : (bytesOf items).take 2 = [a, b] := by rw [hb, hu, h1]; simp
    rw [hb, hu, h1] at k2
    rw [ht]
    have g0 : [a, b].getD 0 0 = a := rfl
    have g1 : [a, b].getD 1 0 = b := rfl
    rw [g0, g1, h2, hsu, if_neg (by decide)]
    have hc : Char.ofNat c.toNat = c := char_ext (ofNat_toNat' hbd)
    rw [hc, pushChars_ok _ (cs := [c]) (by simpa using ha)]
    exact ⟨_, rfl, by simp, k3, by simpa using k2, ho1⟩
  · obtain ⟨u, v, hun, hu1, hv1, hsu, hdec⟩ := units_pair hlow
    have hu : utf16Bytes be c = unitBytes be u ++ unitBytes be v := by simp [utf16Bytes, hun]
    obtain ⟨a, b, h1, h2⟩ := unit16_bytes be hu1
    obtain ⟨a', b', h1', h2'⟩ := unit16_bytes be hv1
    have ht : (bytesOf items).take 2 = [a, b] := by rw [hb, hu, h1]; simp
    rw [hb, hu, h1, h1'] at k2
    rw [ht]
    have g0 : [a, b].getD 0 0 = a := rfl
    have g1 : [a, b].getD 1 0 = b := rfl
    have g0' : [a', b'].getD 0 0 = a' := rfl
    have g1' : [a', b'].getD 1 0 = b' := rfl
    have k2 : bytesOf items1 = a' :: b' :: utf16Encode be t := by simpa using k2
    rw [g0, g1, h2, hsu, if_pos rfl]
    obtain ⟨items2, j1, j2, j3⟩ := readExact_quiet 2 k3 (by rw [k2]; simp)
    have ho2 := readExact_one 2 (items := items1)
    rw [j1] at ho2 ⊢
    dsimp only at ho2 ⊢
    have ht' : (bytesOf items1).take 2 = [a', b'] := by rw [k2]; simp
    rw [k2] at j2
    rw [ht', g0', g1', h2']
    rw [hdec]
    dsimp only
    rw [pushChars_ok _ (cs := [c]) (by simpa using ha)]
    exact ⟨_, rfl, by simp, j3, by simpa using j2, fun h => ho2 (ho1 h)⟩

theorem readUtf16_text {be : Bool} {e : Encoding} {items : List SrcItem} {T : List Char} (hq : Quiet items) (ho : OneByte items)
    (hb : bytesOf items = utf16Encode be T) (ha : ∀ c ∈ T, isAllowed c = true) :
    (T = [] ∧ (readUtf16 be (bare e items)).1 = .ok false) ∨
    ∃ c t r, T = c :: t ∧ readUtf16 be (bare e items) = (.ok true, r) ∧ r.buffer = [c] ∧ Quiet r.items ∧ OneByte r.items ∧
      bytesOf r.items = utf16Encode be t := by
  unfold readUtf16
  dsimp only [bare]
  have hof := fillBufRetry_one ho
  rcases fillBufRetry_quiet hq with ⟨h0, hf⟩ | ⟨b, bs, rr, hf, hqr, hbr⟩
  · rw [hf]
    left
    refine ⟨?_, rfl⟩
    cases T with
    | nil => rfl
    | cons c t =>
      rw [h0, utf16Encode_cons] at hb
      have := utf16Bytes_len be c
      have := congrArg List.length hb
      simp at this; omega
  · rw [hf] at hof ⊢
    right
    dsimp only at hof ⊢
    have hone := hof (b :: bs) (by simp)
    have hbs : bs = [] := by simpa using hone
    subst hbs
    have hu : units16 be [b] = [] := by simp [units16]
    rw [hu]
    simp only [List.length_nil, utf16Run, List.map_nil, pushChars, List.sum_nil]
    rw [if_neg (by simp)]
    cases T with
    | nil => rw [hb] at hbr; simp [utf16Encode] at hbr
    | cons c t =>
      obtain ⟨r, h1, h2, h3, h4, h5⟩ := readUtf16Char_text (e := e) (items := .data [b] :: rr) hqr
        (by rw [← hb, hbr]; rfl) (ha c (by simp))
      have h1' : readUtf16Char be { items := .data [b] :: rr, eof := false, buffer := [], encoding := e, offset := 0 } = (none, r) := h1
      rw [h1']
      exact ⟨c, t, r, rfl, rfl, h2, h3, h5 hof, h4⟩

theorem clean_utf16 {be : Bool} {items : List SrcItem} {T : List Char} (hq : Quiet items) (ho : OneByte items)
    (hb : bytesOf items = utf16Encode be T) (ha : ∀ c ∈ T, isAllowed c = true) :
    Clean (if be then .utf16be else .utf16le) items (if be then .utf16be else .utf16le) T := by
  have hr : ∀ items, readChunk (bare (if be then .utf16be else .utf16le) items) = readUtf16 be (bare (if be then .utf16be else .utf16le) items) := by
    intro items; cases be <;> rfl
  have hne : (if be then Encoding.utf16be else .utf16le) ≠ .any := by cases be <;> simp
  induction T generalizing items with
  | nil =>
    rcases readUtf16_text (e := if be then .utf16be else .utf16le) hq ho hb ha with ⟨_, h⟩ | ⟨c, t, r, h, _⟩
    · exact .eof hne (by rw [hr]; exact h)
    · simp at h
  | cons c t ih =>
    rcases readUtf16_text (e := if be then .utf16be else .utf16le) hq ho hb ha with ⟨h, _⟩ | ⟨c', t', r, h, h1, h2, h3, h4, h5⟩
    · simp at h
    · simp at h
      obtain ⟨rfl, rfl⟩ := h
      have := ih h3 h4 h5 (fun c hc => ha c (by simp [hc]))
      have h2' : c :: t = r.buffer ++ t := by rw [h2]; rfl
      rw [h2']
      exact .more hne (by rw [hr]; exact h1) this

theorem clean_bom16 {be : Bool} {items : List SrcItem} {T : List Char} (hq : Quiet items) (hp : Prompt items) (ho : OneByte items)
    (hb : bytesOf items = bom16 be ++ utf16Encode be T) (ha : ∀ c ∈ T, isAllowed c = true) :
    Clean .any items (if be then .utf16be else .utf16le) T := by
  have hne : (if be then Encoding.utf16be else .utf16le) ≠ .any := by cases be <;> simp
  rcases fillBuf_quiet hq hp with ⟨h0, hf⟩ | ⟨b, bs, rr, hf, hqr, hbr⟩
  · rw [hb] at h0; cases be <;> simp [bom16] at h0
  · have hbb : bytesOf (.data (b :: bs) :: rr) = bom16 be ++ utf16Encode be T := by rw [← hb, hbr]; rfl
    have hor : OneByte (.data (b :: bs) :: rr) := by
      have : ∀ {items : List SrcItem}, OneByte items → OneByte (fillBuf items).2 := by
        intro items
        induction items with
        | nil => exact fun h => h
        | cons x xs ih =>
          intro h
          cases x with
          | data bs =>
            cases bs with
            | nil => exact ih (fun bs hb => h bs (by simp [hb]))
            | cons => exact h
          | intr => exact fun bs hb => h bs (by simp [fillBuf] at hb; simp [hb])
          | fail => exact fun bs hb => h bs (by simp [fillBuf] at hb; simp [hb])
      have := this ho
      rw [hf] at this; exact this
    obtain ⟨items', k1, k2, k3⟩ := readExact_quiet 2 (items := .data (b :: bs) :: rr) hqr (by rw [hbb]; cases be <;> simp [bom16])
    have hone := readExact_one 2 hor
    rw [k1] at hone
    rw [hbb] at k1 k2
    refine .determined hne (items' := items') ?_ (clean_utf16 k3 hone (by rw [k2]; cases be <;> simp [bom16]) ha)
    unfold determineEncoding
    rw [hf]
    dsimp only
    rw [hb] at hbr
    rw [k1]
    cases be with
    | false =>
      have h1 : b = 0xFF := by simp [bom16] at hbr; exact hbr.1.symm
      subst h1
      rw [if_neg (by decide), if_pos (by decide)]
      simp [bom16]
    | true =>
      have h1 : b = 0xFE := by simp [bom16] at hbr; exact hbr.1.symm
      subst h1
      rw [if_neg (by decide), if_pos (by decide)]
      simp [bom16]

theorem pull_zero : ∀ (ns : List Nat) {r : Rd}, ns.sum = 0 → pull ns r = (.ok [], r) := by
  intro ns
  induction ns with
  | nil => intro r _; rfl
  | cons n ns ih =>
    intro r h
    simp at h
    have h2 : ns.sum = 0 := h.2
    obtain ⟨rfl, _⟩ := h
    unfold pull
    simp [Reader.cache, ih h2, Except.map]

/-- A clean source is delivered by any way of taking characters. -/
theorem pull_clean {enc : Encoding} : ∀ (ns : List Nat) {r : Rd} {T : List Char} {k : Nat}, RC enc ⟨T, k⟩ r →
    ∃ r', pull ns r = (.ok (T.take ns.sum), r') ∧ (T.length < ns.sum → r'.eof = true ∧ r'.buffer = []) ∧ ∃ k, RC enc ⟨T.drop ns.sum, k⟩ r' := by
  intro ns
  induction ns with
  | nil => intro r T k h; exact ⟨r, by simp [pull], by simp, k, by simpa using h⟩
  | cons n ns ih =>
    intro r T k h
    obtain ⟨r1, h1, h2⟩ := cache_clean n h
    unfold pull
    rw [h1]
    dsimp only
    obtain ⟨t, hc, htext, hcached, heof, henc, hoff⟩ := h2
    have htext : T = r1.buffer ++ t := htext
    have hcached : max k n ≤ r1.buffer.length ∨ r1.eof = true := hcached
    have htake : r1.buffer.take n = T.take n ∧ r1.buffer.drop n ++ t = T.drop n := by
      rw [htext]
      rcases hcached with hl | hl
      · rw [List.take_append_of_le_length (by omega), List.drop_append_of_le_length (by omega)]; exact ⟨rfl, rfl⟩
      · have : t = [] := by rw [heof hl] at hc; exact hc.future.nil
        rw [this]; simp
    have hrc : RC enc ⟨T.drop n, k - n⟩ { r1 with buffer := r1.buffer.drop n } := by
      refine ⟨t, hc, htake.2.symm, ?_, heof, ?_, hoff⟩
      · rcases hcached with hl | hl
        · left; show k - n ≤ (r1.buffer.drop n).length; simp; omega
        · exact Or.inr hl
      · refine henc.imp id ?_
        rintro ⟨g1, g2, g3⟩
        have g3 : max k n = 0 := g3
        exact ⟨g1, by show r1.buffer.drop n = []; rw [g2]; simp, by show k - n = 0; omega⟩
    obtain ⟨r', e1, e2, k', e3⟩ := ih hrc
    rw [e1]
    refine ⟨r', ?_, ?_, k', by simpa [List.drop_drop] using e3⟩
    · simp [Except.map]; rw [htake.1, List.take_add]
    · intro hlt
      by_cases hns : (T.drop n).length < ns.sum
      · exact e2 hns
      · simp at hns hlt
        have hz : ns.sum = 0 := by omega
        rw [pull_zero ns hz] at e1
        simp at e1
        rw [← e1.2]
        rcases hcached with hl | hl
        · have := congrArg List.length htext
          simp at this; omega
        · refine ⟨hl, ?_⟩
          apply List.drop_eq_nil_of_le
          have := congrArg List.length htext
          simp at this; omega

end Yaml
