import Verif.Lib.Read8

/-
C01, C02, C05, C06: what the reader delivers.

A client takes characters with `pull` (Spec/Source.lean): any sequence of look-ahead requests,
each followed by taking that many characters.  `bytesOf`, `Quiet`, `Prompt` describe the
`BufRead`: its bytes, that it reports no error other than `Interrupted`, and that the very
first refill is not `Interrupted` (the encoding detection does not retry).
-/

deriving instance DecidableEq for Except

namespace Yaml.Props
open Yaml

/-- C01.  A text of allowed characters, in UTF-8 with or without a byte order mark (without one
it must not start with a character whose first byte is 0xEF, see `C05_refuted`), in any buffers:
every way of taking characters yields exactly the text. -/
theorem C01_utf8_delivered (items : List SrcItem) (T : List Char) (ns : List Nat)
    (hquiet : Quiet items) (hprompt : Prompt items) (hallowed : ∀ c ∈ T, Allowed c)
    (hbytes : (bytesOf items = utf8Encode T ∧ ∀ c, T.head? = some c → ¬ (0xF000 ≤ c.toNat ∧ c.toNat ≤ 0xFFFF)) ∨
      bytesOf items = bom8 ++ utf8Encode T)
    (hsize : 4 * srcSize items < Reader.maxInput) :
    (pull ns { items := items }).1 = .ok (T.take ns.sum) ∧
    (T.length < ns.sum → (pull ns { items := items }).2.eof = true ∧ (pull ns { items := items }).2.buffer = []) := by
  obtain ⟨e, hc, _⟩ := clean_any hquiet hprompt (fun c hc => allowed_iff.2 (hallowed c hc)) hbytes
  obtain ⟨r', h1, h2, _⟩ := pull_clean ns (RC.start hc hsize)
  rw [h1]
  exact ⟨rfl, h2⟩

/-- C01, with `set_encoding(Utf8)`: nothing is excluded, a byte order mark is text. -/
theorem C01_utf8_delivered_forced (items : List SrcItem) (T : List Char) (ns : List Nat)
    (hquiet : Quiet items) (hallowed : ∀ c ∈ T, Allowed c) (hbytes : bytesOf items = utf8Encode T)
    (hsize : 4 * srcSize items < Reader.maxInput) :
    (pull ns { items := items, encoding := .utf8 }).1 = .ok (T.take ns.sum) ∧
    (T.length < ns.sum → (pull ns { items := items, encoding := .utf8 }).2.eof = true ∧
      (pull ns { items := items, encoding := .utf8 }).2.buffer = []) := by
  obtain ⟨r', h1, h2, _⟩ := pull_clean ns (RC.start (clean_utf8 hquiet hbytes (fun c hc => allowed_iff.2 (hallowed c hc))) hsize)
  rw [h1]
  exact ⟨rfl, h2⟩

/-- A source that splits the two bytes of `é`, with an interruption between them. -/
def splitE : List SrcItem := [.data [0x61, 0xC3], .data [], .intr, .data [0xA9], .data [0x62]]

instance (c : Char) : Decidable (Allowed c) := by unfold Allowed; infer_instance

example : Quiet splitE ∧ Prompt splitE ∧ (∀ c ∈ ['a', 'é', 'b'], Allowed c) ∧ bytesOf splitE = utf8Encode ['a', 'é', 'b'] ∧
    (∀ c, ['a', 'é', 'b'].head? = some c → ¬ (0xF000 ≤ c.toNat ∧ c.toNat ≤ 0xFFFF)) ∧ 4 * srcSize splitE < Reader.maxInput ∧
    (pull [1, 0, 2, 5] { items := splitE }).1 = .ok ['a', 'é', 'b'] := by
  refine ⟨trivial, trivial, by decide, by decide +kernel, ?_, by decide +kernel, by decide +kernel⟩
  rintro c h; simp at h; subst h; decide

/-- C02.  Whatever the source does: if taking characters succeeds up to the end of the input and
the stream was decoded as UTF-8 (or was empty), then the bytes are exactly the UTF-8 encoding of what was
delivered, possibly after a byte order mark, and only allowed characters were delivered.
(`ns.sum` larger than the number of characters delivered means that the end was reached.) -/
theorem C02_nothing_accepted_silently (items : List SrcItem) (enc : Encoding) (ns : List Nat) (out : List Char) (r : Rd)
    (henc : enc = .any ∨ enc = .utf8)
    (h : pull ns { items := items, encoding := enc } = (.ok out, r)) (hend : out.length < ns.sum)
    (h8 : r.encoding = .utf8 ∨ r.encoding = .any) :
    (bytesOf items = utf8Encode out ∨ bytesOf items = bom8 ++ utf8Encode out) ∧ ∀ c ∈ out, Allowed c := by
  have h0 : Deliv (bytesOf items) [] { items := items, encoding := enc } := by
    right
    refine ⟨by simp, ?_⟩
    rcases henc with rfl | rfl
    · right; exact ⟨rfl, rfl, rfl, rfl, by simp⟩
    · left; exact ⟨rfl, Or.inl (by simp [utf8Encode]), by simp⟩
  obtain ⟨hd, hl⟩ := pull_deliv ns h0 h
  have n16 : ¬ Is16 r.encoding := by
    intro h16
    rcases h8 with h8 | h8
    · exact h16.ne.2 h8
    · exact h16.ne.1 h8
  rcases hl with hl | ⟨_, he, hb⟩ | hl
  · omega
  · rcases hd with hd | ⟨hd1, hd2⟩
    · exact absurd hd n16
    · have hi := hd1 he
      rcases hd2 with ⟨_, h2, h3⟩ | ⟨_, h2, h3, h4, h5⟩
      · rw [hb, hi] at h2
        rw [hb] at h3
        simp only [List.nil_append, List.append_nil] at h2 h3
        exact ⟨h2, fun c hc => allowed_iff.1 (h3 c hc)⟩
      · have : out = [] := by simpa using h2
        subst this
        rw [h5 he]
        exact ⟨Or.inl (by simp [utf8Encode]), by simp⟩
  · exact absurd hl n16

/-- The hypotheses of C02 are met by a source with a byte order mark. -/
example : ∃ out r, pull [10] { items := [.data [0xEF], .data [0xBB, 0xBF, 0x61]], encoding := .any } = (.ok out, r) ∧
    out.length < [10].sum ∧ r.encoding = .utf8 ∧ out = ['a'] := by
  refine ⟨['a'], (pull [10] { items := [.data [0xEF], .data [0xBB, 0xBF, 0x61]], encoding := .any }).2, ?_⟩
  decide +kernel

/-- And malformed or forbidden input is an error: a stray continuation byte, a truncated
character, a surrogate, an overlong form, a control character. -/
example : (pull [9] { items := [.data [0x61, 0x80]] }).1 ≠ .ok ['a'] ∧ (∀ o, (pull [9] { items := [.data [0xE2, 0x82]] }).1 ≠ .ok o) ∧
    (∀ o, (pull [9] { items := [.data [0xED, 0xA0, 0x80]] }).1 ≠ .ok o) ∧ (∀ o, (pull [9] { items := [.data [0xC0, 0xAF]] }).1 ≠ .ok o) ∧
    (∀ o, (pull [9] { items := [.data [0x07]] }).1 ≠ .ok o) := by
  have e : ∀ x : Except Err (List Char), (match x with | .ok _ => false | .error _ => true) = true → ∀ o, x ≠ .ok o := by
    rintro x h o rfl; simp at h
  exact ⟨by decide +kernel, e _ (by decide +kernel), e _ (by decide +kernel), e _ (by decide +kernel), e _ (by decide +kernel)⟩

/-- C05 (part).  What the first request for a character decides.  Missing from the full claim: an
input whose first byte is 0xEF without being a byte order mark, see `C05_refuted`. -/
theorem C05_encoding_detection_partial (items : List SrcItem) (n : Nat) (hn : 0 < n) (hquiet : Quiet items) (hprompt : Prompt items) :
    (bytesOf items = [] → Reader.cache n { items := items } = (none, { items := [], eof := true })) ∧
    (∀ rest, bytesOf items = [0xFF, 0xFE] ++ rest → (Reader.cache n { items := items }).2.encoding = .utf16le) ∧
    (∀ rest, bytesOf items = [0xFE, 0xFF] ++ rest → (Reader.cache n { items := items }).2.encoding = .utf16be) ∧
    (∀ rest, bytesOf items = bom8 ++ rest → ∃ items', bytesOf items' = rest ∧ Quiet items' ∧
      Reader.cache n { items := items } = Reader.cache n { items := items', encoding := .utf8 }) ∧
    (∀ b rest, bytesOf items = b :: rest → b ≠ 0xEF → b ≠ 0xFF → b ≠ 0xFE → ∃ items', bytesOf items' = bytesOf items ∧ Quiet items' ∧
      Reader.cache n { items := items } = Reader.cache n { items := items', encoding := .utf8 }) := by
  have start : ∀ r : Rd, r.buffer = [] → Reader.cache n r = Reader.updateBuffer n r := by
    intro r hb
    unfold Reader.cache; rw [if_neg (by rw [hb]; simp; omega)]
  have det : ∀ items' e, e ≠ .any → Reader.determineEncoding items = (.ok (some e), items') →
      Reader.cache n { items := items } = Reader.cache n { items := items', encoding := e } := by
    intro items' e he hd
    rw [start _ rfl, start _ rfl]
    unfold Reader.updateBuffer
    rw [if_neg (by simp; omega), if_pos rfl, if_neg (by simp; omega), if_neg (by simpa using he)]
    dsimp only
    rw [hd]
  have d16 : ∀ be rest, bytesOf items = bom16 be ++ rest → ∃ items',
      Reader.determineEncoding items = (.ok (some (if be then .utf16be else .utf16le)), items') := by
    intro be rest hb
    rcases fillBuf_quiet hquiet hprompt with ⟨h0, hf⟩ | ⟨b, bs, rr, hf, hqr, hbr⟩
    · rw [hb] at h0; cases be <;> simp [bom16] at h0
    · obtain ⟨items', k1, k2, k3⟩ := readExact_quiet 2 (items := .data (b :: bs) :: rr) hqr
        (by show 2 ≤ (b :: bs ++ bytesOf rr).length; rw [← hbr, hb]; cases be <;> simp [bom16])
      have hbb : bytesOf (.data (b :: bs) :: rr) = bom16 be ++ rest := by rw [← hb, hbr]; rfl
      rw [hbb] at k1
      refine ⟨items', ?_⟩
      unfold Reader.determineEncoding
      rw [hf]
      dsimp only
      rw [hb] at hbr
      rw [k1]
      cases be with
      | false =>
        have h1 : b = 0xFF := by simp [bom16] at hbr; exact hbr.1.symm
        subst h1
        rw [if_neg (by decide), if_pos (by decide)]
        simp [bom16]
      | true =>
        have h1 : b = 0xFE := by simp [bom16] at hbr; exact hbr.1.symm
        subst h1
        rw [if_neg (by decide), if_pos (by decide)]
        simp [bom16]
  refine ⟨?_, ?_, ?_, ?_, ?_⟩
  · intro h0
    rcases fillBuf_quiet hquiet hprompt with ⟨_, hf⟩ | ⟨b, bs, rr, hf, hqr, hbr⟩
    · rw [start _ rfl]
      unfold Reader.updateBuffer
      rw [if_neg (by simp; omega), if_pos rfl]
      dsimp only
      unfold Reader.determineEncoding
      rw [hf]
    · rw [h0] at hbr; simp at hbr
  · intro rest hb
    obtain ⟨items', hd⟩ := d16 false rest hb
    rw [det items' _ (by simp) hd]
    exact cache_enc _ _ (by simp)
  · intro rest hb
    obtain ⟨items', hd⟩ := d16 true rest hb
    rw [det items' _ (by simp) hd]
    exact cache_enc _ _ (by simp)
  · intro rest hb
    rcases fillBuf_quiet hquiet hprompt with ⟨h0, hf⟩ | ⟨b, bs, rr, hf, hqr, hbr⟩
    · rw [hb] at h0; simp [bom8] at h0
    · have hbb : bytesOf (.data (b :: bs) :: rr) = bom8 ++ rest := by rw [← hb, hbr]; rfl
      obtain ⟨items', k1, k2, k3⟩ := readExact_quiet 3 (items := .data (b :: bs) :: rr) hqr (by rw [hbb]; simp [bom8])
      rw [hbb] at k1 k2
      refine ⟨items', by rw [k2]; simp [bom8], k3, det items' .utf8 (by simp) ?_⟩
      unfold Reader.determineEncoding
      rw [hf]
      dsimp only
      rw [hb] at hbr
      have h1 : b = 0xEF := by simp [bom8] at hbr; exact hbr.1.symm
      rw [k1]
      subst h1
      rw [if_pos (by decide)]
      simp [bom8]
  · intro b0 rest hb h1 h2 h3
    rcases fillBuf_quiet hquiet hprompt with ⟨h0, hf⟩ | ⟨b, bs, rr, hf, hqr, hbr⟩
    · rw [hb] at h0; simp at h0
    · refine ⟨.data (b :: bs) :: rr, by rw [hbr]; rfl, hqr, det _ .utf8 (by simp) ?_⟩
      have hbb : b0 = b := by rw [hb] at hbr; simp at hbr; exact hbr.1
      subst hbb
      have k : ∀ k : Nat, k < 256 → b0 ≠ UInt8.ofNat k → b0.toNat ≠ k := by
        intro k hk hne he
        exact hne (uint8_ext (by rw [he, ofNat8 hk]))
      unfold Reader.determineEncoding
      rw [hf]
      dsimp only
      rw [if_neg (k 0xEF (by omega) h1), if_neg (by have := k 0xFF (by omega) h2; have := k 0xFE (by omega) h3; omega)]

example : Quiet [.data [0xFF], .data [0xFE, 0x61, 0x00]] ∧ Prompt [.data [0xFF], .data [0xFE, 0x61, 0x00]] ∧
    bytesOf [.data [0xFF], .data [0xFE, 0x61, 0x00]] = [0xFF, 0xFE] ++ [0x61, 0x00] := by
  exact ⟨trivial, trivial, by decide⟩

/-- C05 is false in full: the text U+F000, which is allowed, encoded in UTF-8 without byte order
mark (0xEF 0x80 0x80) is rejected as a bad byte order mark (reader.rs lines 23-30). -/
theorem C05_refuted : Allowed '\uF000' ∧ bytesOf [.data [0xEF, 0x80, 0x80]] = utf8Encode ['\uF000'] ∧
    (Reader.cache 1 { items := [.data [0xEF, 0x80, 0x80]] }).1 = some (.reader "invalid byte order marker" 0 (-276791296)) := by
  decide +kernel

/-- C06 (part).  UTF-16 after a byte order mark is delivered unchanged if the `BufRead` hands out
at most one byte at a time.  With larger buffers the claim is false, see `C06_refuted`. -/
theorem C06_utf16_delivered_partial (be : Bool) (items : List SrcItem) (T : List Char) (ns : List Nat)
    (hquiet : Quiet items) (hprompt : Prompt items) (hone : OneByte items) (hallowed : ∀ c ∈ T, Allowed c)
    (hbytes : bytesOf items = bom16 be ++ utf16Encode be T) (hsize : 4 * srcSize items < Reader.maxInput) :
    (pull ns { items := items }).1 = .ok (T.take ns.sum) ∧
    (T.length < ns.sum → (pull ns { items := items }).2.eof = true ∧ (pull ns { items := items }).2.buffer = []) := by
  obtain ⟨r', h1, h2, _⟩ := pull_clean ns (RC.start (clean_bom16 hquiet hprompt hone hbytes (fun c hc => allowed_iff.2 (hallowed c hc))) hsize)
  rw [h1]
  exact ⟨rfl, h2⟩

/-- `a` and U+1F600 in UTF-16LE, byte by byte. -/
def bytewise : List SrcItem := [0xFF, 0xFE, 0x61, 0x00, 0x3D, 0xD8, 0x00, 0xDE].map (fun b => .data [b])

example : Quiet bytewise ∧ Prompt bytewise ∧ OneByte bytewise ∧ bytesOf bytewise = bom16 false ++ utf16Encode false ['a', Char.ofNat 0x1F600] ∧
    4 * srcSize bytewise < Reader.maxInput := by
  refine ⟨trivial, trivial, ?_, by decide +kernel, by decide +kernel⟩
  intro bs h
  simp [bytewise] at h
  rcases h with rfl | rfl | rfl | rfl | rfl | rfl | rfl | rfl <;> simp

/-- C06 is false in full: the text `ab` in UTF-16LE, in one buffer, is delivered as something
else (`read_utf16_buffered` consumes 16-bit units as if they were bytes, reader.rs lines 178-188). -/
theorem C06_refuted : bytesOf [.data [0xFF, 0xFE, 0x61, 0x00, 0x62, 0x00]] = bom16 false ++ utf16Encode false ['a', 'b'] ∧
    (pull [10] { items := [.data [0xFF, 0xFE, 0x61, 0x00, 0x62, 0x00]] }).1 ≠ .ok ['a', 'b'] := by
  decide +kernel

end Yaml.Props
