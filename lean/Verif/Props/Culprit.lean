import Verif.Lib.Honest2
import Verif.Props.Reader

/-
C65: reading errors have the causes they name, and every cause is found.
-/

namespace Yaml.Cu
open Yaml Yaml.Spec
set_option linter.unusedSimpArgs false
set_option linter.unusedVariables false

/-! ### Taking characters -/

/-- What taking characters does. -/
def Pulled (items0 : List SrcItem) (enc : Encoding) (T : List Char) (n : Nat) : Except Err (List Char) × Rd → Prop
  | (.ok out, r') => Here items0 enc (T ++ out) r' ∧ (out.length = n ∨ (r'.eof = true ∧ r'.buffer = [] ∧ bytesOf r'.items = []))
  | (.error e, _) => ReadFault items0 enc e

theorem Here.empty {items0 : List SrcItem} {enc : Encoding} {T : List Char} {r : Rd} (h : Here items0 enc T r) (he : r.eof = true) : bytesOf r.items = [] := by
  rcases h with ⟨_, _, h⟩ | h
  · rcases h.items with ⟨_, h⟩ | ⟨h, _⟩
    · rw [he] at h; simp at h
    · rw [h]; rfl
  · exact h.eof he

/-- Once the end was met, it stays. -/
theorem cache_end {items0 : List SrcItem} {enc : Encoding} {T : List Char} {r : Rd} (h : Here items0 enc T r) (he : r.eof = true) (hb : r.buffer = []) (n : Nat) :
    (∃ e, (Reader.cache n r).1 = some e) ∨ ((Reader.cache n r).1 = none ∧ (Reader.cache n r).2.eof = true ∧ (Reader.cache n r).2.buffer = []) := by
  unfold Reader.cache Reader.updateBuffer
  split
  · exact .inr ⟨rfl, he, hb⟩
  · split
    · rename_i hany
      rcases h with ⟨_, _, h⟩ | h
      · rcases h.items with ⟨_, h⟩ | ⟨h, _⟩
        · rw [he] at h; simp at h
        · rw [h]
          exact .inr ⟨rfl, rfl, hb⟩
      · rw [h.enc] at hany; simp at hany
    · unfold Reader.updateLoop
      split
      · exact .inr ⟨rfl, he, hb⟩
      · split
        · exact .inl ⟨_, rfl⟩
        · exact .inr ⟨rfl, he, hb⟩

theorem pull_here {items0 : List SrcItem} {enc : Encoding} (h8 : Utf8Stream enc (bytesOf items0)) : ∀ (ns : List Nat) {r : Rd} {T : List Char}, Here items0 enc T r →
    Pulled items0 enc T ns.sum (pull ns r) ∧ (r.eof = true → r.buffer = [] → ∀ out r', pull ns r = (.ok out, r') → r'.eof = true ∧ r'.buffer = [])
  | [], r, T, h => by
    refine ⟨?_, ?_⟩
    · simp only [pull]
      exact ⟨by simpa using h, .inl rfl⟩
    · intro he hb out r' hp
      simp only [pull, Prod.mk.injEq] at hp
      rw [← hp.2]; exact ⟨he, hb⟩
  | n :: ns, r, T, h => by
    have hc := cache_here h8 h n
    have hend := fun he hb => cache_end h he hb n
    unfold pull
    generalize Reader.cache n r = q at hc hend
    obtain ⟨x, r1⟩ := q
    cases x with
    | some e =>
      refine ⟨hc, ?_⟩
      intro _ _ out r' hp
      simp at hp
    | none =>
      obtain ⟨h1, h2⟩ := hc
      obtain ⟨ih, ih2⟩ := pull_here h8 ns (h1.take n)
      dsimp only
      generalize hpp : pull ns { r1 with buffer := r1.buffer.drop n } = p at ih ih2
      obtain ⟨p1, p2⟩ := p
      cases p1 with
      | error e => exact ⟨ih, fun _ _ out r' hp => by simp [Except.map] at hp⟩
      | ok out =>
        obtain ⟨k1, k2⟩ := ih
        refine ⟨⟨by simpa using k1, ?_⟩, ?_⟩
        · by_cases hn : n ≤ r1.buffer.length
          · rcases k2 with k2 | k2
            · left
              simp only [List.length_append, List.length_take, List.sum_cons]; omega
            · exact .inr k2
          · have he : r1.eof = true := by
              rcases h2 with h2 | h2
              · exact absurd h2 hn
              · exact h2
            obtain ⟨m1, m2⟩ := ih2 he (by show r1.buffer.drop n = []; simp; omega) out p2 rfl
            exact .inr ⟨m1, m2, k1.empty m1⟩
        · intro he hb out' r' hp
          simp only [Except.map, Prod.mk.injEq] at hp
          obtain ⟨_, rfl⟩ := hp
          rcases hend he hb with ⟨e, h'⟩ | ⟨_, e1, e2⟩
          · simp at h'
          · exact ih2 e1 (by show r1.buffer.drop n = []; rw [show r1.buffer = [] from e2]; simp) out p2 rfl

/-! ### The first bad place is unique -/

theorem bytes_inj {c d : Char} {x y : List UInt8} (h : utf8Bytes c ++ x = utf8Bytes d ++ y) : c = d ∧ x = y := by
  obtain ⟨b, t, h1, h2⟩ := decodeOne_encode c x
  obtain ⟨b', t', h3, h4⟩ := decodeOne_encode d y
  rw [h1, h3] at h
  simp only [List.cons_append, List.cons.injEq] at h
  obtain ⟨rfl, h⟩ := h
  rw [h, h4] at h2
  simp only [Dec.char.injEq] at h2
  exact ⟨h2.1.symm, h2.2.symm⟩

/-- Two ways of cutting the same bytes behind a text. -/
theorem two_texts : ∀ (T' T : List Char) {X Y : List UInt8}, utf8Encode T' ++ X = utf8Encode T ++ Y →
    (∃ U, T = T' ++ U ∧ X = utf8Encode U ++ Y) ∨ ∃ c U, T' = T ++ c :: U ∧ Y = utf8Bytes c ++ (utf8Encode U ++ X)
  | [], T, X, Y, h => .inl ⟨T, rfl, by simpa [utf8Encode] using h⟩
  | c :: T', [], X, Y, h => .inr ⟨c, T', rfl, by rw [utf8Encode_cons] at h; simpa [utf8Encode] using h.symm⟩
  | c :: T', d :: T, X, Y, h => by
    rw [utf8Encode_cons, utf8Encode_cons, List.append_assoc, List.append_assoc] at h
    have hi := bytes_inj h
    obtain ⟨rfl, hi⟩ := hi
    rcases two_texts T' T hi with ⟨U, h1, h2⟩ | ⟨e, U, h1, h2⟩
    · exact .inl ⟨U, by rw [h1]; rfl, h2⟩
    · exact .inr ⟨e, U, by rw [h1]; rfl, h2⟩

/-- An acceptable text, and bytes that do not begin with an allowed character. -/
structure FirstBad (S : List UInt8) (T : List Char) (Y : List UInt8) : Prop where
  bytes : S = utf8Encode T ++ Y
  good : ∀ t ∈ T, Allowed t
  some : Y ≠ []
  bad : ∀ c X, Y = utf8Bytes c ++ X → ¬ Allowed c

theorem FirstBad.prefix {S : List UInt8} {T T' : List Char} {X Y : List UInt8} (h : FirstBad S T Y) (h' : S = utf8Encode T' ++ X) (hg : ∀ t ∈ T', Allowed t) :
    ∃ U, T = T' ++ U ∧ X = utf8Encode U ++ Y := by
  rcases two_texts T' T (h'.symm.trans h.bytes) with h1 | ⟨c, U, h1, h2⟩
  · exact h1
  · exact absurd (hg c (by rw [h1]; simp)) (h.bad c _ h2)

/-- Taking more than the text before the bad place fails, and with which errors. -/
theorem pull_found {items : List SrcItem} {enc : Encoding} {T : List Char} {Y : List UInt8} {ns : List Nat} (hq : Quiet items) (hp : enc = .any → Prompt items)
    (h8 : Plain8 enc (bytesOf items)) (hS : FirstBad (textBytes enc (bytesOf items)) T Y) (hn : T.length < ns.sum) :
    ∃ e r, pull ns { items := items, encoding := enc } = (.error e, r) ∧
      ((∃ p off v, Culprit (textBytes enc (bytesOf items)) p off v ∧ e = .reader p off v) ∨ (e = .io .unexpectedEof ∧ CutOff (textBytes enc (bytesOf items)))) := by
  have h8' : Utf8Stream enc (bytesOf items) := by
    rcases h8 with h | ⟨h, h'⟩
    · exact .inl h
    · refine .inr ⟨h, ?_⟩
      rintro be ⟨x, hx⟩
      rcases h' with ⟨y, hy⟩ | h'
      · rw [← hx] at hy; cases be <;> simp [bom8, bom16] at hy
      · cases be
        · exact (h' 0xFF (by rw [← hx]; rfl)).2.2 rfl
        · exact (h' 0xFE (by rw [← hx]; rfl)).2.1 rfl
  have hq' : ∀ {items : List SrcItem}, Quiet items → ∀ k, .fail k ∉ items := by
    intro items
    induction items with
    | nil => simp
    | cons x xs ih =>
      intro hq k hk
      cases x with
      | fail k' => exact hq
      | data d =>
        rcases List.mem_cons.1 hk with h | h
        · simp at h
        · exact ih hq k h
      | intr =>
        rcases List.mem_cons.1 hk with h | h
        · simp at h
        · exact ih hq k h
  have hpl := (pull_here h8' ns (Here.start h8')).1
  have nofirst : ∀ {b t}, enc = .any → bytesOf items = b :: t → b = 0xEF ∨ b = 0xFE ∨ b = 0xFF → ∃ rest, bytesOf items = bom8 ++ rest := by
    intro b t ha hb hbb
    rcases h8 with h | ⟨_, ⟨y, hy⟩ | h⟩
    · rw [ha] at h; simp at h
    · exact ⟨y, hy.symm⟩
    · have := h b (by rw [hb]; rfl)
      rcases hbb with h | h | h
      · exact absurd h this.1
      · exact absurd h this.2.1
      · exact absurd h this.2.2
  generalize pull ns { items := items, encoding := enc } = q at hpl
  obtain ⟨q1, q2⟩ := q
  cases q1 with
  | ok out =>
    exfalso
    obtain ⟨k1, k2⟩ := hpl
    simp only [List.nil_append] at k1
    rcases k1 with ⟨ha, ho, hF⟩ | hT
    · subst ho
      rcases k2 with k2 | ⟨he, _, hb⟩
      · simp only [List.length_nil] at k2; omega
      · rcases hF.items with ⟨hi, he'⟩ | ⟨_, hi⟩
        · rw [he] at he'; simp at he'
        · have := hS.bytes
          rw [hi, ha] at this
          have : ([] : List UInt8) = utf8Encode T ++ Y := this
          exact hS.some (List.append_eq_nil_iff.1 this.symm).2
    · obtain ⟨U, e1, e2⟩ := hS.prefix (T' := out) (X := utf8Encode q2.buffer ++ bytesOf q2.items) (by rw [hT.bytes, utf8Encode_append, List.append_assoc])
        (fun c hc => allowed_iff.1 (hT.good c (by simp [hc])))
      rcases k2 with k2 | ⟨_, hb1, hb2⟩
      · rw [e1] at hn; simp only [List.length_append] at hn; omega
      · rw [hb1, hb2] at e2
        exact hS.some (List.append_eq_nil_iff.1 e2.symm).2
  | error e =>
    refine ⟨e, q2, rfl, ?_⟩
    cases hpl with
    | text h => exact .inl ⟨_, _, _, h, rfl⟩
    | cut h => exact .inr ⟨rfl, h⟩
    | failed h => exact absurd h (hq' hq _)
    | interrupted ha h => exact absurd (hp ha) h
    | bom3 ha hb hne =>
      obtain ⟨rest, hr⟩ := nofirst ha hb (.inl rfl)
      rw [hr] at hb
      simp [bom8] at hb
      exact absurd ⟨hb.1.symm, hb.2.1.symm⟩ hne
    | bom2 ha hb hbb =>
      obtain ⟨rest, hr⟩ := nofirst ha hb (.inr hbb.symm)
      rw [hr] at hb
      simp [bom8] at hb
      rcases hbb with rfl | rfl <;> simp at hb
    | cutBom ha hb hbb hl =>
      obtain ⟨rest, hr⟩ := nofirst ha hb (hbb.elim (fun h => .inl h.1) fun h => .inr h.1.symm)
      rw [hr] at hb
      simp [bom8] at hb
      rcases hbb with h | ⟨h | h, _⟩
      · rw [← hb.2, h.2] at hl; simp at hl; omega
      · rw [h] at hb; simp at hb
      · rw [h] at hb; simp at hb

/-! ### What the first bad place is -/

theorem FirstBad.forbidden {S : List UInt8} {T : List Char} {c : Char} {rest : List UInt8} (h : S = utf8Encode T ++ utf8Bytes c ++ rest) (hT : ∀ t ∈ T, Allowed t) (hc : ¬ Allowed c) :
    FirstBad S T (utf8Bytes c ++ rest) := by
  refine ⟨by rw [h, List.append_assoc], hT, by simp [utf8Bytes_ne], ?_⟩
  intro d X hd
  rw [← (bytes_inj hd).1]
  exact hc

theorem FirstBad.malformed {S : List UInt8} {T : List Char} {b : UInt8} {rest : List UInt8} (h : S = utf8Encode T ++ b :: rest) (hT : ∀ t ∈ T, Allowed t)
    (hc : ∀ c, ¬ utf8Bytes c <+: b :: rest) : FirstBad S T (b :: rest) :=
  ⟨h, hT, by simp, fun d X hd => absurd ⟨X, hd.symm⟩ (hc d)⟩

theorem culprit_forbidden {S : List UInt8} {T : List Char} {c : Char} {rest : List UInt8} (h : S = utf8Encode T ++ utf8Bytes c ++ rest) (hT : ∀ t ∈ T, Allowed t) (hc : ¬ Allowed c)
    (hsz : S.length < 9223372036854775807) {p : String} {off : Nat} {v : Int} (hp : Culprit S p off v) :
    p = "control characters are not allowed" ∧ off = (utf8Encode T).length ∧ v = c.toNat := by
  have hF := FirstBad.forbidden h hT hc
  cases hp with
  | forbidden h1 h2 h3 =>
    rename_i T' c' rest'
    obtain ⟨U, e1, e2⟩ := hF.prefix (T' := T') (X := utf8Bytes c' ++ rest') (by rw [h1, List.append_assoc]) h2
    cases U with
    | nil =>
      simp only [List.append_nil] at e1
      subst e1
      obtain ⟨rfl, _⟩ := bytes_inj e2
      exact ⟨rfl, rfl, rfl⟩
    | cons u U =>
      rw [utf8Encode_cons, List.append_assoc] at e2
      obtain ⟨rfl, _⟩ := bytes_inj e2
      exact absurd (hT c' (by rw [e1]; simp)) h3
  | malformed h1 h2 h3 =>
    rename_i T' b rest'
    obtain ⟨U, e1, e2⟩ := hF.prefix (T' := T') (X := b :: rest') h1 h2
    cases U with
    | nil => exact absurd ⟨_, e2.symm⟩ (h3 c)
    | cons u U =>
      rw [utf8Encode_cons, List.append_assoc] at e2
      exact absurd ⟨_, e2.symm⟩ (h3 u)
  | tooLong h1 h2 h3 =>
    rw [h1] at hsz
    simp only [List.length_append] at hsz
    omega

theorem culprit_malformed {S : List UInt8} {T : List Char} {b : UInt8} {rest : List UInt8} (h : S = utf8Encode T ++ b :: rest) (hT : ∀ t ∈ T, Allowed t)
    (hc : ∀ c, ¬ utf8Bytes c <+: b :: rest) (hsz : S.length < 9223372036854775807) {p : String} {off : Nat} {v : Int} (hp : Culprit S p off v) :
    p = "invalid UTF-8" ∧ off = (utf8Encode T).length ∧ v = b.toNat := by
  have hF := FirstBad.malformed h hT hc
  cases hp with
  | forbidden h1 h2 h3 =>
    rename_i T' c' rest'
    obtain ⟨U, e1, e2⟩ := hF.prefix (T' := T') (X := utf8Bytes c' ++ rest') (by rw [h1, List.append_assoc]) h2
    cases U with
    | nil => exact absurd ⟨_, e2⟩ (hc c')
    | cons u U =>
      rw [utf8Encode_cons, List.append_assoc] at e2
      obtain ⟨rfl, _⟩ := bytes_inj e2
      exact absurd (hT c' (by rw [e1]; simp)) h3
  | malformed h1 h2 h3 =>
    rename_i T' b' rest'
    obtain ⟨U, e1, e2⟩ := hF.prefix (T' := T') (X := b' :: rest') h1 h2
    cases U with
    | nil =>
      simp only [List.append_nil] at e1
      subst e1
      have e2 : b' :: rest' = b :: rest := e2
      obtain ⟨rfl, _⟩ := List.cons.inj e2
      exact ⟨rfl, rfl, rfl⟩
    | cons u U =>
      rw [utf8Encode_cons, List.append_assoc] at e2
      exact absurd ⟨_, e2.symm⟩ (h3 u)
  | tooLong h1 h2 h3 =>
    rw [h1] at hsz
    simp only [List.length_append] at hsz
    omega

theorem not_cut_forbidden {S : List UInt8} {T : List Char} {c : Char} {rest : List UInt8} (h : S = utf8Encode T ++ utf8Bytes c ++ rest) (hT : ∀ t ∈ T, Allowed t) (hc : ¬ Allowed c) :
    ¬ CutOff S := by
  rintro ⟨T', b, t, h1, h2, _, h4⟩
  obtain ⟨U, e1, e2⟩ := (FirstBad.forbidden h hT hc).prefix h1 h2
  have : ∃ d X, b :: t = utf8Bytes d ++ X := by
    cases U with
    | nil => exact ⟨c, rest, e2⟩
    | cons u U => exact ⟨u, _, by rw [e2, utf8Encode_cons, List.append_assoc]⟩
  obtain ⟨d, X, hd⟩ := this
  obtain ⟨b', q, hq, _⟩ := decodeOne_encode d []
  rw [hq] at hd
  simp only [List.cons_append, List.cons.injEq] at hd
  obtain ⟨rfl, hd⟩ := hd
  have := h4 d q hq
  rw [hd] at this
  simp only [List.length_append] at this
  omega

theorem cut_malformed {S : List UInt8} {T : List Char} {b : UInt8} {rest : List UInt8} (h : S = utf8Encode T ++ b :: rest) (hT : ∀ t ∈ T, Allowed t)
    (hc : ∀ c, ¬ utf8Bytes c <+: b :: rest) (hcut : CutOff S) : ∀ c q, utf8Bytes c = b :: q → rest.length < q.length := by
  obtain ⟨T', b', t, h1, h2, _, h4⟩ := hcut
  obtain ⟨U, e1, e2⟩ := (FirstBad.malformed h hT hc).prefix h1 h2
  cases U with
  | nil =>
    have e2 : b' :: t = b :: rest := e2
    obtain ⟨rfl, rfl⟩ := List.cons.inj e2
    exact h4
  | cons u U =>
    rw [utf8Encode_cons, List.append_assoc] at e2
    obtain ⟨b'', q, hq, _⟩ := decodeOne_encode u []
    rw [hq] at e2
    simp only [List.cons_append, List.cons.injEq] at e2
    obtain ⟨rfl, hd⟩ := e2
    have := h4 u q hq
    rw [hd] at this
    simp only [List.length_append] at this
    omega

/-! ### Runs -/

variable {F : Nat} {items0 : List SrcItem} {enc : Encoding}

theorem scan_here (h8 : Utf8Stream enc (bytesOf items0)) {o : ScannerObj} {T : List Char} (h : Here items0 enc T o.r) :
    (∀ t o', o.scan F = (.ok t, o') → ∃ T', Here items0 enc T' o'.r) ∧ ∀ e o', o.scan F = (.err e, o') → ReadFault items0 enc e ∨ Own e := by
  obtain ⟨h1, h2⟩ := run_told h8 (m := Scanner.scan F) (s := o.s) h
  unfold ScannerObj.scan
  refine ⟨?_, ?_⟩
  · intro t o' he
    simp only [Prod.mk.injEq] at he
    rw [← he.2]
    exact h1 t he.1
  · intro e o' he
    simp only [Prod.mk.injEq] at he
    exact h2 e he.1

theorem parser_here (h8 : Utf8Stream enc (bytesOf items0)) {α : Type} {m : Pars α} [Honest m] {o : ParserObj} {T : List Char} (h : Here items0 enc T o.r) :
    (∀ t o', o.run F m = (.ok t, o') → ∃ T', Here items0 enc T' o'.r) ∧ ∀ e o', o.run F m = (.err e, o') → ReadFault items0 enc e ∨ Own e := by
  obtain ⟨h1, h2⟩ := run_told h8 (m := Parser.onScanner F m) (s := (o.p, o.s)) h
  unfold ParserObj.run
  refine ⟨?_, ?_⟩
  · intro t o' he
    simp only [Prod.mk.injEq] at he
    rw [← he.2]
    exact h1 t he.1
  · intro e o' he
    simp only [Prod.mk.injEq] at he
    exact h2 e he.1

theorem reads_here (h8 : Utf8Stream enc (bytesOf items0)) {ts : List Token} {o : ScannerObj} (h : ScannerObj.Reads F (ScannerObj.new items0 enc) ts o) :
    ∃ T, Here items0 enc T o.r := by
  induction h with
  | nil => exact ⟨[], Here.start h8⟩
  | snoc h hs ih =>
    obtain ⟨T, ih⟩ := ih
    exact (scan_here h8 ih).1 _ _ hs

theorem parses_here (h8 : Utf8Stream enc (bytesOf items0)) {evs : List Event} {o : ParserObj} (h : ParserObj.Parses F (ParserObj.new items0 enc) evs o) :
    ∃ T, Here items0 enc T o.r := by
  induction h with
  | nil => exact ⟨[], Here.start h8⟩
  | snoc h hs ih =>
    obtain ⟨T, ih⟩ := ih
    exact (parser_here h8 (m := Parser.parse F) ih).1 _ _ hs

theorem loads_here (h8 : Utf8Stream enc (bytesOf items0)) {ds : List Document} {o : ParserObj} (h : ParserObj.Loads F (ParserObj.new items0 enc) ds o) :
    ∃ T, Here items0 enc T o.r := by
  induction h with
  | nil => exact ⟨[], Here.start h8⟩
  | snoc h hs ih =>
    obtain ⟨T, ih⟩ := ih
    exact (parser_here h8 (m := Document.load F) ih).1 _ _ hs

end Yaml.Cu

namespace Yaml.Props
open Yaml Yaml.Spec Yaml.Cu

/-- An error of the scanner, the parser or the composer: about the text, not about reading it. -/
def AboutText (e : Err) : Prop := e.kind = .scanner ∨ e.kind = .parser ∨ e.kind = .composer

theorem own_about {e : Err} (h : Own e) : AboutText e := by
  cases e with
  | scanner => exact .inl rfl
  | parser => exact .inr (.inl rfl)
  | composer => exact .inr (.inr rfl)
  | _ => exact absurd h (by simp [Own])

/-- C65.  Whatever the source does, and however it cuts its bytes: if taking characters from a stream of UTF-8 fails,
the error has the cause it names (`ReadFault`, Spec/Culprit.lean). -/
theorem C65_cause (items : List SrcItem) (enc : Encoding) (ns : List Nat) (e : Err) (r : Rd) (h8 : Utf8Stream enc (bytesOf items))
    (h : pull ns { items := items, encoding := enc } = (.error e, r)) : ReadFault items enc e := by
  have := (pull_here h8 ns (Here.start h8)).1
  rw [h] at this
  exact this

/-- C65, for the first error of a scanner. -/
theorem C65_scanner (F : Nat) (items : List SrcItem) (enc : Encoding) (ts : List Token) (o o' : ScannerObj) (e : Err) (h8 : Utf8Stream enc (bytesOf items))
    (h : ScannerObj.Reads F (ScannerObj.new items enc) ts o) (he : o.scan F = (.err e, o')) : ReadFault items enc e ∨ AboutText e := by
  obtain ⟨T, hT⟩ := reads_here h8 h
  exact ((scan_here h8 hT).2 e o' he).imp id own_about

/-- C65, for the first error of a parser. -/
theorem C65_parser (F : Nat) (items : List SrcItem) (enc : Encoding) (evs : List Event) (o o' : ParserObj) (e : Err) (h8 : Utf8Stream enc (bytesOf items))
    (h : ParserObj.Parses F (ParserObj.new items enc) evs o) (he : o.parse F = (.err e, o')) : ReadFault items enc e ∨ AboutText e := by
  obtain ⟨T, hT⟩ := parses_here h8 h
  exact ((parser_here h8 (m := Parser.parse F) hT).2 e o' he).imp id own_about

/-- C65, for the first error of `Document::load`. -/
theorem C65_load (F : Nat) (items : List SrcItem) (enc : Encoding) (ds : List Document) (o o' : ParserObj) (e : Err) (h8 : Utf8Stream enc (bytesOf items))
    (h : ParserObj.Loads F (ParserObj.new items enc) ds o) (he : o.load F = (.err e, o')) : ReadFault items enc e ∨ AboutText e := by
  obtain ⟨T, hT⟩ := loads_here h8 h
  exact ((parser_here h8 (m := Document.load F) hT).2 e o' he).imp id own_about

/-- C65, the other way round: behind an acceptable text is a character that is not allowed.  Taking more characters than
the text has ends with that complaint, naming the place and the character, whatever the chunks. -/
theorem C65_found_forbidden (items : List SrcItem) (enc : Encoding) (ns : List Nat) (T : List Char) (c : Char) (rest : List UInt8)
    (hquiet : Quiet items) (hprompt : enc = .any → Prompt items) (h8 : Plain8 enc (bytesOf items)) (hsize : (bytesOf items).length < 9223372036854775807)
    (hS : textBytes enc (bytesOf items) = utf8Encode T ++ utf8Bytes c ++ rest) (hT : ∀ t ∈ T, Allowed t) (hc : ¬ Allowed c) (hn : T.length < ns.sum) :
    (pull ns { items := items, encoding := enc }).1 = .error (.reader "control characters are not allowed" (utf8Encode T).length c.toNat) := by
  have hle : (textBytes enc (bytesOf items)).length ≤ (bytesOf items).length := by
    unfold textBytes
    split
    · rename_i heq; rw [heq]; simp; omega
    · exact Nat.le_refl _
  obtain ⟨e, r, hp, h⟩ := pull_found hquiet hprompt h8 (FirstBad.forbidden hS hT hc) hn
  rw [hp]
  rcases h with ⟨p, off, v, hcul, rfl⟩ | ⟨_, hcut⟩
  · obtain ⟨rfl, rfl, rfl⟩ := culprit_forbidden hS hT hc (by omega) hcul
    rfl
  · exact absurd hcut (not_cut_forbidden hS hT hc)

/-- And if it is followed by bytes that do not begin with a character, by the complaint about these; or, where the
bytes end sooner than the first of them announces, by an unexpected end of the input. -/
theorem C65_found_malformed (items : List SrcItem) (enc : Encoding) (ns : List Nat) (T : List Char) (b : UInt8) (rest : List UInt8)
    (hquiet : Quiet items) (hprompt : enc = .any → Prompt items) (h8 : Plain8 enc (bytesOf items)) (hsize : (bytesOf items).length < 9223372036854775807)
    (hS : textBytes enc (bytesOf items) = utf8Encode T ++ b :: rest) (hT : ∀ t ∈ T, Allowed t) (hc : ∀ c, ¬ utf8Bytes c <+: b :: rest) (hn : T.length < ns.sum) :
    (pull ns { items := items, encoding := enc }).1 = .error (.reader "invalid UTF-8" (utf8Encode T).length b.toNat) ∨
    ((pull ns { items := items, encoding := enc }).1 = .error (.io .unexpectedEof) ∧ ∀ c q, utf8Bytes c = b :: q → rest.length < q.length) := by
  have hle : (textBytes enc (bytesOf items)).length ≤ (bytesOf items).length := by
    unfold textBytes
    split
    · rename_i heq; rw [heq]; simp; omega
    · exact Nat.le_refl _
  obtain ⟨e, r, hp, h⟩ := pull_found hquiet hprompt h8 (FirstBad.malformed hS hT hc) hn
  rw [hp]
  rcases h with ⟨p, off, v, hcul, rfl⟩ | ⟨rfl, hcut⟩
  · obtain ⟨rfl, rfl, rfl⟩ := culprit_malformed hS hT hc (by omega) hcul
    exact .inl rfl
  · exact .inr ⟨rfl, cut_malformed hS hT hc hcut⟩

/-- `a: é`, a bell character, `b`; the bytes of `é` in two chunks, an interruption between them. -/
def bell : List SrcItem := [.data [0x61, 0x3A, 0x20, 0xC3], .intr, .data [0xA9, 0x07, 0x62]]

/-- The hypotheses of `C65_found_forbidden` are met: it is at byte 5. -/
theorem C65_sample : Quiet bell ∧ Prompt bell ∧ Plain8 .any (bytesOf bell) ∧ textBytes .any (bytesOf bell) = utf8Encode ['a', ':', ' ', 'é'] ++ utf8Bytes '\u0007' ++ [0x62] ∧
    (∀ t ∈ ['a', ':', ' ', 'é'], Allowed t) ∧ ¬ Allowed '\u0007' ∧
    (pull [2, 1, 1, 1] { items := bell }).1 = .error (.reader "control characters are not allowed" 5 7) := by
  refine ⟨trivial, trivial, .inr ⟨rfl, .inr ?_⟩, by decide +kernel, by decide, by decide, by decide +kernel⟩
  intro b h
  simp [bell, bytesOf] at h
  subst h; decide

/-- And those of `C65_parser`: the second call of `parse` fails there. -/
theorem C65_sample_parser : Utf8Stream .any (bytesOf bell) ∧ ((ParserObj.new bell).parse 60).1 = .ok ⟨.streamStart .utf8, Mark.zero, Mark.zero⟩ ∧
    (((ParserObj.new bell).parse 60).2.parse 60).1 = .err (.reader "control characters are not allowed" 5 7) := by
  refine ⟨.inr ⟨rfl, ?_⟩, by decide +kernel, by decide +kernel⟩
  rintro be ⟨x, hx⟩
  cases be <;> simp [bom16, bell, bytesOf] at hx

/-- The hypotheses of `C65_found_malformed` are met: a surrogate, by a lone first byte, and by a truncated character. -/
theorem C65_sample_malformed : (∀ c, ¬ utf8Bytes c <+: [0xED, 0xA0, 0x80]) ∧
    (pull [9] { items := [.data [0x61, 0xED, 0xA0, 0x80]] }).1 = .error (.reader "invalid UTF-8" 1 0xED) ∧
    (pull [9] { items := [.data [0x61, 0xED], .data [0xA0, 0x80]] }).1 = .error (.reader "invalid UTF-8" 1 0xED) ∧
    (pull [9] { items := [.data [0x61, 0xED, 0xA0]] }).1 = .error (.reader "invalid UTF-8" 1 0xED) ∧
    (pull [9] { items := [.data [0x61, 0xED], .data [0xA0]] }).1 = .error (.io .unexpectedEof) ∧
    (pull [9] { items := [.data [0xEF, 0xBB]] }).1 = .error (.io .unexpectedEof) ∧
    (pull [9] { items := [.data [0xEF, 0x80, 0x80]] }).1 = .error (.reader "invalid byte order marker" 0 (-276791296)) := by
  refine ⟨fun c => ?_, by decide +kernel, by decide +kernel, by decide +kernel, by decide +kernel, by decide +kernel, by decide +kernel⟩
  have h : decodeOne 0xED [0xA0, 0x80] = .invalid := by decide +kernel
  exact invalid_prefix h [] c

end Yaml.Props
