import Verif.Lib.Source

/-
What a `BufRead` is going to deliver, and the simulation between the reader and the demonic input.
-/

namespace Yaml
open Reader
set_option linter.unusedSimpArgs false
set_option linter.unusedVariables false

/-- The characters that reading on will deliver before the end of the input or the first error,
given the encoding (`any`: not yet determined) and what the `BufRead` still holds. -/
inductive Future : Encoding → List SrcItem → List Char → Prop
  | stop {e : Encoding} {items : List SrcItem} (he : e ≠ .any)
      (h : (readChunk (bare e items)).1 ≠ .ok true) : Future e items []
  | more {e : Encoding} {items : List SrcItem} {r : Rd} {t : List Char} (he : e ≠ .any)
      (h : readChunk (bare e items) = (.ok true, r)) (hf : Future e r.items t) : Future e items (r.buffer ++ t)
  | undetermined {items : List SrcItem} (h : ∀ e, (determineEncoding items).1 ≠ .ok (some e)) : Future .any items []
  | determined {items items' : List SrcItem} {e : Encoding} {t : List Char} (he : e ≠ .any)
      (h : determineEncoding items = (.ok (some e), items')) (hf : Future e items' t) : Future .any items t

theorem determineEncoding_some {items items' : List SrcItem} {e : Encoding}
    (h : determineEncoding items = (.ok (some e), items')) : e ≠ .any := by
  unfold determineEncoding at h
  intro he; subst he
  split at h
  · simp at h
  · simp at h
  · split at h
    · split at h
      · simp at h
      · split at h <;> simp at h
    · split at h
      · split at h
        · simp at h
        · split at h
          · simp at h
          · split at h <;> simp at h
      · simp at h

theorem determineEncoding_err {items items' : List SrcItem} {e : Err}
    (h : determineEncoding items = (.error e, items')) : ReaderErr e := by
  unfold determineEncoding at h
  split at h
  · simp at h; rw [← h.1]; exact io_err _
  · simp at h
  · split at h
    · split at h
      · simp at h; rw [← h.1]; exact io_err _
      · split at h
        · simp at h
        · simp at h; rw [← h.1]; exact rd_err _ _ _
    · split at h
      · split at h
        · simp at h; rw [← h.1]; exact io_err _
        · split at h
          · simp at h
          · split at h
            · simp at h
            · simp at h; rw [← h.1]; exact rd_err _ _ _
      · simp at h

theorem fillBuf_nil {items items' : List SrcItem} (h : fillBuf items = (.ok [], items')) : items' = [] := by
  induction items with
  | nil => simp [fillBuf] at h; exact h
  | cons x xs ih =>
    cases x with
    | data bs => cases bs <;> simp [fillBuf] at h; exact ih h
    | intr => simp [fillBuf] at h
    | fail k => simp [fillBuf] at h

theorem determineEncoding_none {items items' : List SrcItem}
    (h : determineEncoding items = (.ok none, items')) : items' = [] := by
  unfold determineEncoding at h
  split at h
  · simp at h
  · rename_i r hf; simp at h; subst h; exact fillBuf_nil hf
  · split at h
    · split at h
      · simp at h
      · split at h <;> simp at h
    · split at h
      · split at h
        · simp at h
        · split at h
          · simp at h
          · split at h <;> simp at h
      · simp at h

theorem Future.exists (e : Encoding) (items : List SrcItem) : ∃ t, Future e items t := by
  have main : ∀ (n : Nat) (e : Encoding) (items : List SrcItem), e ≠ .any → srcSize items ≤ n → ∃ t, Future e items t := by
    intro n
    induction n with
    | zero =>
      intro e items he hs
      refine ⟨[], .stop he ?_⟩
      intro h
      have := readChunk_progress e items
      have hp : readChunk (bare e items) = (.ok true, (readChunk (bare e items)).2) := Prod.ext h rfl
      rw [hp] at this
      have h1 := this.2
      have h2 := List.length_pos_iff.2 this.1
      omega
    | succ n ih =>
      intro e items he hs
      by_cases h : (readChunk (bare e items)).1 = .ok true
      · have := readChunk_progress e items
        have hp : readChunk (bare e items) = (.ok true, (readChunk (bare e items)).2) := Prod.ext h rfl
        rw [hp] at this
        obtain ⟨t, ht⟩ := ih e (readChunk (bare e items)).2.items he (by have h1 := this.2; have h2 := List.length_pos_iff.2 this.1; omega)
        exact ⟨_, .more he hp ht⟩
      · exact ⟨[], .stop he h⟩
  by_cases he : e = .any
  · subst he
    by_cases h : ∃ e, (determineEncoding items).1 = .ok (some e)
    · obtain ⟨e, h⟩ := h
      have hp : determineEncoding items = (.ok (some e), (determineEncoding items).2) := Prod.ext h rfl
      have hne := determineEncoding_some hp
      obtain ⟨t, ht⟩ := main _ e _ hne (Nat.le_refl _)
      exact ⟨t, .determined hne hp ht⟩
    · exact ⟨[], .undetermined (fun e he => h ⟨e, he⟩)⟩
  · exact main _ e items he (Nat.le_refl _)

theorem Future.unique {e : Encoding} {items : List SrcItem} {t t' : List Char} (h : Future e items t)
    (h' : Future e items t') : t = t' := by
  induction h generalizing t' with
  | stop he h =>
    cases h' with
    | stop => rfl
    | more _ h2 => rw [h2] at h; simp at h
    | undetermined => exact absurd rfl he
    | determined => exact absurd rfl he
  | more he h hf ih =>
    cases h' with
    | stop _ h2 => rw [h] at h2; simp at h2
    | more _ h2 hf2 =>
      rw [h] at h2; simp at h2; subst h2
      rw [ih hf2]
    | undetermined => exact absurd rfl he
    | determined => exact absurd rfl he
  | undetermined h =>
    cases h' with
    | stop he => exact absurd rfl he
    | more he => exact absurd rfl he
    | undetermined => rfl
    | determined _ h2 => rw [h2] at h; exact absurd rfl (h _)
  | determined he h hf ih =>
    cases h' with
    | stop he => exact absurd rfl he
    | more he => exact absurd rfl he
    | undetermined h2 => rw [h] at h2; exact absurd rfl (h2 _)
    | determined _ h2 hf2 =>
      rw [h] at h2; simp at h2
      obtain ⟨rfl, rfl⟩ := h2
      exact ih hf2

theorem Future.nil {e : Encoding} {t : List Char} (h : Future e [] t) : t = [] := by
  refine h.unique ?_
  cases e with
  | any => exact .undetermined (by simp [determineEncoding, fillBuf])
  | utf8 => exact .stop (by simp) (by simp [readChunk, readUtf8, fillBufRetry, bare])
  | utf16le => exact .stop (by simp) (by simp [readChunk, readUtf16, fillBufRetry, bare])
  | utf16be => exact .stop (by simp) (by simp [readChunk, readUtf16, fillBufRetry, bare])

theorem readExact_le (n : Nat) (items : List SrcItem) : srcSize (readExact n items).2 ≤ srcSize items := by
  have := readExact_size n items; omega

theorem fillBuf_size (items : List SrcItem) : srcSize (fillBuf items).2 ≤ srcSize items := by
  induction items with
  | nil => simp [fillBuf]
  | cons x xs ih =>
    cases x with
    | data bs =>
      cases bs with
      | nil => simp only [fillBuf, srcSize]; omega
      | cons b bs => simp [fillBuf]
    | intr => simp [fillBuf, srcSize]
    | fail k => simp [fillBuf, srcSize]

theorem determineEncoding_size (items : List SrcItem) : srcSize (determineEncoding items).2 ≤ srcSize items := by
  have h0 := fillBuf_size items
  unfold determineEncoding
  generalize fillBuf items = fb at h0 ⊢
  obtain ⟨res, r⟩ := fb
  have h3 := readExact_le 3 r
  have h2 := readExact_le 2 r
  match res with
  | .error k => exact h0
  | .ok [] => exact h0
  | .ok (b :: bs) =>
    dsimp only at h0 ⊢
    generalize readExact 3 r = e3 at h3 ⊢
    generalize readExact 2 r = e2 at h2 ⊢
    obtain ⟨e31, e32⟩ := e3
    obtain ⟨e21, e22⟩ := e2
    dsimp only at h3 h2
    split
    · cases e31 <;> dsimp only
      · omega
      · split <;> (dsimp only; omega)
    · split
      · cases e21 <;> dsimp only
        · omega
        · split
          · dsimp only; omega
          · split <;> (dsimp only; omega)
      · exact h0

/-- No more characters than bytes. -/
theorem Future.length_le {e : Encoding} {items : List SrcItem} {t : List Char} (h : Future e items t) :
    t.length ≤ srcSize items := by
  induction h with
  | stop => simp
  | @more e items r t he h hf ih =>
    have := readChunk_progress e items
    rw [h] at this
    have := this.2
    rw [List.length_append]; omega
  | undetermined => simp
  | @determined items items' e t he h hf ih =>
    have := determineEncoding_size items
    rw [h] at this
    exact Nat.le_trans ih this

/-- The demonic input `b` describes the reader `r`. -/
def R (b : Inp) (r : Rd) : Prop :=
  (r.eof = true → r.items = []) ∧ ∃ t, Future r.encoding r.items t ∧ b.text = r.buffer ++ t ∧
    (b.cached ≤ r.buffer.length ∨ r.eof = true)

theorem updateLoop_spec (length : Nat) : ∀ (fuel : Nat) (r : Rd) (t : List Char), r.encoding ≠ .any →
    (r.eof = true → r.items = []) → Future r.encoding r.items t → length - r.buffer.length ≤ fuel →
    match updateLoop length fuel r with
    | (none, r') => (r'.eof = true → r'.items = []) ∧ (∃ t', Future r'.encoding r'.items t' ∧ r.buffer ++ t = r'.buffer ++ t') ∧
        r.buffer.length ≤ r'.buffer.length ∧ (length ≤ r'.buffer.length ∨ r'.eof = true) ∧ (r.eof = true → r'.eof = true)
    | (some e, r') => ReaderErr e ∧ (r'.eof = true → r'.items = []) := by
  intro fuel
  induction fuel with
  | zero =>
    intro r t he heof hf hl
    unfold updateLoop
    have : ¬ r.buffer.length < length := by omega
    rw [if_neg this]
    by_cases ho : r.offset ≥ maxInput
    · rw [if_pos ho]; exact ⟨rd_err _ _ _, heof⟩
    · rw [if_neg ho]; exact ⟨heof, ⟨t, hf, rfl⟩, Nat.le_refl _, Or.inl (by omega), id⟩
  | succ fuel ih =>
    intro r t he heof hf hl
    unfold updateLoop
    by_cases hlt : r.buffer.length < length
    · rw [if_pos hlt]
      by_cases hr : r.eof = true
      · rw [if_pos hr]
        exact ⟨heof, ⟨t, hf, rfl⟩, Nat.le_refl _, Or.inr hr, id⟩
      · rw [if_neg hr]
        have hs := readChunk_same r he
        have hp := readChunk_progress r.encoding r.items
        obtain ⟨hrd, hres⟩ := hs
        generalize hc0 : readChunk (bare r.encoding r.items) = c0 at hrd hres hp
        generalize hc : readChunk r = c at hrd hres
        obtain ⟨c1, r1⟩ := c
        obtain ⟨c01, r0⟩ := c0
        dsimp only at hrd hres
        rcases hres with ⟨bb, rfl, rfl⟩ | ⟨e1, e0, rfl, rfl, h1, h2⟩
        · cases bb with
          | false =>
            dsimp only
            obtain ⟨hp1, hp2⟩ := hp
            have ht : t = [] := hf.unique (.stop he (by rw [hc0]; simp))
            refine ⟨fun _ => ?_, ⟨[], ?_, ?_⟩, ?_, Or.inr rfl, fun _ => rfl⟩
            · show r1.items = []; rw [hrd]; exact hp2
            · show Future r1.encoding r1.items []
              rw [hrd]
              show Future r.encoding r0.items []
              rw [hp2]
              obtain ⟨t', ht'⟩ := Future.exists r.encoding []
              rw [ht'.nil] at ht'; exact ht'
            · show _ = r1.buffer ++ []
              rw [hrd]
              show _ = r.buffer ++ r0.buffer ++ []
              rw [hp1, ht]; simp
            · show _ ≤ r1.buffer.length
              rw [hrd]
              show _ ≤ (r.buffer ++ r0.buffer).length
              simp
          | true =>
            dsimp only
            obtain ⟨hp1, hp2⟩ := hp
            obtain ⟨t', ht'⟩ := Future.exists r.encoding r0.items
            have ht : t = r0.buffer ++ t' := hf.unique (.more he hc0 ht')
            have hb1 : r1.buffer = r.buffer ++ r0.buffer := by rw [hrd]
            have hi1 : r1.items = r0.items := by rw [hrd]
            have he1 : r1.encoding = r.encoding := by rw [hrd]
            have hf1 : r1.eof = r.eof := by rw [hrd]
            have hlen := List.length_pos_iff.2 hp1
            have := ih r1 t' (by rw [he1]; exact he) (by rw [hf1]; intro h; exact absurd h hr) (by rw [he1, hi1]; exact ht')
              (by rw [hb1, List.length_append]; omega)
            generalize updateLoop length fuel r1 = q at this ⊢
            obtain ⟨qe, q⟩ := q
            cases qe with
            | some e => exact this
            | none =>
              obtain ⟨g1, ⟨t2, g2, g3⟩, g4, g5, g6⟩ := this
              refine ⟨g1, ⟨t2, g2, ?_⟩, ?_, g5, fun h => absurd h hr⟩
              · rw [ht, ← g3, hb1]; simp
              · rw [hb1, List.length_append] at g4; omega
        · dsimp only
          refine ⟨h1, ?_⟩
          intro h
          rw [hrd] at h
          exact absurd h hr
    · rw [if_neg hlt]
      by_cases ho : r.offset ≥ maxInput
      · rw [if_pos ho]; exact ⟨rd_err _ _ _, heof⟩
      · rw [if_neg ho]; exact ⟨heof, ⟨t, hf, rfl⟩, Nat.le_refl _, Or.inl (by omega), id⟩

/-- `Scanner::cache` does what the demonic input allows. -/
theorem cache_sim {b : Inp} {r : Rd} (n : Nat) (h : R b r) :
    match Reader.cache n r with
    | (none, r') => R { b with cached := max b.cached n } r'
    | (some e, r') => ReaderErr e ∧ ∃ b', R b' r' := by
  obtain ⟨heof, t, hf, htext, hc⟩ := h
  have hR : ∀ r' : Rd, (r'.eof = true → r'.items = []) → ∃ b', R b' r' := by
    intro r' h'
    obtain ⟨t', ht'⟩ := Future.exists r'.encoding r'.items
    exact ⟨⟨r'.buffer ++ t', 0⟩, h', t', ht', rfl, Or.inl (Nat.zero_le _)⟩
  unfold Reader.cache
  by_cases hn : r.buffer.length ≥ n
  · rw [if_pos hn]
    refine ⟨heof, t, hf, htext, ?_⟩
    rcases hc with hc | hc
    · exact Or.inl (by show max _ _ ≤ _; omega)
    · exact Or.inr hc
  · rw [if_neg hn]
    unfold updateBuffer
    rw [if_neg hn]
    have loop : ∀ r1 : Rd, r1.encoding ≠ .any → (r1.eof = true → r1.items = []) → Future r1.encoding r1.items t →
        r1.buffer = r.buffer → (r.eof = true → r1.eof = true) →
        match updateLoop n n r1 with
        | (none, r') => R { b with cached := max b.cached n } r'
        | (some e, r') => ReaderErr e ∧ ∃ b', R b' r' := by
      intro r1 h1 h2 h3 h4 h5
      have := updateLoop_spec n n r1 t h1 h2 h3 (by omega)
      generalize updateLoop n n r1 = q at this ⊢
      obtain ⟨qe, q⟩ := q
      cases qe with
      | some e => exact ⟨this.1, hR _ this.2⟩
      | none =>
        obtain ⟨g1, ⟨t2, g2, g3⟩, g4, g5, g6⟩ := this
        refine ⟨g1, t2, g2, by rw [htext, ← h4]; exact g3, ?_⟩
        rcases g5 with g5 | g5
        · rcases hc with hc | hc
          · exact Or.inl (by show max _ _ ≤ _; rw [h4] at g4; omega)
          · exact Or.inr (g6 (h5 hc))
        · exact Or.inr g5
    by_cases he : r.encoding = .any
    · rw [if_pos he]
      generalize hd : determineEncoding r.items = d
      obtain ⟨d1, items⟩ := d
      match d1 with
      | .error e =>
        refine ⟨determineEncoding_err hd, hR _ ?_⟩
        intro h'
        have := heof h'
        rw [this] at hd
        simp [determineEncoding, fillBuf] at hd
      | .ok none =>
        have hi := determineEncoding_none hd
        subst hi
        have ht : t = [] := by
          rw [he] at hf
          exact hf.unique (.undetermined (by rw [hd]; simp))
        refine ⟨fun _ => rfl, [], ?_, ?_, Or.inr rfl⟩
        · show Future r.encoding [] []
          obtain ⟨t', ht'⟩ := Future.exists r.encoding []
          rw [ht'.nil] at ht'; exact ht'
        · rw [htext, ht]
      | .ok (some e) =>
        have hne := determineEncoding_some hd
        dsimp only
        refine loop _ hne ?_ ?_ rfl id
        · intro h'
          have := heof h'
          rw [this] at hd
          simp [determineEncoding, fillBuf] at hd
        · rw [he] at hf
          obtain ⟨t', ht'⟩ := Future.exists e items
          have := hf.unique (.determined hne hd ht')
          rw [this]; exact ht'
    · rw [if_neg he]
      exact loop r he heof hf rfl id

/-- The meaning of the input operations over the real reader, as a predicate transformer. -/
def stepA : Step CharOp CharOp.Ans Rd
  | .cache n, K, r => K (Reader.cache n r).1 (Reader.cache n r).2
  | .get i, K, r => K r.buffer[i]? r
  | .pop, K, r => K r.buffer.head? { r with buffer := r.buffer.tail }
  | .enc, K, r => K r.encoding r

theorem wp_stepA {α : Type} (t : Free CharOp CharOp.Ans α) (Q : α → Rd → Prop) (r : Rd) :
    t.wp stepA Q r ↔ Q (execA t r).1 (execA t r).2 := by
  induction t generalizing r with
  | ret a => exact Iff.rfl
  | op o k ih =>
    cases o with
    | cache n => exact ih _ _
    | get i => exact ih _ _
    | pop => exact ih _ _
    | enc => exact ih _ _

theorem step_sim (o : CharOp) (b : Inp) (r : Rd) (KB : CharOp.Ans o → Inp → Prop) (KA : CharOp.Ans o → Rd → Prop)
    (h : R b r) (hk : ∀ x b' r', R b' r' → KB x b' → KA x r') (hb : stepB o KB b) : stepA o KA r := by
  cases o with
  | cache n =>
    have := cache_sim n h
    show KA (Reader.cache n r).1 (Reader.cache n r).2
    generalize Reader.cache n r = q at this ⊢
    obtain ⟨qe, q⟩ := q
    cases qe with
    | none => exact hk _ _ _ this hb.1
    | some e =>
      obtain ⟨he, b', hb'⟩ := this
      exact hk _ _ _ hb' (hb.2 e b' he)
  | get i =>
    obtain ⟨heof, t, hf, htext, hc⟩ := h
    have e : b.text[i]? = r.buffer[i]? := by
      rw [htext]
      rcases hc with hc | hc
      · exact List.getElem?_append_left (Nat.lt_of_lt_of_le hb.1 hc)
      · rw [heof hc] at hf; rw [hf.nil]; simp
    have := hb.2
    rw [e] at this
    exact hk _ _ _ ⟨heof, t, hf, htext, hc⟩ this
  | pop =>
    obtain ⟨heof, t, hf, htext, hc⟩ := h
    have hbuf : r.buffer ≠ [] ∨ (r.buffer = [] ∧ t = []) := by
      rcases hc with hc | hc
      · left
        exact List.length_pos_iff.1 (Nat.lt_of_lt_of_le hb.1 hc)
      · rw [heof hc] at hf
        by_cases h0 : r.buffer = []
        · exact Or.inr ⟨h0, hf.nil⟩
        · exact Or.inl h0
    have e : b.text.head? = r.buffer.head? ∧ b.text.tail = r.buffer.tail ++ t := by
      rw [htext]
      rcases hbuf with h0 | ⟨h0, h1⟩
      · obtain ⟨c, cs, hcs⟩ := List.exists_cons_of_ne_nil h0
        rw [hcs]; simp
      · rw [h0, h1]; simp
    have := hb.2
    rw [e.1] at this
    refine hk _ _ _ ⟨heof, t, hf, e.2, ?_⟩ this
    rcases hc with hc | hc
    · left; show b.cached - 1 ≤ r.buffer.tail.length; rw [List.length_tail]; omega
    · exact Or.inr hc
  | enc => exact hk _ _ _ h (hb.2 r.encoding)

/-- What was proved about a method over the demonic input holds of its run over the reader. -/
theorem runA_of_wp {S α : Type} {P : PanicSite → Prop} {E : Err → S → Inp → Prop} {Q : α → S → Inp → Prop}
    {m : M CharOp CharOp.Ans S α} {s : S} {b : Inp} {r : Rd} (h : M.wp stepB P E m Q s b) (hR : R b r) :
    ∃ b', R b' (runA m s r).2 ∧ post P E Q (runA m s r).1 b' :=
  (wp_stepA _ _ _).1 (Free.wp_sim R step_sim hR h)

end Yaml
