import Verif.Lib.Need
import Verif.Lib.Docs3

/-
How far the scanner looks ahead: at most four characters are asked for beyond those consumed, and one behind a document end marker.
-/

namespace Yaml.Nd
open Yaml Scanner
set_option linter.unusedSimpArgs false
set_option linter.unusedVariables false

/-- The number of characters that have been asked for and not consumed; any answers. -/
def stepN : Step CharOp CharOp.Ans Nat
  | .cache n, K, c => K none (max c n) ∧ ∀ e c', K (some e) c'
  | .get _, K, c => ∀ a, K a c
  | .pop, K, c => ∀ a, K a (c - 1)
  | .enc, K, c => ∀ e, K e c

theorem stepN_mono : stepN.Mono := by
  intro o K K' b h
  cases o with
  | cache n => exact fun ⟨h1, h2⟩ => ⟨h _ _ h1, fun e b' => h _ _ (h2 e b')⟩
  | get i => exact fun h1 e => h _ _ (h1 e)
  | pop => exact fun h1 e => h _ _ (h1 e)
  | enc => exact fun h1 e => h _ _ (h1 e)

/-- The end of the input is met only when a character that is not there is asked for. -/
def KR (c : Nat) (r : Rd) : Prop := r.eof = true → r.buffer.length < c ∨ r.buffer = []

theorem updateLoop_short {length : Nat} : ∀ {fuel : Nat} {r r' : Rd}, Reader.updateLoop length fuel r = (none, r') → r'.eof = true →
    r'.buffer.length < length ∨ (r.eof = true ∧ r' = r) := by
  intro fuel
  induction fuel with
  | zero =>
    intro r r' h he
    unfold Reader.updateLoop at h
    split at h <;> rename_i hl
    · split at h
      · have := (Prod.mk.inj h).2; subst this; exact .inl hl
      · simp at h
    · split at h
      · simp at h
      · have := (Prod.mk.inj h).2; subst this; exact .inr ⟨he, rfl⟩
  | succ fuel ih =>
    intro r r' h he
    unfold Reader.updateLoop at h
    split at h <;> rename_i hl
    · by_cases hr : r.eof = true
      · rw [if_pos hr] at h
        have := (Prod.mk.inj h).2; subst this; exact .inl hl
      · rw [if_neg hr] at h
        by_cases hany : r.encoding = .any
        · simp [Reader.readChunk, hany] at h
        have hs := readChunk_same r hany
        have hp := readChunk_progress r.encoding r.items
        obtain ⟨hrd, hres⟩ := hs
        generalize hcc : Reader.readChunk r = q at h hrd hres
        generalize hc0 : Reader.readChunk (bare r.encoding r.items) = c0 at hrd hres hp
        obtain ⟨q1, q2⟩ := q
        obtain ⟨c1, c2⟩ := c0
        dsimp only at hrd hres
        have hf1 : q2.eof = r.eof := by rw [hrd]
        cases q1 with
        | error e => simp at h
        | ok bb =>
          cases bb with
          | false =>
            have := (Prod.mk.inj h).2; subst this
            rcases hres with ⟨b, h1, h2⟩ | ⟨e1, _, h1, _⟩
            · cases h1; subst h2
              have hb : q2.buffer = r.buffer ++ c2.buffer := by rw [hrd]
              have : c2.buffer = [] := hp.1
              left
              show q2.buffer.length < _
              rw [hb, this]; simpa using hl
            · simp at h1
          | true =>
            rcases ih h he with h' | ⟨h', _⟩
            · exact .inl h'
            · rw [hf1] at h'; exact absurd h' hr
    · split at h
      · simp at h
      · have := (Prod.mk.inj h).2; subst this; exact .inr ⟨he, rfl⟩

theorem KR.cache {c n : Nat} {r r' : Rd} (h : KR c r) (hc : Reader.cache n r = (none, r')) : KR (max c n) r' := by
  intro he
  have same : r.eof = true → r' = r → r'.buffer.length < max c n ∨ r'.buffer = [] := by
    intro h1 h2
    subst h2
    exact (h h1).imp (fun h => by omega) id
  unfold Reader.cache Reader.updateBuffer at hc
  split at hc <;> rename_i hl
  · have := (Prod.mk.inj hc).2; subst this; exact same he rfl
  · split at hc
    · split at hc
      · simp at hc
      · have := (Prod.mk.inj hc).2; subst this
        left
        show r.buffer.length < _
        omega
      · rcases updateLoop_short hc he with h' | ⟨h1, h2⟩
        · left; omega
        · subst h2
          exact (h h1).imp (fun h => by show r.buffer.length < _; omega) id
    · rcases updateLoop_short hc he with h' | ⟨h1, h2⟩
      · left; omega
      · exact same h1 h2

/-- What was proved with the counting rules holds of a run over any reader. -/
theorem exec_ahead {α : Type} (t : Free CharOp CharOp.Ans α) {Q : α → Nat → Prop} {c : Nat} {r : Rd} (hw : t.wp stepN Q c) (h : KR c r) :
    ∃ c', KR c' (execA t r).2 ∧ Q (execA t r).1 c' := by
  induction t generalizing c r with
  | ret a => exact ⟨c, h, hw⟩
  | op o k ih =>
    cases o with
    | cache n =>
      simp only [execA]
      generalize hq : Reader.cache n r = q
      obtain ⟨x, r'⟩ := q
      cases x with
      | none => exact ih none hw.1 (h.cache hq)
      | some e => exact ih (some e) (hw.2 e (r'.buffer.length + 1)) (fun _ => .inl (Nat.lt_succ_self _))
    | get i => exact ih _ (hw _) h
    | pop =>
      refine ih _ (hw _) ?_
      intro he
      show r.buffer.tail.length < c - 1 ∨ r.buffer.tail = []
      rcases h he with h | h
      · cases hb : r.buffer with
        | nil => exact .inr rfl
        | cons x xs => rw [hb] at h; left; simp at h ⊢; omega
      · right; rw [h]; rfl
    | enc => exact ih _ (hw _) h

/-! ### The rules -/

/-- Only successful calls count. -/
def postN {α : Type} (Q : α → SState → Nat → Prop) : Out α × SState → Nat → Prop
  | (.ok a, s), c => Q a s c
  | _, _ => True

def wpN {α : Type} (m : Scan α) (Q : α → SState → Nat → Prop) (s : SState) (c : Nat) : Prop := (m s).wp stepN (postN Q) c

section
variable {α β σ : Type} {Q : α → SState → Nat → Prop} {s : SState} {c : Nat}

theorem wpN_mono {Q' : α → SState → Nat → Prop} {m : Scan α} (h : wpN m Q s c) (hQ : ∀ a s c, Q a s c → Q' a s c) : wpN m Q' s c := by
  refine Free.wp_mono stepN_mono ?_ h
  rintro ⟨o, s'⟩ c' h'
  cases o with
  | ok a => exact hQ _ _ _ h'
  | _ => trivial

theorem wpN_bind {m : Scan α} {f : α → Scan β} {Q : β → SState → Nat → Prop} (h : wpN m (fun a s c => wpN (f a) Q s c) s c) : wpN (m >>= f) Q s c := by
  show ((m s).bind (M.cont f)).wp stepN _ c
  rw [Free.wp_bind]
  refine Free.wp_mono stepN_mono ?_ h
  rintro ⟨o, s'⟩ c' h'
  cases o with
  | ok a => exact h'
  | _ => trivial

end

/-- From at most four characters ahead, `m` ends with at most four characters ahead and a result in `R`. -/
def Few {α : Type} (m : Scan α) (R : α → Prop) : Prop := ∀ s c, c ≤ 4 → wpN m (fun a _ c' => c' ≤ 4 ∧ R a) s c

/-- Every successful call keeps to four characters. -/
class Four {α : Type} (m : Scan α) : Prop where
  few : Few m (fun _ => True)

variable {α β σ : Type}

theorem Few.bind {m : Scan α} {f : α → Scan β} {R : α → Prop} {R' : β → Prop} (h : Few m R) (h' : ∀ a, R a → Few (f a) R') : Few (m >>= f) R' := by
  intro s c hc
  exact wpN_bind (wpN_mono (h s c hc) fun a s c ⟨h1, h2⟩ => h' a h2 s c h1)

theorem Few.then {m : Scan α} [hm : Four m] {f : α → Scan β} {R' : β → Prop} (h' : ∀ a, Few (f a) R') : Few (m >>= f) R' := hm.few.bind fun a _ => h' a

theorem Few.pure {R : α → Prop} {a : α} (h : R a) : Few (pure a) R := fun s c hc => ⟨hc, h⟩
theorem Few.error {R : α → Prop} {a : String} {m : Mark} {b : String} : Few (scannerError a m b) R := fun s c hc => trivial
theorem Few.panic {R : α → Prop} {x : PanicSite} : Few (M.panic x) R := fun s c hc => trivial
theorem Few.throw {R : α → Prop} {x : Err} : Few (M.throw x) R := fun s c hc => trivial
theorem Few.ite {p : Prop} [Decidable p] {m n : Scan α} {R : α → Prop} (h : Few m R) (h' : Few n R) : Few (if p then m else n) R := by
  split
  · exact h
  · exact h'

instance : Four (M.get : Scan SState) := ⟨fun s c hc => ⟨hc, trivial⟩⟩
instance {f : SState → SState} : Four (M.modify f : Scan Unit) := ⟨fun s c hc => ⟨hc, trivial⟩⟩
instance {a : α} : Four (pure a : Scan α) := ⟨.pure trivial⟩
instance {x : PanicSite} : Four (M.panic x : Scan α) := ⟨.panic⟩
instance {a : String} {m : Mark} {b : String} : Four (scannerError a m b : Scan α) := ⟨.error⟩
instance {i : Nat} : Four (at_ i) := ⟨fun s c hc _ => ⟨hc, trivial⟩⟩
instance : Four popChar := ⟨fun s c hc _ => ⟨by omega, trivial⟩⟩
instance : Four getMark := ⟨fun s c hc => ⟨hc, trivial⟩⟩
instance {f : Mark → Mark} : Four (setMark f) := ⟨fun s c hc => ⟨hc, trivial⟩⟩
instance {b : Bool} : Four (allowSimpleKey b) := ⟨fun s c hc => ⟨hc, trivial⟩⟩

theorem four_cache {n : Nat} (hn : n ≤ 4) : Four (cache n) := by
  constructor
  intro s c hc
  refine ⟨⟨by show max c n ≤ 4; omega, trivial⟩, fun e c' => trivial⟩

instance : Four (cache 1) := four_cache (by omega)
instance : Four (cache 2) := four_cache (by omega)
instance : Four (cache 3) := four_cache (by omega)
instance : Four (cache 4) := four_cache (by omega)

instance {m : Scan α} {f : α → Scan β} [Four m] [h : ∀ a, Four (f a)] : Four (m >>= f) := ⟨Few.then fun a => (h a).few⟩
instance {p : Prop} [Decidable p] {m n : Scan α} [h : Four m] [h' : Four n] : Four (if p then m else n) := ⟨.ite h.few h'.few⟩
instance {b : Bool} {m : Scan Unit} [h : Four m] : Four (M.when b m) := by
  constructor
  cases b
  · exact .pure trivial
  · exact h.few

theorem Few.loop {body : σ → Scan (σ ⊕ α)} {R : α → Prop} (h : ∀ x, Few (body x) (Sum.elim (fun _ => True) R)) : ∀ (F : Nat) (x : σ), Few (M.loop F body x) R
  | 0, x => fun s c hc => trivial
  | F + 1, x => by
    refine Few.bind (h x) ?_
    intro a ha
    cases a with
    | inl x' => exact Few.loop h F x'
    | inr a => exact .pure ha

instance {F : Nat} {body : σ → Scan (σ ⊕ α)} {x : σ} [h : ∀ x, Four (body x)] : Four (M.loop F body x) :=
  ⟨Few.loop (fun x s c hc => wpN_mono ((h x).few s c hc) fun a s c h => ⟨h.1, by cases a <;> trivial⟩) F x⟩

theorem Four.then {m : Scan α} {f : α → Scan β} (hm : Four m) (h : ∀ a, Four (f a)) : Four (m >>= f) := inferInstance

theorem Four.loop {F : Nat} {body : σ → Scan (σ ⊕ α)} {x : σ} (h : ∀ x, Four (body x)) : Four (M.loop F body x) := inferInstance

/-- Through a method, matches included. -/
macro "four" : tactic => `(tactic| repeat' first | infer_instance | (refine Four.then inferInstance ?_) | (refine Four.then ?_ ?_) | (refine Four.loop ?_) | (intro _) | split)

instance : Four skipChar := by unfold skipChar; four
instance : Four skipLineBreak := by unfold skipLineBreak; four
instance {x : Str} : Four (readChar x) := by unfold readChar; four
instance {x : Str} : Four (readLineBreak x) := by unfold readLineBreak; four
instance {F : Nat} {p : Option Char → Bool} : Four (skipWhile F p) := by unfold skipWhile; infer_instance
instance {F : Nat} {p : Option Char → Bool} {x : Str} : Four (readWhile F p x) := by unfold readWhile; infer_instance
instance : Four staleSimpleKeys := by unfold staleSimpleKeys; four
instance : Four removeSimpleKey := by unfold removeSimpleKey; four
instance : Four saveSimpleKey := by unfold saveSimpleKey; four
instance : Four increaseFlowLevel := by unfold increaseFlowLevel; four
instance : Four decreaseFlowLevel := by unfold decreaseFlowLevel; four
instance {t : Token} : Four (pushToken t) := by unfold pushToken; four
instance {n : Nat} {t : Token} : Four (insertToken n t) := by unfold insertToken; four
instance {a : Nat} {b : Option Nat} {c : TokenData} {d : Mark} : Four (rollIndent a b c d) := by unfold rollIndent; four
instance {a : Int} : Four (unrollIndent a) := by unfold unrollIndent; four
instance {F : Nat} : Four (scanToNextToken F) := by unfold scanToNextToken; four
instance {F : Nat} {m : Mark} : Four (scanDirectiveName F m) := by unfold scanDirectiveName; four
instance {F : Nat} {m : Mark} : Four (scanVersionDirectiveNumber F m) := by unfold scanVersionDirectiveNumber; four
instance {F : Nat} {m : Mark} : Four (scanVersionDirectiveValue F m) := by unfold scanVersionDirectiveValue; four
instance {F : Nat} {d : Bool} {m : Mark} : Four (scanTagHandle F d m) := by unfold scanTagHandle; four
instance {F : Nat} {d : Bool} {m : Mark} {x : Str} : Four (scanUriEscapes F d m x) := by unfold scanUriEscapes; four
instance {F : Nat} {u d : Bool} {x : Str} {m : Mark} : Four (scanTagUri F u d x m) := by unfold scanTagUri; four
instance {F : Nat} {m : Mark} : Four (scanTagDirectiveValue F m) := by unfold scanTagDirectiveValue; four
instance {F : Nat} : Four (skipBlanksAndComment F) := by unfold skipBlanksAndComment; four
instance {F : Nat} {m : Mark} : Four (scanTagBody F m) := by unfold scanTagBody; four
instance {F : Nat} {i : Int} : Four (skipIndent F i) := by unfold skipIndent; four
instance {F : Nat} {i : Int} {x : Str} {m : Mark} : Four (scanBlockScalarBreaks F i x m) := by unfold scanBlockScalarBreaks; four
instance {m : Mark} {c : Option Char} : Four (blockIndicatorDigit m c) := by unfold blockIndicatorDigit; four
instance {m : Mark} : Four (blockScalarHeader m) := by unfold blockScalarHeader; four
instance {F : Nat} {l : Bool} {m : Mark} {v : BlockVars} : Four (blockContent F l m v) := by unfold blockContent; four

/-- Only looks, as often as it likes. -/
theorem hexLoop_still {m : Mark} {Q : Nat → SState → Nat → Prop} : ∀ {n k v : Nat} {s : SState} {c : Nat}, (∀ a, Q a s c) → wpN (hexLoop m n k v) Q s c
  | 0, k, v, s, c, h => h _
  | n + 1, k, v, s, c, h => by
    unfold hexLoop
    refine wpN_bind fun a => ?_
    show wpN _ Q s c
    split
    · trivial
    · split
      · trivial
      · exact hexLoop_still h

theorem skipChar_one {Q : Unit → SState → Nat → Prop} {s : SState} {c : Nat} (h : ∀ s, Q () s (c - 1)) : wpN skipChar Q s c := by
  unfold skipChar
  refine wpN_bind fun a => ?_
  cases a with
  | none => trivial
  | some x => exact h _

theorem skipChars_n {Q : Unit → SState → Nat → Prop} : ∀ {n : Nat} {s : SState} {c : Nat}, (∀ s, Q () s (c - n)) → wpN (skipChars n) Q s c
  | 0, s, c, h => h _
  | n + 1, s, c, h => by
    unfold skipChars
    refine wpN_bind (skipChar_one fun s => skipChars_n fun s => ?_)
    rw [Nat.sub_sub, Nat.add_comm 1 n]
    exact h s

instance {n : Nat} : Four (skipChars n) := ⟨fun s c hc => skipChars_n fun s => ⟨by omega, trivial⟩⟩

theorem cache_n {n : Nat} {Q : Unit → SState → Nat → Prop} {s : SState} {c : Nat} (h : Q () s (max c n)) : wpN (cache n) Q s c :=
  ⟨h, fun e c' => trivial⟩

theorem four_code {n : Nat} {m : Mark} {x : Str} : Four (do
    cache n
    let value ← hexLoop m n 0 0
    match charFromU32 value with
    | none =>
      scannerError "while parsing a quoted scalar" m
        "found invalid Unicode character escape code"
    | some ch => do
      skipChars n
      pure (x ++ [ch]) : Scan Str) := by
  constructor
  intro s c hc
  refine wpN_bind (cache_n ?_)
  refine wpN_bind (hexLoop_still fun a => ?_)
  split
  · trivial
  · refine wpN_bind (skipChars_n fun s => ?_)
    exact ⟨by show max c n - n ≤ 4; omega, trivial⟩

instance {m : Mark} {x : Str} : Four (scanEscape m x) := by
  unfold scanEscape
  refine Four.then inferInstance fun a => ?_
  split
  · infer_instance
  · split
    · infer_instance
    · split
      · infer_instance
      · exact Four.then inferInstance fun _ => Four.then inferInstance fun _ => four_code

instance {F : Nat} {x : Bool} {m : Mark} {y : Str} : Four (flowChunk F x m y) := by unfold flowChunk; four
instance {F : Nat} {v : BlankVars} : Four (flowBlanks F v) := by unfold flowBlanks; four
instance {m : Mark} : Four (flowHead m) := by unfold flowHead; four
instance {F : Nat} {x : Bool} {m : Mark} : Four (flowBody F x m) := by unfold flowBody; four
instance {F : Nat} {m : Mark} {v : PlainVars} : Four (plainChunk F m v) := by unfold plainChunk; four
instance {F : Nat} {i : Int} {m : Mark} {v : BlankVars} : Four (plainBlanks F i m v) := by unfold plainBlanks; four
instance {F : Nat} {i : Int} {m : Mark} : Four (plainBody F i m) := by unfold plainBody; four

/-! ### Tokens -/

/-- No document end marker. -/
def NoD (t : Token) : Prop := t.data ≠ .documentEnd

/-- Through a method that returns a token. -/
macro "few" : tactic => `(tactic| repeat' first | exact Few.error | exact Few.panic | (refine Few.pure ?_; first | (simp [NoD]; done) | assumption) | (refine Few.then fun _ => ?_) | (refine Few.ite ?_ ?_) | split)

theorem scanDirectiveValue_few {F : Nat} {m : Mark} {x : Str} : Few (scanDirectiveValue F m x) NoD := by unfold scanDirectiveValue; few
theorem scanDirective_few {F : Nat} : Few (scanDirective F) NoD := by
  unfold scanDirective
  refine Few.then fun a => Few.then fun _ => Few.then fun _ => Few.bind scanDirectiveValue_few fun t ht => ?_
  few
theorem scanAnchor_few {F : Nat} {a : Bool} : Few (scanAnchor F a) NoD := by
  unfold scanAnchor
  refine Few.then fun _ => Few.then fun _ => Few.then fun _ => Few.then fun _ => Few.then fun _ => Few.then fun _ => ?_
  split
  · exact Few.error
  · refine Few.pure ?_
    unfold NoD
    split <;> simp
theorem scanTag_few {F : Nat} : Few (scanTag F) NoD := by unfold scanTag; few
theorem scanBlockScalar_few {F : Nat} {l : Bool} : Few (scanBlockScalar F l) NoD := by unfold scanBlockScalar; few
theorem scanFlowScalar_few {F : Nat} {l : Bool} : Few (scanFlowScalar F l) NoD := by unfold scanFlowScalar; few
theorem scanPlainScalar_few {F : Nat} : Few (scanPlainScalar F) NoD := by unfold scanPlainScalar; few

/-! ### Fetchers -/

/-- What is known after a token was fetched. -/
def Got (s : SState) (c : Nat) : Prop := c ≤ 4 ∧ ∃ X t, s.tokens = X ++ [t] ∧ (t.data = .documentEnd → c ≤ 1)

/-- `m` fetches a token. -/
def Gets (m : Scan Unit) : Prop := ∀ s c, c ≤ 4 → wpN m (fun _ s c => Got s c) s c

theorem Gets.then {m : Scan α} [hm : Four m] {f : α → Scan Unit} (h : ∀ a, Gets (f a)) : Gets (m >>= f) := by
  intro s c hc
  exact wpN_bind (wpN_mono (hm.few s c hc) fun a s c h' => h a s c h'.1)

theorem Gets.push {m : Scan Token} (h : Few m NoD) : Gets (m >>= pushToken) := by
  intro s c hc
  exact wpN_bind (wpN_mono (h s c hc) fun a s c h' => ⟨h'.1, s.tokens, a, rfl, fun hd => absurd hd h'.2⟩)

theorem gets_push {t : Token} (h : NoD t) : Gets (pushToken t) := fun s c hc => ⟨hc, s.tokens, t, rfl, fun hd => absurd hd h⟩

theorem gets_indicator {n : Nat} {d : TokenData} (h : d ≠ .documentEnd) : Gets (fetchIndicator n d) := by
  unfold fetchIndicator
  exact Gets.then fun _ => Gets.then fun _ => Gets.then fun _ => gets_push h

theorem gets_streamStart : Gets fetchStreamStart := by
  unfold fetchStreamStart
  refine Gets.then fun _ => ?_
  intro s c hc
  refine wpN_bind fun e => ?_
  exact (Gets.then (m := getMark) fun _ => gets_push (by simp [NoD])) s c hc

theorem gets_streamEnd : Gets fetchStreamEnd := by
  unfold fetchStreamEnd
  exact Gets.then fun _ => Gets.then fun _ => Gets.then fun _ => Gets.then fun _ => Gets.then fun _ => gets_push (by simp [NoD])

theorem gets_directive {F : Nat} : Gets (fetchDirective F) := by
  unfold fetchDirective
  exact Gets.then fun _ => Gets.then fun _ => Gets.then fun _ => Gets.push scanDirective_few

theorem wpN_get {Q : SState → SState → Nat → Prop} {s : SState} {c : Nat} : wpN (M.get : Scan SState) Q s c ↔ Q s s c := Iff.rfl
theorem wpN_mark {Q : Mark → SState → Nat → Prop} {s : SState} {c : Nat} : wpN getMark Q s c ↔ Q s.mark s c := Iff.rfl

/-- `m` does not touch the input. -/
def Still (m : Scan α) : Prop := ∀ s c, wpN m (fun _ _ c' => c' = c) s c

theorem still_unroll {i : Int} : Still (unrollIndent i) := by
  intro s c
  unfold unrollIndent
  refine wpN_bind (wpN_get.2 ?_)
  split
  · exact rfl
  · split
    · trivial
    · exact rfl

theorem still_remove : Still removeSimpleKey := by
  intro s c
  unfold removeSimpleKey
  refine wpN_bind (wpN_get.2 ?_)
  split
  · trivial
  · split
    · trivial
    · exact rfl

theorem Still.bind {m : Scan α} {f : α → Scan β} {Q : β → SState → Nat → Prop} {s : SState} {c : Nat} (h : Still m) (h' : ∀ a s, wpN (f a) Q s c) : wpN (m >>= f) Q s c :=
  wpN_bind (wpN_mono (h s c) fun a s c e => by subst e; exact h' a s)

theorem gets_document {d : TokenData} {s : SState} {c : Nat} (hc : c ≤ 4) : wpN (fetchDocumentIndicator d) (fun _ s c => Got s c) s c := by
  unfold fetchDocumentIndicator
  refine still_unroll.bind fun _ s => still_remove.bind fun _ s => wpN_bind ?_
  show wpN _ _ _ c
  unfold fetchIndicator
  refine wpN_bind (wpN_mark.2 ?_)
  refine wpN_bind (skipChars_n fun s => ?_)
  refine wpN_bind (wpN_mark.2 ?_)
  exact ⟨by omega, _, _, rfl, fun _ => by omega⟩

theorem gets_flowStart {d : TokenData} (h : d ≠ .documentEnd) : Gets (fetchFlowCollectionStart d) := by
  unfold fetchFlowCollectionStart
  exact Gets.then fun _ => Gets.then fun _ => Gets.then fun _ => gets_indicator h

theorem gets_flowEnd {d : TokenData} (h : d ≠ .documentEnd) : Gets (fetchFlowCollectionEnd d) := by
  unfold fetchFlowCollectionEnd
  exact Gets.then fun _ => Gets.then fun _ => Gets.then fun _ => gets_indicator h

theorem gets_flowEntry : Gets fetchFlowEntry := by
  unfold fetchFlowEntry
  exact Gets.then fun _ => Gets.then fun _ => gets_indicator (by simp)

instance {d : TokenData} {x : String} : Four (startBlockCollection d x) := by unfold startBlockCollection; four

theorem gets_blockEntry : Gets fetchBlockEntry := by
  unfold fetchBlockEntry
  exact Gets.then fun _ => Gets.then fun _ => Gets.then fun _ => gets_indicator (by simp)

theorem gets_key : Gets fetchKey := by
  unfold fetchKey
  exact Gets.then fun _ => Gets.then fun _ => Gets.then fun _ => Gets.then fun _ => gets_indicator (by simp)

theorem gets_value : Gets fetchValue := by
  unfold fetchValue
  refine Gets.then fun s => ?_
  split
  · exact fun s c hc => trivial
  · split
    · exact Gets.then fun _ => Gets.then fun _ => Gets.then fun _ => Gets.then fun _ => gets_indicator (by simp)
    · exact Gets.then fun _ => Gets.then fun _ => Gets.then fun _ => gets_indicator (by simp)

theorem gets_anchor {F : Nat} {a : Bool} : Gets (fetchAnchor F a) := by
  unfold fetchAnchor
  exact Gets.then fun _ => Gets.then fun _ => Gets.push scanAnchor_few
theorem gets_tag {F : Nat} : Gets (fetchTag F) := by
  unfold fetchTag
  exact Gets.then fun _ => Gets.then fun _ => Gets.push scanTag_few
theorem gets_blockScalar {F : Nat} {l : Bool} : Gets (fetchBlockScalar F l) := by
  unfold fetchBlockScalar
  exact Gets.then fun _ => Gets.then fun _ => Gets.push scanBlockScalar_few
theorem gets_flowScalar {F : Nat} {l : Bool} : Gets (fetchFlowScalar F l) := by
  unfold fetchFlowScalar
  exact Gets.then fun _ => Gets.then fun _ => Gets.push scanFlowScalar_few
theorem gets_plain {F : Nat} : Gets (fetchPlainScalar F) := by
  unfold fetchPlainScalar
  exact Gets.then fun _ => Gets.then fun _ => Gets.push scanPlainScalar_few

theorem Gets.ite {p : Prop} [Decidable p] {m n : Scan Unit} (h : Gets m) (h' : Gets n) : Gets (if p then m else n) := by
  split
  · exact h
  · exact h'

theorem gets_dispatch {F : Nat} {m : Mark} {fl : Nat} {c0 c1 c2 c3 : Option Char} : Gets (dispatch F m fl c0 c1 c2 c3) := by
  unfold dispatch
  refine Gets.ite gets_streamEnd (Gets.ite gets_directive (Gets.ite (fun s c hc => gets_document hc) (Gets.ite (fun s c hc => gets_document hc)
    (Gets.ite (gets_flowStart (by simp)) (Gets.ite (gets_flowStart (by simp)) (Gets.ite (gets_flowEnd (by simp)) (Gets.ite (gets_flowEnd (by simp))
    (Gets.ite gets_flowEntry (Gets.ite gets_blockEntry (Gets.ite gets_key (Gets.ite gets_value (Gets.ite gets_anchor (Gets.ite gets_anchor (Gets.ite gets_tag
    (Gets.ite gets_blockScalar (Gets.ite gets_blockScalar (Gets.ite gets_flowScalar (Gets.ite gets_flowScalar (Gets.ite gets_plain ?_)))))))))))))))))))
  exact fun s c hc => trivial

theorem gets_next {F : Nat} : Gets (fetchNextToken F) := by
  unfold fetchNextToken
  refine Gets.then fun _ => Gets.then fun s => ?_
  split
  · exact gets_streamStart
  · exact Gets.then fun _ => Gets.then fun _ => Gets.then fun _ => Gets.then fun _ => Gets.then fun _ => Gets.then fun _ => Gets.then fun _ => Gets.then fun _ => Gets.then fun _ => Gets.then fun _ => gets_dispatch

/-! ### Calls -/

/-- What is known of a scanner that has delivered `hist`. -/
def Last (hist : List Token) (s : SState) (c : Nat) : Prop := c ≤ 4 ∧ ∀ X t, hist ++ s.tokens = X ++ [t] → t.data = .documentEnd → c ≤ 1

theorem Got.last {hist : List Token} {s : SState} {c : Nat} (h : Got s c) : Last hist s c := by
  obtain ⟨h1, X, t, h2, h3⟩ := h
  refine ⟨h1, fun Y u he hd => ?_⟩
  rw [h2, ← List.append_assoc] at he
  have := (List.append_inj' he rfl).2
  simp only [List.cons.injEq, and_true] at this
  subst this
  exact h3 hd

theorem stale_last {hist : List Token} {s : SState} {c : Nat} (h : Last hist s c) : wpN staleSimpleKeys (fun _ s c => Last hist s c) s c := by
  unfold staleSimpleKeys
  refine wpN_bind (wpN_get.2 (wpN_bind ?_))
  show wpN _ _ _ _
  split
  · exact h
  · trivial

theorem more_last {hist : List Token} {F : Nat} {s : SState} {c : Nat} (h : Last hist s c) : wpN (fetchMoreTokens F) (fun _ s c => Last hist s c) s c := by
  unfold fetchMoreTokens
  refine wpN_bind ?_
  have key : ∀ (n : Nat) (s : SState) (c : Nat), Last hist s c → wpN (M.loop n (fun (_ : Unit) => do
      if (← M.get).tokens.isEmpty then do
        fetchNextToken F
        pure (.inl ())
      else do
        staleSimpleKeys
        if keyPending (← M.get) then do
          fetchNextToken F
          pure (.inl ())
        else pure (.inr ())) () : Scan Unit) (fun _ s c => Last hist s c) s c := by
    intro n
    induction n with
    | zero => intro s c h; trivial
    | succ n ih =>
      intro s c h
      refine wpN_bind (wpN_mono (Q := fun _ s c => Last hist s c) ?_ fun b s c h => by
        cases b with
        | inl x => exact ih s c h
        | inr x => exact h)
      refine wpN_bind (wpN_get.2 ?_)
      split
      · exact wpN_bind (wpN_mono (gets_next s c h.1) fun _ s c h => h.last)
      · refine wpN_bind (wpN_mono (stale_last h) fun _ s c h => ?_)
        refine wpN_bind (wpN_get.2 ?_)
        split
        · exact wpN_bind (wpN_mono (gets_next s c h.1) fun _ s c h => h.last)
        · exact h
  exact wpN_mono (key F s c h) fun _ s c h => h

theorem scan_last {hist : List Token} {F : Nat} {s : SState} {c : Nat} (h : Last hist s c) (hne : s.streamEndProduced = false) :
    wpN (Scanner.scan F) (fun t s c => Last (hist ++ [t]) s c) s c := by
  unfold Scanner.scan
  refine wpN_bind (wpN_get.2 ?_)
  rw [hne]
  refine wpN_bind (wpN_mono (Q := fun _ s c => Last hist s c) ?_ fun _ s c h => ?_)
  · cases s.tokenAvailable with
    | true => exact h
    | false => exact more_last h
  · refine wpN_bind (wpN_get.2 ?_)
    split
    · trivial
    · rename_i t ts ht
      refine ⟨h.1, fun X u he hd => h.2 X u ?_ hd⟩
      rw [ht, ← he]
      show hist ++ t :: ts = hist ++ [t] ++ ts
      simp

/-- After a document end marker, the end of the input was met only if the text ends there. -/
theorem reads_last {items : List SrcItem} {enc e : Encoding} {T : List Char} (hc : Clean enc items e T) (hs : 4 * srcSize items < Reader.maxInput) {F : Nat}
    (hF : T.length + 2 < F) {ts : List Token} {o : ScannerObj} (h : ScannerObj.Reads F (ScannerObj.new items enc) ts o) (hn : ∀ t ∈ ts, t.data ≠ .streamEnd) :
    ∃ c, KR c o.r ∧ Last ts o.s c := by
  induction h with
  | nil => exact ⟨0, by intro h; simp [ScannerObj.new] at h, by omega, fun _ _ _ _ => by omega⟩
  | @snoc ts t o1 o2 h hsc ih =>
    have hn1 : ∀ t ∈ ts, t.data ≠ .streamEnd := fun t ht => hn t (by simp [ht])
    obtain ⟨c, h1, h2⟩ := ih hn1
    obtain ⟨⟨b, _, _, _, _, _, hid, _⟩, _⟩ := Dx.reads_run hc hs hF h hn1
    obtain ⟨c', g1, g2⟩ := exec_ahead _ (scan_last (F := F) h2 hid.notProduced) h1
    unfold ScannerObj.scan runA at hsc
    revert hsc g1 g2
    generalize execA (Scanner.scan F o1.s) o1.r = q
    obtain ⟨⟨out, s'⟩, r'⟩ := q
    intro hsc g1 g2
    obtain ⟨rfl, rfl⟩ := Prod.mk.inj hsc
    exact ⟨c', g1, g2⟩

theorem reads_not_ended {items : List SrcItem} {enc e : Encoding} {T : List Char} (hc : Clean enc items e T) (hs : 4 * srcSize items < Reader.maxInput) {F : Nat}
    (hF : T.length + 2 < F) {ts : List Token} {d : Token} {o : ScannerObj} (h : ScannerObj.Reads F (ScannerObj.new items enc) (ts ++ [d]) o)
    (hd : d.data = .documentEnd) (hn : ∀ t ∈ ts, t.data ≠ .streamEnd) {A r : List Char} {c : Char} (hT : T = A ++ c :: r) (hA : Spec.position A = d.endMark) : o.r.eof = false := by
  obtain ⟨b, hst⟩ := Dx.reads_stop hc hs hF h hd hn
  obtain ⟨n, h1, h2⟩ := reads_last hc hs hF h (by
    intro t ht
    rcases List.mem_append.1 ht with ht | ht
    · exact hn t ht
    · simp at ht; rw [ht, hd]; simp)
  have hle := h2.2 ts d (by rw [hst.empty]; simp) hd
  cases he : o.r.eof with
  | false => rfl
  | true =>
    exfalso
    have hb : o.r.buffer = [] := by
      rcases h1 he with h | h
      · exact List.length_eq_zero_iff.1 (by omega)
      · exact h
    obtain ⟨t, k1, k2, k3, k4, _⟩ := hst.rc
    rw [k4 he] at k1
    rw [hb, k1.future.nil] at k2
    have hadv := hst.adv
    rw [k2] at hadv
    obtain ⟨pre, p1, p2, _⟩ := hadv
    have i1 : d.endMark.index = strLen A := by
      rw [← hA]
      have := Dx.advance_len Mark.zero A
      simpa [Spec.position, Mark.zero] using this
    have i2 : d.endMark.index = strLen T := by
      rw [p2, p1, List.append_nil, List.append_nil]
      have := Dx.advance_len Mark.zero pre
      simpa [Mark.zero] using this
    rw [hT, Dx.strLen_app] at i2
    have : 0 < strLen (c :: r) := by
      have := lenUtf8_pos c
      show 0 < lenUtf8 c + strLen r
      omega
    omega

end Yaml.Nd
