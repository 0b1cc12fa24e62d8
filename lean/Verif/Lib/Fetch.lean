import Verif.Lib.Lex3
import Verif.Lib.Snd4

/-
`fetch_next_token` as a transition: which changes of the queue, the indentation stack and the
simple keys it can make.  The invariants of the scanner are then proved about this transition.
-/

namespace Yaml
open Scanner
set_option linter.unusedSimpArgs false
set_option linter.unusedVariables false

/-! ### Pure effects -/

/-- The indentation stack is strictly decreasing and ends with `-1`. -/
def IndOk : Int → List Int → Prop
  | i, [] => i = -1
  | i, j :: js => j < i ∧ IndOk j js

/-- Keys after some of them were made impossible. -/
inductive KeySub : List SimpleKey → List SimpleKey → Prop
  | nil : KeySub [] []
  | keep (k : SimpleKey) {a b : List SimpleKey} : KeySub a b → KeySub (k :: a) (k :: b)
  | drop (k : SimpleKey) {a b : List SimpleKey} : KeySub a b → KeySub ({ k with possible := false } :: a) (k :: b)

theorem KeySub.refl : ∀ ks, KeySub ks ks
  | [] => .nil
  | k :: ks => .keep k (refl ks)

theorem KeySub.append {a b c d : List SimpleKey} (h : KeySub a b) (h' : KeySub c d) : KeySub (a ++ c) (b ++ d) := by
  induction h with
  | nil => exact h'
  | keep k _ ih => exact .keep k ih
  | drop k _ ih => exact .drop k ih

theorem KeySub.reverse {a b : List SimpleKey} (h : KeySub a b) : KeySub a.reverse b.reverse := by
  induction h with
  | nil => exact .nil
  | keep k _ ih => simpa using ih.append (.keep k .nil)
  | drop k _ ih => simpa using ih.append (.drop k .nil)

theorem KeySub.length {a b : List SimpleKey} (h : KeySub a b) : a.length = b.length := by
  induction h with
  | nil => rfl
  | keep k _ ih => simp [ih]
  | drop k _ ih => simp [ih]

theorem KeySub.mem {a b : List SimpleKey} (h : KeySub a b) {k : SimpleKey} (hk : k ∈ a) (hp : k.possible = true) :
    k ∈ b := by
  induction h with
  | nil => exact hk
  | keep k' _ ih =>
    rcases List.mem_cons.1 hk with rfl | hk
    · exact List.mem_cons_self
    · exact List.mem_cons_of_mem _ (ih hk)
  | drop k' _ ih =>
    rcases List.mem_cons.1 hk with rfl | hk
    · simp at hp
    · exact List.mem_cons_of_mem _ (ih hk)

theorem KeySub.tail {a b : List SimpleKey} (h : KeySub a b) : KeySub a.tail b.tail := by
  cases h with
  | nil => exact .nil
  | keep k h => exact h
  | drop k h => exact h

/-- `stale_simple_keys`: the state it leaves. -/
def staleS (s : SState) : SState :=
  { s with simpleKeys := (staleList s.mark s.simpleKeys.reverse).1.reverse }

/-- `stale_simple_keys`: the mark of the required key that went stale, if any. -/
def staleErr (s : SState) : Option Mark := (staleList s.mark s.simpleKeys.reverse).2

theorem staleList_sub (m : Mark) (ks : List SimpleKey) : KeySub (staleList m ks).1 ks := by
  induction ks with
  | nil => exact .nil
  | cons k ks ih =>
    unfold staleList
    split
    · split
      · exact KeySub.refl _
      · exact .drop k ih
    · exact .keep k ih

theorem staleList_none {m : Mark} {ks : List SimpleKey} (h : (staleList m ks).2 = none) :
    ∀ k ∈ (staleList m ks).1, k.possible = true → m.line ≤ k.mark.line ∧ m.index ≤ k.mark.index + 1024 := by
  induction ks with
  | nil => intro k hk; simp [staleList] at hk
  | cons k ks ih =>
    unfold staleList at h ⊢
    split at h <;> rename_i h1
    · rw [if_pos h1]
      split at h <;> rename_i h2
      · simp at h
      · rw [if_neg h2]
        intro k' hk' hp
        rcases List.mem_cons.1 hk' with rfl | hk'
        · simp at hp
        · exact ih h k' hk' hp
    · rw [if_neg h1]
      intro k' hk' hp
      rcases List.mem_cons.1 hk' with rfl | hk'
      · simp [hp] at h1; omega
      · exact ih h k' hk' hp

theorem staleList_some {m m' : Mark} {ks : List SimpleKey} (h : (staleList m ks).2 = some m') :
    ∃ k ∈ ks, k.possible = true ∧ k.required = true ∧ k.mark = m' := by
  induction ks with
  | nil => simp [staleList] at h
  | cons k ks ih =>
    unfold staleList at h
    split at h <;> rename_i h1
    · split at h <;> rename_i h2
      · simp at h h1
        exact ⟨k, List.mem_cons_self, h1.1, h2, h⟩
      · obtain ⟨k', hk', h3⟩ := ih h
        exact ⟨k', List.mem_cons_of_mem _ hk', h3⟩
    · obtain ⟨k', hk', h3⟩ := ih h
      exact ⟨k', List.mem_cons_of_mem _ hk', h3⟩

theorem staleS_sub (s : SState) : KeySub (staleS s).simpleKeys s.simpleKeys := by
  have := (staleList_sub s.mark s.simpleKeys.reverse).reverse
  simpa [staleS] using this

/-- The current key may be removed only if it is not required. -/
def keyRequired (s : SState) : Bool :=
  match s.simpleKeys with
  | [] => false
  | k :: _ => k.possible && k.required

/-- `remove_simple_key`: the state it leaves. -/
def clearS (s : SState) : SState :=
  { s with simpleKeys := match s.simpleKeys with
      | [] => []
      | k :: ks => { k with possible := false } :: ks }

/-- The key `save_simple_key` stores. -/
def newKey (s : SState) : SimpleKey :=
  { possible := true, required := s.flowLevel == 0 && s.indent == (s.mark.column : Int),
    tokenNumber := s.tokensParsed + s.tokens.length, mark := s.mark }

/-- `save_simple_key`: the state it leaves. -/
def saveS (s : SState) : SState :=
  if s.simpleKeyAllowed then { s with simpleKeys := newKey s :: s.simpleKeys.tail } else s

/-- `roll_indent`: the state it leaves. -/
def rollS (column : Nat) (number : Option Nat) (data : TokenData) (mark : Mark) (s : SState) : SState :=
  if s.flowLevel = 0 ∧ s.indent < (column : Int) then
    { s with
      indents := s.indent :: s.indents, indent := (column : Int),
      tokens := match number with
        | none => s.tokens ++ [⟨data, mark, mark⟩]
        | some n => s.tokens.insertIdx (n - s.tokensParsed) ⟨data, mark, mark⟩ }
  else s

/-- Queue a token. -/
def pushS (t : Token) (s : SState) : SState := { s with tokens := s.tokens ++ [t] }

/-- `unroll_indent`. -/
def Unroll (col : Int) (s s' : SState) : Prop :=
  ∃ n i is, s' = { s with indent := i, indents := is,
                          tokens := s.tokens ++ List.replicate n ⟨.blockEnd, s.mark, s.mark⟩ } ∧
    IndOk i is ∧ s.indents.length = n + is.length ∧ (s.flowLevel = 0 → i ≤ col) ∧
    i :: is = (s.indent :: s.indents).drop n ∧ (∀ x ∈ (s.indent :: s.indents).take n, col < x) ∧ (s.flowLevel ≠ 0 → n = 0)

theorem unrollLoop_spec {col : Int} (hcol : -1 ≤ col) (m : Mark) : ∀ (is : List Int) (i : Int) (ts : List Token),
    IndOk i is → ∃ n i' is', unrollLoop col m i is ts = some (i', is', ts ++ List.replicate n ⟨.blockEnd, m, m⟩) ∧
      IndOk i' is' ∧ is.length = n + is'.length ∧ i' ≤ col ∧ i' :: is' = (i :: is).drop n ∧ ∀ x ∈ (i :: is).take n, col < x := by
  intro is
  induction is with
  | nil =>
    intro i ts h
    have h : i = -1 := h
    refine ⟨0, i, [], ?_, h, rfl, by omega, rfl, by simp⟩
    rw [unrollLoop, if_neg (by omega)]; simp
  | cons j js ih =>
    intro i ts h
    unfold unrollLoop
    by_cases hc : i > col
    · rw [if_pos hc]
      obtain ⟨n, i', is', h1, h2, h3, h4, h5, h6⟩ := ih j (ts ++ [⟨.blockEnd, m, m⟩]) h.2
      refine ⟨n + 1, i', is', ?_, h2, by simp [h3]; omega, h4, by simpa using h5, ?_⟩
      rotate_left
      · intro x hx
        rw [List.take_succ_cons, List.mem_cons] at hx
        rcases hx with rfl | hx
        · exact hc
        · exact h6 x hx
      dsimp only
      rw [h1, List.append_assoc, List.replicate_succ]; rfl
    · rw [if_neg hc]
      exact ⟨0, i, j :: js, by simp, h, by simp, by omega, rfl, by simp⟩

/-! ### Weakest preconditions of the pure parts -/

section
variable {P : PanicSite → Prop} {B : Type} {step : Step CharOp CharOp.Ans B} {E : Err → SState → B → Prop}
  {s : SState} {b : B} {Q : Unit → SState → B → Prop}

/-- The error of a required key that is not followed by `':'`. -/
def keyError (m : Mark) (s : SState) : Err :=
  .scanner "while scanning a simple key" m "could not find expected ':'" s.mark

theorem wp_staleSimpleKeys :
    M.wp step P E staleSimpleKeys Q s b ↔
      match staleErr s with
      | none => Q () (staleS s) b
      | some m => E (keyError m s) (staleS s) b := by
  unfold staleSimpleKeys
  simp only [M.wp_bind, M.wp_get, M.wp_modify]
  show M.wp step P E (match staleErr s with | none => _ | some m => _) Q (staleS s) b ↔ _
  cases staleErr s with
  | none => exact Iff.rfl
  | some m => exact Iff.rfl

theorem wp_removeSimpleKey (hk : s.simpleKeys ≠ [])
    (hQ : keyRequired s = false → Q () (clearS s) b)
    (hE : ∀ k ∈ s.simpleKeys, k.possible = true → E (keyError k.mark s) s b) :
    M.wp step P E removeSimpleKey Q s b := by
  unfold removeSimpleKey
  simp only [M.wp_bind, M.wp_get]
  obtain ⟨k, ks, hks⟩ := List.exists_cons_of_ne_nil hk
  simp only [hks]
  split
  · rename_i h
    simp only [Bool.and_eq_true] at h
    exact hE k (by simp [hks]) h.1
  · rename_i h
    have := hQ (by simp only [keyRequired, hks]; simpa using h)
    simp only [clearS, hks] at this
    exact this

theorem wp_saveSimpleKey (hk : s.simpleKeys ≠ [])
    (hQ : (s.simpleKeyAllowed = true → keyRequired s = false) → Q () (saveS s) b)
    (hE : ∀ k ∈ s.simpleKeys, k.possible = true → E (keyError k.mark s) s b) :
    M.wp step P E saveSimpleKey Q s b := by
  unfold saveSimpleKey
  simp only [M.wp_bind, M.wp_get]
  split
  · rename_i h
    simp only [M.wp_bind]
    refine wp_removeSimpleKey hk ?_ hE
    intro hr
    obtain ⟨k, ks, hks⟩ := List.exists_cons_of_ne_nil hk
    simp only [M.wp_bind, M.wp_get, clearS, hks, M.wp_modify]
    have := hQ (fun _ => hr)
    unfold saveS at this
    rw [if_pos h, hks] at this
    exact this
  · rename_i h
    have := hQ (fun h' => absurd h' h)
    rw [saveS, if_neg h] at this
    exact this

theorem wp_insertToken {n : Nat} {t : Token} (hn : s.tokensParsed ≤ n) (hn' : n ≤ s.tokensParsed + s.tokens.length)
    (hQ : Q () { s with tokens := s.tokens.insertIdx (n - s.tokensParsed) t } b) :
    M.wp step P E (insertToken n t) Q s b := by
  unfold insertToken
  simp only [M.wp_bind, M.wp_get]
  rw [if_pos ⟨hn, by omega⟩]
  exact hQ

theorem wp_rollIndent {col : Nat} {num : Option Nat} {d : TokenData} {m : Mark}
    (hnum : ∀ n, num = some n → s.tokensParsed ≤ n ∧ n ≤ s.tokensParsed + s.tokens.length)
    (hov : col ≤ i32Max ∨ P .rollIndentOverflow)
    (hQ : Q () (rollS col num d m s) b) :
    M.wp step P E (rollIndent col num d m) Q s b := by
  unfold rollIndent
  simp only [M.wp_bind, M.wp_get]
  by_cases hf : s.flowLevel = 0
  · rw [if_neg (by simp [hf])]
    by_cases hi : s.indent < (col : Int)
    · rw [if_pos hi]
      unfold rollS at hQ
      rw [if_pos ⟨hf, hi⟩] at hQ
      simp only [M.wp_bind, M.wp_modify]
      by_cases hc : col > i32Max
      · rw [if_pos hc]
        exact hov.resolve_left (by omega)
      · rw [if_neg hc]
        simp only [M.wp_bind, M.wp_modify]
        cases num with
        | none => exact hQ
        | some n =>
          obtain ⟨h1, h2⟩ := hnum n rfl
          exact wp_insertToken h1 h2 hQ
    · rw [if_neg hi]
      unfold rollS at hQ
      rw [if_neg (fun h => hi h.2)] at hQ
      exact hQ
  · rw [if_pos (by simpa using hf)]
    unfold rollS at hQ
    rw [if_neg (fun h => hf h.1)] at hQ
    exact hQ

theorem wp_unrollIndent {col : Int} (hi : IndOk s.indent s.indents) (hcol : -1 ≤ col)
    (hQ : ∀ s', Unroll col s s' → Q () s' b) :
    M.wp step P E (unrollIndent col) Q s b := by
  unfold unrollIndent
  simp only [M.wp_bind, M.wp_get]
  by_cases hf : s.flowLevel = 0
  · rw [if_neg (by simp [hf])]
    obtain ⟨n, i', is', h1, h2, h3, h4, h5, h6⟩ := unrollLoop_spec hcol s.mark s.indents s.indent s.tokens hi
    rw [h1]
    exact hQ _ ⟨n, i', is', rfl, h2, h3, fun _ => h4, h5, h6, fun h => absurd hf h⟩
  · rw [if_pos (by simpa using hf)]
    exact hQ _ ⟨0, s.indent, s.indents, by simp, hi, by simp, fun h => absurd h hf, rfl, by simp, fun _ => rfl⟩

end

/-! ### Invariant for safety -/

/-- The scanner between calls, before the end of the stream was queued. -/
structure SOpen (s : SState) : Prop where
  started : s.streamStartProduced = true
  notAvail : s.tokenAvailable = false
  notProduced : s.streamEndProduced = false
  notEnded : ∀ t ∈ s.tokens, t.data ≠ .streamEnd
  keysLen : s.simpleKeys.length = s.flowLevel + 1
  ind : IndOk s.indent s.indents
  keyNum : ∀ k ∈ s.simpleKeys, k.possible = true →
    s.tokensParsed ≤ k.tokenNumber ∧ k.tokenNumber ≤ s.tokensParsed + s.tokens.length
  keyTop : ∀ k ∈ s.simpleKeys, k.possible = true → lcLe k.mark s.mark
  keyRest : ∀ k ∈ s.simpleKeys.tail, k.possible = true → lcLt k.mark s.mark

theorem SOpen.keys_ne {s : SState} (h : SOpen s) : s.simpleKeys ≠ [] := by
  intro h'; have := h.keysLen; simp [h'] at this

theorem lcLe_of_lt {a b : Mark} (h : lcLt a b) : lcLe a b := by
  unfold lcLe lcLt at *; omega
theorem lcLe_trans {a b c : Mark} (h : lcLe a b) (h' : lcLe b c) : lcLe a c := by
  unfold lcLe at *; omega
theorem lcLt_of_lt_le {a b c : Mark} (h : lcLt a b) (h' : lcLe b c) : lcLt a c := by
  unfold lcLe lcLt at *; omega
theorem lcLt_of_le_lt {a b c : Mark} (h : lcLe a b) (h' : lcLt b c) : lcLt a c := by
  unfold lcLe lcLt at *; omega
theorem lcLe_of_le {a b : Mark} (h : Spec.le a b) : lcLe a b := h.2

/-- Moving the mark forward. -/
theorem SOpen.frame {s s' : SState} (h : SOpen s) (hf : Frame s s') (hle : Spec.le s.mark s'.mark) : SOpen s' := by
  rw [hf]
  exact { h with
    keyTop := fun k hk hp => lcLe_trans (h.keyTop k hk hp) (lcLe_of_le hle)
    keyRest := fun k hk hp => lcLt_of_lt_le (h.keyRest k hk hp) (lcLe_of_le hle) }

theorem SOpen.allow {s : SState} (h : SOpen s) (x : Bool) : SOpen { s with simpleKeyAllowed := x } := { h with }

theorem SOpen.sub {s : SState} (h : SOpen s) {ks : List SimpleKey} (hk : KeySub ks s.simpleKeys) :
    SOpen { s with simpleKeys := ks } :=
  { h with
    keysLen := by show ks.length = _; rw [hk.length]; exact h.keysLen
    keyNum := fun k hm hp => h.keyNum k (hk.mem hm hp) hp
    keyTop := fun k hm hp => h.keyTop k (hk.mem hm hp) hp
    keyRest := fun k hm hp => h.keyRest k (hk.tail.mem hm hp) hp }

theorem SOpen.stale {s : SState} (h : SOpen s) : SOpen (staleS s) := h.sub (staleS_sub s)

theorem clearS_sub (s : SState) : KeySub (clearS s).simpleKeys s.simpleKeys := by
  unfold clearS
  cases hk : s.simpleKeys with
  | nil => simpa [hk] using KeySub.nil
  | cons k ks => simpa [hk] using KeySub.drop k (KeySub.refl ks)

theorem SOpen.clear {s : SState} (h : SOpen s) : SOpen (clearS s) := h.sub (clearS_sub s)

theorem SOpen.push {s : SState} (h : SOpen s) {t : Token} (ht : t.data ≠ .streamEnd) : SOpen (pushS t s) :=
  { h with
    notEnded := by
      intro t' ht'
      rcases List.mem_append.1 ht' with h' | h'
      · exact h.notEnded t' h'
      · simp at h'; subst h'; exact ht
    keyNum := fun k hm hp => by
      have := h.keyNum k hm hp
      simp only [pushS, List.length_append, List.length_singleton]; omega }

theorem SOpen.unroll {s s' : SState} {col : Int} (h : SOpen s) (hu : Unroll col s s') : SOpen s' := by
  obtain ⟨n, i, is, rfl, hi, hl, _⟩ := hu
  exact { h with
    ind := hi
    notEnded := by
      intro t' ht'
      rcases List.mem_append.1 ht' with h' | h'
      · exact h.notEnded t' h'
      · rw [List.mem_replicate] at h'; rw [h'.2]; simp
    keyNum := fun k hm hp => by
      have := h.keyNum k hm hp
      simp only [List.length_append]; omega }

theorem SOpen.save {s : SState} (h : SOpen s) : SOpen (saveS s) := by
  unfold saveS
  split
  · exact { h with
      keysLen := by
        have := h.keysLen
        show (newKey s :: s.simpleKeys.tail).length = _
        simp [this]
      keyNum := by
        intro k hk hp
        rcases List.mem_cons.1 hk with rfl | hk
        · show s.tokensParsed ≤ s.tokensParsed + s.tokens.length ∧ _; exact ⟨by omega, Nat.le_refl _⟩
        · exact h.keyNum k (List.mem_of_mem_tail hk) hp
      keyTop := by
        intro k hk hp
        rcases List.mem_cons.1 hk with rfl | hk
        · exact Or.inr ⟨rfl, Nat.le_refl _⟩
        · exact h.keyTop k (List.mem_of_mem_tail hk) hp }
  · exact h

theorem SOpen.insert {s : SState} (h : SOpen s) {n : Nat} {t : Token} (hn : n ≤ s.tokens.length) (ht : t.data ≠ .streamEnd) :
    SOpen { s with tokens := s.tokens.insertIdx n t } :=
  { h with
    notEnded := by
      intro t' ht'
      rcases (List.mem_insertIdx hn).1 ht' with rfl | h'
      · exact ht
      · exact h.notEnded t' h'
    keyNum := fun k hm hp => by
      have := h.keyNum k hm hp
      simp only [List.length_insertIdx_of_le_length hn]; omega }

theorem SOpen.roll {s : SState} (h : SOpen s) {col : Nat} {num : Option Nat} {d : TokenData} {m : Mark}
    (hd : d ≠ .streamEnd)
    (hnum : ∀ n, num = some n → s.tokensParsed ≤ n ∧ n ≤ s.tokensParsed + s.tokens.length) :
    SOpen (rollS col num d m s) := by
  unfold rollS
  split
  · rename_i hc
    have h' : SOpen { s with indents := s.indent :: s.indents, indent := (col : Int) } :=
      { h with ind := ⟨hc.2, h.ind⟩ }
    cases num with
    | none => exact h'.push (t := ⟨d, m, m⟩) hd
    | some n =>
      obtain ⟨h1, h2⟩ := hnum n rfl
      exact h'.insert (t := ⟨d, m, m⟩) (by show n - s.tokensParsed ≤ s.tokens.length; omega) hd
  · exact h

/-! ### The transition -/

/-- A token was scanned: it starts here, ends at a position that was reached, and at least one
character was consumed. -/
structure TokG (s : SState) (b : Inp) (tok : Token) (s' : SState) (b' : Inp) : Prop where
  go : Go s b s' b'
  start : tok.startMark = s.mark
  mid : ∃ t, Adv s.mark b.text tok.endMark t ∧ Adv tok.endMark t s'.mark b'.text
  progress : b'.text.length < b.text.length
  wide : lexData tok.data = false → tok.endMark = s'.mark ∧ s'.simpleKeyAllowed = s.simpleKeyAllowed

theorem TokOk.toG {s : SState} {b : Inp} {tok : Token} {s' : SState} {b' : Inp} (h : TokOk s b tok s' b') :
    TokG s b tok s' b' := ⟨h.go, h.start, h.mid, h.progress, fun hk => by have := h.data; rw [hk] at this; simp at this⟩

/-- What happens to the scanner before the characters of a token are consumed; the second
argument is the kind of the token. -/
inductive Prep (s : SState) : (TokenData → Prop) → SState → Prop
  | doc {s1 : SState} (hu : Unroll (-1) s s1) (hr : keyRequired s1 = false) :
      Prep s (fun d => (lexData d = true ∧ directiveData d = true) ∨ d = .documentStart ∨ d = .documentEnd) { clearS s1 with simpleKeyAllowed := false }
  | flowStart (hr : s.simpleKeyAllowed = true → keyRequired s = false) :
      Prep s (fun d => d = .flowSequenceStart ∨ d = .flowMappingStart)
        { saveS s with simpleKeys := emptyKey :: (saveS s).simpleKeys, flowLevel := s.flowLevel + 1,
                       simpleKeyAllowed := true }
  | flowEnd (hr : keyRequired s = false) :
      Prep s (fun d => d = .flowSequenceEnd ∨ d = .flowMappingEnd)
        (if s.flowLevel = 0 then { clearS s with simpleKeyAllowed := false }
          else { clearS s with flowLevel := s.flowLevel - 1, simpleKeys := s.simpleKeys.tail,
                               simpleKeyAllowed := false })
  | flowEntry (hr : keyRequired s = false) :
      Prep s (fun d => d = .flowEntry) { clearS s with simpleKeyAllowed := true }
  | blockEntry {s1 : SState} (hs : s1 = rollS s.mark.column none .blockSequenceStart s.mark s)
      (hr : keyRequired s1 = false) :
      Prep s (fun d => d = .blockEntry) { clearS s1 with simpleKeyAllowed := true }
  | key {s1 : SState} (hs : s1 = rollS s.mark.column none .blockMappingStart s.mark s)
      (hr : keyRequired s1 = false) (x : Bool) :
      Prep s (fun d => d = .key) { clearS s1 with simpleKeyAllowed := x }
  | valueKey {k : SimpleKey} {ks : List SimpleKey} (hk : s.simpleKeys = k :: ks) (hp : k.possible = true) :
      Prep s (fun d => d = .value)
        { rollS k.mark.column (some k.tokenNumber) .blockMappingStart k.mark
            { s with tokens := s.tokens.insertIdx (k.tokenNumber - s.tokensParsed) ⟨.key, k.mark, k.mark⟩,
                     simpleKeys := { k with possible := false } :: ks } with simpleKeyAllowed := false }
  | value {k : SimpleKey} {ks : List SimpleKey} (hk : s.simpleKeys = k :: ks) (hp : k.possible = false) (x : Bool) :
      Prep s (fun d => d = .value)
        { rollS s.mark.column none .blockMappingStart s.mark s with simpleKeyAllowed := x }
  | node (hr : s.simpleKeyAllowed = true → keyRequired s = false) :
      Prep s (fun d => lexData d = true ∧ nodeData d = true) { saveS s with simpleKeyAllowed := false }
  | blockScalar (hr : keyRequired s = false) :
      Prep s (fun d => lexData d = true ∧ blockData d = true) { clearS s with simpleKeyAllowed := true }

/-- The mark at the end of the stream: column 0 of the next line unless already at column 0. -/
def endMarkOf (m : Mark) : Mark :=
  if m.column != 0 then { m with column := 0, line := m.line + 1 } else m

/-- The dispatch of `fetch_next_token`. -/
inductive Dispatched (s : SState) (b : Inp) : SState → Inp → Prop
  | streamEnd {s1 : SState} {b' : Inp} (hb : b.text = []) (hb' : b'.text = [])
      (hu : Unroll (-1) { s with mark := endMarkOf s.mark } s1) (hr : keyRequired s1 = false) :
      Dispatched s b (pushS ⟨.streamEnd, s1.mark, s1.mark⟩ { clearS s1 with simpleKeyAllowed := false }) b'
  | token {D : TokenData → Prop} {s1 s2 : SState} {tok : Token} {b' : Inp} (hp : Prep s D s1)
      (ht : TokG s1 b tok s2 b') (hd : D tok.data)
      (hsp : Spelled (s.flowLevel != 0) s1.indent s.mark b.text tok s2.mark b'.text) :
      Dispatched s b (pushS tok s2) b'

/-- The stream start. -/
def startS (e : Encoding) : SState :=
  { SState.new with indent := -1, simpleKeys := [emptyKey], simpleKeyAllowed := true,
                    streamStartProduced := true, tokens := [⟨.streamStart e, Mark.zero, Mark.zero⟩] }

/-- One successful `fetch_next_token`. -/
inductive Fetched (s : SState) (b : Inp) : SState → Inp → Prop
  | start (hs : s = SState.new) (e : Encoding) {b' : Inp} (hb : b'.text = b.text) : Fetched s b (startS e) b'
  | next {s1 s3 s' : SState} {b1 b' : Inp} (hs : SOpen s) (hg : Go s b s1 b1) (hst : staleErr s1 = none)
      (hu : Unroll (s1.mark.column : Int) (staleS s1) s3) (hd : Dispatched s3 b1 s' b')
      (hsep : Sep s.mark b.text b1.text) : Fetched s b s' b'

/-- A failing `fetch_next_token`: the state is still sound, and the marks of a scanner error are
positions that were reached or those of pending keys. -/
def FetchErr (s : SState) (b : Inp) (e : Err) (s' : SState) : Prop :=
  (s' = SState.new ∨ SOpen s') ∧ Spec.le s.mark s'.mark ∧
  (ReaderErr e ∨ ∃ c cm p, e = .scanner c cm p s'.mark ∧
    ((∃ t, Adv s.mark b.text cm t) ∨ ∃ k ∈ s.simpleKeys, k.possible = true ∧ cm = k.mark) ∧
    ((∃ t, Adv s.mark b.text s'.mark t) ∨ ∃ m, Adv s.mark b.text m [] ∧ s'.mark = endMarkOf m))

end Yaml
