import Verif.Lib.Fetch

/-
`fetch_next_token` over the demonic input: it performs the transition `Fetched` or fails with
`FetchErr`, and panics only where allowed.
-/

namespace Yaml
open Scanner
set_option linter.unusedSimpArgs false
set_option linter.unusedVariables false

/-- Counters stay below the two assertions of the code. -/
def Fits (s : SState) (b : Inp) : Prop :=
  s.mark.column + b.text.length ≤ i32Max ∧ s.flowLevel + b.text.length ≤ i32Max ∧
  ∀ k ∈ s.simpleKeys, k.possible = true → k.mark.column ≤ i32Max

/-- Either the counters fit or the assertions may fail. -/
def FitsOr (P : PanicSite → Prop) (s : SState) (b : Inp) : Prop :=
  Fits s b ∨ (P .rollIndentOverflow ∧ P .flowLevelOverflow)

/-- Errors of the dispatch. -/
def DispErr (s : SState) (b : Inp) (e : Err) (s' : SState) : Prop :=
  SOpen s' ∧ Spec.le s.mark s'.mark ∧
  (ReaderErr e ∨ ∃ c cm p, e = .scanner c cm p s'.mark ∧
    ((∃ t, Adv s.mark b.text cm t) ∨ ∃ k ∈ s.simpleKeys, k.possible = true ∧ cm = k.mark) ∧
    ((∃ t, Adv s.mark b.text s'.mark t) ∨ (b.text = [] ∧ s'.mark = endMarkOf s.mark)))

section
variable {P : PanicSite → Prop} {E : Err → SState → Inp → Prop} {s s1 : SState} {b : Inp}
  {Q : Unit → SState → Inp → Prop}

/-- `E` accepts the errors of the dispatch. -/
def GoodD (E : Err → SState → Inp → Prop) (s : SState) (b : Inp) : Prop :=
  ∀ e s' b', DispErr s b e s' → E e s' b'

theorem GoodD.lex (hE : GoodD E s b) (hs : SOpen s1) (hm : s1.mark = s.mark) : GoodE s1.mark E s1 b := by
  intro e s' b' ⟨hf, hle, he⟩
  refine hE _ _ _ ⟨hs.frame hf hle, by rw [← hm]; exact hle, he.imp id ?_⟩
  rintro ⟨ha, c, p, rfl⟩
  rw [hm] at ha ⊢
  exact ⟨c, s.mark, p, rfl, Or.inl ⟨_, Adv.refl _ _⟩, Or.inl ⟨_, ha⟩⟩

theorem GoodD.key (hE : GoodD E s b) (hs : SOpen s1) (hm : s1.mark = s.mark) (hk : s1.simpleKeys = s.simpleKeys) :
    ∀ k ∈ s1.simpleKeys, k.possible = true → E (keyError k.mark s1) s1 b := by
  intro k hk' hp
  refine hE _ _ _ ⟨hs, by rw [hm]; exact Spec.le_refl _, Or.inr ⟨_, _, _, rfl, Or.inr ⟨k, hk ▸ hk', hp, rfl⟩, Or.inl ⟨b.text, ?_⟩⟩⟩
  rw [hm]; exact Adv.refl _ _

theorem GoodD.here (hE : GoodD E s b) (hs : SOpen s) (c p : String) : E (.scanner c s.mark p s.mark) s b :=
  hE _ _ _ ⟨hs, Spec.le_refl _, Or.inr ⟨_, _, _, rfl, Or.inl ⟨_, Adv.refl _ _⟩, Or.inl ⟨_, Adv.refl _ _⟩⟩⟩

/-- A lexical function that yields a token: what it consumes and how the token is spelled. -/
theorem wpB_token {K : TokenData → Bool} {m : Scan Token} {Q : Token → SState → Inp → Prop}
    (h : ∀ Q : Token → SState → Inp → Prop, (∀ tok s' b', TokOk s b tok s' b' → Q tok s' b') → M.wp stepB P E m Q s b)
    (h' : ∀ Q : Token → SState → Str → Prop, (∀ tok s' t', Spelled (s.flowLevel != 0) s.indent s.mark b.text tok s'.mark t' → K tok.data = true → Q tok s' t') →
      wpC m Q s b.text)
    (hQ : ∀ tok s' b', TokOk s b tok s' b' → Spelled (s.flowLevel != 0) s.indent s.mark b.text tok s'.mark b'.text → K tok.data = true → Q tok s' b') :
    M.wp stepB P E m Q s b :=
  M.wp_cut stepB_mono _ (wpB_and (h _ fun _ _ _ h => h) (h' (fun tok s' t' => Spelled (s.flowLevel != 0) s.indent s.mark b.text tok s'.mark t' ∧ K tok.data = true) fun _ _ _ h h' => ⟨h, h'⟩)) fun a s' b' h => hQ a s' b' h.1 h.2.1 h.2.2

theorem wpB_fetchIndicator {n : Nat} {d : TokenData} {flow : Bool} {m : Mark} (hm : s.mark = m) (hn : 0 < n) (hc : n ≤ b.cached)
    (hch : ∀ i, i < n → ∃ c, b.text[i]? = some c ∧ isBreak c = false)
    (hsp : ∀ i m', Spec.Spells flow i ⟨d, m, m'⟩ (b.text.take n) (b.text.drop n))
    (hQ : ∀ tok s' b', TokG s b tok s' b' → tok.data = d → (∀ i, Spelled flow i m b.text tok s'.mark b'.text) → Q () (pushS tok s') b') :
    M.wp stepB P E (fetchIndicator n d) Q s b := by
  subst hm
  unfold fetchIndicator
  wps
  refine wpB_skipChars hc hch ?_
  intro s' b' hg ht hska
  unfold pushToken
  wps
  refine hQ ⟨d, s.mark, s'.mark⟩ s' b' ⟨hg, rfl, ⟨b'.text, hg.2, Adv.refl _ _⟩, ?_, fun _ => ⟨rfl, hska⟩⟩ rfl
    (fun i => ⟨rfl, _, _, (List.take_append_drop n b.text).symm, ht ▸ hg.2, ht ▸ Adv.refl _ _, ht ▸ Sep.refl _ _, hsp i _, fun _ _ _ n' => hsp n' _⟩)
  obtain ⟨c, h0, _⟩ := hch 0 hn
  have : 0 < b.text.length := by
    rcases Nat.eq_zero_or_pos b.text.length with h | h
    · rw [List.length_eq_zero_iff.1 h] at h0; simp at h0
    · exact h
  rw [ht, List.length_drop]; omega

theorem wpB_fetchIndicator1 {d : TokenData} {c : Char} {t : List Char} {flow : Bool} {m : Mark} (hm : s.mark = m)
    (ht : b.text = c :: t) (hb : isBreak c = false) (hc : 0 < b.cached)
    (hsp : ∀ i m', Spec.Spells flow i ⟨d, m, m'⟩ [c] t)
    (hQ : ∀ tok s' b', TokG s b tok s' b' → tok.data = d → (∀ i, Spelled flow i m b.text tok s'.mark b'.text) → Q () (pushS tok s') b') :
    M.wp stepB P E (fetchIndicator 1 d) Q s b := by
  refine wpB_fetchIndicator hm (by omega) hc ?_ (by rw [ht]; exact hsp) hQ
  intro i hi
  have : i = 0 := by omega
  subst this
  exact ⟨c, by simp [ht], hb⟩

theorem Unroll.mark {s s1 : SState} {col : Int} (h : Unroll col s s1) : s1.mark = s.mark := by
  obtain ⟨_, _, _, rfl, _⟩ := h; rfl
theorem Unroll.keys {s s1 : SState} {col : Int} (h : Unroll col s s1) : s1.simpleKeys = s.simpleKeys := by
  obtain ⟨_, _, _, rfl, _⟩ := h; rfl
theorem Unroll.flow {s s1 : SState} {col : Int} (h : Unroll col s s1) : s1.flowLevel = s.flowLevel := by
  obtain ⟨_, _, _, rfl, _⟩ := h; rfl
theorem rollS_mark {c n d m s} : (rollS c n d m s).mark = s.mark := by unfold rollS; split <;> rfl
theorem rollS_keys {c n d m s} : (rollS c n d m s).simpleKeys = s.simpleKeys := by unfold rollS; split <;> rfl
theorem rollS_flow {c n d m s} : (rollS c n d m s).flowLevel = s.flowLevel := by unfold rollS; split <;> rfl
theorem saveS_mark {s} : (saveS s).mark = s.mark := by unfold saveS; split <;> rfl
theorem saveS_indent {s} : (saveS s).indent = s.indent := by unfold saveS; split <;> rfl
theorem saveS_flow {s} : (saveS s).flowLevel = s.flowLevel := by unfold saveS; split <;> rfl

theorem wpB_fetchStreamEnd (hs : SOpen s) (hE : GoodD E s b) (hb : b.text = [])
    (hQ : ∀ s' b', Dispatched s b s' b' → Q () s' b') :
    M.wp stepB P E fetchStreamEnd Q s b := by
  unfold fetchStreamEnd pushToken
  wps
  have heq : (if s.mark.column != 0 then { s with mark := { s.mark with column := 0, line := s.mark.line + 1 } }
      else s) = { s with mark := endMarkOf s.mark } := by
    unfold endMarkOf; split <;> rfl
  rw [heq]
  have hle : Spec.le s.mark (endMarkOf s.mark) := by
    unfold endMarkOf
    split
    · exact ⟨Nat.le_refl _, Or.inl (Nat.lt_succ_self _)⟩
    · exact Spec.le_refl _
  have hs0 : SOpen { s with mark := endMarkOf s.mark } := hs.frame (Frame.mk' _ _ _) hle
  refine wp_unrollIndent hs0.ind (by omega) ?_
  intro s1 hu
  have hs1 := hs0.unroll hu
  refine wp_removeSimpleKey hs1.keys_ne ?_ ?_
  · intro hr
    have := hQ _ _ (Dispatched.streamEnd hb hb hu hr)
    exact this
  · intro k hk hp
    refine hE _ _ _ ⟨hs1, by rw [hu.mark]; exact hle, Or.inr ⟨_, _, _, rfl, Or.inr ⟨k, hu.keys ▸ hk, hp, rfl⟩, Or.inr ⟨hb, hu.mark⟩⟩⟩

theorem wpB_fetchDirective {F : Nat} {c : Char} {t : List Char} (hs : SOpen s) (hE : GoodD E s b)
    (ht : b.text = c :: t) (hcc : c = '%') (hcol : s.mark.column = 0) (hb : isBreak c = false) (hc : 0 < b.cached) (hF : b.text.length < F)
    (hQ : ∀ s' b', Dispatched s b s' b' → Q () s' b') :
    M.wp stepB P E (fetchDirective F) Q s b := by
  unfold fetchDirective pushToken
  wps
  refine wp_unrollIndent hs.ind (by omega) ?_
  intro s1 hu
  have hs1 := hs.unroll hu
  refine wp_removeSimpleKey hs1.keys_ne ?_ (hE.key hs1 hu.mark hu.keys)
  intro hr
  have hm : ({ clearS s1 with simpleKeyAllowed := false } : SState).mark = s.mark := hu.mark
  refine wpB_token (fun Q => wpB_scanDirective ht hb hc hF (hE.lex (hs1.clear.allow false) hm))
    (fun Q => wpC_scanDirective (hcc ▸ ht) (by rw [hm]; exact hcol)) ?_
  intro tok s2 b2 hok hsp hk
  refine hQ _ _ (Dispatched.token (Prep.doc hu hr) hok.toG (Or.inl ⟨hok.data, hk⟩) ?_)
  rw [← hm, ← hu.flow]
  exact hsp

theorem wpB_fetchDocumentIndicator {d : TokenData} (hs : SOpen s) (hE : GoodD E s b)
    (hc : 3 ≤ b.cached) (hch : ∀ i, i < 3 → ∃ c, b.text[i]? = some c ∧ isBreak c = false)
    (hd : d = .documentStart ∨ d = .documentEnd)
    (hsp : ∀ f i m', Spec.Spells f i ⟨d, s.mark, m'⟩ (b.text.take 3) (b.text.drop 3))
    (hQ : ∀ s' b', Dispatched s b s' b' → Q () s' b') :
    M.wp stepB P E (fetchDocumentIndicator d) Q s b := by
  unfold fetchDocumentIndicator
  wps
  refine wp_unrollIndent hs.ind (by omega) ?_
  intro s1 hu
  have hs1 := hs.unroll hu
  refine wp_removeSimpleKey hs1.keys_ne ?_ (hE.key hs1 hu.mark hu.keys)
  intro hr
  have hm : ({ clearS s1 with simpleKeyAllowed := false } : SState).mark = s.mark := hu.mark
  refine wpB_fetchIndicator (flow := s.flowLevel != 0) hm (by omega) hc hch (hsp _) ?_
  intro tok s2 b2 hok htd hsp
  exact hQ _ _ (Dispatched.token (Prep.doc hu hr) hok (Or.inr (by rw [htd]; exact hd)) (hsp _))

theorem wpB_fetchFlowCollectionStart {d : TokenData} {c : Char} {t : List Char} (hs : SOpen s) (hE : GoodD E s b)
    (ht : b.text = c :: t) (hb : isBreak c = false) (hc : 0 < b.cached)
    (hd : d = .flowSequenceStart ∨ d = .flowMappingStart) (hfit : FitsOr P s b)
    (hsp : ∀ f i m', Spec.Spells f i ⟨d, s.mark, m'⟩ [c] t)
    (hQ : ∀ s' b', Dispatched s b s' b' → Q () s' b') :
    M.wp stepB P E (fetchFlowCollectionStart d) Q s b := by
  unfold fetchFlowCollectionStart increaseFlowLevel
  wps
  refine wp_saveSimpleKey hs.keys_ne ?_ (hE.key hs rfl rfl)
  intro hr
  split
  · rename_i h
    rcases hfit with h' | h'
    · have h := (beq_iff_eq.1 h)
      rw [show ({ saveS s with simpleKeys := emptyKey :: (saveS s).simpleKeys } : SState).flowLevel = s.flowLevel from saveS_flow] at h
      have := h'.2.1
      simp [ht] at this; omega
    · exact h'.2
  · wps
    refine wpB_fetchIndicator1 (flow := s.flowLevel != 0) saveS_mark ht hb hc (hsp _) ?_
    · intro tok s2 b2 hok htd hsp
      have := Prep.flowStart hr
      rw [← saveS_flow] at this
      exact hQ _ _ (Dispatched.token this hok (by rw [htd]; exact hd) (hsp _))

theorem wpB_fetchFlowCollectionEnd {d : TokenData} {c : Char} {t : List Char} (hs : SOpen s) (hE : GoodD E s b)
    (ht : b.text = c :: t) (hb : isBreak c = false) (hc : 0 < b.cached)
    (hd : d = .flowSequenceEnd ∨ d = .flowMappingEnd)
    (hsp : ∀ f i m', Spec.Spells f i ⟨d, s.mark, m'⟩ [c] t)
    (hQ : ∀ s' b', Dispatched s b s' b' → Q () s' b') :
    M.wp stepB P E (fetchFlowCollectionEnd d) Q s b := by
  unfold fetchFlowCollectionEnd decreaseFlowLevel
  wps
  refine wp_removeSimpleKey hs.keys_ne ?_ (hE.key hs rfl rfl)
  intro hr
  refine wpB_fetchIndicator1 (flow := s.flowLevel != 0) (m := s.mark) (by show (if _ then _ else _ : SState).mark = _; split <;> rfl) ht hb hc (hsp _) ?_
  · intro tok s2 b2 hok htd hsp
    refine hQ _ _ (Dispatched.token (Prep.flowEnd hr) ?_ (by rw [htd]; exact hd) (hsp _))
    obtain ⟨k, ks, hks⟩ := List.exists_cons_of_ne_nil hs.keys_ne
    have e : (clearS s).simpleKeys.tail = s.simpleKeys.tail := by simp [clearS, hks]
    by_cases hf : s.flowLevel = 0
    · rw [if_pos hf]
      have hf' : ((clearS s).flowLevel != 0) = false := by simp [clearS, hf]
      rw [hf'] at hok
      exact hok
    · rw [if_neg hf]
      have hf' : ((clearS s).flowLevel != 0) = true := by simp [clearS, hf]
      rw [hf'] at hok
      rw [← e]
      exact hok

theorem wpB_fetchFlowEntry {c : Char} {t : List Char} (hs : SOpen s) (hE : GoodD E s b)
    (ht : b.text = c :: t) (hb : isBreak c = false) (hc : 0 < b.cached)
    (hsp : ∀ f i m', Spec.Spells f i ⟨.flowEntry, s.mark, m'⟩ [c] t)
    (hQ : ∀ s' b', Dispatched s b s' b' → Q () s' b') :
    M.wp stepB P E fetchFlowEntry Q s b := by
  unfold fetchFlowEntry
  wps
  refine wp_removeSimpleKey hs.keys_ne ?_ (hE.key hs rfl rfl)
  intro hr
  refine wpB_fetchIndicator1 (flow := s.flowLevel != 0) rfl ht hb hc (hsp _) ?_
  · intro tok s2 b2 hok htd hsp
    exact hQ _ _ (Dispatched.token (Prep.flowEntry hr) hok htd (hsp _))

theorem wp_startBlockCollection {d : TokenData} {p : String} (hs : SOpen s) (hE : GoodD E s b)
    (hov : s.mark.column ≤ i32Max ∨ P .rollIndentOverflow)
    (hQ : Q () (rollS s.mark.column none d s.mark s) b) :
    M.wp stepB P E (startBlockCollection d p) Q s b := by
  unfold startBlockCollection
  wps
  split
  · split
    · exact hE.here hs _ _
    · exact wp_rollIndent (by simp) hov hQ
  · rename_i h
    unfold rollS at hQ
    rw [if_neg (fun h' => h (by simpa using h'.1))] at hQ
    exact hQ

theorem FitsOr.col (h : FitsOr P s b) : s.mark.column ≤ i32Max ∨ P .rollIndentOverflow := by
  rcases h with h | h
  · left; have := h.1; omega
  · exact Or.inr h.1

theorem wpB_fetchBlockEntry {c : Char} {t : List Char} (hs : SOpen s) (hE : GoodD E s b)
    (ht : b.text = c :: t) (hb : isBreak c = false) (hc : 0 < b.cached) (hfit : FitsOr P s b)
    (hsp : ∀ i m', Spec.Spells (s.flowLevel != 0) i ⟨.blockEntry, s.mark, m'⟩ [c] t)
    (hQ : ∀ s' b', Dispatched s b s' b' → Q () s' b') :
    M.wp stepB P E fetchBlockEntry Q s b := by
  unfold fetchBlockEntry
  wps
  refine wp_startBlockCollection hs hE hfit.col ?_
  have hs1 : SOpen (rollS s.mark.column none .blockSequenceStart s.mark s) := hs.roll (by simp) (by simp)
  refine wp_removeSimpleKey hs1.keys_ne ?_ (hE.key hs1 rollS_mark rollS_keys)
  intro hr
  refine wpB_fetchIndicator1 (flow := s.flowLevel != 0) rollS_mark ht hb hc hsp ?_
  · intro tok s2 b2 hok htd hsp
    exact hQ _ _ (Dispatched.token (Prep.blockEntry rfl hr) hok htd (hsp _))

theorem wpB_fetchKey {c : Char} {t : List Char} (hs : SOpen s) (hE : GoodD E s b)
    (ht : b.text = c :: t) (hb : isBreak c = false) (hc : 0 < b.cached) (hfit : FitsOr P s b)
    (hsp : ∀ i m', Spec.Spells (s.flowLevel != 0) i ⟨.key, s.mark, m'⟩ [c] t)
    (hQ : ∀ s' b', Dispatched s b s' b' → Q () s' b') :
    M.wp stepB P E fetchKey Q s b := by
  unfold fetchKey
  wps
  refine wp_startBlockCollection hs hE hfit.col ?_
  have hs1 : SOpen (rollS s.mark.column none .blockMappingStart s.mark s) := hs.roll (by simp) (by simp)
  refine wp_removeSimpleKey hs1.keys_ne ?_ (hE.key hs1 rollS_mark rollS_keys)
  intro hr
  refine wpB_fetchIndicator1 (flow := s.flowLevel != 0) rollS_mark ht hb hc hsp ?_
  · intro tok s2 b2 hok htd hsp
    exact hQ _ _ (Dispatched.token (Prep.key rfl hr _) hok htd (hsp _))

theorem wpB_fetchValue {c : Char} {t : List Char} (hs : SOpen s) (hE : GoodD E s b)
    (ht : b.text = c :: t) (hb : isBreak c = false) (hc : 0 < b.cached) (hfit : FitsOr P s b)
    (hsp : ∀ i m', Spec.Spells (s.flowLevel != 0) i ⟨.value, s.mark, m'⟩ [c] t)
    (hQ : ∀ s' b', Dispatched s b s' b' → Q () s' b') :
    M.wp stepB P E fetchValue Q s b := by
  unfold fetchValue
  wps
  obtain ⟨k, ks, hks⟩ := List.exists_cons_of_ne_nil hs.keys_ne
  simp only [hks]
  by_cases hp : k.possible = true
  · rw [if_pos hp]
    wps
    obtain ⟨h1, h2⟩ := hs.keyNum k (by simp [hks]) hp
    refine wp_insertToken h1 h2 ?_
    wps
    refine wp_rollIndent ?_ ?_ ?_
    · intro n hn
      cases hn
      refine ⟨h1, ?_⟩
      simp only []
      rw [List.length_insertIdx_of_le_length (by omega)]; omega
    · rcases hfit with h | h
      · exact Or.inl (h.2.2 k (by simp [hks]) hp)
      · exact Or.inr h.1
    · refine wpB_fetchIndicator1 (flow := s.flowLevel != 0) rollS_mark ht hb hc hsp ?_
      intro tok s2 b2 hok htd hsp
      exact hQ _ _ (Dispatched.token (Prep.valueKey hks hp) hok htd (hsp _))
  · rw [if_neg hp]
    wps
    refine wp_startBlockCollection hs hE hfit.col ?_
    refine wpB_fetchIndicator1 (flow := s.flowLevel != 0) rollS_mark ht hb hc hsp ?_
    intro tok s2 b2 hok htd hsp
    exact hQ _ _ (Dispatched.token (Prep.value hks (by simpa using hp) _) hok htd (hsp _))

theorem wpB_fetchAnchor {F : Nat} {al : Bool} {c : Char} {t : List Char} (hs : SOpen s) (hE : GoodD E s b)
    (ht : b.text = c :: t) (hcc : c = if al then '*' else '&') (hb : isBreak c = false) (hc : 0 < b.cached) (hF : b.text.length < F)
    (hQ : ∀ s' b', Dispatched s b s' b' → Q () s' b') :
    M.wp stepB P E (fetchAnchor F al) Q s b := by
  unfold fetchAnchor pushToken
  wps
  refine wp_saveSimpleKey hs.keys_ne ?_ (hE.key hs rfl rfl)
  intro hr
  refine wpB_token (fun Q => wpB_scanAnchor ht hb hc hF (hE.lex (hs.save.allow false) saveS_mark)) (fun Q => wpC_scanAnchor (hcc ▸ ht)) ?_
  intro tok s2 b2 hok hsp hk
  refine hQ _ _ (Dispatched.token (Prep.node hr) hok.toG ⟨hok.data, hk⟩ ?_)
  rw [← saveS_mark (s := s), ← saveS_flow (s := s)]
  exact hsp

theorem wpB_fetchTag {F : Nat} {t : List Char} (hs : SOpen s) (hE : GoodD E s b)
    (ht : b.text = '!' :: t) (hF : b.text.length < F) (hP : PanicsOk P b.text)
    (hQ : ∀ s' b', Dispatched s b s' b' → Q () s' b') :
    M.wp stepB P E (fetchTag F) Q s b := by
  unfold fetchTag pushToken
  wps
  refine wp_saveSimpleKey hs.keys_ne ?_ (hE.key hs rfl rfl)
  intro hr
  refine wpB_token (fun Q => wpB_scanTag ht hF (hE.lex (hs.save.allow false) saveS_mark) hP) (fun Q => wpC_scanTag ht) ?_
  intro tok s2 b2 hok hsp hk
  refine hQ _ _ (Dispatched.token (Prep.node hr) hok.toG ⟨hok.data, hk⟩ ?_)
  rw [← saveS_mark (s := s), ← saveS_flow (s := s)]
  exact hsp

theorem wpB_fetchBlockScalar {F : Nat} {lit : Bool} {c : Char} {t : List Char} (hs : SOpen s) (hE : GoodD E s b)
    (ht : b.text = c :: t) (hcc : c = if lit then '|' else '>') (hfl : s.flowLevel = 0) (hb : isBreak c = false) (hc : 0 < b.cached) (hF : b.text.length < F)
    (hP : PanicsOk P b.text) (hQ : ∀ s' b', Dispatched s b s' b' → Q () s' b') :
    M.wp stepB P E (fetchBlockScalar F lit) Q s b := by
  unfold fetchBlockScalar pushToken
  wps
  refine wp_removeSimpleKey hs.keys_ne ?_ (hE.key hs rfl rfl)
  intro hr
  refine wpB_token (fun Q => wpB_scanBlockScalar ht hb hc hF (hE.lex (hs.clear.allow true) rfl) hP) (fun Q => wpC_scanBlockScalar (hcc ▸ ht) hfl) ?_
  intro tok s2 b2 hok hsp hk
  exact hQ _ _ (Dispatched.token (Prep.blockScalar hr) hok.toG ⟨hok.data, hk⟩ hsp)

theorem wpB_fetchFlowScalar {F : Nat} {single : Bool} {c : Char} {t : List Char} (hs : SOpen s) (hE : GoodD E s b)
    (ht : b.text = c :: t) (hcc : c = quoteChar single) (hb : isBreak c = false) (hc : 0 < b.cached) (hF : b.text.length < F)
    (hP : PanicsOk P b.text) (hQ : ∀ s' b', Dispatched s b s' b' → Q () s' b') :
    M.wp stepB P E (fetchFlowScalar F single) Q s b := by
  unfold fetchFlowScalar pushToken
  wps
  refine wp_saveSimpleKey hs.keys_ne ?_ (hE.key hs rfl rfl)
  intro hr
  refine wpB_token (fun Q => wpB_scanFlowScalar ht hb hc hF (hE.lex (hs.save.allow false) saveS_mark) hP) (fun Q => wpC_scanFlowScalar (hcc ▸ ht)) ?_
  intro tok s2 b2 hok hsp hk
  refine hQ _ _ (Dispatched.token (Prep.node hr) hok.toG ⟨hok.data, hk⟩ ?_)
  rw [← saveS_mark (s := s), ← saveS_flow (s := s)]
  exact hsp

theorem wpB_fetchPlainScalar {F : Nat} (hs : SOpen s) (hE : GoodD E s b)
    (hp : PlainStart s b.text) (hcol : s.flowLevel = 0 → s.indent ≤ s.mark.column) (hF : b.text.length < F)
    (hQ : ∀ s' b', Dispatched s b s' b' → Q () s' b') :
    M.wp stepB P E (fetchPlainScalar F) Q s b := by
  unfold fetchPlainScalar pushToken
  wps
  refine wp_saveSimpleKey hs.keys_ne ?_ (hE.key hs rfl rfl)
  intro hr
  have hp' : PlainStart { saveS s with simpleKeyAllowed := false } b.text :=
    ⟨hp.notBlankz, hp.notComment, by
      show plainStop (saveS s).flowLevel _ _ = false
      rw [saveS_flow]; exact hp.notStop, by
      show isDocIndicator (saveS s).mark _ _ _ _ = false
      rw [saveS_mark]; exact hp.notDoc, by
      show canStartPlain (saveS s).flowLevel _ _ = true
      rw [saveS_flow]; exact hp.can, hp.notEntry⟩
  refine wpB_token (fun Q => wpB_scanPlainScalar hp' hF (hE.lex (hs.save.allow false) saveS_mark)) (fun Q => wpC_scanPlainScalar hp' ?_) ?_
  · show (saveS s).flowLevel = 0 → (saveS s).indent ≤ (saveS s).mark.column
    rw [saveS_flow, saveS_indent, saveS_mark]
    exact hcol
  intro tok s2 b2 hok hsp hk
  refine hQ _ _ (Dispatched.token (Prep.node hr) hok.toG ⟨hok.data, hk⟩ ?_)
  rw [← saveS_mark (s := s), ← saveS_flow (s := s)]
  exact hsp


theorem take3_of {t : List Char} {c : Char} (h0 : t[0]? = some c) (h1 : t[1]? = some c) (h2 : t[2]? = some c) : t.take 3 = [c, c, c] := by
  match t, h0, h1, h2 with
  | _ :: _ :: _ :: _, h0, h1, h2 => simp at h0 h1 h2; simp [h0, h1, h2]

theorem getElem?_zero_cons {t : List Char} {c : Char} (h : t[0]? = some c) : ∃ r, t = c :: r := by
  cases t with
  | nil => simp at h
  | cons d r => simp at h; exact ⟨r, by rw [h]⟩

theorem plainStart_of {F : Nat} {t : List Char}
    (h2 : (s.mark.column == 0 && t[0]? == some '-' && t[1]? == some '-' && t[2]? == some '-' && isBlankzO t[3]?) = false)
    (h3 : (s.mark.column == 0 && t[0]? == some '.' && t[1]? == some '.' && t[2]? == some '.' && isBlankzO t[3]?) = false)
    (hbe : (t[0]? == some '-' && isBlankzO t[1]?) = false)
    (hco : (t[0]? == some ':' && (s.flowLevel != 0 || isBlankzO t[1]?)) = false)
    (hca : canStartPlain s.flowLevel t[0]? t[1]? = true) : PlainStart s t := by
  constructor
  · cases h0 : isBlankzO t[0]? with
    | false => rfl
    | true =>
      exfalso
      rw [canStartPlain, h0] at hca
      simp only [Bool.true_or, Bool.not_true, Bool.false_or, Bool.or_eq_true, Bool.and_eq_true, beq_iff_eq] at hca
      rcases hca with ⟨h, _⟩ | ⟨⟨_, h | h⟩, _⟩ <;> rw [h] at h0 <;> revert h0 <;> decide
  · intro h0
    rw [canStartPlain, h0] at hca
    revert hca
    simp
  · unfold plainStop
    rw [Bool.or_eq_false_iff]
    constructor
    · simp only [Bool.and_eq_false_iff, Bool.or_eq_false_iff] at hco ⊢
      rcases hco with h | h
      · exact Or.inl h
      · exact Or.inr h.2
    · rw [Bool.and_eq_false_iff]
      right
      simp only [Bool.or_eq_false_iff, beq_eq_false_iff_ne]
      refine ⟨⟨⟨⟨?_, ?_⟩, ?_⟩, ?_⟩, ?_⟩ <;> intro h0 <;> rw [canStartPlain, h0] at hca <;> revert hca <;> simp
  · unfold isDocIndicator
    cases hm : (s.mark.column == 0)
    · simp
    · simp_all
      rintro (⟨⟨a, b⟩, c⟩ | ⟨⟨a, b⟩, c⟩)
      · exact h2 a b c
      · exact h3 a b c
  · exact hca
  · exact hbe

theorem wpB_dispatch {F : Nat} (hs : SOpen s) (hE : GoodD E s b) (hc : 4 ≤ b.cached)
    (hF : b.text.length < F) (hP : PanicsOk P b.text) (hfit : FitsOr P s b)
    (hcol : s.flowLevel = 0 → s.indent ≤ s.mark.column)
    (hQ : ∀ s' b', Dispatched s b s' b' → Q () s' b') :
    M.wp stepB P E (dispatch F s.mark s.flowLevel b.text[0]? b.text[1]? b.text[2]? b.text[3]?) Q s b := by
  unfold dispatch
  by_cases h0 : b.text[0]?.isNone = true
  · rw [if_pos h0]
    exact wpB_fetchStreamEnd hs hE (by simpa using h0) hQ
  rw [if_neg h0]
  by_cases h1 : (s.mark.column == 0 && b.text[0]? == some '%') = true
  · rw [if_pos h1]
    simp only [Bool.and_eq_true, beq_iff_eq] at h1
    obtain ⟨r, hr⟩ := getElem?_zero_cons h1.2
    exact wpB_fetchDirective hs hE hr rfl h1.1 rfl (by omega) hF hQ
  rw [if_neg h1]
  have hdash : ∀ c : Char, isBreak c = false → b.text[0]? = some c → b.text[1]? = some c → b.text[2]? = some c →
      ∀ i, i < 3 → ∃ c, b.text[i]? = some c ∧ isBreak c = false := by
    intro c hc a0 a1 a2 i hi
    match i, hi with
    | 0, _ => exact ⟨c, a0, hc⟩
    | 1, _ => exact ⟨c, a1, hc⟩
    | 2, _ => exact ⟨c, a2, hc⟩
  by_cases h2 : (s.mark.column == 0 && b.text[0]? == some '-' && b.text[1]? == some '-' && b.text[2]? == some '-' && isBlankzO b.text[3]?) = true
  · rw [if_pos h2]
    simp only [Bool.and_eq_true, beq_iff_eq] at h2
    exact wpB_fetchDocumentIndicator hs hE (by omega) (hdash '-' rfl h2.1.1.1.2 h2.1.1.2 h2.1.2) (Or.inl rfl)
      (fun _ _ _ => ⟨h2.1.1.1.1, take3_of h2.1.1.1.2 h2.1.1.2 h2.1.2, endsTag_of (by rw [List.getElem?_drop]; exact h2.2)⟩) hQ
  rw [if_neg h2]
  by_cases h3 : (s.mark.column == 0 && b.text[0]? == some '.' && b.text[1]? == some '.' && b.text[2]? == some '.' && isBlankzO b.text[3]?) = true
  · rw [if_pos h3]
    simp only [Bool.and_eq_true, beq_iff_eq] at h3
    exact wpB_fetchDocumentIndicator hs hE (by omega) (hdash '.' rfl h3.1.1.1.2 h3.1.1.2 h3.1.2) (Or.inr rfl)
      (fun _ _ _ => ⟨h3.1.1.1.1, take3_of h3.1.1.1.2 h3.1.1.2 h3.1.2, endsTag_of (by rw [List.getElem?_drop]; exact h3.2)⟩) hQ
  rw [if_neg h3]
  by_cases h4 : (b.text[0]? == some '[') = true
  · rw [if_pos h4]
    obtain ⟨r, hr⟩ := getElem?_zero_cons (beq_iff_eq.1 h4)
    exact wpB_fetchFlowCollectionStart hs hE hr rfl (by omega) (Or.inl rfl) hfit (fun _ _ _ => rfl) hQ
  rw [if_neg h4]
  by_cases h5 : (b.text[0]? == some '{') = true
  · rw [if_pos h5]
    obtain ⟨r, hr⟩ := getElem?_zero_cons (beq_iff_eq.1 h5)
    exact wpB_fetchFlowCollectionStart hs hE hr rfl (by omega) (Or.inr rfl) hfit (fun _ _ _ => rfl) hQ
  rw [if_neg h5]
  by_cases h6 : (b.text[0]? == some ']') = true
  · rw [if_pos h6]
    obtain ⟨r, hr⟩ := getElem?_zero_cons (beq_iff_eq.1 h6)
    exact wpB_fetchFlowCollectionEnd hs hE hr rfl (by omega) (Or.inl rfl) (fun _ _ _ => rfl) hQ
  rw [if_neg h6]
  by_cases h7 : (b.text[0]? == some '}') = true
  · rw [if_pos h7]
    obtain ⟨r, hr⟩ := getElem?_zero_cons (beq_iff_eq.1 h7)
    exact wpB_fetchFlowCollectionEnd hs hE hr rfl (by omega) (Or.inr rfl) (fun _ _ _ => rfl) hQ
  rw [if_neg h7]
  by_cases h8 : (b.text[0]? == some ',') = true
  · rw [if_pos h8]
    obtain ⟨r, hr⟩ := getElem?_zero_cons (beq_iff_eq.1 h8)
    exact wpB_fetchFlowEntry hs hE hr rfl (by omega) (fun _ _ _ => rfl) hQ
  rw [if_neg h8]
  by_cases h9 : (b.text[0]? == some '-' && isBlankzO b.text[1]?) = true
  · rw [if_pos h9]
    obtain ⟨r, hr⟩ := getElem?_zero_cons (beq_iff_eq.1 (Bool.and_eq_true_iff.1 h9).1)
    exact wpB_fetchBlockEntry hs hE hr rfl (by omega) hfit (fun _ _ => ⟨rfl, endsTag_of (by have := (Bool.and_eq_true_iff.1 h9).2; rwa [hr] at this)⟩) hQ
  rw [if_neg h9]
  by_cases h10 : (b.text[0]? == some '?' && (s.flowLevel != 0 || isBlankzO b.text[1]?)) = true
  · rw [if_pos h10]
    obtain ⟨r, hr⟩ := getElem?_zero_cons (beq_iff_eq.1 (Bool.and_eq_true_iff.1 h10).1)
    exact wpB_fetchKey hs hE hr rfl (by omega) hfit (fun _ _ => Or.inr ⟨rfl, fun hf => endsTag_of (by
      have := (Bool.and_eq_true_iff.1 h10).2; rwa [hf, Bool.false_or, hr] at this)⟩) hQ
  rw [if_neg h10]
  by_cases h11 : (b.text[0]? == some ':' && (s.flowLevel != 0 || isBlankzO b.text[1]?)) = true
  · rw [if_pos h11]
    obtain ⟨r, hr⟩ := getElem?_zero_cons (beq_iff_eq.1 (Bool.and_eq_true_iff.1 h11).1)
    exact wpB_fetchValue hs hE hr rfl (by omega) hfit (fun _ _ => ⟨rfl, fun hf => endsTag_of (by
      have := (Bool.and_eq_true_iff.1 h11).2; rwa [hf, Bool.false_or, hr] at this)⟩) hQ
  rw [if_neg h11]
  by_cases h12 : (b.text[0]? == some '*') = true
  · rw [if_pos h12]
    obtain ⟨r, hr⟩ := getElem?_zero_cons (beq_iff_eq.1 h12)
    exact wpB_fetchAnchor hs hE hr rfl rfl (by omega) hF hQ
  rw [if_neg h12]
  by_cases h13 : (b.text[0]? == some '&') = true
  · rw [if_pos h13]
    obtain ⟨r, hr⟩ := getElem?_zero_cons (beq_iff_eq.1 h13)
    exact wpB_fetchAnchor hs hE hr rfl rfl (by omega) hF hQ
  rw [if_neg h13]
  by_cases h14 : (b.text[0]? == some '!') = true
  · rw [if_pos h14]
    obtain ⟨r, hr⟩ := getElem?_zero_cons (beq_iff_eq.1 h14)
    exact wpB_fetchTag hs hE hr hF hP hQ
  rw [if_neg h14]
  by_cases h15 : (b.text[0]? == some '|' && s.flowLevel == 0) = true
  · rw [if_pos h15]
    obtain ⟨r, hr⟩ := getElem?_zero_cons (beq_iff_eq.1 (Bool.and_eq_true_iff.1 h15).1)
    exact wpB_fetchBlockScalar hs hE hr rfl (beq_iff_eq.1 (Bool.and_eq_true_iff.1 h15).2) rfl (by omega) hF hP hQ
  rw [if_neg h15]
  by_cases h16 : (b.text[0]? == some '>' && s.flowLevel == 0) = true
  · rw [if_pos h16]
    obtain ⟨r, hr⟩ := getElem?_zero_cons (beq_iff_eq.1 (Bool.and_eq_true_iff.1 h16).1)
    exact wpB_fetchBlockScalar hs hE hr rfl (beq_iff_eq.1 (Bool.and_eq_true_iff.1 h16).2) rfl (by omega) hF hP hQ
  rw [if_neg h16]
  by_cases h17 : (b.text[0]? == some '\'') = true
  · rw [if_pos h17]
    obtain ⟨r, hr⟩ := getElem?_zero_cons (beq_iff_eq.1 h17)
    exact wpB_fetchFlowScalar hs hE hr rfl rfl (by omega) hF hP hQ
  rw [if_neg h17]
  by_cases h18 : (b.text[0]? == some '"') = true
  · rw [if_pos h18]
    obtain ⟨r, hr⟩ := getElem?_zero_cons (beq_iff_eq.1 h18)
    exact wpB_fetchFlowScalar hs hE hr rfl rfl (by omega) hF hP hQ
  rw [if_neg h18]
  by_cases h19 : canStartPlain s.flowLevel b.text[0]? b.text[1]? = true
  · rw [if_pos h19]
    exact wpB_fetchPlainScalar hs hE (plainStart_of (F := F) (by simpa using h2) (by simpa using h3) (by simpa using h9)
      (by simpa using h11) h19) hcol hF hQ
  rw [if_neg h19]
  exact hE.here hs _ _

/-- Where `fetch_next_token` may be called. -/
def Ready (s : SState) : Prop := s = SState.new ∨ SOpen s

theorem Adv.column {m m' : Mark} {t t' : List Char} (h : Adv m t m' t') :
    m'.column + t'.length ≤ m.column + t.length := by
  obtain ⟨p, rfl, rfl, _⟩ := h
  have := advance_mono m p
  simp only [List.length_append]; omega

theorem Fits.mk' {s s' : SState} {b b' : Inp} (h : Fits s b) (hm : s'.mark.column + b'.text.length ≤ s.mark.column + b.text.length)
    (hb : b'.text.length ≤ b.text.length)
    (hf : s'.flowLevel = s.flowLevel) (hk : ∀ k ∈ s'.simpleKeys, k.possible = true → k ∈ s.simpleKeys) : Fits s' b' := by
  obtain ⟨h1, h2, h3⟩ := h
  exact ⟨by omega, by omega, fun k hm hp => h3 k (hk k hm hp) hp⟩

theorem wpB_fetchNextToken {F : Nat} (hs : Ready s) (hF : b.text.length < F) (hP : PanicsOk P b.text)
    (hfit : FitsOr P s b) (hE : ∀ e s' b', FetchErr s b e s' → E e s' b')
    (hQ : ∀ s' b', Fetched s b s' b' → Q () s' b') :
    M.wp stepB P E (fetchNextToken F) Q s b := by
  unfold fetchNextToken
  wps
  refine ⟨?_, fun e b' he => hE _ _ _ ⟨hs, Spec.le_refl _, Or.inl he⟩⟩
  rcases hs with rfl | hs
  · rw [if_pos (show (!SState.new.streamStartProduced) = true from rfl)]
    unfold fetchStreamStart pushToken
    wps
    rw [M.wp_prim]
    refine ⟨by show 0 < max _ _; omega, ?_⟩
    intro e
    exact hQ _ _ (.start rfl e rfl)
  · rw [if_neg (by simp [hs.started])]
    wps
    have hE1 : GoodE s.mark E s b := by
      intro e s' b' ⟨hf, hle, he⟩
      refine hE _ _ _ ⟨Or.inr (hs.frame hf hle), hle, he.imp id ?_⟩
      rintro ⟨ha, c, p, rfl⟩
      exact ⟨c, s.mark, p, rfl, Or.inl ⟨_, Adv.refl _ _⟩, Or.inl ⟨_, ha⟩⟩
    refine M.wp_cut stepB_mono _ (wpB_and (wpB_scanToNextToken (b := { b with cached := max b.cached 1 })
      (Q := fun _ s1 b1 => Go s { b with cached := max b.cached 1 } s1 b1) hF hE1 (fun _ _ h _ => h))
      (wpC_scanToNextToken (Q := fun _ s1 t1 => Sep s.mark b.text t1) (fun _ _ _ h => h))) ?_
    rintro ⟨⟩ s1 b1 ⟨hg, hsep⟩
    have hg : Go s b s1 b1 := hg
    have hs1 : SOpen s1 := hs.frame hg.1 hg.2.le
    rw [wp_staleSimpleKeys]
    have hk1 : s1.simpleKeys = s.simpleKeys := by rw [hg.1]
    cases hst : staleErr s1 with
    | some m =>
      show E _ _ _
      obtain ⟨k, hk, hp, _, rfl⟩ := staleList_some hst
      refine hE _ _ _ ⟨Or.inr hs1.stale, hg.2.le, Or.inr ⟨_, _, _, rfl, Or.inr ⟨k, ?_, hp, rfl⟩, Or.inl ⟨_, hg.2⟩⟩⟩
      rw [← hk1]; simpa using hk
    | none =>
      show M.wp _ _ _ _ _ _ _
      refine wp_unrollIndent hs1.stale.ind (by omega) ?_
      intro s3 hu
      have hs3 := hs1.stale.unroll hu
      have hm3 : s3.mark = s1.mark := hu.mark
      have hk3 : ∀ k ∈ s3.simpleKeys, k.possible = true → k ∈ s.simpleKeys := by
        intro k hk hp
        rw [← hk1]
        rw [hu.keys] at hk
        exact (staleS_sub s1).mem hk hp
      refine ⟨⟨by show 0 < max _ _; omega, by show 1 < max _ _; omega, by show 2 < max _ _; omega,
        by show 3 < max _ _; omega, ?_⟩, ?_⟩
      · have hl := hg.length
        refine wpB_dispatch (b := { b1 with cached := max b1.cached 4 }) hs3 ?_ (by show 4 ≤ max _ _; omega)
          (by show b1.text.length < F; omega) (hP.adv hg.2) ?_ ?_ ?_
        · intro e s' b' ⟨h1, h2, h3⟩
          refine hE _ _ _ ⟨Or.inr h1, Spec.le_trans hg.2.le (by rw [← hm3]; exact h2), h3.imp id ?_⟩
          rintro ⟨c, cm, p, he, hc, hp⟩
          rw [hm3] at hc hp
          refine ⟨c, cm, p, he, ?_, ?_⟩
          · rcases hc with ⟨t, ht⟩ | ⟨k, hk, hp, rfl⟩
            · exact Or.inl ⟨t, hg.2.trans ht⟩
            · exact Or.inr ⟨k, hk3 k hk hp, hp, rfl⟩
          · rcases hp with ⟨t, ht⟩ | ⟨hb, hm⟩
            · exact Or.inl ⟨t, hg.2.trans ht⟩
            · have hg2 := hg.2
              have hb : b1.text = [] := hb
              rw [hb] at hg2
              exact Or.inr ⟨_, hg2, hm⟩
        · refine hfit.imp (fun h => h.mk' ?_ hl ?_ hk3) id
          · rw [hm3]; exact hg.2.column
          · obtain ⟨_, _, _, rfl, _⟩ := hu
            exact hg.1.flowLevel
        · intro hf
          have hm3' := hm3
          obtain ⟨n, i, is, rfl, _, _, hi, _⟩ := hu
          exact hi hf
        · intro s' b' hd
          have hd' : Dispatched s3 b1 s' b' := by
            cases hd with
            | streamEnd hb hb' hu hr => exact .streamEnd hb hb' hu hr
            | token hp ht hd hsp => exact .token hp ⟨ht.go, ht.start, ht.mid, ht.progress, ht.wide⟩ hd hsp
          exact hQ _ _ (.next hs hg hst hu hd' hsep)
      · intro e b' he
        refine hE _ _ _ ⟨Or.inr hs3, by rw [hm3]; exact hg.2.le, Or.inl he⟩

end
end Yaml
