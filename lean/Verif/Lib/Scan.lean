import Verif.Lib.Fetch2

/-
`fetch_more_tokens`, `scan`, `peek` and `skip_token` over the demonic input, for any additional
invariant that the transition preserves.
-/

namespace Yaml
open Scanner
set_option linter.unusedSimpArgs false
set_option linter.unusedVariables false

/-! ### Phases of the scanner between calls -/

/-- The stream end is queued (and not taken yet): all pending keys are on earlier lines, so no
more tokens are ever fetched. -/
structure SEnd (s : SState) : Prop where
  started : s.streamStartProduced = true
  notAvail : s.tokenAvailable = false
  notProduced : s.streamEndProduced = false
  queue : ∃ ts t, s.tokens = ts ++ [t] ∧ t.data = .streamEnd ∧ ∀ t' ∈ ts, t'.data ≠ .streamEnd
  keys : ∀ k ∈ s.simpleKeys, k.possible = true → k.mark.line < s.mark.line

theorem Prep.mark {s : SState} {D : TokenData → Prop} {s1 : SState} (h : Prep s D s1) : s1.mark = s.mark := by
  cases h with
  | doc hu hr => exact hu.mark
  | flowStart hr => exact saveS_mark
  | flowEnd hr => split <;> rfl
  | flowEntry hr => rfl
  | blockEntry hs hr => subst hs; exact rollS_mark
  | key hs hr x => subst hs; exact rollS_mark
  | valueKey hk hp => exact rollS_mark
  | value hk hp x => exact rollS_mark
  | node hr => exact saveS_mark
  | blockScalar hr => rfl

theorem Prep.data {s : SState} {D : TokenData → Prop} {s1 : SState} (h : Prep s D s1) {d : TokenData} (hd : D d) :
    d ≠ .streamEnd ∧ (∀ e, d ≠ .streamStart e) ∧ d ≠ .blockSequenceStart ∧ d ≠ .blockMappingStart ∧ d ≠ .blockEnd := by
  have lex : lexData d = true →
      d ≠ .streamEnd ∧ (∀ e, d ≠ .streamStart e) ∧ d ≠ .blockSequenceStart ∧ d ≠ .blockMappingStart ∧ d ≠ .blockEnd := by
    cases d <;> simp [lexData]
  cases h with
  | doc hu hr =>
    rcases hd with hd | rfl | rfl
    · exact lex hd.1
    · simp
    · simp
  | flowStart hr => rcases hd with rfl | rfl <;> simp
  | flowEnd hr => rcases hd with rfl | rfl <;> simp
  | flowEntry hr => subst hd; simp
  | blockEntry hs hr => subst hd; simp
  | key hs hr x => subst hd; simp
  | valueKey hk hp => subst hd; simp
  | value hk hp x => subst hd; simp
  | node hr => exact lex hd.1
  | blockScalar hr => exact lex hd.1

/-- The invariant after the token was consumed. -/
theorem Prep.open {s : SState} {D : TokenData → Prop} {s1 s2 : SState} (h : Prep s D s1) (hs : SOpen s)
    (hf : Frame s1 s2) (hle : Spec.le s1.mark s2.mark) (hlt : lcLt s1.mark s2.mark) : SOpen s2 := by
  have hm := h.mark
  cases h with
  | doc hu hr => exact (((hs.unroll hu).clear).allow false).frame hf hle
  | flowStart hr =>
    rw [hf]
    have h' := hs.save
    rw [hm] at hlt
    exact { h' with
      keysLen := by
        show (emptyKey :: (saveS s).simpleKeys).length = s.flowLevel + 1 + 1
        rw [List.length_cons, h'.keysLen, saveS_flow]
      keyNum := by
        intro k hk hp
        rcases List.mem_cons.1 hk with rfl | hk
        · simp [emptyKey] at hp
        · exact h'.keyNum k hk hp
      keyTop := by
        intro k hk hp
        rcases List.mem_cons.1 hk with rfl | hk
        · simp [emptyKey] at hp
        · exact lcLe_trans (h'.keyTop k hk hp) (by rw [saveS_mark]; exact lcLe_of_lt hlt)
      keyRest := by
        intro k hk hp
        exact lcLt_of_le_lt (h'.keyTop k hk hp) (by rw [saveS_mark]; exact hlt) }
  | flowEnd hr =>
    refine SOpen.frame ?_ hf hle
    split
    · exact (hs.clear).allow false
    · rename_i hfl
      obtain ⟨k, ks, hks⟩ := List.exists_cons_of_ne_nil hs.keys_ne
      exact { hs with
        keysLen := by
          have := hs.keysLen
          show s.simpleKeys.tail.length = s.flowLevel - 1 + 1
          rw [List.length_tail]; omega
        keyNum := fun k hk hp => hs.keyNum k (List.mem_of_mem_tail hk) hp
        keyTop := fun k hk hp => hs.keyTop k (List.mem_of_mem_tail hk) hp
        keyRest := fun k hk hp => hs.keyRest k (List.mem_of_mem_tail hk) hp }
  | flowEntry hr => exact ((hs.clear).allow true).frame hf hle
  | blockEntry hs' hr =>
    subst hs'
    exact (((hs.roll (by simp) (by simp)).clear).allow true).frame hf hle
  | key hs' hr x =>
    subst hs'
    exact (((hs.roll (by simp) (by simp)).clear).allow x).frame hf hle
  | @valueKey k ks hk hp =>
    obtain ⟨h1, h2⟩ := hs.keyNum k (by simp [hk]) hp
    have ha : SOpen { s with tokens := s.tokens.insertIdx (k.tokenNumber - s.tokensParsed) ⟨.key, k.mark, k.mark⟩ } :=
      hs.insert (t := ⟨.key, k.mark, k.mark⟩) (by omega) (by simp)
    have hb := ha.sub (ks := { k with possible := false } :: ks) (by
      show KeySub _ s.simpleKeys
      rw [hk]; exact .drop k (KeySub.refl ks))
    refine ((hb.roll (by simp) ?_).allow false).frame hf hle
    intro n hn
    cases hn
    refine ⟨h1, ?_⟩
    show _ ≤ s.tokensParsed + (s.tokens.insertIdx _ _).length
    rw [List.length_insertIdx_of_le_length (by omega)]; omega
  | value hk hp x => exact ((hs.roll (by simp) (by simp)).allow x).frame hf hle
  | node hr => exact ((hs.save).allow false).frame hf hle
  | blockScalar hr => exact ((hs.clear).allow true).frame hf hle

theorem endMarkOf_line {k m : Mark} (h : lcLt k m) : k.line < (endMarkOf m).line := by
  unfold endMarkOf lcLt at *
  split
  · show k.line < m.line + 1; omega
  · rename_i h'
    have : m.column = 0 := by simpa using h'
    omega

theorem startS_open (e : Encoding) : SOpen (startS e) where
  started := rfl
  notAvail := rfl
  notProduced := rfl
  notEnded := by intro t ht; simp [startS] at ht; subst ht; simp
  keysLen := rfl
  ind := rfl
  keyNum := by intro k hk hp; simp [startS] at hk; subst hk; simp [emptyKey] at hp
  keyTop := by intro k hk hp; simp [startS] at hk; subst hk; simp [emptyKey] at hp
  keyRest := by intro k hk hp; simp [startS] at hk

/-- After a fetch the scanner is open again or the stream end is queued. -/
theorem Fetched.phase {s s' : SState} {b b' : Inp} (h : Fetched s b s' b') :
    (SOpen s' ∧ (b'.text.length < b.text.length ∨ s = SState.new ∧ b'.text.length = b.text.length)) ∨
    (SEnd s' ∧ b'.text = [] ∧ SOpen s) := by
  cases h with
  | start hs e hb => exact Or.inl ⟨startS_open e, Or.inr ⟨hs, by rw [hb]⟩⟩
  | @next s1 s3 _ b1 _ hs hg hst hu hd =>
    have hs3 : SOpen s3 := ((hs.frame hg.1 hg.2.le).stale).unroll hu
    cases hd with
    | token hp ht hd =>
      have hlt := Adv.lt ht.go.2 ht.progress
      refine Or.inl ⟨(hp.open hs3 ht.go.1 ht.go.2.le hlt).push (hp.data hd).1, Or.inl ?_⟩
      have := hg.length
      have := ht.progress
      omega
    | @streamEnd s4 _ hb hb' hu2 hr =>
      refine Or.inr ⟨?_, hb', hs⟩
      have hle : Spec.le s3.mark (endMarkOf s3.mark) := by
        unfold endMarkOf
        split
        · exact ⟨Nat.le_refl _, Or.inl (Nat.lt_succ_self _)⟩
        · exact Spec.le_refl _
      have hs0 : SOpen { s3 with mark := endMarkOf s3.mark } := hs3.frame (Frame.mk' _ _ _) hle
      have hs4 := hs0.unroll hu2
      refine ⟨hs4.started, hs4.notAvail, hs4.notProduced, ⟨s4.tokens, _, rfl, rfl, hs4.notEnded⟩, ?_⟩
      intro k hk hp
      show k.mark.line < s4.mark.line
      rw [hu2.mark]
      refine endMarkOf_line ?_
      refine hs3.keyRest k ?_ hp
      have hk : k ∈ (clearS s4).simpleKeys := hk
      have e4 : s4.simpleKeys = s3.simpleKeys := hu2.keys
      unfold clearS at hk
      rw [e4] at hk
      cases hc : s3.simpleKeys with
      | nil => rw [hc] at hk; simp at hk
      | cons a as =>
        rw [hc] at hk
        rcases List.mem_cons.1 hk with rfl | hk
        · simp at hp
        · exact hk

theorem Fetched.fits {s s' : SState} {b b' : Inp} (h : Fetched s b s' b') (hf : Fits s b) : Fits s' b' := by
  obtain ⟨f1, f2, f3⟩ := hf
  cases h with
  | start hs e hb =>
    refine ⟨?_, ?_, ?_⟩
    · subst hs
      rw [hb]; exact f1
    · subst hs
      rw [hb]; exact f2
    · intro k hk hp
      simp [startS] at hk; subst hk; simp [emptyKey] at hp
  | @next s1 s3 _ b1 _ hs hg hst hu hd =>
    have hs3 : SOpen s3 := ((hs.frame hg.1 hg.2.le).stale).unroll hu
    have c1 := hg.2.column
    have l1 := hg.length
    have m3 : s3.mark = s1.mark := hu.mark
    have fl3 : s3.flowLevel = s.flowLevel := by
      obtain ⟨_, _, _, rfl, _⟩ := hu
      exact hg.1.flowLevel
    have k3 : ∀ k ∈ s3.simpleKeys, k.possible = true → k.mark.column ≤ i32Max := by
      intro k hk hp
      rw [hu.keys] at hk
      have := (staleS_sub s1).mem hk hp
      refine f3 k ?_ hp
      rw [hg.1] at this; exact this
    cases hd with
    | @token D s4 s2 tok _ hp ht hd =>
      have c2 := ht.go.2.column
      have l2 := ht.progress
      have m4 := hp.mark
      rw [m4, m3] at c2
      have key : s4.flowLevel ≤ s3.flowLevel + 1 ∧ ∀ k ∈ s4.simpleKeys, k.possible = true → k.mark.column ≤ i32Max := by
        have ksave : ∀ k ∈ (saveS s3).simpleKeys, k.possible = true → k.mark.column ≤ i32Max := by
          intro k hk hp
          unfold saveS at hk
          split at hk
          · rcases List.mem_cons.1 hk with rfl | hk
            · show s3.mark.column ≤ i32Max
              rw [m3]; omega
            · exact k3 k (List.mem_of_mem_tail hk) hp
          · exact k3 k hk hp
        have kclear : ∀ s : SState, s.simpleKeys = s3.simpleKeys →
            ∀ k ∈ (clearS s).simpleKeys, k.possible = true → k.mark.column ≤ i32Max := by
          intro s he k hk hp
          exact k3 k (he ▸ (clearS_sub s).mem hk hp) hp
        cases hp with
        | @doc s5 hu2 hr =>
          refine ⟨?_, kclear _ hu2.keys⟩
          obtain ⟨_, _, _, rfl, _⟩ := hu2
          exact Nat.le_succ _
        | flowStart hr =>
          refine ⟨Nat.le_refl _, ?_⟩
          intro k hk hp
          rcases List.mem_cons.1 hk with rfl | hk
          · simp [emptyKey] at hp
          · exact ksave k hk hp
        | flowEnd hr =>
          split
          · exact ⟨Nat.le_succ _, kclear _ rfl⟩
          · refine ⟨by show s3.flowLevel - 1 ≤ _; omega, ?_⟩
            intro k hk hp
            exact k3 k (List.mem_of_mem_tail hk) hp
        | flowEntry hr => exact ⟨Nat.le_succ _, kclear _ rfl⟩
        | blockEntry hs' hr =>
          subst hs'
          exact ⟨by show (rollS _ _ _ _ _).flowLevel ≤ _; rw [rollS_flow]; omega, kclear _ rollS_keys⟩
        | key hs' hr x =>
          subst hs'
          exact ⟨by show (rollS _ _ _ _ _).flowLevel ≤ _; rw [rollS_flow]; omega, kclear _ rollS_keys⟩
        | valueKey hk hp =>
          refine ⟨by show (rollS _ _ _ _ _).flowLevel ≤ _; rw [rollS_flow]; exact Nat.le_succ _, ?_⟩
          intro k' hk' hp'
          have hk' : k' ∈ (rollS _ _ _ _ _).simpleKeys := hk'
          rw [rollS_keys] at hk'
          rcases List.mem_cons.1 hk' with rfl | hk'
          · simp at hp'
          · exact k3 k' (by rw [hk]; exact List.mem_cons_of_mem _ hk') hp'
        | value hk hp x =>
          refine ⟨by show (rollS _ _ _ _ _).flowLevel ≤ _; rw [rollS_flow]; omega, ?_⟩
          intro k' hk' hp'
          have hk' : k' ∈ (rollS _ _ _ _ _).simpleKeys := hk'
          rw [rollS_keys] at hk'
          exact k3 k' hk' hp'
        | node hr => exact ⟨by show (saveS _).flowLevel ≤ _; rw [saveS_flow]; omega, ksave⟩
        | blockScalar hr => exact ⟨Nat.le_succ _, kclear _ rfl⟩
      have e1 : (pushS tok s2).mark = s2.mark := rfl
      have e2 : s2.flowLevel = s4.flowLevel := ht.go.1.flowLevel
      refine ⟨?_, ?_, ?_⟩
      · show s2.mark.column + _ ≤ _
        omega
      · show s2.flowLevel + _ ≤ _
        omega
      · intro k hk hp
        have hk : k ∈ s2.simpleKeys := hk
        rw [ht.go.1] at hk
        exact key.2 k hk hp
    | @streamEnd s4 _ hb hb' hu2 hr =>
      have m4 : s4.mark = endMarkOf s3.mark := hu2.mark
      have fl4 : s4.flowLevel = s3.flowLevel := by obtain ⟨_, _, _, rfl, _⟩ := hu2; rfl
      have : (endMarkOf s3.mark).column ≤ s3.mark.column := by
        unfold endMarkOf; split
        · exact Nat.zero_le _
        · exact Nat.le_refl _
      rw [m3] at this
      refine ⟨?_, ?_, ?_⟩
      · show s4.mark.column + _ ≤ _
        rw [hb', m4, m3]; simp; omega
      · show s4.flowLevel + _ ≤ _
        rw [hb', fl4, fl3]; simp; omega
      · intro k hk hp
        have := (clearS_sub s4).mem hk hp
        have e4 : s4.simpleKeys = s3.simpleKeys := hu2.keys
        exact k3 k (e4 ▸ this) hp

theorem Fetched.text {s s' : SState} {b b' : Inp} (h : Fetched s b s' b') : ∃ p, b.text = p ++ b'.text := by
  cases h with
  | start hs e hb => exact ⟨[], by simp [hb]⟩
  | next hs hg hst hu hd =>
    obtain ⟨p, hp, _⟩ := hg.2
    cases hd with
    | token hp' ht hd =>
      obtain ⟨q, hq, _⟩ := ht.go.2
      exact ⟨p ++ q, by rw [hp, hq, List.append_assoc]⟩
    | streamEnd hb hb' hu2 hr => exact ⟨p, by rw [hp, hb, hb']⟩

theorem PanicsOk.suffix {P : PanicSite → Prop} {p t : List Char} (h : PanicsOk P (p ++ t)) : PanicsOk P t := by
  refine ⟨fun h' => h.1 ?_, fun ⟨c, h', hb⟩ => h.2.1 ⟨c, ?_, hb⟩, fun h1 h2 => h.2.2 (by simp [h1]) (by simp [h2])⟩
  · rw [List.getLast?_append, h']; rfl
  · rw [List.getLast?_append, h']; rfl

/-- The scanner between calls with nothing looked up ahead. -/
def Idle (s : SState) : Prop := s = SState.new ∨ SOpen s ∨ SEnd s

/-- The scanner with its front token determined. -/
structure SAvail (s : SState) : Prop where
  base : SOpen { s with tokenAvailable := false } ∨ SEnd { s with tokenAvailable := false }
  avail : s.tokenAvailable = true
  ne : s.tokens ≠ []
  num : ∀ k ∈ s.simpleKeys, k.possible = true → k.tokenNumber ≠ s.tokensParsed

/-- The stream end was taken. -/
structure SDone (s : SState) : Prop where
  started : s.streamStartProduced = true
  notAvail : s.tokenAvailable = false
  produced : s.streamEndProduced = true
  queue : s.tokens = []

theorem SEnd.stale {s : SState} (h : SEnd s) : SEnd (staleS s) :=
  { h with keys := fun k hk hp => h.keys k ((staleS_sub s).mem hk hp) hp }

theorem staleErr_none {s : SState} (h : staleErr s = none) :
    ∀ k ∈ (staleS s).simpleKeys, k.possible = true →
      s.mark.line ≤ k.mark.line ∧ s.mark.index ≤ k.mark.index + 1024 := by
  intro k hk hp
  refine staleList_none h k ?_ hp
  simpa [staleS] using hk

/-- How a call can fail: while fetching, or on a key that went stale. -/
def MoreErr (s : SState) (b : Inp) (e : Err) (s' : SState) : Prop :=
  (Ready s ∧ FetchErr s b e s') ∨
  ((SOpen s ∨ SEnd s) ∧ ∃ m, staleErr s = some m ∧ e = keyError m s ∧ s' = staleS s)

section
variable {P : PanicSite → Prop} {E : Err → SState → Inp → Prop} {s : SState} {b : Inp} {Q : Unit → SState → Inp → Prop}

theorem wpB_fetchMoreTokens' (I : SState → Inp → Prop) {F : Nat} (hs : Idle s) (hI : I s b)
    (hF : b.text.length + 2 < F) (hP : PanicsOk P b.text) (hfit : FitsOr P s b)
    (fetch : ∀ s b s' b', I s b → Ready s → s.tokens = [] ∨ keyPending s = true → Fetched s b s' b' → I s' b')
    (stale : ∀ s b, I s b → SOpen s ∨ SEnd s → staleErr s = none → I (staleS s) b)
    (hE : ∀ s1 b1 e s' b', I s1 b1 → MoreErr s1 b1 e s' → E e s' b')
    (hQ : ∀ s' b', I s' b' → (∃ p, b.text = p ++ b'.text) → FitsOr P s' b' →
      SAvail { s' with tokenAvailable := true } → Q () { s' with tokenAvailable := true } b') :
    M.wp stepB P E (fetchMoreTokens F) Q s b := by
  unfold fetchMoreTokens
  rw [M.wp_bind]
  refine M.wp_loop stepB_mono
    (I := fun _ s' b' => I s' b' ∧ Idle s' ∧ (∃ p, b.text = p ++ b'.text) ∧ FitsOr P s' b')
    (μ := fun _ s b => b.text.length + (if s.streamStartProduced then 0 else 1) +
      (if s.tokens.any (fun t => t.data == .streamEnd) then 0 else 1)) ?_ F () s b
    ⟨hI, hs, ⟨[], rfl⟩, hfit⟩ (by split <;> split <;> omega)
  rintro _ s1 b1 ⟨hI1, hs1, ⟨p, hp⟩, hfit1⟩
  have hlen : b1.text.length ≤ b.text.length := by rw [hp]; simp
  have hP1 : PanicsOk P b1.text := by rw [hp] at hP; exact hP.suffix
  wps
  -- fetching one more token
  have hfetch : ∀ s2 : SState, I s2 b1 → Ready s2 → s2.tokens = [] ∨ keyPending s2 = true → FitsOr P s2 b1 → s2.tokens = s1.tokens →
      s2.streamStartProduced = s1.streamStartProduced →
      M.wp stepB P E (fetchNextToken F) (fun _ s' b' =>
        (I s' b' ∧ Idle s' ∧ (∃ p, b.text = p ++ b'.text) ∧ FitsOr P s' b') ∧
        b'.text.length + (if s'.streamStartProduced then 0 else 1) +
          (if s'.tokens.any (fun t => t.data == .streamEnd) then 0 else 1) <
        b1.text.length + (if s1.streamStartProduced then 0 else 1) +
          (if s1.tokens.any (fun t => t.data == .streamEnd) then 0 else 1)) s2 b1 := by
    intro s2 hI2 hr hnm hf2 ht2 hst2
    refine wpB_fetchNextToken hr (by omega) hP1 hf2 (fun e s' b' he => hE s2 b1 e s' b' hI2 (Or.inl ⟨hr, he⟩)) ?_
    intro s' b' hfet
    obtain ⟨q, hq⟩ := hfet.text
    refine ⟨⟨fetch s2 b1 s' b' hI2 hr hnm hfet, ?_, ⟨p ++ q, by rw [hp, hq, List.append_assoc]⟩,
      hf2.imp hfet.fits id⟩, ?_⟩
    · rcases hfet.phase with h | h
      · exact Or.inr (Or.inl h.1)
      · exact Or.inr (Or.inr h.1)
    · have notEnd : ∀ s : SState, SOpen s → s.tokens.any (fun t => t.data == .streamEnd) = false := by
        intro s hs
        rw [List.any_eq_false]
        intro t ht
        have := hs.notEnded t ht
        simpa using this
      rw [← ht2, ← hst2]
      rcases hfet.phase with ⟨ho, hl⟩ | ⟨he, hb, ho⟩
      · rw [if_pos ho.started, notEnd s' ho]
        rcases hl with hl | ⟨rfl, hl⟩
        · have : s2.tokens.any (fun t => t.data == .streamEnd) = false := by
            rcases hr with rfl | hr
            · rfl
            · exact notEnd _ hr
          rw [this]
          simp only [Bool.false_eq_true, if_false]
          omega
        · simp [SState.new]; omega
      · rw [if_pos he.started, hb, notEnd s2 ho]
        obtain ⟨ts, t, h1, h2, _⟩ := he.queue
        have : s'.tokens.any (fun t => t.data == .streamEnd) = true := by
          rw [h1, List.any_append]; simp [h2]
        rw [this]
        simp
  by_cases hempty : s1.tokens.isEmpty = true
  · rw [if_pos hempty]
    wps
    refine hfetch s1 hI1 ?_ (.inl (by simpa using hempty)) hfit1 rfl rfl
    rcases hs1 with h | h | h
    · exact Or.inl h
    · exact Or.inr h
    · obtain ⟨ts, t, h1, _⟩ := h.queue
      rw [h1] at hempty; simp at hempty
  · rw [if_neg hempty]
    wps
    have hne : s1.tokens ≠ [] := by simpa using hempty
    have hs1' : SOpen s1 ∨ SEnd s1 := by
      rcases hs1 with rfl | h
      · exact absurd rfl hempty
      · exact h
    rw [wp_staleSimpleKeys]
    cases hst : staleErr s1 with
    | some m => exact hE s1 b1 _ _ _ hI1 (Or.inr ⟨hs1', m, hst, rfl, rfl⟩)
    | none =>
      have hI2 := stale s1 b1 hI1 hs1' hst
      have hf2 : FitsOr P (staleS s1) b1 := hfit1.imp (fun h => h.mk' (Nat.le_refl _) (Nat.le_refl _) rfl
        (fun k hk hp => (staleS_sub s1).mem hk hp)) id
      have hk2 := staleErr_none hst
      show M.wp _ _ _ _ _ _ _
      by_cases hpend : keyPending (staleS s1) = true
      · rw [if_pos hpend]
        wps
        refine hfetch (staleS s1) hI2 ?_ (.inr hpend) hf2 rfl rfl
        rcases hs1' with h | h
        · exact Or.inr h.stale
        · exfalso
          unfold keyPending at hpend
          obtain ⟨k, hk, hkp⟩ := List.any_eq_true.1 hpend
          simp only [Bool.and_eq_true] at hkp
          have h1 := hk2 k hk hkp.1
          have h2 := h.stale.keys k hk hkp.1
          have h2 : k.mark.line < s1.mark.line := h2
          omega
      · rw [if_neg hpend]
        wps
        refine hQ (staleS s1) b1 hI2 ⟨p, hp⟩ hf2 ⟨?_, rfl, hne, ?_⟩
        · have e : ({ ({ staleS s1 with tokenAvailable := true } : SState) with tokenAvailable := false } : SState) = staleS s1 := by
            have : (staleS s1).tokenAvailable = false := by
              rcases hs1' with h | h
              · exact h.notAvail
              · exact h.notAvail
            rw [← this]
          rw [e]
          exact hs1'.imp SOpen.stale SEnd.stale
        · intro k hk hp hnum
          apply hpend
          unfold keyPending
          rw [List.any_eq_true]
          refine ⟨k, hk, ?_⟩
          simp only [Bool.and_eq_true, beq_iff_eq]
          exact ⟨hp, hnum⟩

theorem wpB_fetchMoreTokens (I : SState → Inp → Prop) {F : Nat} (hs : Idle s) (hI : I s b)
    (hF : b.text.length + 2 < F) (hP : PanicsOk P b.text) (hfit : FitsOr P s b)
    (fetch : ∀ s b s' b', I s b → Ready s → Fetched s b s' b' → I s' b')
    (stale : ∀ s b, I s b → SOpen s ∨ SEnd s → staleErr s = none → I (staleS s) b)
    (hE : ∀ s1 b1 e s' b', I s1 b1 → MoreErr s1 b1 e s' → E e s' b')
    (hQ : ∀ s' b', I s' b' → (∃ p, b.text = p ++ b'.text) → FitsOr P s' b' →
      SAvail { s' with tokenAvailable := true } → Q () { s' with tokenAvailable := true } b') :
    M.wp stepB P E (fetchMoreTokens F) Q s b :=
  wpB_fetchMoreTokens' I hs hI hF hP hfit (fun s b s' b' h hr _ => fetch s b s' b' h hr) stale hE hQ

/-- Take the front token: what `scan` and `skip_token` do to the state. -/
def takeS (t : Token) (ts : List Token) (s : SState) : SState :=
  { s with tokens := ts, tokenAvailable := false, tokensParsed := s.tokensParsed + 1,
           streamEndProduced := (t.data == .streamEnd) }

/-- After the front token was taken. -/
theorem SAvail.take {t : Token} {ts : List Token} (h : SAvail s) (ht : s.tokens = t :: ts) :
    (t.data ≠ .streamEnd ∧ Idle (takeS t ts s)) ∨ (t.data = .streamEnd ∧ SDone (takeS t ts s)) := by
  rcases h.base with hb | hb
  · have hne : t.data ≠ .streamEnd := hb.notEnded t (by show t ∈ s.tokens; rw [ht]; simp)
    refine Or.inl ⟨hne, Or.inr (Or.inl { hb with
      notAvail := rfl
      notProduced := by simpa [takeS] using hne
      notEnded := fun t' ht' => hb.notEnded t' (by show t' ∈ s.tokens; rw [ht]; exact List.mem_cons_of_mem _ ht')
      keyNum := ?_ })⟩
    intro k hk hp
    have h1 := hb.keyNum k hk hp
    have h2 := h.num k hk hp
    have h1 : s.tokensParsed ≤ k.tokenNumber ∧ k.tokenNumber ≤ s.tokensParsed + s.tokens.length := h1
    rw [ht, List.length_cons] at h1
    show s.tokensParsed + 1 ≤ _ ∧ _ ≤ s.tokensParsed + 1 + ts.length
    omega
  · obtain ⟨us, u, hq, hu, hus⟩ := hb.queue
    have hq : s.tokens = us ++ [u] := hq
    cases us with
    | nil =>
      rw [ht] at hq
      simp at hq
      obtain ⟨rfl, rfl⟩ := hq
      exact Or.inr ⟨hu, hb.started, rfl, by simp [takeS, hu], rfl⟩
    | cons u' us =>
      rw [ht] at hq
      simp at hq
      obtain ⟨rfl, rfl⟩ := hq
      have hne := hus t (by simp)
      exact Or.inl ⟨hne, Or.inr (Or.inr { hb with
        notAvail := rfl
        notProduced := by simpa [takeS] using hne
        queue := ⟨us, u, rfl, hu, fun t' ht' => hus t' (List.mem_cons_of_mem _ ht')⟩ })⟩

/-- `scan` on a scanner that has not delivered its stream end, with nothing looked up ahead. -/
theorem wpB_scan' (I : SState → Inp → Prop) {Q : Token → SState → Inp → Prop} {F : Nat} (hs : Idle s) (hI : I s b)
    (hF : b.text.length + 2 < F) (hP : PanicsOk P b.text) (hfit : FitsOr P s b)
    (fetch : ∀ s b s' b', I s b → Ready s → s.tokens = [] ∨ keyPending s = true → Fetched s b s' b' → I s' b')
    (stale : ∀ s b, I s b → SOpen s ∨ SEnd s → staleErr s = none → I (staleS s) b)
    (hE : ∀ s1 b1 e s' b', I s1 b1 → MoreErr s1 b1 e s' → E e s' b')
    (hQ : ∀ t ts s' b', I s' b' → (∃ p, b.text = p ++ b'.text) → FitsOr P s' b' →
      SAvail { s' with tokenAvailable := true } → s'.tokens = t :: ts → Q t (takeS t ts s') b') :
    M.wp stepB P E (scan F) Q s b := by
  have hnp : s.streamEndProduced = false ∧ s.tokenAvailable = false := by
    rcases hs with rfl | h | h
    · exact ⟨rfl, rfl⟩
    · exact ⟨h.notProduced, h.notAvail⟩
    · exact ⟨h.notProduced, h.notAvail⟩
  unfold scan
  wps
  rw [if_neg (by simp [hnp.1])]
  rw [M.wp_bind, M.wp_when, if_pos (by simp [hnp.2])]
  refine wpB_fetchMoreTokens' I hs hI hF hP hfit fetch stale hE ?_
  intro s' b' hI' hp hf ha
  wps
  obtain ⟨t, ts, ht⟩ := List.exists_cons_of_ne_nil ha.ne
  have ht : s'.tokens = t :: ts := ht
  simp only [ht]
  wps
  have hsp : s'.streamEndProduced = false := by
    rcases ha.base with h | h
    · exact h.notProduced
    · exact h.notProduced
  have := hQ t ts s' b' hI' hp hf ha ht
  unfold takeS at this
  simp only [hsp, Bool.false_or]
  exact this

theorem wpB_scan (I : SState → Inp → Prop) {Q : Token → SState → Inp → Prop} {F : Nat} (hs : Idle s) (hI : I s b)
    (hF : b.text.length + 2 < F) (hP : PanicsOk P b.text) (hfit : FitsOr P s b)
    (fetch : ∀ s b s' b', I s b → Ready s → Fetched s b s' b' → I s' b')
    (stale : ∀ s b, I s b → SOpen s ∨ SEnd s → staleErr s = none → I (staleS s) b)
    (hE : ∀ s1 b1 e s' b', I s1 b1 → MoreErr s1 b1 e s' → E e s' b')
    (hQ : ∀ t ts s' b', I s' b' → (∃ p, b.text = p ++ b'.text) → FitsOr P s' b' →
      SAvail { s' with tokenAvailable := true } → s'.tokens = t :: ts → Q t (takeS t ts s') b') :
    M.wp stepB P E (scan F) Q s b :=
  wpB_scan' I hs hI hF hP hfit (fun s b s' b' h hr _ => fetch s b s' b' h hr) stale hE hQ

/-- `peek`. -/
theorem wpB_peek (I : SState → Inp → Prop) {Q : Token → SState → Inp → Prop} {F : Nat} (hs : Idle s ∨ SAvail s)
    (hI : I s b) (hF : b.text.length + 2 < F) (hP : PanicsOk P b.text) (hfit : FitsOr P s b)
    (fetch : ∀ s b s' b', I s b → Ready s → Fetched s b s' b' → I s' b')
    (stale : ∀ s b, I s b → SOpen s ∨ SEnd s → staleErr s = none → I (staleS s) b)
    (avail : ∀ s b x, I s b → I { s with tokenAvailable := x } b)
    (hE : ∀ s1 b1 e s' b', I s1 b1 → MoreErr s1 b1 e s' → E e s' b')
    (hQ : ∀ t ts s' b', I s' b' → (∃ p, b.text = p ++ b'.text) → FitsOr P s' b' →
      SAvail s' → s'.tokens = t :: ts → Q t s' b') :
    M.wp stepB P E (peek F) Q s b := by
  unfold peek
  wps
  refine M.wp_when_cut stepB_mono
    (R := fun s' b' => I s' b' ∧ (∃ p, b.text = p ++ b'.text) ∧ FitsOr P s' b' ∧ SAvail s') ?_ ?_ ?_
  · intro ha
    have hs' : Idle s := hs.resolve_right (fun h => by simp [h.avail] at ha)
    refine wpB_fetchMoreTokens I hs' hI hF hP hfit fetch stale hE ?_
    intro s' b' hI' hp hf hav
    exact ⟨avail s' b' true hI', hp, hf, hav⟩
  · intro ha
    refine ⟨hI, ⟨[], rfl⟩, hfit, ?_⟩
    rcases hs with h | h
    · have : s.tokenAvailable = false := by
        rcases h with rfl | h | h
        · rfl
        · exact h.notAvail
        · exact h.notAvail
      simp [this] at ha
    · exact h
  · rintro s' b' ⟨hI', hp, hf, hav⟩
    obtain ⟨t, ts, ht⟩ := List.exists_cons_of_ne_nil hav.ne
    simp only [ht]
    exact hQ t ts s' b' hI' hp hf hav ht

/-- `skip_token` after `peek`. -/
theorem wpB_skipToken {Q : Unit → SState → Inp → Prop} {t : Token} {ts : List Token} (ht : s.tokens = t :: ts)
    (hQ : Q () (takeS t ts s) b) : M.wp stepB P E skipToken Q s b := by
  unfold skipToken
  wps
  simp only [ht]
  exact hQ

end
end Yaml
