import Verif.Lib.Tight

/-
The tokens cover the text: histories of `scan` calls.
-/

namespace Yaml
open Scanner Spec
set_option linter.unusedSimpArgs false
set_option linter.unusedVariables false

/-- The invariant: `hist` are the tokens already taken, `T` the text. -/
def TInv (T : Str) (hist : List Token) (s : SState) (b : Inp) : Prop :=
  ({ s with tokenAvailable := false } = SState.new ∧ hist = [] ∧ b.text = T) ∨
  ((∃ t ∈ s.tokens, t.data = .streamEnd) ∧ ∃ q, Tiles T 0 [] [] (hist ++ s.tokens) q ∧ Snug (hist ++ s.tokens)) ∨
  (TOpen T (hist ++ s.tokens) s b ∧ Tight (hist ++ s.tokens) ∧ EndsNot (hist ++ s.tokens))

/-- Only the listed fields matter. -/
theorem TOpen.cast {T : Str} {L : List Token} {s s' : SState} {b : Inp} (h : TOpen T L s b) (hm : s'.mark = s.mark) (hi : s'.indent = s.indent)
    (his : s'.indents = s.indents) (hf : s'.flowLevel = s.flowLevel) (hk : KeySub s'.simpleKeys s.simpleKeys) : TOpen T L s' b := by
  obtain ⟨q, g, h1, h2, h3, h4, h5, h6⟩ := h
  refine ⟨q, g, h1, h2, h3, by rw [hm]; exact h4, by rw [hi, his]; exact h5, ?_⟩
  rw [hm, hf]
  intro i k hk' hp
  refine h6 i k ?_ hp
  clear h6
  revert hk' i
  generalize s'.simpleKeys = a at hk
  generalize s.simpleKeys = c at hk
  induction hk with
  | nil => intro i h; exact h
  | keep k1 _ ih =>
    intro i h
    rcases getElem?_head h with ⟨rfl, rfl⟩ | ⟨j, rfl, hj⟩
    · rfl
    · simpa using ih j hj
  | drop k1 _ ih =>
    intro i h
    rcases getElem?_head h with ⟨rfl, rfl⟩ | ⟨j, rfl, hj⟩
    · simp at hp
    · simpa using ih j hj

theorem TInv.stale {T : Str} {hist : List Token} {s : SState} {b : Inp} (h : TInv T hist s b) : TInv T hist (staleS s) b := by
  rcases h with ⟨h0, h1, h2⟩ | h | h
  · have h3 : s.simpleKeys = [] := congrArg SState.simpleKeys h0
    refine Or.inl ⟨?_, h1, h2⟩
    rw [← h0]; unfold staleS; rw [h3]; rfl
  · exact .inr (.inl h)
  · exact .inr (.inr ⟨h.1.cast rfl rfl rfl rfl (staleS_sub s), h.2⟩)

theorem TInv.start {T : Str} {b : Inp} (e : Encoding) (hb : b.text = T) : TInv T [] (startS e) b := by
  refine .inr (.inr ⟨⟨[], [], ?_, by simp [hb], .nil _, ?_, rfl, ?_⟩, trivial, endsNot_snoc (L := []) rfl⟩)
  · refine .cons (g := []) (w := []) (rest := T) rfl (.nil _) (.inl rfl) (.inl rfl) rfl ?_ (.nil _)
    show (-1 : Int) ≤ ((0 : Nat) : Int)
    omega
  · exact Adv.refl _ _
  · intro i k hk hp
    have := List.mem_of_getElem? hk
    simp [startS] at this
    subst this
    simp [emptyKey] at hp

/-- The end of the stream. -/
theorem TMid.finish {T : Str} {hist : List Token} {q g : Str} {s s1 : SState} (h : TMid T (hist ++ s.tokens) q g s [])
    (hu : Unroll (-1) { s with mark := endMarkOf s.mark } s1) :
    ∃ q', Tiles T 0 [] [] (hist ++ (s1.tokens ++ [⟨.streamEnd, s1.mark, s1.mark⟩])) q' := by
  have hm : s1.mark = endMarkOf s.mark := hu.mark
  rw [hm]
  have hT : T = q ++ g := by have := h.text; simpa using this
  have hpos : s.mark = position T := by
    have := h.adv
    have e : T = T ++ [] := by simp
    generalize hX : T = X at this
    rw [← hX] at this
    have h' : Adv Mark.zero (T ++ []) s.mark [] := by simpa [hX] using this
    have := h'.pre
    rw [this, hX]; rfl
  have hmark : MarkAt T (q ++ g) (endMarkOf s.mark) := by
    unfold endMarkOf
    split
    · exact .inr ⟨hT.symm, by rw [hpos]; rfl⟩
    · exact .inl (by rw [hpos, ← hT])
  have hqg : q ++ g ++ [] = q ++ g := by simp
  have hone : ∀ d st, Laid d st (⟨.streamEnd, endMarkOf s.mark, endMarkOf s.mark⟩ : Token) [] →
      Tiles T d st q [⟨.streamEnd, endMarkOf s.mark, endMarkOf s.mark⟩] (q ++ g ++ []) := by
    intro d st hl
    exact .cons (g := g) (w := []) (rest := []) (by simp [hT]) (by simpa using h.sep) hmark (by rw [hqg]; exact hmark) ⟨rfl, rfl⟩ hl (.nil _)
  refine ⟨q ++ g ++ [], ?_⟩
  obtain ⟨n, i, is, rfl, hio, hl, hc, hdr, hx, hf⟩ := hu
  show Tiles T 0 [] [] (hist ++ ((s.tokens ++ List.replicate n ⟨.blockEnd, endMarkOf s.mark, endMarkOf s.mark⟩) ++ _)) _
  rw [List.append_assoc, ← List.append_assoc]
  refine Tiles.append h.tiles ?_
  rw [h.depth]
  by_cases hf0 : s.flowLevel = 0
  · have his := hio.bottom (hc hf0)
    subst his
    have hn : n = (stackAfter [] (hist ++ s.tokens)).length := by
      have := h.stk.length
      simp at hl; omega
    subst hn
    rw [hf0]
    exact tiles_bounds (t := ⟨.streamEnd, endMarkOf s.mark, endMarkOf s.mark⟩) rfl _ (hone 0 [] rfl)
  · have hn := hf hf0
    subst hn
    simp only [List.replicate_zero, List.nil_append]
    exact hone _ _ (laid_flow hf0 ⟨rfl, rfl⟩ _)

/-- Fetching keeps the invariant. -/
theorem TInv.fetch {T : Str} {hist : List Token} {s s' : SState} {b b' : Inp} (h : TInv T hist s b) (hh : HInv T hist s b)
    (hf : Fetched s b s' b') : TInv T hist s' b' := by
  cases hf with
  | start hs e hb =>
    rcases hh with ⟨_, rfl, ht⟩ | ⟨_, hne, hh, hph⟩
    · exact TInv.start e (by rw [hb, ht])
    · subst hs
      exfalso
      rcases hph with h' | h'
      · have := h'.1.started; simp [SState.new] at this
      · have := h'.1.started; simp [SState.new] at this
  | @next s1 s3 _ b1 _ hs hg hst hu hd hsep =>
    have hopen : TOpen T (hist ++ s.tokens) s b ∧ Tight (hist ++ s.tokens) ∧ EndsNot (hist ++ s.tokens) := by
      rcases h with ⟨h0, _, _⟩ | ⟨⟨t, ht, he⟩, _⟩ | h
      · have := hs.started
        have h1 := congrArg SState.streamStartProduced h0
        simp [SState.new, this] at h1
      · exact absurd he (hs.notEnded t ht)
      · exact h
    rcases hh with ⟨h0, _, _⟩ | ⟨hlen, hne, hh, hph⟩
    · have := hs.started
      have h1 := congrArg SState.streamStartProduced h0
      simp [SState.new, this] at h1
    · have hadv : Adv Mark.zero T s.mark b.text := by
        rcases hph with h' | h'
        · exact h'.2
        · exfalso
          obtain ⟨ts, t, h1, h2, _⟩ := h'.1.queue
          exact hs.notEnded t (by have h1 : s.tokens = _ := h1; rw [h1]; simp) h2
      have hadv1 : Adv Mark.zero T s1.mark b1.text := hadv.trans hg.2
      have hs1 : SOpen s1 := hs.frame hg.1 hg.2.le
      have htok1 : s1.tokens = s.tokens := hg.1.tokens
      have hpar1 : hist.length = (staleS s1).tokensParsed := by
        show _ = s1.tokensParsed; rw [hg.1]; exact hlen
      have hm3 : s3.mark = s1.mark := hu.mark
      have hk3 : s3.simpleKeys = (staleS s1).simpleKeys := hu.keys
      have hs3 : SOpen s3 := hs1.stale.unroll hu
      have hh1 : Hist T (hist ++ (staleS s1).tokens) (staleS s1) := by
        show Hist T (hist ++ s1.tokens) _
        rw [htok1]
        refine hh.congr hg.2.le ?_ ?_ ?_
        · have := staleS_sub s1
          have e : s1.simpleKeys = s.simpleKeys := by rw [hg.1]
          rw [e] at this; exact this
        · show s1.indents.length = _; rw [hg.1]
        · exact hg.1.flowLevel
      have hne1 : hist ++ (staleS s1).tokens ≠ [] := by
        show hist ++ s1.tokens ≠ []; rw [htok1]; exact hne
      have hkn1 : ∀ k ∈ (staleS s1).simpleKeys, k.possible = true → k.tokenNumber ≤ (hist ++ (staleS s1).tokens).length := by
        intro k hk hp
        have := (hs1.stale.keyNum k hk hp).2
        rw [List.length_append]; omega
      have hh3 := hh1.unroll hne1 (Or.inl (IsPosition.of_adv hadv1)) hkn1 hu
      have hpar3 : hist.length = s3.tokensParsed := by
        obtain ⟨_, _, _, rfl, _⟩ := hu; exact hpar1
      -- at the start of the token
      have hsep1 : ∃ q g, TMid T (hist ++ (staleS s1).tokens) q g (staleS s1) b1.text := by
        obtain ⟨q, g, h1, h2, h3, h4, h5, h6⟩ := hopen.1
        have hS : Sep (position q) (g ++ b.text) b1.text := Sep.trans ⟨g, rfl, h3⟩ h4 hsep
        obtain ⟨G, hG, hG'⟩ := hS
        refine ⟨q, G, ?_, by rw [h2, hG], hG', hadv1, ?_, ?_, ?_⟩
        · show Tiles T 0 [] [] (hist ++ s1.tokens) q
          rw [htok1]; exact h1
        · show BStk (stackAfter [] (hist ++ s1.tokens)) s1.indent s1.indents
          rw [htok1, hg.1]; exact h5
        · rw [← flowDepth_eq]; exact hh1.flow
        · intro i k hk hp
          have hmem := List.mem_of_getElem? hk
          have hsk := (staleErr_none hst k hmem hp).1
          have htop : lcLe k.mark s1.mark := hs1.stale.keyTop k hmem hp
          have hle : s.mark.line ≤ s1.mark.line := by
            have := hg.2.le.2; omega
          have hk0 : s.simpleKeys[i]? = some k := by
            have hsub := staleS_sub s1
            rw [show s1.simpleKeys = s.simpleKeys by rw [hg.1]] at hsub
            revert hk i
            generalize (staleS s1).simpleKeys = a at hsub
            generalize s.simpleKeys = c at hsub
            intro i
            induction hsub generalizing i with
            | nil => intro h; exact h
            | keep k1 _ ih =>
              intro h
              rcases getElem?_head h with ⟨rfl, rfl⟩ | ⟨j, rfl, hj⟩
              · rfl
              · simpa using ih j hj
            | drop k1 _ ih =>
              intro h
              rcases getElem?_head h with ⟨rfl, rfl⟩ | ⟨j, rfl, hj⟩
              · simp at hp
              · simpa using ih j hj
          have htop0 : lcLe k.mark s.mark := hs.keyTop k (List.mem_of_getElem? hk0) hp
          unfold lcLe at htop htop0
          refine ⟨?_, ?_, ?_⟩
          · show KOk T (hist ++ s1.tokens) q s1.flowLevel i k
            rw [htok1, hg.1.flowLevel]
            exact h6 i k hk0 hp (by omega)
          · show k.mark.line = s1.mark.line; omega
          · show k.mark.column ≤ s1.mark.column; omega
      obtain ⟨q, g, hmid⟩ := hsep1
      obtain ⟨⟨q3, g3, hmid3⟩, hcol⟩ := hmid.unroll hu
      have htight : Tight (hist ++ s3.tokens) ∧ EndsAt s3.mark (hist ++ s3.tokens) := by
        have he := hopen.2.2.at s1.mark
        obtain ⟨n, i, is, rfl, _⟩ := hu
        show Tight (hist ++ (s1.tokens ++ _)) ∧ EndsAt s1.mark (hist ++ (s1.tokens ++ _))
        rw [htok1, ← List.append_assoc]
        have hX : ∀ x ∈ List.replicate n (⟨.blockEnd, (staleS s1).mark, (staleS s1).mark⟩ : Token), x.startMark = s1.mark := by
          intro x hx; rw [List.eq_of_mem_replicate hx]; rfl
        exact ⟨tight_append hopen.2.1 he hX, he.append hX⟩
      cases hd with
      | @token D s4 s2 tok _ hp ht hd hsp =>
        exact .inr (.inr ⟨hmid3.token hcol hpar3 hs3 hh3 hp ht hd hsp, tight_token hmid3 hpar3 hs3 hp ht hd hsp.1 htight.1 htight.2⟩)
      | @streamEnd s4 _ hb hb' hu2 hr =>
        rw [hb] at hmid3
        have hfin := hmid3.finish hu2
        obtain ⟨q', hq'⟩ := hfin
        refine .inr (.inl ⟨⟨_, List.mem_append_right _ (List.mem_singleton.2 rfl), rfl⟩, q', hq', ?_⟩)
        obtain ⟨n, i, is, rfl, _⟩ := hu2
        show Snug (hist ++ ((s3.tokens ++ List.replicate n _) ++ [_]))
        rw [List.append_assoc, ← List.append_assoc]
        refine htight.1.snug ?_
        intro v hv
        rcases List.mem_append.1 hv with hv | hv
        · rw [List.eq_of_mem_replicate hv]; exact .inl rfl
        · simp at hv; rw [hv]; exact .inr rfl

theorem TInv.take {T : Str} {hist : List Token} {s : SState} {b : Inp} {t : Token} {ts : List Token} (h : TInv T hist s b)
    (ha : SAvail { s with tokenAvailable := true }) (ht : s.tokens = t :: ts) :
    (t.data ≠ .streamEnd → TInv T (hist ++ [t]) (takeS t ts s) b) ∧ (t.data = .streamEnd → Tiles T 0 [] [] (hist ++ [t]) T ∧ Snug (hist ++ [t])) := by
  have e : hist ++ [t] ++ ts = hist ++ s.tokens := by rw [ht]; simp
  have hopen : (∀ x ∈ s.tokens, x.data ≠ .streamEnd) ∨ ∃ us u, s.tokens = us ++ [u] ∧ u.data = .streamEnd ∧ ∀ x ∈ us, x.data ≠ .streamEnd := by
    rcases ha.base with h' | h'
    · exact .inl h'.notEnded
    · exact .inr h'.queue
  constructor
  · intro hne
    rcases h with ⟨h0, _, _⟩ | ⟨⟨u, hu, hue⟩, q, hq⟩ | h
    · have h1 := congrArg SState.tokens h0
      have h1 : s.tokens = [] := h1
      rw [ht] at h1; cases h1
    · refine .inr (.inl ⟨⟨u, ?_, hue⟩, q, ?_, by show Snug (hist ++ [t] ++ ts); rw [e]; exact hq.2⟩)
      · show u ∈ ts
        rw [ht] at hu
        rcases List.mem_cons.1 hu with rfl | hu
        · exact absurd hue hne
        · exact hu
      · show Tiles T 0 [] [] (hist ++ [t] ++ ts) q
        rw [e]; exact hq.1
    · refine .inr (.inr ?_)
      show TOpen T (hist ++ [t] ++ ts) _ _ ∧ Tight (hist ++ [t] ++ ts) ∧ EndsNot (hist ++ [t] ++ ts)
      rw [e]
      exact ⟨h.1.cast rfl rfl rfl rfl (KeySub.refl _), h.2⟩
  · intro he
    have hts : ts = [] := by
      rcases hopen with h' | ⟨us, u, h1, h2, h3⟩
      · exact absurd he (h' t (by rw [ht]; simp))
      · cases us with
        | nil => rw [ht] at h1; simp at h1; exact h1.2
        | cons v vs =>
          rw [ht] at h1; simp at h1
          exact absurd he (by rw [h1.1]; exact h3 v (by simp))
    subst hts
    have : ∃ q, Tiles T 0 [] [] (hist ++ [t]) q ∧ Snug (hist ++ [t]) := by
      rcases h with ⟨h0, _, _⟩ | ⟨_, q, hq⟩ | ⟨⟨q, _, hq, _⟩, hti, _⟩
      · have h1 := congrArg SState.tokens h0
        have h1 : s.tokens = [] := h1
        rw [ht] at h1; cases h1
      · exact ⟨q, by rw [ht] at hq; exact hq⟩
      · exact ⟨q, by rw [ht] at hq; exact hq, by rw [ht] at hti; simpa using hti.snug (X := []) (by simp)⟩
    obtain ⟨q, hq, hsn⟩ := this
    have := Tiles.ends hq he
    rw [this] at hq
    exact ⟨hq, hsn⟩

/-! ### Runs -/

/-- The invariant of a scanner that has delivered `hist` of the text `T`. -/
def RunT (T : List Char) (hist : List Token) (o : ScannerObj) : Prop :=
  ∃ b, R b o.r ∧ HInv T hist o.s b ∧ TInv T hist o.s b ∧ Count T hist o.s b ∧ (NoEnd hist ∧ Fit (hist ++ o.s.tokens)) ∧ Idle o.s ∧ FitsOr (Bad T) o.s b ∧
    ∃ p, T = p ++ b.text

theorem RunT.start {items : List SrcItem} {enc : Encoding} {T : List Char} (h : Future enc items T) : RunT T [] (ScannerObj.new items enc) := by
  refine ⟨⟨T, 0⟩, ⟨by simp [ScannerObj.new], T, h, by simp [ScannerObj.new], Or.inl (Nat.zero_le _)⟩,
    Or.inl ⟨rfl, rfl, rfl⟩, Or.inl ⟨rfl, rfl, rfl⟩, ?_, ⟨by intro t ht; simp at ht, by intro t ht; simp [ScannerObj.new, SState.new] at ht⟩, Or.inl rfl, ?_, [], rfl⟩
  · simp [Count, ScannerObj.new, SState.new]
  · by_cases hT : T.length ≤ i32Max
    · left
      refine ⟨?_, ?_, ?_⟩
      · show (0 : Nat) + T.length ≤ i32Max; omega
      · show (0 : Nat) + T.length ≤ i32Max; omega
      · intro k hk; simp [ScannerObj.new, SState.new] at hk
    · right
      exact ⟨Or.inr (Or.inr (Or.inr ⟨Or.inl rfl, by omega⟩)), Or.inr (Or.inr (Or.inr ⟨Or.inr rfl, by omega⟩))⟩

theorem RunT.scan {T : List Char} {hist : List Token} {o o' : ScannerObj} {t : Token} {F : Nat} (h : RunT T hist o) (hF : T.length + 2 < F)
    (hs : o.scan F = (.ok t, o')) :
    (t.data ≠ .streamEnd ∧ RunT T (hist ++ [t]) o') ∨ (t.data = .streamEnd ∧ Ended T (hist ++ [t]) o'.s ∧ Tiles T 0 [] [] (hist ++ [t]) T ∧ Snug (hist ++ [t])) := by
  obtain ⟨b, hR, hI, hTI, hc, ⟨hn, hcon⟩, hid, hfit, p, hp⟩ := h
  have hlen : b.text.length ≤ T.length := by rw [hp]; simp
  have := runA_of_wp (r := o.r) (b := b) (P := Bad T) (E := fun _ _ _ => True)
    (Q := fun t s' b' => (t.data ≠ .streamEnd ∧ HInv T (hist ++ [t]) s' b' ∧ TInv T (hist ++ [t]) s' b' ∧ Count T (hist ++ [t]) s' b' ∧
        (NoEnd (hist ++ [t]) ∧ Fit (hist ++ [t] ++ s'.tokens)) ∧ Idle s' ∧ FitsOr (Bad T) s' b' ∧ ∃ p, T = p ++ b'.text) ∨
        (t.data = .streamEnd ∧ Ended T (hist ++ [t]) s' ∧ Tiles T 0 [] [] (hist ++ [t]) T ∧ Snug (hist ++ [t])))
    (wpB_scan (F := F) (s := o.s) (fun s b => ((HInv T hist s b ∧ TInv T hist s b) ∧ Fit (hist ++ s.tokens)) ∧ Count T hist s b) hid ⟨⟨⟨hI, hTI⟩, hcon⟩, hc⟩ (by omega)
      (by have := Bad.ok T; generalize Bad T = B at this ⊢; rw [hp] at this; exact this.suffix) hfit
      (fun s b s' b' h _ hf => ⟨⟨⟨h.1.1.1.fetch hf, h.1.1.2.fetch h.1.1.1 hf⟩, Fit.append.2 ⟨(Fit.append.1 h.1.2).1, (Fit.append.1 h.1.2).2.fetch hf⟩⟩, h.2.fetch hf⟩)
      (fun s b h _ _ => ⟨⟨⟨h.1.1.1.stale, h.1.1.2.stale⟩, h.1.2⟩, h.2.stale⟩)
      (fun s1 b1 e s' b' h he => trivial)
      (by
        intro t ts s' b' hI' ⟨q, hq⟩ hf ha ht
        have := (hI'.1.1.1.avail true).take (t := t) (ts := ts) (hI'.2.avail true) hn hI'.1.2 ha ht
        have e : takeS t ts { s' with tokenAvailable := true } = takeS t ts s' := rfl
        rw [e] at this
        have hti := hI'.1.1.2.take ha ht
        rcases this with ⟨g1, g2, g3, g4, g5⟩ | g
        · refine Or.inl ⟨g1, g3, hti.1 g1, g4, ⟨g5, by have h := hI'.1.2; have ht : s'.tokens = t :: ts := ht; rw [ht] at h; rw [List.append_assoc]; exact h⟩, g2, hf.imp (fun h => h.mk' (Nat.le_refl _) (Nat.le_refl _) rfl (fun k hk _ => hk)) id, ?_⟩
          exact ⟨p ++ q, by rw [hp, hq, List.append_assoc]⟩
        · exact Or.inr ⟨g.1, g.2, hti.2 g.1⟩)) hR
  obtain ⟨b', hR', hpost⟩ := this
  unfold ScannerObj.scan at hs
  revert hpost hR' hs
  generalize runA (Scanner.scan F) o.s o.r = q
  obtain ⟨⟨out, s'⟩, r'⟩ := q
  intro hs hR' hpost
  obtain ⟨rfl, rfl⟩ := Prod.mk.inj hs
  rcases hpost with ⟨g1, g2, g3, g4, g5, g6, g7⟩ | g
  · exact Or.inl ⟨g1, b', hR', g2, g3, g4, g5, g6, g7⟩
  · exact Or.inr g

/-- The tokens read so far, with those in the queue, cover the text; once the stream has ended, all of it. -/
theorem ScannerObj.Reads.tiles {items : List SrcItem} {enc : Encoding} {T : List Char} {F : Nat} (hT : Future enc items T)
    (hF : T.length + 2 < F) {ts : List Token} {o : ScannerObj} (h : Reads F (new items enc) ts o) :
    RunT T ts o ∨ ∃ ts0 n, ts = ts0 ++ List.replicate n ⟨.streamEnd, Mark.zero, Mark.zero⟩ ∧ Ended T ts0 o.s ∧ Tiles T 0 [] [] ts0 T ∧ Snug ts0 := by
  induction h with
  | nil => exact Or.inl (RunT.start hT)
  | @snoc ts t o1 o2 h hs ih =>
    rcases ih with ih | ⟨ts0, n, rfl, ih, ih'⟩
    · rcases ih.scan hF hs with h' | h'
      · exact Or.inl h'.2
      · exact Or.inr ⟨ts ++ [t], 0, by simp, h'.2⟩
    · have := (ih.done.scan F).1
      rw [this] at hs
      simp at hs
      obtain ⟨rfl, rfl⟩ := hs
      refine Or.inr ⟨ts0, n + 1, ?_, ih, ih'⟩
      rw [List.replicate_succ', List.append_assoc]

end Yaml
