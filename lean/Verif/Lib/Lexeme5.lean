import Verif.Lib.Lexeme4
import Verif.Lib.Scan

/-
Runs of the scanner over a text, lexeme by lexeme.
-/

namespace Yaml.Lx
open Yaml Scanner Spec
set_option linter.unusedSimpArgs false
set_option linter.unusedVariables false

/-- What `fetch_next_token` does at `A` before `t`: the white space up to the next token, then the token. -/
def Fetch (F : Nat) (A : Cfg) (t : Str) (C : Cfg) (t' : Str) : Prop :=
  ∃ g t'', t = g ++ t'' ∧ Ws A.flow A.allowed g ∧ Starts t'' ∧ t'' ≠ [] ∧ (staleList (advance A.mark g) A.keys.reverse).2 = none ∧
    ∀ A1 : Cfg, A1.unroll (-1) = (A.gap g).unroll (-1) → (¬ Bound (advance A.mark g) t'' → A1 = A.gap g) →
      A1.mark = advance A.mark g → A1.flow = A.flow → A1.allowed = (A.gap g).allowed → A1.keys = (A.gap g).keys → Lex F A1 t'' C t'

/-- The end of the text. -/
def Final (A : Cfg) (t : Str) (toks : List TokenData) : Prop :=
  WsT A.flow A.allowed t [] ∧ A.flow = 0 ∧ (staleList (advance A.mark t) A.keys.reverse).2 = none ∧ (A.gap t).hot = false ∧
    toks = ((A.gap t).unroll (-1)).toks ++ [.streamEnd]

/-- Any number of tokens. -/
inductive Reach (F : Nat) : Cfg → Str → Cfg → Str → Prop
  | refl (A : Cfg) (t : Str) : Reach F A t A t
  | fetch {A C D : Cfg} {t t' t'' : Str} (h : Fetch F A t C t') (h' : Reach F C t' D t'') : Reach F A t D t''
  | skip {A D : Cfg} {g t t'' : Str} (hg : Ws A.flow A.allowed g) (hs : NoSplit g t) (h : Reach F (A.skip g) t D t'') : Reach F A (g ++ t) D t''
  | close {A D : Cfg} {t t' : Str} (hf : A.flow = 0) (hi : A.indents ≠ []) (h0 : 0 ≤ A.indent)
      (hc : ∀ g t'', t = g ++ t'' → WsT A.flow A.allowed g t'' → Starts t'' → ((advance A.mark g).column : Int) < A.indent ∨ Bound (advance A.mark g) t'')
      (h : Reach F A.close t D t') : Reach F A t D t'

theorem Reach.trans {F : Nat} {A B C : Cfg} {t t' t'' : Str} (h : Reach F A t B t') (h' : Reach F B t' C t'') : Reach F A t C t'' := by
  induction h with
  | refl => exact h'
  | fetch h _ ih => exact .fetch h (ih h')
  | skip hg hs _ ih => exact .skip hg hs (ih h')
  | close hf hi h0 hc _ ih => exact .close hf hi h0 hc (ih h')

/-- The text is the tokens `toks`. -/
def Runs (F : Nat) (A : Cfg) (t : Str) (toks : List TokenData) : Prop := ∃ D t', Reach F A t D t' ∧ Final D t' toks

theorem solid_nil : Solid [] := by intro c r h; cases h
theorem starts_nil : Starts [] := ⟨solid_nil, by simp, by simp⟩

theorem Runs.stale {F : Nat} {A : Cfg} {t : Str} {toks : List TokenData} (h : Runs F A t toks) :
    ∃ g t'', t = g ++ t'' ∧ WsT A.flow A.allowed g t'' ∧ Starts t'' ∧ (staleList (advance A.mark g) A.keys.reverse).2 = none := by
  obtain ⟨D, t', h, hf⟩ := h
  induction h with
  | refl A t => exact ⟨t, [], by simp, hf.1, starts_nil, hf.2.2.1⟩
  | fetch h _ _ =>
    obtain ⟨g, t'', h1, h2, h3, _, h4, _⟩ := h
    exact ⟨g, t'', h1, h2.t _, h3, h4⟩
  | @skip A D g t t'' hg hs _ ih =>
    obtain ⟨g', u, h1, h2, h3, h4⟩ := ih hf
    refine ⟨g ++ g', u, by rw [h1]; simp, hg.appendT h2, h3, ?_⟩
    rw [advance_blanks _ (noSplit_of_append (by rw [← h1]; exact hs) h3.solid)]
    exact h4
  | close h1 h2 h3 hc _ ih =>
    obtain ⟨g', u, h1, h2, h3, h4⟩ := ih hf
    rw [Cfg.close_mark, Cfg.close_keys] at h4; rw [Cfg.close_flow, Cfg.close_allowed] at h2
    exact ⟨g', u, h1, h2, h3, h4⟩

theorem At.close {out : List TokenData} {V : Cfg} {t u : Str} {s : SState} (h : At out V t s u) (hf : V.flow = 0) (hi : V.indents ≠ []) (h0 : 0 ≤ V.indent)
    (hc : ∀ g t'', t = g ++ t'' → WsT V.flow V.allowed g t'' → Starts t'' → ((advance V.mark g).column : Int) < V.indent ∨ Bound (advance V.mark g) t'') :
    At out V.close t s u := by
  obtain ⟨A, t0, h1, h2⟩ := h
  exact ⟨A, t0, h1, h2.close hf hi h0 hc⟩

/-- The next token, or the end. -/
theorem Runs.next {F : Nat} {A : Cfg} {t u : Str} {toks out : List TokenData} {s : SState} (h : Runs F A t toks) (ha : At out A t s u) :
    ∃ V t', At out V t' s u ∧ ((∃ C t'', Fetch F V t' C t'' ∧ Runs F C t'' toks) ∨ Final V t' toks) := by
  obtain ⟨D, t', h, hf⟩ := h
  induction h with
  | refl A t => exact ⟨A, t, ha, Or.inr hf⟩
  | fetch h h' _ => exact ⟨_, _, ha, Or.inl ⟨_, _, h, _, _, h', hf⟩⟩
  | skip hg hs _ ih => exact ih (ha.skip hg hs) hf
  | close hf' hi h0 hc _ ih => exact ih (ha.close hf' hi h0 hc) hf

theorem At.op {out : List TokenData} {V : Cfg} {t u : Str} {s : SState} (h : At out V t s u) : SOpen s := h.choose_spec.choose_spec.1.op
theorem At.parsed {out : List TokenData} {V : Cfg} {t u : Str} {s : SState} (h : At out V t s u) : s.tokensParsed = out.length := h.choose_spec.choose_spec.1.parsed

theorem at_le {out : List TokenData} {V : Cfg} {t u g t'' : Str} {s : SState} {A : Cfg} {t0 : Str} (h : Ahead out A t0 s u) (hv : View A t0 V t)
    (ht : t = g ++ t'') (hg : WsT V.flow V.allowed g t'') (hs : Starts t'') : V.keys = A.keys ∧ Spec.le s.mark (advance V.mark g) := by
  obtain ⟨g0, rfl, hg0, v1, v2, v3, v4, v5⟩ := hv.spec ht hg hs
  refine ⟨v2, ?_⟩
  obtain ⟨p, p1, p2, p3⟩ := h.gap
  obtain ⟨g1, rfl, rfl, hg1⟩ := ws_suffix p1 hg0 p2 hs
  have hns : NoSplit p g1 := by
    obtain ⟨q, q1, q2, q3⟩ := h.adv
    have : q = p := by
      rw [List.append_assoc] at q1
      exact (List.append_inj_left' q1 rfl).symm
    subst this
    exact noSplit_of_append q3 hs.solid
  have hm : s.mark = advance A.mark p := (show Adv A.mark (p ++ (g1 ++ t'')) s.mark (g1 ++ t'') by simpa using h.adv).pre
  rw [v3, advance_blanks _ hns, ← hm]
  have : Adv s.mark (g1 ++ []) (advance s.mark g1) [] := ⟨g1, rfl, rfl, by simp⟩
  exact this.le

theorem At.stale {out : List TokenData} {V : Cfg} {t u g t'' : Str} {s : SState} (h : At out V t s u)
    (ht : t = g ++ t'') (hg : WsT V.flow V.allowed g t'') (hs : Starts t'') (hk : (staleList (advance V.mark g) V.keys.reverse).2 = none) :
    staleErr s = none ∧ At out V t (staleS s) u := by
  obtain ⟨A, t0, hA, hv⟩ := h
  obtain ⟨hkeys, hle⟩ := at_le hA hv ht hg hs
  have hl : s.mark.line ≤ (advance V.mark g).line := by have := hle.2; omega
  rw [hkeys] at hk
  have h1 := stale_mono hl hle.1 hk
  have h2 := hA.keys s.mark (Spec.le_refl _) h1
  refine ⟨by unfold staleErr; rw [h2]; exact h1, A, t0, ?_, hv⟩
  refine ⟨hA.op.stale, hA.adv, hA.gap, hA.flow, hA.indent, hA.indents, ?_, hA.toks, hA.parsed⟩
  intro m hm hs'
  have hm' : s.mark.line ≤ m.line := by have : Spec.le s.mark m := hm; have := this.2; omega
  have h3 := hA.keys m hm hs'
  show staleList m ((staleList s.mark s.simpleKeys.reverse).1.reverse).reverse = _
  rw [List.reverse_reverse, stale_stale hm' hm.1 (by rw [h3]; exact hs'), h3]

/-- After the front token was taken. -/
theorem At.take {out : List TokenData} {V : Cfg} {t u : Str} {s : SState} {k : Token} {ks : List Token} (h : At out V t s u) (hk : s.tokens = k :: ks)
    (hn : ∀ x ∈ s.simpleKeys, x.possible = true → x.tokenNumber ≠ s.tokensParsed) : At (out ++ [k.data]) V t (takeS k ks s) u := by
  obtain ⟨A, t0, hA, hv⟩ := h
  have hne : k.data ≠ .streamEnd := hA.op.notEnded k (by rw [hk]; simp)
  refine ⟨A, t0, ⟨?_, hA.adv, hA.gap, hA.flow, hA.indent, hA.indents, hA.keys, ?_, ?_⟩, hv⟩
  · refine { hA.op with notAvail := rfl, notProduced := by simpa [takeS] using hne, notEnded := ?_, keyNum := ?_ }
    · intro t' ht'; exact hA.op.notEnded t' (by rw [hk]; exact List.mem_cons_of_mem _ ht')
    · intro x hx hp
      have h1 := hA.op.keyNum x hx hp
      have h2 := hn x hx hp
      rw [hk, List.length_cons] at h1
      show s.tokensParsed + 1 ≤ _ ∧ _ ≤ s.tokensParsed + 1 + ks.length
      omega
  · rw [hA.toks, hk]; simp [takeS]
  · show s.tokensParsed + 1 = _; rw [hA.parsed]; simp

/-- The stream end is queued. -/
structure Ended (out toks : List TokenData) (s : SState) : Prop where
  started : s.streamStartProduced = true
  notAvail : s.tokenAvailable = false
  notProduced : s.streamEndProduced = false
  queue : ∃ ts t, s.tokens = ts ++ [t] ∧ t.data = .streamEnd ∧ ∀ t' ∈ ts, t'.data ≠ .streamEnd
  keys : ∀ k ∈ s.simpleKeys, k.possible = false
  toks : toks = out ++ s.tokens.map (·.data)

theorem stale_off {m : Mark} : ∀ {ks : List SimpleKey}, (∀ k ∈ ks, k.possible = false) → staleList m ks = (ks, none)
  | [], _ => rfl
  | k :: ks, h => by
    rw [staleList, if_neg (by rw [h k List.mem_cons_self]; simp), stale_off fun k' hk' => h k' (List.mem_cons_of_mem _ hk')]

theorem Ended.stale {out toks : List TokenData} {s : SState} (h : Ended out toks s) : staleErr s = none ∧ staleS s = s := by
  have := stale_off (m := s.mark) (ks := s.simpleKeys.reverse) (by simpa using h.keys)
  unfold staleErr staleS
  rw [this]
  simp

/-- Where the scanner stands. -/
inductive Phase (F : Nat) (e : Encoding) (T : Str) (toks : List TokenData) : List TokenData → SState → Str → Prop
  | start (h : Runs F ⟨Mark.zero, 0, -1, [], true, [emptyKey], [.streamStart e]⟩ T toks) : Phase F e T toks [] SState.new T
  | mid {out : List TokenData} {s : SState} {u t : Str} {V : Cfg} (h : At out V t s u) (hr : Runs F V t toks) : Phase F e T toks out s u
  | ended {out : List TokenData} {s : SState} (h : Ended out toks s) : Phase F e T toks out s []

section
variable {F : Nat} {e : Encoding} {T : Str} {toks : List TokenData}

/-- The end of the text is fetched. -/
theorem wpT_fetchEnd {out : List TokenData} {V : Cfg} {t u : Str} {s : SState} (h : At out V t s u) (hf : Final V t toks) (hF : u.length + 8 < F) :
    M.wp stepT Big NoErr (fetchNextToken F) (fun _ s' x => x.enc = e ∧ Ended out toks s' ∧ x.text = []) s ⟨u, e⟩ := by
  obtain ⟨h1, h2, h3, h4, h5⟩ := hf
  refine wpT_prelude h (g := t) (t'' := []) (by simp) h1 starts_nil h3 hF fun s1 A1 hH a1 a2 a3 a4 a5 a6 a7 => ?_
  have hdis : dispatch F s1.mark s1.flowLevel ([] : Str)[0]? ([] : Str)[1]? ([] : Str)[2]? ([] : Str)[3]? = fetchStreamEnd := by
    simp [dispatch]
  rw [hdis]
  unfold fetchStreamEnd
  simp only [M.wp_bind, M.wp_modify]
  have hle : Spec.le s1.mark (endMarkOf s1.mark) := by
    unfold endMarkOf
    split
    · exact ⟨Nat.le_refl _, Or.inl (Nat.lt_succ_self _)⟩
    · exact Spec.le_refl _
  have hS : (if (s1.mark.column != 0) = true then { s1 with mark := { s1.mark with column := 0, line := s1.mark.line + 1 } } else s1) = { s1 with mark := endMarkOf s1.mark } := by
    unfold endMarkOf; split <;> rfl
  rw [hS]
  have hH' : Here out { A1 with mark := endMarkOf s1.mark } { s1 with mark := endMarkOf s1.mark } :=
    ⟨hH.op.frame (Frame.mk' _ _ _) hle, rfl, hH.flow, hH.indent, hH.indents, hH.allowed, hH.keys, hH.toks, hH.parsed⟩
  refine wp_unroll hH' (by omega) fun s2 h2' => ?_
  have hhot : (Cfg.unroll (-1) { A1 with mark := endMarkOf s1.mark }).hot = false := by
    have e1 : (Cfg.unroll (-1) { A1 with mark := endMarkOf s1.mark }).keys = A1.keys := by unfold Cfg.unroll; split <;> rfl
    unfold Cfg.hot at h4 ⊢
    rw [e1, a6]; exact h4
  refine wp_remove h2' hhot fun s3 h3' => ?_
  simp only [M.wp_bind, allowSimpleKey, M.wp_modify, getMark, M.wp_get, M.wp_pure, pushToken]
  refine ⟨trivial, ⟨h3'.op.started, h3'.op.notAvail, h3'.op.notProduced, ⟨s3.tokens, _, rfl, rfl, h3'.op.notEnded⟩, ?_, ?_⟩, trivial⟩
  · intro k hk
    have hk : k ∈ s3.simpleKeys := hk
    have hlen := h3'.op.keysLen
    have hfl : s3.flowLevel = 0 := by
      rw [h3'.flow]
      show (Cfg.unroll (-1) _).flow = 0
      unfold Cfg.unroll; split
      · show A1.flow = 0; rw [a4]; exact h2
      · show A1.flow = 0; rw [a4]; exact h2
    rw [hfl] at hlen
    have hkk := h3'.keys
    unfold Cfg.clear at hkk
    simp only [] at hkk
    generalize (Cfg.unroll (-1) { A1 with mark := endMarkOf s1.mark }).keys = K at hkk
    cases K with
    | nil => rw [hkk] at hk; cases hk
    | cons k0 K =>
      simp only [] at hkk
      rw [hkk] at hlen hk
      simp at hlen
      subst hlen
      simp at hk
      rw [hk]
  · show toks = out ++ (s3.tokens ++ [_]).map _
    have h6 := h3'.toks
    have e2 : (Cfg.unroll (-1) { A1 with mark := endMarkOf s1.mark }).clear.toks = (A1.unroll (-1)).toks := by
      show (Cfg.unroll (-1) { A1 with mark := endMarkOf s1.mark }).toks = _
      unfold Cfg.unroll; split <;> rfl
    rw [e2, a1] at h6
    rw [h5, h6]
    simp

/-- One fetch. -/
theorem wpT_fetch {out : List TokenData} {s : SState} {u : Str} (h : Phase F e T toks out s u) (hF : u.length + 8 < F) (hne : ¬ Ended out toks s) :
    M.wp stepT Big NoErr (fetchNextToken F) (fun _ s' x => x.enc = e ∧ Phase F e T toks out s' x.text ∧
      x.text.length + (if s'.streamStartProduced then 0 else 1) + (if s'.tokens.any (fun t => t.data == .streamEnd) then 0 else 1) <
        u.length + (if s.streamStartProduced then 0 else 1) + (if s.tokens.any (fun t => t.data == .streamEnd) then 0 else 1)) s ⟨u, e⟩ := by
  have notEnd : ∀ s : SState, SOpen s → s.tokens.any (fun t => t.data == .streamEnd) = false := by
    intro s hs
    rw [List.any_eq_false]
    intro t ht
    have := hs.notEnded t ht
    simpa using this
  cases h with
  | start h =>
    unfold fetchNextToken
    simp only [M.wp_bind, wpT_cache, M.wp_get, SState.new, Bool.not_false, if_true]
    unfold fetchStreamStart
    simp only [M.wp_bind, M.wp_modify, getMark, M.wp_get, M.wp_pure, pushToken]
    show e = e ∧ _
    have ha : Here [] ⟨Mark.zero, 0, -1, [], true, [emptyKey], [.streamStart e]⟩ (startS e) :=
      ⟨startS_open e, rfl, rfl, rfl, rfl, rfl, rfl, rfl, rfl⟩
    refine ⟨rfl, .mid (V := ⟨Mark.zero, 0, -1, [], true, [emptyKey], [.streamStart e]⟩) (t := T) ⟨_, _, ha.ahead T, .refl _ _⟩ h, ?_⟩
    simp
  | @mid _ _ _ t V hA hr =>
    obtain ⟨V, t', hA, ⟨C, t'', hf, hr⟩ | hf⟩ := hr.next hA
    · obtain ⟨g, t1, e1, e2, e3, _, e4, e5⟩ := hf
      refine wpT_prelude hA e1 (e2.t _) e3 e4 hF fun s1 A1 hH a1 a2 a3 a4 a5 a6 a7 => ?_
      refine M.wp_mono stepT_mono (e5 A1 a1 a2 a3 a4 a5 a6 out s1 e hH (by omega)) ?_ (fun _ _ _ h => h) (fun _ h => h)
      rintro _ s' x ⟨h1, h2, h3⟩
      refine ⟨h1, .mid ⟨C, t'', h2, .refl _ _⟩ hr, ?_⟩
      rw [h2.op.started, hA.op.started, notEnd _ h2.op, notEnd _ hA.op]
      simp
      omega
    · refine M.wp_mono stepT_mono (wpT_fetchEnd hA hf hF) ?_ (fun _ _ _ h => h) (fun _ h => h)
      rintro _ s' x ⟨h1, h2, h3⟩
      refine ⟨h1, by rw [h3]; exact .ended h2, ?_⟩
      obtain ⟨ts, t, q1, q2, _⟩ := h2.queue
      have : s'.tokens.any (fun t => t.data == .streamEnd) = true := by rw [q1, List.any_append]; simp [q2]
      rw [h2.started, this, notEnd _ hA.op, hA.op.started, h3]
      simp
  | ended h => exact absurd h hne

/-- After `stale_simple_keys`. -/
theorem Phase.stale {out : List TokenData} {s : SState} {u : Str} (h : Phase F e T toks out s u) (hne : s.tokens ≠ []) :
    staleErr s = none ∧ Phase F e T toks out (staleS s) u := by
  cases h with
  | start h => exact absurd rfl hne
  | mid hA hr =>
    obtain ⟨g, t'', h1, h2, h3, h4⟩ := hr.stale
    obtain ⟨h5, h6⟩ := hA.stale h1 h2 h3 h4
    exact ⟨h5, .mid h6 hr⟩
  | ended h =>
    obtain ⟨h1, h2⟩ := h.stale
    exact ⟨h1, by rw [h2]; exact .ended h⟩

theorem wpT_more {out : List TokenData} {s : SState} {u : Str} (h : Phase F e T toks out s u) (hF : u.length + 8 < F) :
    M.wp stepT Big NoErr (fetchMoreTokens F) (fun _ s' x => x.enc = e ∧ ∃ s0, s' = { s0 with tokenAvailable := true } ∧
      Phase F e T toks out s0 x.text ∧ s0.tokens ≠ [] ∧ (∀ k ∈ s0.simpleKeys, k.possible = true → k.tokenNumber ≠ s0.tokensParsed) ∧ x.text.length ≤ u.length) s ⟨u, e⟩ := by
  unfold fetchMoreTokens
  rw [M.wp_bind]
  refine M.wp_loop stepT_mono
    (I := fun _ s' x => x.enc = e ∧ Phase F e T toks out s' x.text ∧ x.text.length ≤ u.length)
    (μ := fun _ s x => x.text.length + (if s.streamStartProduced then 0 else 1) + (if s.tokens.any (fun t => t.data == .streamEnd) then 0 else 1)) ?_ F () s ⟨u, e⟩
    ⟨rfl, h, Nat.le_refl _⟩ (by show u.length + _ + _ < F; split <;> split <;> omega)
  rintro _ s1 ⟨u1, e1⟩ ⟨he, h1, hl⟩
  have he : e1 = e := he
  subst he
  have hl : u1.length ≤ u.length := hl
  have h1 : Phase F e1 T toks out s1 u1 := h1
  simp only [M.wp_bind, M.wp_get]
  have hfetch : ∀ s2 : SState, Phase F e1 T toks out s2 u1 → ¬ Ended out toks s2 → s2.tokens = s1.tokens → s2.streamStartProduced = s1.streamStartProduced →
      M.wp stepT Big NoErr (fetchNextToken F) (fun _ s' x => (x.enc = e1 ∧ Phase F e1 T toks out s' x.text ∧ x.text.length ≤ u.length) ∧
        x.text.length + (if s'.streamStartProduced then 0 else 1) + (if s'.tokens.any (fun t => t.data == .streamEnd) then 0 else 1) <
        u1.length + (if s1.streamStartProduced then 0 else 1) + (if s1.tokens.any (fun t => t.data == .streamEnd) then 0 else 1)) s2 ⟨u1, e1⟩ := by
    intro s2 hp hne ht hs
    have key := wpT_fetch hp (by omega) hne
    have key2 : M.wp stepT Big NoErr (fetchNextToken F) (fun _ s' x => ∃ p, u1 = p ++ x.text) s2 ⟨u1, e1⟩ := by
      have := (execT_text (fetchNextToken F s2) ⟨u1, e1⟩).2
      unfold M.wp at key ⊢
      rw [wp_stepT] at key ⊢
      revert key this
      generalize execT (fetchNextToken F s2) ⟨u1, e1⟩ = q
      obtain ⟨⟨o, s'⟩, x⟩ := q
      intro key this
      cases o with
      | ok => exact this
      | err => exact key
      | panic => exact key
      | fuel => exact key
    have key3 : M.wp stepT Big NoErr (fetchNextToken F) (fun _ s' x => (x.enc = e1 ∧ Phase F e1 T toks out s' x.text ∧
      x.text.length + (if s'.streamStartProduced then 0 else 1) + (if s'.tokens.any (fun t => t.data == .streamEnd) then 0 else 1) <
        u1.length + (if s2.streamStartProduced then 0 else 1) + (if s2.tokens.any (fun t => t.data == .streamEnd) then 0 else 1)) ∧ ∃ p, u1 = p ++ x.text) s2 ⟨u1, e1⟩ := by
      unfold M.wp at key key2 ⊢
      rw [wp_stepT] at key key2 ⊢
      revert key key2
      generalize execT (fetchNextToken F s2) ⟨u1, e1⟩ = q
      obtain ⟨⟨o, s'⟩, x⟩ := q
      intro key key2
      cases o with
      | ok => exact ⟨key, key2⟩
      | err => exact key
      | panic => exact key
      | fuel => exact key
    refine M.wp_mono stepT_mono key3 ?_ (fun _ _ _ h => h) (fun _ h => h)
    rintro _ s' x ⟨⟨k1, k2, k3⟩, p, k4⟩
    rw [ht, hs] at k3
    exact ⟨⟨k1, k2, by rw [k4] at hl; simp at hl; omega⟩, k3⟩
  by_cases hempty : s1.tokens.isEmpty = true
  · rw [if_pos hempty]
    simp only [M.wp_bind, M.wp_pure, M.next_inl]
    refine hfetch s1 h1 ?_ rfl rfl
    intro h'
    obtain ⟨ts, t, q1, _⟩ := h'.queue
    rw [q1] at hempty; simp at hempty
  · rw [if_neg hempty]
    have hne : s1.tokens ≠ [] := by simpa using hempty
    obtain ⟨h2, h3⟩ := h1.stale hne
    rw [M.wp_bind, wp_staleSimpleKeys, h2]
    simp only [M.wp_bind, M.wp_get]
    by_cases hpend : keyPending (staleS s1) = true
    · rw [if_pos hpend]
      simp only [M.wp_bind, M.wp_pure, M.next_inl]
      refine hfetch (staleS s1) h3 ?_ rfl rfl
      intro h'
      unfold keyPending at hpend
      obtain ⟨k, hk, hkp⟩ := List.any_eq_true.1 hpend
      rw [h'.keys k hk] at hkp
      simp at hkp
    · rw [if_neg hpend]
      simp only [M.wp_pure, M.next_inr, M.wp_modify]
      refine ⟨trivial, staleS s1, rfl, h3, hne, ?_, hl⟩
      intro k hk hp hnum
      apply hpend
      unfold keyPending
      rw [List.any_eq_true]
      exact ⟨k, hk, by simp only [Bool.and_eq_true, beq_iff_eq]; exact ⟨hp, hnum⟩⟩

/-- One call of `scan`. -/
theorem wpT_scan {out : List TokenData} {s : SState} {u : Str} (h : Phase F e T toks out s u) (hF : u.length + 8 < F) :
    M.wp stepT Big NoErr (scan F) (fun t s' x => x.enc = e ∧
      ((t.data ≠ .streamEnd ∧ Phase F e T toks (out ++ [t.data]) s' x.text ∧ x.text.length ≤ u.length) ∨ (t.data = .streamEnd ∧ toks = out ++ [t.data]))) s ⟨u, e⟩ := by
  have hnp : s.streamEndProduced = false ∧ s.tokenAvailable = false := by
    cases h with
    | start => exact ⟨rfl, rfl⟩
    | mid h => exact ⟨h.op.notProduced, h.op.notAvail⟩
    | ended h => exact ⟨h.notProduced, h.notAvail⟩
  unfold scan
  simp only [M.wp_bind, M.wp_get]
  rw [if_neg (by simp [hnp.1]), M.wp_bind, M.wp_when, if_pos (by simp [hnp.2])]
  refine M.wp_mono stepT_mono (wpT_more h hF) ?_ (fun _ _ _ h => h) (fun _ h => h)
  rintro _ s' ⟨xt, xe⟩ ⟨he, s0, rfl, hp, hne, hk, hl⟩
  have hp : Phase F e T toks out s0 xt := hp
  obtain ⟨t, ts, ht⟩ := List.exists_cons_of_ne_nil hne
  have ht' : ({ s0 with tokenAvailable := true } : SState).tokens = t :: ts := ht
  simp only [ht]
  simp only [M.wp_bind, M.wp_modify, M.wp_pure]
  refine ⟨he, ?_⟩
  have hsp : s0.streamEndProduced = false := by
    cases hp with
    | start => rfl
    | mid h => exact h.op.notProduced
    | ended h => exact h.notProduced
  have hst : ({ ({ s0 with tokenAvailable := true } : SState) with tokens := ts, tokenAvailable := false, tokensParsed := s0.tokensParsed + 1, streamEndProduced := s0.streamEndProduced || (t.data == .streamEnd) } : SState) = takeS t ts s0 := by
    unfold takeS; rw [hsp, Bool.false_or]
  show (_ ∧ Phase F e T toks _ { ({ s0 with tokenAvailable := true } : SState) with tokens := ts, tokenAvailable := false, tokensParsed := s0.tokensParsed + 1, streamEndProduced := s0.streamEndProduced || (t.data == .streamEnd) } _ ∧ _) ∨ _
  rw [hst]
  cases hp with
  | start => exact absurd rfl hne
  | mid hA hr =>
    left
    exact ⟨hA.op.notEnded t (by rw [ht]; simp), .mid (hA.take ht hk) hr, hl⟩
  | ended h =>
    obtain ⟨us, w, q1, q2, q3⟩ := h.queue
    cases us with
    | nil =>
      right
      rw [ht] at q1
      simp at q1
      obtain ⟨rfl, rfl⟩ := q1
      refine ⟨q2, ?_⟩
      rw [h.toks, ht]; simp
    | cons u' us =>
      left
      rw [ht] at q1
      simp at q1
      obtain ⟨rfl, rfl⟩ := q1
      have hn := q3 t (by simp)
      refine ⟨hn, ?_, hl⟩
      refine .ended ⟨h.started, rfl, by simpa [takeS] using hn, ⟨us, w, rfl, q2, fun t' ht' => q3 t' (List.mem_cons_of_mem _ ht')⟩, h.keys, ?_⟩
      rw [h.toks, ht]; simp [takeS]

end

end Yaml.Lx
