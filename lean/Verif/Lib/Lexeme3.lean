import Verif.Lib.Lexeme2
import Verif.Lib.Tags
import Verif.Lib.EmitPlain

/-
The lexemes: the effect of each token on the configuration of the scanner.
-/

namespace Yaml.Lx
open Yaml Scanner Spec
set_option linter.unusedSimpArgs false
set_option linter.unusedVariables false

namespace Cfg

/-- Consume characters. -/
def eat (w : Str) (A : Cfg) : Cfg := { A with mark := advance A.mark w }
/-- Queue a token. -/
def push (d : TokenData) (A : Cfg) : Cfg := { A with toks := A.toks ++ [d] }
/-- Set `simple_key_allowed`. -/
def allow (b : Bool) (A : Cfg) : Cfg := { A with allowed := b }
/-- The current key is impossible. -/
def clear (A : Cfg) : Cfg :=
  { A with keys := match A.keys with
      | [] => []
      | k :: ks => { k with possible := false } :: ks }
/-- A key may start here. -/
def key (A : Cfg) : SimpleKey :=
  { possible := true, required := A.flow == 0 && A.indent == (A.mark.column : Int), tokenNumber := A.toks.length, mark := A.mark }
/-- After `save_simple_key`. -/
def save (A : Cfg) : Cfg := if A.allowed then { A with keys := A.key :: A.keys.tail } else A
/-- After `roll_indent` at the current position. -/
def roll (d : TokenData) (A : Cfg) : Cfg :=
  if A.flow = 0 ∧ A.indent < (A.mark.column : Int) then
    { A with indents := A.indent :: A.indents, indent := (A.mark.column : Int), toks := A.toks ++ [d] }
  else A
/-- After `roll_indent` for a simple key found at `k`. -/
def rollKey (k : SimpleKey) (A : Cfg) : Cfg :=
  if A.flow = 0 ∧ A.indent < (k.mark.column : Int) then
    { A with indents := A.indent :: A.indents, indent := (k.mark.column : Int), toks := A.toks.insertIdx k.tokenNumber .blockMappingStart }
  else A
/-- A flow collection is opened. -/
def down (A : Cfg) : Cfg := { A with keys := emptyKey :: A.keys, flow := A.flow + 1 }
/-- A flow collection is closed. -/
def up (A : Cfg) : Cfg := { A with keys := A.keys.tail, flow := A.flow - 1 }
/-- The current key is required. -/
def hot (A : Cfg) : Bool :=
  match A.keys with
  | [] => false
  | k :: _ => k.possible && k.required

end Cfg

section
variable {out : List TokenData} {A : Cfg} {s s' : SState}

theorem Here.ahead (h : Here out A s) (t : Str) : Ahead out A t s t :=
  ⟨h.op, by rw [h.mark]; exact Adv.refl _ _, ⟨[], rfl, Blanks.nil.ws, by rw [h.allowed]; simp [hasBrk]⟩, h.flow, h.indent, h.indents,
   fun m _ _ => by rw [h.keys], h.toks, h.parsed⟩

theorem Here.hot (h : Here out A s) : keyRequired s = A.hot := by
  unfold keyRequired Cfg.hot; rw [h.keys]; cases A.keys <;> rfl

theorem Here.clear (h : Here out A s) : Here out A.clear (clearS s) :=
  ⟨h.op.clear, h.mark, h.flow, h.indent, h.indents, h.allowed, by
    show (clearS s).simpleKeys = A.clear.keys
    unfold clearS Cfg.clear
    simp only [h.keys]; cases A.keys <;> rfl, h.toks, h.parsed⟩

theorem Here.count (h : Here out A s) : s.tokensParsed + s.tokens.length = A.toks.length := by
  rw [h.parsed, h.toks]; simp

theorem Here.save (h : Here out A s) : Here out A.save (saveS s) := by
  have hop := h.op.save
  unfold saveS at hop ⊢
  unfold Cfg.save
  rw [h.allowed] at hop ⊢
  cases ha : A.allowed with
  | false => simp only [Bool.false_eq_true, if_false]; exact h
  | true =>
    rw [ha] at hop
    simp only [if_true] at hop ⊢
    refine ⟨hop, h.mark, h.flow, h.indent, h.indents, rfl, ?_, h.toks, h.parsed⟩
    show newKey s :: s.simpleKeys.tail = A.key :: A.keys.tail
    rw [h.keys]
    congr 1
    unfold newKey Cfg.key
    rw [h.flow, h.indent, h.mark, h.count]

theorem Here.allow (h : Here out A s) (b : Bool) : Here out (A.allow b) { s with simpleKeyAllowed := b } :=
  ⟨h.op.allow b, h.mark, h.flow, h.indent, h.indents, rfl, h.keys, h.toks, h.parsed⟩

theorem Here.push (h : Here out A s) {t : Token} (ht : t.data ≠ .streamEnd) : Here out (A.push t.data) (pushS t s) :=
  ⟨h.op.push ht, h.mark, h.flow, h.indent, h.indents, h.allowed, h.keys, by
    show A.toks ++ [t.data] = out ++ (s.tokens ++ [t]).map _
    rw [h.toks]; simp, h.parsed⟩

theorem Here.move (h : Here out A s) {w rest : Str} (hm : Mv s (w ++ rest) s' rest) : Here out (A.eat w) s' := by
  refine ⟨?_, ?_, ?_, ?_, ?_, ?_, ?_, ?_, ?_⟩
  · exact h.op.frame (by unfold Frame; rw [hm.1]) hm.2.le
  · rw [hm.2.pre, h.mark]; rfl
  all_goals rw [hm.1]
  · exact h.flow
  · exact h.indent
  · exact h.indents
  · exact h.allowed
  · exact h.keys
  · exact h.toks
  · exact h.parsed

theorem Here.roll (h : Here out A s) {d : TokenData} (hd : d ≠ .streamEnd) :
    Here out (A.roll d) (rollS s.mark.column none d s.mark s) := by
  have hop := h.op.roll (col := s.mark.column) (num := none) (d := d) (m := s.mark) hd (by simp)
  unfold rollS at hop ⊢
  unfold Cfg.roll
  rw [h.flow, h.indent, h.mark] at hop ⊢
  by_cases hc : A.flow = 0 ∧ A.indent < (A.mark.column : Int)
  · rw [if_pos hc] at hop ⊢
    rw [if_pos hc]
    refine ⟨hop, rfl, rfl, rfl, ?_, h.allowed, h.keys, ?_, h.parsed⟩
    · show _ :: s.indents = _; rw [h.indents]
    · show A.toks ++ [d] = out ++ (s.tokens ++ [_]).map _
      rw [h.toks]; simp
  · rw [if_neg hc, if_neg hc]; exact h

theorem insertIdx_append_right {α : Type} (a b : List α) (x : α) : ∀ {n : Nat}, a.length ≤ n → (a ++ b).insertIdx n x = a ++ b.insertIdx (n - a.length) x := by
  induction a with
  | nil => intro n _; simp
  | cons y a ih =>
    intro n hn
    obtain ⟨n, rfl⟩ : ∃ k, n = k + 1 := ⟨n - 1, by simp at hn; omega⟩
    simp only [List.cons_append, List.length_cons, List.insertIdx_succ_cons]
    rw [ih (by simp at hn; omega)]
    congr 3; omega

theorem map_insertIdx {α β : Type} (f : α → β) (x : α) : ∀ (l : List α) (n : Nat), (l.insertIdx n x).map f = (l.map f).insertIdx n (f x)
  | l, 0 => by simp
  | [], n + 1 => by simp
  | y :: l, n + 1 => by simp [List.insertIdx_succ_cons, map_insertIdx f x l n]

/-- The state after a key was found for `':'`. -/
theorem Here.value (h : Here out A s) {k : SimpleKey} {ks : List SimpleKey} (hk : A.keys = k :: ks) (hp : k.possible = true) :
    k.tokenNumber ≤ A.toks.length ∧ s.tokensParsed ≤ k.tokenNumber ∧ k.tokenNumber ≤ s.tokensParsed + s.tokens.length ∧
    Here out (Cfg.rollKey k { A with toks := A.toks.insertIdx k.tokenNumber .key, keys := { k with possible := false } :: ks })
      (rollS k.mark.column (some k.tokenNumber) .blockMappingStart k.mark
        { s with tokens := s.tokens.insertIdx (k.tokenNumber - s.tokensParsed) ⟨.key, k.mark, k.mark⟩,
                 simpleKeys := { k with possible := false } :: ks }) := by
  have hn := h.op.keyNum k (by rw [h.keys, hk]; simp) hp
  have hc := h.count
  refine ⟨by omega, hn.1, hn.2, ?_⟩
  have hl : k.tokenNumber - s.tokensParsed ≤ s.tokens.length := by omega
  have hop1 : SOpen { s with
                 tokens := s.tokens.insertIdx (k.tokenNumber - s.tokensParsed) ⟨.key, k.mark, k.mark⟩
                 simpleKeys := { k with possible := false } :: ks } := by
    have := (h.op.insert (t := ⟨.key, k.mark, k.mark⟩) hl (by simp)).clear
    unfold clearS at this
    simp only [h.keys, hk] at this
    exact this
  have hlen : (s.tokens.insertIdx (k.tokenNumber - s.tokensParsed) (⟨.key, k.mark, k.mark⟩ : Token)).length = s.tokens.length + 1 :=
    List.length_insertIdx_of_le_length hl _
  have hop2 := hop1.roll (col := k.mark.column) (num := some k.tokenNumber) (d := .blockMappingStart) (m := k.mark) (by simp) (by
    rintro n ⟨⟩
    refine ⟨hn.1, ?_⟩
    show _ ≤ s.tokensParsed + (s.tokens.insertIdx _ _).length
    omega)
  unfold rollS at hop2 ⊢
  unfold Cfg.rollKey
  dsimp only at hop2 ⊢
  rw [h.flow, h.indent] at hop2 ⊢
  have e1 : A.toks.insertIdx k.tokenNumber .key = out ++ (s.tokens.insertIdx (k.tokenNumber - s.tokensParsed) (⟨.key, k.mark, k.mark⟩ : Token)).map (·.data) := by
    rw [map_insertIdx, h.toks, insertIdx_append_right _ _ _ (by rw [← h.parsed]; exact hn.1), h.parsed]
  by_cases hcc : A.flow = 0 ∧ A.indent < (k.mark.column : Int)
  · rw [if_pos hcc] at hop2 ⊢
    rw [if_pos hcc]
    refine ⟨hop2, h.mark, rfl, rfl, ?_, h.allowed, rfl, ?_, h.parsed⟩
    · show _ :: s.indents = _; rw [h.indents]
    · show (A.toks.insertIdx k.tokenNumber .key).insertIdx k.tokenNumber .blockMappingStart = out ++ List.map _ (List.insertIdx _ _ _)
      rw [map_insertIdx, e1, insertIdx_append_right _ _ _ (by rw [← h.parsed]; exact hn.1), h.parsed]
  · rw [if_neg hcc] at hop2 ⊢
    rw [if_neg hcc]
    exact ⟨hop2, h.mark, rfl, rfl, h.indents, h.allowed, rfl, e1, h.parsed⟩

theorem Here.down (h : Here out A s) {c : Char} {rest : Str}
    (hm : Mv { s with simpleKeys := emptyKey :: s.simpleKeys, flowLevel := s.flowLevel + 1, simpleKeyAllowed := true } (c :: rest) s' rest) :
    Here out ((A.down.allow true).eat [c]) s' := by
  have hlt : lcLt s.mark s'.mark := hm.2.lt (by simp)
  have hmk : s'.mark = advance s.mark [c] := Adv.pre (p := [c]) hm.2
  rw [hm.1]
  refine ⟨{ h.op with keysLen := by simp [h.op.keysLen], keyNum := ?_, keyTop := ?_, keyRest := ?_ }, ?_, ?_, h.indent, h.indents, rfl, ?_, h.toks, h.parsed⟩
  · intro k hk hp
    rcases List.mem_cons.1 hk with rfl | hk
    · simp [emptyKey] at hp
    · exact h.op.keyNum k hk hp
  · intro k hk hp
    rcases List.mem_cons.1 hk with rfl | hk
    · simp [emptyKey] at hp
    · exact lcLe_of_lt (lcLt_of_le_lt (h.op.keyTop k hk hp) hlt)
  · intro k hk hp
    exact lcLt_of_le_lt (h.op.keyTop k hk hp) hlt
  · show s'.mark = _; rw [hmk, h.mark]; rfl
  · show s.flowLevel + 1 = _; rw [h.flow]; rfl
  · show _ :: s.simpleKeys = _; rw [h.keys]; rfl

theorem Here.up (h : Here out A s) (hf : A.flow ≠ 0) (ha : Bool) :
    Here out (A.up.allow ha) { s with flowLevel := s.flowLevel - 1, simpleKeys := s.simpleKeys.tail, simpleKeyAllowed := ha } := by
  have hf' : s.flowLevel ≠ 0 := by rw [h.flow]; exact hf
  refine ⟨{ h.op with
    keysLen := by simp [h.op.keysLen]; omega
    keyNum := fun k hk hp => h.op.keyNum k (List.mem_of_mem_tail hk) hp
    keyTop := fun k hk hp => h.op.keyTop k (List.mem_of_mem_tail hk) hp
    keyRest := fun k hk hp => h.op.keyRest k (List.mem_of_mem_tail hk) hp }, h.mark, ?_, h.indent, h.indents, rfl, ?_, h.toks, h.parsed⟩
  · show s.flowLevel - 1 = _; rw [h.flow]; rfl
  · show s.simpleKeys.tail = _; rw [h.keys]; rfl

end


/-! ### Fetchers -/

section
variable {B : Type} {step : Step CharOp CharOp.Ans B} {P : PanicSite → Prop} {E : Err → SState → B → Prop} {b : B}
  {Q : Unit → SState → B → Prop} {out : List TokenData} {A : Cfg} {s : SState}

theorem wp_remove (h : Here out A s) (hr : A.hot = false) (hQ : ∀ s', Here out A.clear s' → Q () s' b) : M.wp step P E removeSimpleKey Q s b := by
  have hc := h.clear
  unfold removeSimpleKey
  simp only [M.wp_bind, M.wp_get]
  obtain ⟨k, ks, hks⟩ := List.exists_cons_of_ne_nil h.op.keys_ne
  have hr' := h.hot
  unfold keyRequired at hr'
  simp only [hks] at hr' ⊢
  rw [if_neg (by rw [hr', hr]; simp)]
  unfold clearS at hc
  simp only [hks] at hc
  exact hQ _ hc

theorem wp_save (h : Here out A s) (hr : A.allowed = true → A.hot = false) (hQ : ∀ s', Here out A.save s' → Q () s' b) :
    M.wp step P E saveSimpleKey Q s b := by
  have hs := h.save
  unfold saveSimpleKey
  simp only [M.wp_bind, M.wp_get]
  by_cases ha : A.allowed = true
  · rw [if_pos (by rw [h.allowed]; exact ha)]
    simp only [M.wp_bind]
    refine wp_remove h (hr ha) fun s1 h1 => ?_
    obtain ⟨k, ks, hks⟩ := List.exists_cons_of_ne_nil h1.op.keys_ne
    simp only [M.wp_bind, M.wp_get, hks, M.wp_modify]
    refine hQ _ ?_
    have hA : A.save = { A with keys := A.key :: A.keys.tail } := by unfold Cfg.save; rw [if_pos ha]
    have hop : SOpen (saveS s) := hs.op
    have e1 : saveS s = { s with simpleKeys := newKey s :: s.simpleKeys.tail } := by
      unfold saveS; rw [if_pos (by rw [h.allowed]; exact ha)]
    have e2 : ks = A.keys.tail := by
      have := h1.keys
      rw [hks] at this
      unfold Cfg.clear at this
      cases hk : A.keys with
      | nil => rw [hk] at this; cases this
      | cons k' ks' => rw [hk] at this; simp only [List.cons.injEq] at this; simp [this.2]
    have e3 : newKey s = A.key := by
      unfold newKey Cfg.key
      rw [h.flow, h.indent, h.mark, h.count]
    rw [hA]
    have ek : ({ possible := true, required := s.flowLevel == 0 && s.indent == (s.mark.column : Int), tokenNumber := s.tokensParsed + s.tokens.length, mark := s.mark } : SimpleKey) = newKey s := rfl
    rw [ek, e3, e2]
    rw [hA, e1, e3] at hs
    have hk2 : s.simpleKeys.tail = A.keys.tail := by rw [h.keys]
    refine ⟨?_, h1.mark, h1.flow, h1.indent, h1.indents, h1.allowed, rfl, h1.toks, h1.parsed⟩
    have := h1.op
    refine { this with keysLen := ?_, keyNum := ?_, keyTop := ?_, keyRest := ?_ }
    · have h2 := this.keysLen; rw [hks, e2] at h2; exact h2
    · intro k hk hp
      rcases List.mem_cons.1 hk with rfl | hk
      · have h2 := h1.count
        show s1.tokensParsed ≤ A.toks.length ∧ A.toks.length ≤ s1.tokensParsed + s1.tokens.length
        have : A.clear.toks = A.toks := rfl
        rw [this] at h2; omega
      · exact this.keyNum k (by rw [hks, e2]; exact List.mem_cons_of_mem _ hk) hp
    · intro k hk hp
      rcases List.mem_cons.1 hk with rfl | hk
      · show lcLe A.mark s1.mark
        rw [h1.mark]; exact Or.inr ⟨rfl, Nat.le_refl _⟩
      · exact this.keyTop k (by rw [hks, e2]; exact List.mem_cons_of_mem _ hk) hp
    · intro k hk hp
      exact this.keyRest k (by rw [hks, e2]; exact hk) hp
  · rw [if_neg (by rw [h.allowed]; exact ha)]
    refine hQ _ ?_
    unfold Cfg.save; rw [if_neg ha]; exact h

end

section
variable {F : Nat} {A : Cfg}

theorem wpT_indicator {P : PanicSite → Prop} {E : Err → SState → Txt → Prop} {Q : Unit → SState → Txt → Prop} {s : SState} {e : Encoding}
    {w rest : Str} {d : TokenData} (hw : ∀ c ∈ w, isBreak c = false)
    (hQ : ∀ s' m m', Mv s (w ++ rest) s' rest → Q () (pushS ⟨d, m, m'⟩ s') ⟨rest, e⟩) :
    M.wp stepT P E (fetchIndicator w.length d) Q s ⟨w ++ rest, e⟩ := by
  unfold fetchIndicator
  simp only [getMark, M.wp_bind, M.wp_get, M.wp_pure]
  refine wpT_skipChars hw fun s' hs' => ?_
  simp only [M.wp_bind, M.wp_get, M.wp_pure, pushToken, M.wp_modify]
  exact hQ _ _ _ hs'

/-- The end of a fetcher. -/
theorem fin {out : List TokenData} {C : Cfg} {t t' u : Str} {s : SState} {e : Encoding} (h : Ahead out C t' s u) (hl : u.length < t.length) :
    (fun _ s' (x : Txt) => x.enc = e ∧ Ahead out C t' s' x.text ∧ x.text.length < t.length : Unit → SState → Txt → Prop) () s ⟨u, e⟩ := ⟨rfl, h, hl⟩

/-- `---` or `...`. -/
theorem lex_doc {c : Char} {d : TokenData} {t : Str} (hc : (c = '-' ∧ d = .documentStart) ∨ (c = '.' ∧ d = .documentEnd))
    (h0 : A.mark.column = 0) (hz : isBlankzO t.head? = true) (hr : A.hot = false) :
    Lex F A (c :: c :: c :: t) ((((A.unroll (-1)).clear.allow false).eat [c, c, c]).push d) t := by
  intro out s e h hF
  have h0' : (s.mark.column == 0) = true := by rw [h.mark, h0]; rfl
  have hz' : isBlankzO t[0]? = true := by rw [← List.head?_eq_getElem?]; exact hz
  have hd : d ≠ .streamEnd := by rcases hc with ⟨_, rfl⟩ | ⟨_, rfl⟩ <;> simp
  have hcb : isBreak c = false := by rcases hc with ⟨rfl, _⟩ | ⟨rfl, _⟩ <;> decide
  have hdis : dispatch F s.mark s.flowLevel (c :: c :: c :: t)[0]? (c :: c :: c :: t)[1]? (c :: c :: c :: t)[2]? (c :: c :: c :: t)[3]? = fetchDocumentIndicator d := by
    rcases hc with ⟨rfl, rfl⟩ | ⟨rfl, rfl⟩ <;> simp [dispatch, h0', hz']
  rw [hdis]
  unfold fetchDocumentIndicator
  simp only [M.wp_bind]
  refine wp_unroll h (by omega) fun s1 h1 => ?_
  have hr1 : (A.unroll (-1)).hot = false := by
    unfold Cfg.unroll; split <;> exact hr
  refine wp_remove h1 hr1 fun s2 h2 => ?_
  simp only [M.wp_bind, allowSimpleKey, M.wp_modify]
  refine wpT_indicator (w := [c, c, c]) (rest := t) (by simpa using hcb) fun s3 m m' h3 => ?_
  exact fin (((h2.allow false).move h3).push (t := ⟨d, m, m'⟩) hd |>.ahead t) (by simp; omega)

/-- A directive and the line break after it. -/
theorem lex_directive {w l b t : Str} {c : Char} {d : TokenData} (hw : DirectiveText w d) (hl : LineRest l) (hb : BreakAt (b ++ t) c t)
    (h0 : A.mark.column = 0) (hr : A.hot = false) (hd : d ≠ .streamEnd) :
    Lex F A ('%' :: (w ++ (l ++ (b ++ t)))) ((((A.unroll (-1)).clear.allow false).eat ('%' :: (w ++ (l ++ b)))).push d) t := by
  intro out s e h hF
  have h0' : (s.mark.column == 0) = true := by rw [h.mark, h0]; rfl
  have hdis : ∀ x y z, dispatch F s.mark s.flowLevel (some '%') x y z = fetchDirective F := by
    intro x y z; simp [dispatch, h0']
  simp only [List.getElem?_cons_zero]
  rw [hdis]
  unfold fetchDirective
  simp only [M.wp_bind]
  refine wp_unroll h (by omega) fun s1 h1 => ?_
  have hr1 : (A.unroll (-1)).hot = false := by
    unfold Cfg.unroll; split <;> exact hr
  refine wp_remove h1 hr1 fun s2 h2 => ?_
  simp only [M.wp_bind, allowSimpleKey, M.wp_modify]
  obtain ⟨x, r, hx, hxb⟩ := hb.head
  refine wpT_scanDirective hw hl (by rw [hx]; exact hxb) (by simp at hF; omega) fun s3 s4 m h3 => ⟨fun c' t' hb' h4 _ _ => ?_, fun he => ?_⟩
  · have ht : t' = t := by
      generalize b ++ t = z at hb hb'
      cases hb with
      | crlf t =>
        cases hb' with
        | crlf => rfl
        | one _ _ _ hc => simp at hc
      | one c t h1 h2 =>
        cases hb' with
        | crlf => simp at h2
        | one => rfl
    subst ht
    have hlen := hb.length
    simp only [pushToken, M.wp_modify]
    have hmv := h3.trans h4
    have : '%' :: (w ++ (l ++ (b ++ t'))) = ('%' :: (w ++ (l ++ b))) ++ t' := by simp
    rw [this] at hmv
    exact ⟨trivial, (((h2.allow false).move hmv).push (t := ⟨d, _, m⟩) hd).ahead t', by simp at hlen ⊢; omega⟩
  · rw [he] at hx; cases hx

/-- `[` or `{`. -/
theorem lex_flowStart {c : Char} {d : TokenData} {t : Str} (hc : (c = '[' ∧ d = .flowSequenceStart) ∨ (c = '{' ∧ d = .flowMappingStart))
    (hr : A.allowed = true → A.hot = false) : Lex F A (c :: t) (((A.save.down.allow true).eat [c]).push d) t := by
  intro out s e h hF
  have hd : d ≠ .streamEnd := by rcases hc with ⟨_, rfl⟩ | ⟨_, rfl⟩ <;> simp
  have hcb : isBreak c = false := by rcases hc with ⟨rfl, _⟩ | ⟨rfl, _⟩ <;> decide
  have hdis : ∀ x y z, dispatch F s.mark s.flowLevel (some c) x y z = fetchFlowCollectionStart d := by
    intro x y z
    rcases hc with ⟨rfl, rfl⟩ | ⟨rfl, rfl⟩ <;> simp [dispatch]
  simp only [List.getElem?_cons_zero]
  rw [hdis]
  unfold fetchFlowCollectionStart increaseFlowLevel
  simp only [M.wp_bind]
  refine wp_save h hr fun s1 h1 => ?_
  simp only [M.wp_bind, M.wp_modify, M.wp_get]
  by_cases hov : (s1.flowLevel == i32Max) = true
  · rw [if_pos hov]; exact Or.inr rfl
  · rw [if_neg hov]
    simp only [allowSimpleKey, M.wp_modify]
    refine wpT_indicator (w := [c]) (rest := t) (by simpa using hcb) fun s3 m m' h3 => ?_
    exact fin ((h1.down h3).push (t := ⟨d, m, m'⟩) hd |>.ahead t) (by simp)

/-- `]` or `}`. -/
theorem lex_flowEnd {c : Char} {d : TokenData} {t : Str} (hc : (c = ']' ∧ d = .flowSequenceEnd) ∨ (c = '}' ∧ d = .flowMappingEnd))
    (hf : A.flow ≠ 0) (hr : A.hot = false) : Lex F A (c :: t) (((A.clear.up.allow false).eat [c]).push d) t := by
  intro out s e h hF
  have hd : d ≠ .streamEnd := by rcases hc with ⟨_, rfl⟩ | ⟨_, rfl⟩ <;> simp
  have hcb : isBreak c = false := by rcases hc with ⟨rfl, _⟩ | ⟨rfl, _⟩ <;> decide
  have hdis : ∀ x y z, dispatch F s.mark s.flowLevel (some c) x y z = fetchFlowCollectionEnd d := by
    intro x y z
    rcases hc with ⟨rfl, rfl⟩ | ⟨rfl, rfl⟩ <;> simp [dispatch]
  simp only [List.getElem?_cons_zero]
  rw [hdis]
  unfold fetchFlowCollectionEnd decreaseFlowLevel
  simp only [M.wp_bind]
  refine wp_remove h hr fun s1 h1 => ?_
  simp only [M.wp_bind, M.wp_modify, M.wp_get]
  have hf1 : s1.flowLevel ≠ 0 := by rw [h1.flow]; exact hf
  rw [if_pos (by simpa using hf1)]
  simp only [allowSimpleKey, M.wp_modify]
  refine wpT_indicator (w := [c]) (rest := t) (by simpa using hcb) fun s3 m m' h3 => ?_
  exact fin (((h1.up (show A.clear.flow ≠ 0 from hf) false).move h3).push (t := ⟨d, m, m'⟩) hd |>.ahead t) (by simp)

/-- `,`. -/
theorem lex_flowEntry {t : Str} (hr : A.hot = false) : Lex F A (',' :: t) (((A.clear.allow true).eat [',']).push .flowEntry) t := by
  intro out s e h hF
  have hdis : ∀ x y z, dispatch F s.mark s.flowLevel (some ',') x y z = fetchFlowEntry := by
    intro x y z; simp [dispatch]
  simp only [List.getElem?_cons_zero]
  rw [hdis]
  unfold fetchFlowEntry
  simp only [M.wp_bind]
  refine wp_remove h hr fun s1 h1 => ?_
  simp only [M.wp_bind, M.wp_modify, allowSimpleKey]
  refine wpT_indicator (w := [',']) (rest := t) (by simp; decide) fun s3 m m' h3 => ?_
  exact fin (((h1.allow true).move h3).push (t := ⟨.flowEntry, m, m'⟩) (by simp) |>.ahead t) (by simp)

theorem wp_startBlock {out : List TokenData} {s : SState} {d : TokenData} {pr : String} {B : Type} {step : Step CharOp CharOp.Ans B} {b : B}
    {Q : Unit → SState → B → Prop} {E : Err → SState → B → Prop}
    (h : Here out A s) (hd : d ≠ .streamEnd) (ha : A.flow = 0 → A.allowed = true) (hQ : ∀ s', Here out (A.roll d) s' → Q () s' b) :
    M.wp step Big E (startBlockCollection d pr) Q s b := by
  unfold startBlockCollection
  simp only [M.wp_bind, M.wp_get]
  by_cases hf : A.flow = 0
  · rw [if_pos (by rw [h.flow, hf]; rfl), if_neg (by rw [h.allowed, ha hf]; simp)]
    exact wp_rollIndent (by simp) (Or.inr (Or.inl rfl)) (hQ _ (h.roll hd))
  · rw [if_neg (by rw [h.flow]; simpa using hf)]
    refine hQ _ ?_
    unfold Cfg.roll
    rw [if_neg (by simp [hf])]; exact h

theorem roll_hot {d : TokenData} : (A.roll d).hot = A.hot := by unfold Cfg.roll; split <;> rfl
theorem roll_flow {d : TokenData} : (A.roll d).flow = A.flow := by unfold Cfg.roll; split <;> rfl

/-- `-`. -/
theorem lex_blockEntry {t : Str} (hz : isBlankzO t.head? = true) (hdoc : A.mark.column ≠ 0 ∨ ¬ IsDocMarker ('-' :: t)) (ha : A.flow = 0 → A.allowed = true) (hr : A.hot = false) :
    Lex F A ('-' :: t) ((((A.roll .blockSequenceStart).clear.allow true).eat ['-']).push .blockEntry) t := by
  intro out s e h hF
  have hz' : isBlankzO t[0]? = true := by rw [← List.head?_eq_getElem?]; exact hz
  have hn : (t[0]? == some '-') = false := by
    cases hx : t[0]? with
    | none => rfl
    | some c =>
      cases hy : (some c == some '-') with
      | false => rfl
      | true => simp at hy; subst hy; rw [hx] at hz'; exact absurd hz' (by decide)
  have hdis : ∀ y z, dispatch F s.mark s.flowLevel (some '-') t[0]? y z = fetchBlockEntry := by
    intro y z; simp [dispatch, hn, hz']
  simp only [List.getElem?_cons_zero, List.getElem?_cons_succ]
  rw [hdis]
  unfold fetchBlockEntry
  simp only [M.wp_bind]
  refine wp_startBlock h (by simp) ha fun s0 h0 => ?_
  refine wp_remove h0 (by rw [roll_hot]; exact hr) fun s1 h1 => ?_
  simp only [M.wp_bind, M.wp_modify, allowSimpleKey]
  refine wpT_indicator (w := ['-']) (rest := t) (by simp; decide) fun s3 m m' h3 => ?_
  exact fin (((h1.allow true).move h3).push (t := ⟨.blockEntry, m, m'⟩) (by simp) |>.ahead t) (by simp)

/-- `?`. -/
theorem lex_key {t : Str} (hz : A.flow = 0 → isBlankzO t.head? = true) (ha : A.flow = 0 → A.allowed = true) (hr : A.hot = false) :
    Lex F A ('?' :: t) ((((A.roll .blockMappingStart).clear.allow (A.flow == 0)).eat ['?']).push .key) t := by
  intro out s e h hF
  have hz' : (s.flowLevel != 0 || isBlankzO t[0]?) = true := by
    rw [← List.head?_eq_getElem?, h.flow]
    by_cases hf : A.flow = 0
    · simp [hf, hz hf]
    · simp [hf]
  have hdis : ∀ y z, dispatch F s.mark s.flowLevel (some '?') t[0]? y z = fetchKey := by
    intro y z; simp [dispatch, hz']
  simp only [List.getElem?_cons_zero, List.getElem?_cons_succ]
  rw [hdis]
  unfold fetchKey
  simp only [M.wp_bind]
  refine wp_startBlock h (by simp) ha fun s0 h0 => ?_
  refine wp_remove h0 (by rw [roll_hot]; exact hr) fun s1 h1 => ?_
  simp only [M.wp_bind, M.wp_get, M.wp_modify, allowSimpleKey]
  have hfl : (s1.flowLevel == 0) = (A.flow == 0) := by
    rw [show s1.flowLevel = A.flow from by rw [h1.flow]; exact roll_flow]
  rw [hfl]
  refine wpT_indicator (w := ['?']) (rest := t) (by simp; decide) fun s3 m m' h3 => ?_
  exact fin (((h1.allow _).move h3).push (t := ⟨.key, m, m'⟩) (by simp) |>.ahead t) (by simp)

theorem dispatch_colon {s : SState} {t : Str} (hz : s.flowLevel = 0 → isBlankzO t.head? = true) (y z : Option Char) :
    dispatch F s.mark s.flowLevel (some ':') t[0]? y z = fetchValue := by
  have hz' : (s.flowLevel != 0 || isBlankzO t[0]?) = true := by
    rw [← List.head?_eq_getElem?]
    by_cases hf : s.flowLevel = 0
    · simp [hf, hz hf]
    · simp [hf]
  simp [dispatch, hz']

/-- `:` after a simple key. -/
theorem lex_valueSimple {t : Str} {k : SimpleKey} {ks : List SimpleKey} (hz : A.flow = 0 → isBlankzO t.head? = true) (hk : A.keys = k :: ks) (hp : k.possible = true) :
    Lex F A (':' :: t) ((((Cfg.rollKey k { A with toks := A.toks.insertIdx k.tokenNumber .key, keys := { k with possible := false } :: ks }).allow false).eat [':']).push .value) t := by
  intro out s e h hF
  simp only [List.getElem?_cons_zero, List.getElem?_cons_succ]
  rw [dispatch_colon (by rw [h.flow]; exact hz)]
  obtain ⟨v1, v2, v3, v4⟩ := h.value hk hp
  unfold fetchValue
  simp only [M.wp_bind, M.wp_get, h.keys, hk]
  rw [if_pos hp]
  simp only [M.wp_bind]
  refine wp_insertToken v2 v3 ?_
  simp only [M.wp_modify]
  refine wp_rollIndent ?_ (Or.inr (Or.inl rfl)) ?_
  · rintro n ⟨⟩
    refine ⟨v2, ?_⟩
    show _ ≤ s.tokensParsed + (s.tokens.insertIdx _ _).length
    rw [List.length_insertIdx_of_le_length (by omega)]; omega
  simp only [allowSimpleKey, M.wp_modify]
  refine wpT_indicator (w := [':']) (rest := t) (by simp; decide) fun s3 m m' h3 => ?_
  exact fin (((v4.allow false).move h3).push (t := ⟨.value, m, m'⟩) (by simp) |>.ahead t) (by simp)

/-- `:` after `?`. -/
theorem lex_value {t : Str} {k : SimpleKey} {ks : List SimpleKey} (hz : A.flow = 0 → isBlankzO t.head? = true) (hk : A.keys = k :: ks) (hp : k.possible = false)
    (ha : A.flow = 0 → A.allowed = true) :
    Lex F A (':' :: t) ((((A.roll .blockMappingStart).allow (A.flow == 0)).eat [':']).push .value) t := by
  intro out s e h hF
  simp only [List.getElem?_cons_zero, List.getElem?_cons_succ]
  rw [dispatch_colon (by rw [h.flow]; exact hz)]
  unfold fetchValue
  simp only [M.wp_bind, M.wp_get, h.keys, hk]
  rw [if_neg (by rw [hp]; simp)]
  simp only [M.wp_bind]
  refine wp_startBlock h (by simp) ha fun s1 h1 => ?_
  simp only [M.wp_bind, M.wp_get, M.wp_modify, allowSimpleKey]
  have hfl : (s1.flowLevel == 0) = (A.flow == 0) := by
    rw [show s1.flowLevel = A.flow from by rw [h1.flow]; exact roll_flow]
  rw [hfl]
  refine wpT_indicator (w := [':']) (rest := t) (by simp; decide) fun s3 m m' h3 => ?_
  exact fin (((h1.allow _).move h3).push (t := ⟨.value, m, m'⟩) (by simp) |>.ahead t) (by simp)

/-- An anchor or an alias. -/
theorem lex_anchor {alias : Bool} {n t : Str} (hn : NameOk n) (ht : EndsName t) (hr : A.allowed = true → A.hot = false) :
    Lex F A ((if alias then '*' else '&') :: (n ++ t))
      (((A.save.allow false).eat ((if alias then '*' else '&') :: n)).push (if alias then .alias n else .anchor n)) t := by
  intro out s e h hF
  have hdis : ∀ x y z, dispatch F s.mark s.flowLevel (some (if alias then '*' else '&')) x y z = fetchAnchor F alias := by
    intro x y z; cases alias <;> simp [dispatch]
  simp only [List.getElem?_cons_zero]
  rw [hdis]
  unfold fetchAnchor
  simp only [M.wp_bind]
  refine wp_save h hr fun s1 h1 => ?_
  simp only [M.wp_bind, M.wp_modify, allowSimpleKey]
  refine wpT_scanAnchor hn ht (by simp at hF; omega) fun s2 m h2 => ?_
  simp only [pushToken, M.wp_modify]
  rw [← List.cons_append] at h2
  exact ⟨trivial, (((h1.allow false).move h2).push (t := ⟨if alias then .alias n else .anchor n, _, m⟩) (by cases alias <;> intro hh <;> cases hh)).ahead t, by simp; omega⟩

/-- A tag. -/
theorem lex_tag {w hd sfx t : Str} (hw : TagText w hd sfx) (ht : EndsTag t) (hr : A.allowed = true → A.hot = false) :
    Lex F A (w ++ t) (((A.save.allow false).eat w).push (.tag hd sfx)) t := by
  intro out s e h hF
  obtain ⟨w', rfl⟩ : ∃ w', w = '!' :: w' := by cases hw <;> exact ⟨_, rfl⟩
  have hdis : ∀ x y z, dispatch F s.mark s.flowLevel (some '!') x y z = fetchTag F := by
    intro x y z; simp [dispatch]
  simp only [List.cons_append, List.getElem?_cons_zero]
  rw [hdis]
  unfold fetchTag
  simp only [M.wp_bind]
  refine wp_save h hr fun s1 h1 => ?_
  simp only [M.wp_bind, M.wp_modify, allowSimpleKey]
  rw [← List.cons_append]
  refine wpT_scanTag hw ht (by simp at hF ⊢; omega) fun s2 m h2 => ?_
  simp only [pushToken, M.wp_modify]
  exact ⟨trivial, (((h1.allow false).move h2).push (t := ⟨.tag hd sfx, _, m⟩) (by intro hh; cases hh)).ahead t, by simp; omega⟩

/-- A quoted scalar. -/
theorem lex_quoted {single : Bool} {w v t : Str} (hw : Quoted single (w ++ t) v t) (hr : A.allowed = true → A.hot = false) :
    Lex F A (w ++ t) (((A.save.allow false).eat w).push (.scalar v (if single then .singleQuoted else .doubleQuoted))) t := by
  intro out s e h hF
  have hdis : ∀ x y z, dispatch F s.mark s.flowLevel (some (quote single)) x y z = fetchFlowScalar F single := by
    intro x y z; cases single <;> simp [dispatch, quote]
  have hne : w ≠ [] := by
    rintro rfl
    obtain ⟨body, h1, h2, _⟩ := hw
    have : body.length ≥ t.length + 1 := by
      have := h2.length
      simpa using this
    simp at h1; rw [h1] at this; simp at this; omega
  obtain ⟨c, w', rfl⟩ := List.exists_cons_of_ne_nil hne
  have hc : c = quote single := by obtain ⟨body, h1, _⟩ := hw; simp at h1; exact h1.1
  simp only [List.cons_append, List.getElem?_cons_zero]
  rw [hc, hdis, ← hc]
  unfold fetchFlowScalar
  simp only [M.wp_bind]
  refine wp_save h hr fun s1 h1 => ?_
  simp only [M.wp_bind, M.wp_modify, allowSimpleKey]
  rw [← List.cons_append]
  refine wpT_scanFlowScalar hw (by simp at hF ⊢; omega) fun s2 h2 => ?_
  simp only [pushToken, M.wp_modify]
  exact ⟨trivial, (((h1.allow false).move h2).push (t := ⟨.scalar v (if single then .singleQuoted else .doubleQuoted), _, _⟩) (by intro hh; cases hh)).ahead t, by simp; omega⟩

end

end Yaml.Lx
