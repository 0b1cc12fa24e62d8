import Verif.Lib.Run

/-
The tokens cover the text: every token is spelled by the text between its marks, separated from the one before,
and placed as the layout wants it.  Invariant of the scanner and its preservation.
-/

namespace Yaml
open Scanner Spec
set_option linter.unusedSimpArgs false
set_option linter.unusedVariables false

/-! ### Tilings -/

/-- Block collections open after the tokens. -/
def stackAfter (st : List Nat) (ts : List Token) : List Nat := ts.foldl blocksAfter st
/-- Flow collections open after the tokens. -/
def depthOf (d : Nat) (ts : List Token) : Nat := ts.foldl depthAfter d

theorem flowDepth_eq (ts : List Token) : flowDepth ts = depthOf 0 ts := rfl

theorem laid_append {d : Nat} {st : List Nat} {t : Token} {ts : List Token} (h : Laid d st t ts) (us : List Token) : Laid d st t (ts ++ us) := by
  unfold Laid at *
  split
  · rename_i hd
    rw [if_pos hd] at h
    split <;> rename_i hdat <;> simp only [hdat] at h
    · obtain ⟨h1, u, h2, h3⟩ := h
      refine ⟨h1, u, ?_, h3⟩
      cases ts with
      | nil => simp at h2
      | cons => simpa using h2
    · obtain ⟨h1, u, h2, h3⟩ := h
      refine ⟨h1, u, ?_, h3⟩
      cases ts with
      | nil => simp at h2
      | cons => simpa using h2
    · refine ⟨h.1, h.2.imp id ?_⟩
      rintro ⟨n, u, r, rfl, h'⟩
      exact ⟨n, u, r ++ us, by simp, h'⟩
    · exact h
    · exact h
    · exact h
  · rename_i hd
    rw [if_neg hd] at h
    exact h

/-- Whether a token is laid out well depends on what follows only for block starts and ends. -/
theorem laid_other {d : Nat} {st : List Nat} {t : Token} {ts : List Token} (h : Laid d st t ts) (h1 : isBlockStart t = false) (h2 : isBlockEnd t = false)
    (us : List Token) : Laid d st t us := by
  unfold Laid at *
  split
  · rename_i hd
    rw [if_pos hd] at h
    split <;> rename_i hdat <;> simp only [hdat] at h
    · simp [isBlockStart, hdat] at h1
    · simp [isBlockStart, hdat] at h1
    · simp [isBlockEnd, hdat] at h2
    · exact h
    · exact h
    · exact h
  · rename_i hd
    rw [if_neg hd] at h
    exact h

theorem Tiles.append {T : Str} {d : Nat} {st : List Nat} {p q r : Str} {A B : List Token} (h : Tiles T d st p A q)
    (h' : Tiles T (depthOf d A) (stackAfter st A) q B r) : Tiles T d st p (A ++ B) r := by
  induction h with
  | nil p => exact h'
  | cons hT hg hs he hw hl h ih => exact .cons hT hg hs he hw (laid_append hl _) (ih h')

/-- Neither a block start nor a block end. -/
def Plainly (t : Token) : Prop := isBlockStart t = false ∧ isBlockEnd t = false

theorem stackAfter_plain {st : List Nat} {ts : List Token} (h : ∀ t ∈ ts, Plainly t) : stackAfter st ts = st := by
  induction ts generalizing st with
  | nil => rfl
  | cons t ts ih =>
    have := h t (by simp)
    show stackAfter (blocksAfter st t) ts = st
    rw [show blocksAfter st t = st by simp [blocksAfter, this.1, this.2]]
    exact ih fun u hu => h u (by simp [hu])

theorem depthOf_append (d : Nat) (A B : List Token) : depthOf d (A ++ B) = depthOf (depthOf d A) B := by simp [depthOf]
theorem stackAfter_append (st : List Nat) (A B : List Token) : stackAfter st (A ++ B) = stackAfter (stackAfter st A) B := by simp [stackAfter]

/-- A token without text in front of another one that starts at the same place. -/
theorem Tiles.front {T : Str} {d d' : Nat} {st st' : List Nat} {p q : Str} {x t : Token} {ts : List Token} (h : Tiles T d' st' p (t :: ts) q)
    (hx : x.startMark = t.startMark) (hx' : x.endMark = t.startMark) (hd : depthAfter d x = d') (hst : blocksAfter st x = st')
    (hw : ∀ rest, Spells (d != 0) (indentation st) x [] rest) (hl : Laid d st x (t :: ts)) : Tiles T d st p (x :: t :: ts) q := by
  subst hd hst
  cases h with
  | @cons _ _ _ g w rest _ _ _ hT hg hs he hw' hl' h =>
    refine .cons (g := g) (w := []) (rest := w ++ rest) (by simpa using hT) (by simpa using hg) (by rw [hx]; exact hs)
      (by rw [hx', List.append_nil]; exact hs) (hw _) hl ?_
    rw [List.append_nil]
    refine .cons (g := []) (w := w) (rest := rest) (by simpa using hT) (.nil _) (by simpa using hs) (by simpa using he) hw' hl' (by simpa using h)

/-- The same further inside, if there is no block structure before it. -/
theorem Tiles.insert {T : Str} {d : Nat} {st : List Nat} {p q : Str} {A B : List Token} {x t : Token} (h : Tiles T d st p (A ++ t :: B) q)
    (hA : ∀ u ∈ A, Plainly u) (hx : x.startMark = t.startMark) (hx' : x.endMark = t.startMark)
    (hd : depthAfter (depthOf d A) x = depthOf d A) (hb : Plainly x)
    (hw : ∀ f n rest, Spells f n x [] rest) (hl : Laid (depthOf d A) st x (t :: B)) : Tiles T d st p (A ++ x :: t :: B) q := by
  induction A generalizing d p with
  | nil => exact Tiles.front h hx hx' hd (by simp [blocksAfter, hb.1, hb.2]) (hw _ _) hl
  | cons a A ih =>
    have ha := hA a (by simp)
    have hst : blocksAfter st a = st := by simp [blocksAfter, ha.1, ha.2]
    cases h with
    | cons hT hg hs he hw' hl' h =>
      refine .cons hT hg hs he hw' (laid_other hl' ha.1 ha.2 _) ?_
      rw [hst] at h ⊢
      exact ih h (fun u hu => hA u (by simp [hu])) hd hl

/-- At the end of the stream the text is covered. -/
theorem Tiles.ends {T : Str} {d : Nat} {st : List Nat} {p q : Str} {A : List Token} {t : Token} (h : Tiles T d st p (A ++ [t]) q) (ht : t.data = .streamEnd) : q = T := by
  induction A generalizing d st p with
  | nil =>
    cases h with
    | @cons _ _ _ g w rest _ _ _ hT hg hs he hw hl h =>
      cases h
      rw [Spells, ht] at hw
      obtain ⟨rfl, rfl⟩ := hw
      rw [hT]; simp
  | cons a A ih =>
    cases h with
    | cons hT hg hs he hw hl h => exact ih h

theorem plainRun_flow {n n' : Int} {a v b : Str} (h : PlainRun true n a v b) : PlainRun true n' a v b := by
  induction h with
  | done t => exact .done t
  | char hc h ih => exact .char hc ih
  | blanks hb hn hc hx h ih => exact .blanks hb hn hc hx ih
  | fold hf hn hi hc hx h ih =>
    obtain ⟨p, x, b, e1, e2, e3, _, e5⟩ := hi
    exact .fold hf hn ⟨p, x, b, e1, e2, e3, nofun, e5⟩ hc hx ih

/-- Inside flow collections the indentation does not matter. -/
theorem spells_flow {n n' : Int} {t : Token} {w rest : Str} (h : Spells true n t w rest) : Spells true n' t w rest := by
  unfold Spells at *
  split at h <;> try exact h
  split at h <;> try exact h
  · obtain ⟨⟨c, w1, v1, h1, h2, h3, h4, h5, h6⟩, hx⟩ := h
    refine ⟨⟨c, w1, v1, h1, h2, h3, h4, ?_, ?_⟩, hx⟩
    · exact plainRun_flow h5
    · rcases h6 with h6 | ⟨bs, t', hf, hne, h7⟩
      · exact .inl h6
      · refine .inr ⟨bs, t', hf, hne, ?_⟩
        rcases h7 with h7 | h7 | ⟨h7, _⟩ | h7
        · exact .inl h7
        · exact .inr (.inl h7)
        · cases h7
        · exact .inr (.inr (.inr h7))
  · exact absurd h.1 (by simp)
  · exact absurd h.1 (by simp)

/-- The indentation matters only for plain and block scalars. -/
theorem spells_node {f : Bool} {n n' : Int} {t : Token} {w rest : Str} (h : Spells f n t w rest) (hp : ∀ v, t.data ≠ .scalar v .plain)
    (hb : blockData t.data = false) : Spells f n' t w rest := by
  unfold Spells at *
  split at h <;> try exact h
  rename_i v st hd
  split at h <;> try exact h
  · exact absurd hd (hp _)
  · rw [hd] at hb; cases hb
  · rw [hd] at hb; cases hb

/-! ### The indentation stack -/

/-- The indentation stack of the scanner is the stack of open block collections. -/
def BStk (st : List Nat) (i : Int) (is : List Int) : Prop := i :: is = st.map Int.ofNat ++ [-1]

theorem BStk.ind {st : List Nat} {i : Int} {is : List Int} (h : BStk st i is) : indentation st = i := by
  unfold BStk at h
  cases st with
  | nil => simp at h; exact h.1.symm
  | cons c st => simp at h; exact h.1.symm

theorem BStk.length {st : List Nat} {i : Int} {is : List Int} (h : BStk st i is) : is.length = st.length := by
  have := congrArg List.length h
  simpa using this

theorem BStk.bottom {st : List Nat} {i : Int} {is : List Int} (h : BStk st i is) (hi : is = []) : st = [] := by
  have := h.length
  rw [hi] at this
  exact List.length_eq_zero_iff.1 this.symm

theorem BStk.push {st : List Nat} {i : Int} {is : List Int} (h : BStk st i is) (c : Nat) : BStk (c :: st) c (i :: is) := by
  unfold BStk at *
  rw [h]; rfl

theorem BStk.drop {st : List Nat} {i i' : Int} {is is' : List Int} {n : Nat} (h : BStk st i is) (hn : is.length = n + is'.length)
    (hd : i' :: is' = (i :: is).drop n) : BStk (st.drop n) i' is' := by
  have hl := h.length
  unfold BStk at *
  rw [hd, h, List.drop_append_of_le_length (by simp; omega), List.map_drop]

theorem BStk.take {st : List Nat} {i : Int} {is : List Int} {n : Nat} (h : BStk st i is) {x : Nat} (hx : x ∈ st.take n) : (x : Int) ∈ (i :: is).take n := by
  unfold BStk at h
  rw [h, List.take_append, ← List.map_take]
  exact List.mem_append_left _ (List.mem_map.2 ⟨x, hx, rfl⟩)

/-! ### Pieces -/

theorem markAt_adv {T p t : Str} {m : Mark} (hT : T = p ++ t) (h : Adv Mark.zero T m t) : MarkAt T p m := by
  subst hT
  exact .inl h.pre

theorem column_adv {T p t : Str} {m : Mark} (hT : T = p ++ t) (h : Adv Mark.zero T m t) : (position p).column = m.column := by
  subst hT
  rw [h.pre]; rfl

/-- One token. -/
theorem tiles_one {T q g t w r : Str} {d : Nat} {st : List Nat} {m : Mark} {tok : Token} (hT : T = q ++ (g ++ t))
    (hg : Separates (decide ((position q).column = 0)) g t) (hm : Adv Mark.zero T m t) (hs : tok.startMark = m) (ht : t = w ++ r)
    (he : Adv m t tok.endMark r) (hw : Spells (d != 0) (indentation st) tok w r) (hl : Laid d st tok []) : Tiles T d st q [tok] (q ++ g ++ w) := by
  subst ht
  refine .cons hT hg ?_ ?_ hw hl (.nil _)
  · rw [hs]; exact markAt_adv (by rw [hT]; simp) hm
  · exact markAt_adv (t := r) (by rw [hT]; simp) (hm.trans he)

/-- Ends of block collections, because of the column. -/
theorem tiles_ends {T t : Str} {m : Mark} (hm : Adv Mark.zero T m t) : ∀ (n : Nat) {q g : Str} {st : List Nat}, T = q ++ (g ++ t) →
    Separates (decide ((position q).column = 0)) g t → n + 1 ≤ st.length → (∀ x ∈ st.take (n + 1), m.column < x) →
    Tiles T 0 st q (List.replicate (n + 1) ⟨.blockEnd, m, m⟩) (q ++ g) := by
  intro n
  induction n with
  | zero =>
    intro q g st hT hg hn hx
    have hl : Laid 0 st ⟨.blockEnd, m, m⟩ [] := by
      cases st with
      | nil => simp at hn
      | cons c st => exact ⟨by simp, .inl (Int.ofNat_lt.2 (hx c (by simp)))⟩
    simpa using tiles_one (w := []) (r := t) (tok := ⟨.blockEnd, m, m⟩) (d := 0) (st := st) hT hg hm rfl rfl (Adv.refl _ _) rfl hl
  | succ n ih =>
    intro q g st hT hg hn hx
    cases st with
    | nil => simp at hn
    | cons c st =>
      have h1 := ih (q := q ++ g) (g := []) (st := st) (by rw [hT]; simp) (.nil _) (by simp at hn ⊢; omega)
        (fun x hx' => hx x (by rw [List.take_succ_cons]; exact List.mem_cons_of_mem _ hx'))
      have hq : q ++ g ++ [] = q ++ g := by simp
      have ha : MarkAt T (q ++ g) m := markAt_adv (by rw [hT]; simp) hm
      rw [List.replicate_succ]
      refine .cons (g := g) (w := []) (rest := t) hT hg ha (by rw [hq]; exact ha) rfl ⟨by simp, .inl (Int.ofNat_lt.2 (hx c (by simp)))⟩ ?_
      rw [hq] at h1 ⊢
      exact h1

/-- Ends of block collections, because of the token behind them. -/
theorem tiles_bounds {T q r : Str} {t : Token} {ts : List Token} (hb : isBoundary t = true) : ∀ (st : List Nat), Tiles T 0 [] q (t :: ts) r →
    Tiles T 0 st q (List.replicate st.length ⟨.blockEnd, t.startMark, t.startMark⟩ ++ t :: ts) r := by
  intro st h
  induction st with
  | nil => exact h
  | cons c st ih =>
    have hl : Laid 0 (c :: st) ⟨.blockEnd, t.startMark, t.startMark⟩ (List.replicate st.length ⟨.blockEnd, t.startMark, t.startMark⟩ ++ t :: ts) :=
      ⟨by simp, .inr ⟨_, t, ts, rfl, hb, rfl⟩⟩
    rw [List.length_cons, List.replicate_succ, List.cons_append]
    revert hl ih
    cases hn : st.length with
    | zero => intro ih hl; exact Tiles.front ih rfl rfl rfl rfl (fun _ => rfl) hl
    | succ n =>
      rw [List.replicate_succ, List.cons_append]
      intro ih hl
      exact Tiles.front ih rfl rfl rfl rfl (fun _ => rfl) hl

/-! ### Candidates for keys -/

/-- The key `k`, `i` levels of flow collections up, still can be put in front of the token it points to. -/
def KOk (T : Str) (L : List Token) (q : Str) (fl i : Nat) (k : SimpleKey) : Prop :=
  ∃ A t B qk, L = A ++ t :: B ∧ A.length = k.tokenNumber ∧ t.startMark = k.mark ∧ depthOf 0 A + i = fl ∧ (∀ u ∈ t :: B, Plainly u) ∧
    (depthOf 0 A = 0 → indentation (stackAfter [] A) ≤ k.mark.column) ∧ Tiles T 0 [] [] A qk ∧
    ∀ st', st' = stackAfter [] A ∨ st' = k.mark.column :: stackAfter [] A → Tiles T (depthOf 0 A) st' qk (t :: B) q

theorem KOk.push {T : Str} {L : List Token} {q q' : Str} {fl i fl' i' : Nat} {k : SimpleKey} {tok : Token} (h : KOk T L q fl i k) (hd : depthOf 0 L = fl)
    (hp : Plainly tok) (hi : fl + i' = fl' + i)
    (hx : ∀ st', (fl = 0 → st' = stackAfter [] L ∨ st' = k.mark.column :: stackAfter [] L) → Tiles T fl st' q [tok] q') :
    KOk T (L ++ [tok]) q' fl' i' k := by
  obtain ⟨A, t, B, qk, rfl, h2, h3, h4, h5, h6, h7, h8⟩ := h
  refine ⟨A, t, B ++ [tok], qk, by simp, h2, h3, by omega, ?_, h6, h7, ?_⟩
  · intro u hu
    rw [← List.cons_append] at hu
    rcases List.mem_append.1 hu with hu | hu
    · exact h5 u hu
    · simp at hu; subst hu; exact hp
  · intro st' hst'
    have hs : stackAfter [] (A ++ t :: B) = stackAfter [] A := by rw [stackAfter_append, stackAfter_plain h5]
    rw [hs] at hx
    rw [← List.cons_append]
    refine Tiles.append (h8 st' hst') ?_
    rw [stackAfter_plain h5, ← depthOf_append, hd]
    exact hx st' fun _ => hst'

theorem KOk.new {T : Str} {L : List Token} {q q' : Str} {fl i : Nat} {k : SimpleKey} {tok : Token} (hk : L.length = k.tokenNumber) (hm : tok.startMark = k.mark)
    (hd : depthOf 0 L + i = fl) (hp : Plainly tok) (hi : depthOf 0 L = 0 → indentation (stackAfter [] L) ≤ k.mark.column) (hL : Tiles T 0 [] [] L q)
    (hx : ∀ st', (st' = stackAfter [] L ∨ st' = k.mark.column :: stackAfter [] L) → Tiles T (depthOf 0 L) st' q [tok] q') :
    KOk T (L ++ [tok]) q' fl i k :=
  ⟨L, tok, [], q, rfl, hk, hm, hd, fun u hu => by simp at hu; subst hu; exact hp, hi, hL, hx⟩

/-- The stack has not changed since. -/
theorem KOk.stack {T : Str} {L : List Token} {q : Str} {fl i : Nat} {k : SimpleKey} (h : KOk T L q fl i k) (hf : fl = 0) :
    indentation (stackAfter [] L) ≤ k.mark.column := by
  obtain ⟨A, t, B, qk, rfl, h2, h3, h4, h5, h6, h7, h8⟩ := h
  rw [stackAfter_append, stackAfter_plain h5]
  exact h6 (by omega)

end Yaml
