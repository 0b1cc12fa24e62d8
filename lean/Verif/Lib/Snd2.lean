import Verif.Lib.Snd
import Verif.Lib.Plain

/- Soundness of the lexical functions: quoted and plain scalars. -/

namespace Yaml
open Scanner
set_option linter.unusedSimpArgs false
set_option linter.unusedVariables false

/-! ### White space read so far -/

/-- `Spec.Folds` without the condition on what follows, extended at its end. -/
inductive Fp (t : Str) : Str → Str → Prop
  | nil : Fp t [] t
  | blank {bs t' : Str} {c : Char} (h : Fp t bs (c :: t')) (hc : Spec.IsBlank c) : Fp t bs t'
  | brk {bs t1 t' : Str} {c : Char} (h : Fp t bs t1) (hb : Spec.BreakAt t1 c t') : Fp t (bs ++ [c]) t'

theorem Fp.folds {t bs t1 v t' : Str} (h : Fp t bs t1) (h' : Spec.Folds t1 v t') : Spec.Folds t (bs ++ v) t' := by
  induction h generalizing v with
  | nil => exact h'
  | blank h hc ih => exact ih (.blank _ hc h')
  | brk h hb ih => have := ih (.brk hb h'); simpa using this

theorem Fp.blanks {t bs b t' : Str} (h : Fp t bs (b ++ t')) (hb : ∀ c ∈ b, Spec.IsBlank c) : Fp t bs t' := by
  induction b with
  | nil => exact h
  | cons c b ih => exact ih (.blank h (hb c (by simp))) (fun c hc => hb c (by simp [hc]))

theorem Sep.folds (m : Mark) {t bs t' : Str} (h : Spec.Folds t bs t') : Sep m t t' := by
  have key : ∀ b, ∃ g, t = g ++ t' ∧ Spec.Separates b g t' := by
    induction h with
    | stop t h => exact fun b => ⟨[], rfl, .nil _⟩
    | blank c hc h ih =>
      intro b
      obtain ⟨g, rfl, hg⟩ := ih false
      exact ⟨c :: g, rfl, .blank hc hg⟩
    | brk hb h ih =>
      intro b
      obtain ⟨g, rfl, hg⟩ := ih true
      cases hb with
      | crlf t => exact ⟨'\r' :: '\n' :: g, rfl, .brk (by decide) (.brk (by decide) hg)⟩
      | one c t hb hc => exact ⟨c :: g, rfl, .brk hb hg⟩
  exact key _

/-- The last line of what was read is `b`, all blanks. -/
def Margin (t : Str) (col : Nat) (t' : Str) : Prop :=
  ∃ p x b, t = p ++ x :: (b ++ t') ∧ Spec.isLineBreak x = true ∧ (∀ y ∈ b, Spec.IsBlank y) ∧ col = b.length

theorem Margin.blank {t t' : Str} {c : Char} {col : Nat} (h : Margin t col (c :: t')) (hc : Spec.IsBlank c) : Margin t (col + 1) t' := by
  obtain ⟨p, x, b, rfl, hx, hb, rfl⟩ := h
  refine ⟨p, x, b ++ [c], by simp, hx, ?_, by simp⟩
  intro y hy
  rcases List.mem_append.1 hy with h | h
  · exact hb y h
  · simp at h; subst h; exact hc

theorem Margin.brk {t t1 t' : Str} {c : Char} {p : Str} (hp : t = p ++ t1) (hb : Spec.BreakAt t1 c t') : Margin t 0 t' := by
  cases hb with
  | crlf t => exact ⟨p ++ ['\r'], '\n', [], by simp [hp], by decide, by simp, rfl⟩
  | one c t hb hc => exact ⟨p, c, [], by simp [hp], hb, by simp, rfl⟩

theorem Mv.prefix {s s' : SState} {t t' : Str} (h : Mv s t s' t') : ∃ p, t = p ++ t' := by
  obtain ⟨p, hp, _⟩ := h.2
  exact ⟨p, hp⟩

theorem Mv.col1 {s s' : SState} {c : Char} {r : Str} (h : Mv s (c :: r) s' r) (hc : isBreak c = false) : s'.mark.column = s.mark.column + 1 := by
  have := Mv.line (p := [c]) h (by simpa using hc)
  rw [this]; rfl

/-- What the variables of the blank loops say. -/
inductive WspRun (t : Str) : BlankVars → Nat → Str → Prop
  | line {b t' : Str} {col : Nat} (ht : t = b ++ t') (hb : ∀ c ∈ b, Spec.IsBlank c) : WspRun t ⟨[], [], b, false⟩ col t'
  | lines {c : Char} {bs t' : Str} {col : Nat} (hf : Fp t (c :: bs) t') (hm : Margin t col t') : WspRun t ⟨[c], bs, [], true⟩ col t'

theorem solid_of {t : Str} (h1 : isBlankO t[0]? = false) (h2 : isBreakO t[0]? = false) : Spec.Solid t := by
  rintro c r rfl
  exact ⟨isBlankO_false.1 h1, by rw [← breakO_eq]; exact h2⟩

section
variable {s : SState} {t : Str} {sm : Mark}

theorem wpC_flowBlanks {F : Nat} {Q : BlankVars → SState → Str → Prop}
    (hQ : ∀ v s' t', WspRun t v s'.mark.column t' → Spec.Solid t' → Mv s t s' t' → Q v s' t') : wpC (flowBlanks F {}) Q s t := by
  refine wpC_loop (I := fun v s' t' => WspRun t v s'.mark.column t' ∧ Mv s t s' t') ?_ F _ s t ⟨.line (b := []) rfl (by simp), Mv.refl _ _⟩
  rintro v s1 t1 ⟨hv, hm⟩
  wpc
  split
  · rename_i hc
    obtain ⟨c, r, rfl, hc⟩ := head_of (p := isBlankO) rfl hc
    have hcb := isBlankO_iff.1 hc
    split
    · rename_i hl
      wpc
      refine wpC_skip rfl hcb.noBreak ?_
      intro s2 hm2
      refine ⟨?_, hm.trans hm2⟩
      cases hv with
      | line => cases hl
      | lines hf hmg => rw [hm2.col1 hcb.noBreak]; exact .lines (hf.blank hcb) (hmg.blank hcb)
    · rename_i hl
      wpc
      refine wpC_read rfl hcb.noBreak ?_
      intro s2 hm2
      refine ⟨?_, hm.trans hm2⟩
      cases hv with
      | line ht hb =>
        refine .line (by simp [ht]) ?_
        intro y hy
        rcases List.mem_append.1 hy with h | h
        · exact hb y h
        · simp at h; subst h; exact hcb
      | lines hf hmg => exact absurd rfl hl
  · rename_i hnb
    split
    · rename_i hc
      obtain ⟨c, r, rfl, hc⟩ := head_of (p := isBreakO) rfl hc
      wpc
      split
      · rename_i hl
        wpc
        refine wpC_readLineBreak rfl hc ?_
        intro d s2 t2 hbr hm2 hcol
        refine ⟨?_, hm.trans hm2⟩
        cases hv with
        | line => cases hl
        | lines hf hmg =>
          obtain ⟨p, hp⟩ := hm.prefix
          rw [hcol]; exact .lines (hf.brk hbr) (Margin.brk hp hbr)
      · rename_i hl
        wpc
        refine wpC_readLineBreak rfl hc ?_
        intro d s2 t2 hbr hm2 hcol
        refine ⟨?_, hm.trans hm2⟩
        cases hv with
        | line ht hb =>
          rw [hcol, List.nil_append]
          subst ht
          exact .lines (Fp.brk (Fp.blanks Fp.nil hb) hbr) (Margin.brk rfl hbr)
        | lines hf hmg => exact absurd rfl hl
    · rename_i hnb2
      exact hQ v s1 t1 hv (solid_of (by simpa using hnb) (by simpa using hnb2)) hm

/-- After an escaped line break. -/
theorem wpC_flowBlanks_cont {F : Nat} {Q : BlankVars → SState → Str → Prop} (h0 : s.mark.column = 0)
    (hQ : ∀ v bs s' t', Fp t bs t' → joinBlanks v = bs → ((∃ b, t = b ++ t' ∧ (∀ c ∈ b, Spec.IsBlank c) ∧ s'.mark.column = b.length) ∨ Margin t s'.mark.column t') → Spec.Solid t' →
      Mv s t s' t' → Q v s' t') : wpC (flowBlanks F { leadingBlanks := true }) Q s t := by
  refine wpC_loop (I := fun v s' t' => (∃ bs, Fp t bs t' ∧ v = ⟨[], bs, [], true⟩) ∧
    ((∃ b, t = b ++ t' ∧ (∀ c ∈ b, Spec.IsBlank c) ∧ s'.mark.column = b.length) ∨ Margin t s'.mark.column t') ∧ Mv s t s' t') ?_ F _ s t
    ⟨⟨[], .nil, rfl⟩, .inl ⟨[], rfl, by simp, h0⟩, Mv.refl _ _⟩
  rintro v s1 t1 ⟨⟨bs, hf, rfl⟩, hmg, hm⟩
  wpc
  split
  · rename_i hc
    obtain ⟨c, r, rfl, hc⟩ := head_of (p := isBlankO) rfl hc
    have hcb := isBlankO_iff.1 hc
    rw [if_pos trivial]
    wpc
    refine wpC_skip rfl hcb.noBreak ?_
    intro s2 hm2
    refine ⟨⟨bs, hf.blank hcb, rfl⟩, ?_, hm.trans hm2⟩
    rw [hm2.col1 hcb.noBreak]
    rcases hmg with ⟨b, hb, hbb, hcol⟩ | hmg
    · refine .inl ⟨b ++ [c], by simp [hb], ?_, by simp [hcol]⟩
      intro y hy
      rcases List.mem_append.1 hy with h | h
      · exact hbb y h
      · simp at h; subst h; exact hcb
    · exact .inr (hmg.blank hcb)
  · rename_i hnb
    split
    · rename_i hc
      obtain ⟨c, r, rfl, hc⟩ := head_of (p := isBreakO) rfl hc
      wpc
      rw [if_pos trivial]
      wpc
      refine wpC_readLineBreak rfl hc ?_
      intro d s2 t2 hbr hm2 hcol
      obtain ⟨p, hp⟩ := hm.prefix
      exact ⟨⟨bs ++ [d], hf.brk hbr, rfl⟩, .inr (by rw [hcol]; exact Margin.brk hp hbr), hm.trans hm2⟩
    · rename_i hnb2
      exact hQ _ bs s1 t1 hf rfl hmg (solid_of (by simpa using hnb) (by simpa using hnb2)) hm

theorem wpC_plainBlanks {F : Nat} {n : Int} {Q : BlankVars → SState → Str → Prop}
    (hQ : ∀ v s' t', WspRun t v s'.mark.column t' → Spec.Solid t' → Mv s t s' t' → Q v s' t') : wpC (plainBlanks F n sm {}) Q s t := by
  refine wpC_loop (I := fun v s' t' => WspRun t v s'.mark.column t' ∧ Mv s t s' t') ?_ F _ s t ⟨.line (b := []) rfl (by simp), Mv.refl _ _⟩
  rintro v s1 t1 ⟨hv, hm⟩
  wpc
  split
  · rename_i hc
    obtain ⟨c, r, rfl, hc⟩ := head_of (p := isBlankO) rfl hc
    have hcb := isBlankO_iff.1 hc
    split
    · trivial
    split
    · rename_i hl
      wpc
      refine wpC_read rfl hcb.noBreak ?_
      intro s2 hm2
      refine ⟨?_, hm.trans hm2⟩
      cases hv with
      | line ht hb =>
        refine .line (by simp [ht]) ?_
        intro y hy
        rcases List.mem_append.1 hy with h | h
        · exact hb y h
        · simp at h; subst h; exact hcb
      | lines hf hmg => cases hl
    · rename_i hl
      wpc
      refine wpC_skip rfl hcb.noBreak ?_
      intro s2 hm2
      refine ⟨?_, hm.trans hm2⟩
      cases hv with
      | line => exact absurd rfl hl
      | lines hf hmg => rw [hm2.col1 hcb.noBreak]; exact .lines (hf.blank hcb) (hmg.blank hcb)
  · rename_i hnb
    split
    · rename_i hc
      obtain ⟨c, r, rfl, hc⟩ := head_of (p := isBreakO) rfl hc
      wpc
      split
      · rename_i hl
        wpc
        refine wpC_readLineBreak rfl hc ?_
        intro d s2 t2 hbr hm2 hcol
        refine ⟨?_, hm.trans hm2⟩
        cases hv with
        | line => cases hl
        | lines hf hmg =>
          obtain ⟨p, hp⟩ := hm.prefix
          rw [hcol]; exact .lines (hf.brk hbr) (Margin.brk hp hbr)
      · rename_i hl
        wpc
        refine wpC_readLineBreak rfl hc ?_
        intro d s2 t2 hbr hm2 hcol
        refine ⟨?_, hm.trans hm2⟩
        cases hv with
        | line ht hb =>
          rw [hcol, List.nil_append]
          subst ht
          exact .lines (Fp.brk (Fp.blanks Fp.nil hb) hbr) (Margin.brk rfl hbr)
        | lines hf hmg => exact absurd rfl hl
    · rename_i hnb2
      exact hQ v s1 t1 hv (solid_of (by simpa using hnb) (by simpa using hnb2)) hm

/-! ### Quoted scalars -/

theorem body_trans {single : Bool} {t v t1 w t2 : Str} (h : Spec.Body single t v t1) (h' : Spec.Body single t1 w t2) : Spec.Body single t (v ++ w) t2 := by
  induction h with
  | done t => exact h'
  | char c h1 h2 h3 h4 h ih => exact .char c h1 h2 h3 h4 (ih h')
  | quote hs h ih => exact .quote hs (ih h')
  | escape hs hx h ih => exact .escape hs hx (ih h')
  | blanks hb hn ht h ih => rw [List.append_assoc]; exact .blanks hb hn ht (ih h')
  | fold hf hn hd h ih => rw [List.append_assoc]; exact .fold hf hn hd (ih h')
  | cont hs h0 hf hd h ih => rw [List.append_assoc]; exact .cont hs h0 hf hd (ih h')

theorem wpC_hexLoop {n : Nat} {Q : Nat → SState → Str → Prop} (k x : Nat) (pre : Str) (hpre : Spec.HexNum pre x) (hk : pre.length = k) (tx : Str) (htx : t = pre ++ tx)
    (hQ : ∀ ds v, ds.length = k + n → Spec.HexNum ds v → (∃ r, t = ds ++ r) → Q v s t) : wpC (hexLoop sm n k x) Q s t := by
  induction n generalizing k x pre tx with
  | zero => exact hQ pre x (by omega) hpre ⟨tx, htx⟩
  | succ n ih =>
    rw [hexLoop]
    wpc
    split
    · trivial
    · rename_i hh
      have hh : isHexO t[k]? = true := by simpa using hh
      have hget : t[k]? = tx[0]? := by rw [htx, ← hk, List.getElem?_append_right (Nat.le_refl _), Nat.sub_self]
      rw [hget] at hh ⊢
      obtain ⟨c, r, rfl, hc⟩ := head_of (p := isHexO) rfl hh
      obtain ⟨y, hy⟩ := Option.isSome_iff_exists.1 (show (toHex? c).isSome = true from hc)
      simp only [List.getElem?_cons_zero, Option.bind_some, hy]
      refine ih (k + 1) (x * 16 + y) (pre ++ [c]) ?_ (by simp [hk]) r (by simp [htx]) ?_
      · have := Spec.HexNum.snoc hpre (hexDigit_of hy)
        rwa [show x * 16 + y = 16 * x + y by omega]
      · intro ds v hl
        exact hQ ds v (by omega)

theorem wpC_skipChars {ds r : Str} {Q : Unit → SState → Str → Prop} (hd : ∀ c ∈ ds, isBreak c = false) (ht : t = ds ++ r)
    (hQ : ∀ s', Mv s t s' r → Q () s' r) : wpC (skipChars ds.length) Q s t := by
  induction ds generalizing s t with
  | nil => subst ht; exact hQ s (Mv.refl _ _)
  | cons c ds ih =>
    rw [List.length_cons, skipChars]
    wpc
    subst ht
    refine wpC_skip rfl (hd c (by simp)) ?_
    intro s1 hm1
    exact ih (fun c hc => hd c (by simp [hc])) rfl (fun s' hm => hQ s' (hm1.trans hm))

theorem charFromU32_some {n : Nat} {c : Char} (h : charFromU32 n = some c) : Spec.IsScalar n ∧ c = Char.ofNat n := by
  unfold charFromU32 at h
  split at h
  · rename_i h1; exact ⟨h1, (Option.some.inj h).symm⟩
  · cases h

theorem wpC_scanEscape {str : Str} {Q : Str → SState → Str → Prop} {r : Str} (ht : t = '\\' :: r)
    (hQ : ∀ x c s' t', r = x ++ t' → Spec.Escape x c → Mv s t s' t' → Q (str ++ [c]) s' t') : wpC (scanEscape sm str) Q s t := by
  unfold scanEscape
  wpc
  subst ht
  simp only [List.getElem?_cons_succ]
  cases r with
  | nil => trivial
  | cons e r =>
    simp only [List.getElem?_cons_zero]
    cases he : escapeChar e with
    | some ch =>
      obtain ⟨n, hn, rfl⟩ := (escapeChar_iff e ch).1 he
      wpc
      refine wpC_skip rfl (by decide) ?_
      intro s1 hm1
      refine wpC_skip rfl (escapeChar_of hn).2 ?_
      intro s2 hm2
      exact hQ [e] _ s2 r rfl (.simple hn) (hm1.trans hm2)
    | none =>
      cases hc : escapeCodeLength e with
      | none => trivial
      | some n =>
        have hn := (escapeCodeLength_iff e n).1 hc
        wpc
        refine wpC_skip rfl (by decide) ?_
        intro s1 hm1
        refine wpC_skip rfl (codes_of hn).2.2 ?_
        intro s2 hm2
        wpc
        refine wpC_hexLoop 0 0 [] .nil rfl r rfl ?_
        rintro ds v hl hds ⟨r', rfl⟩
        cases hv : charFromU32 v with
        | none => trivial
        | some ch =>
          obtain ⟨hs, rfl⟩ := charFromU32_some hv
          wpc
          rw [show n = ds.length by omega]
          refine wpC_skipChars hds.noBreak rfl ?_
          intro s3 hm3
          exact hQ (e :: ds) _ s3 r' rfl (.code hn (by omega) hds hs) (hm1.trans (hm2.trans hm3))

theorem wpC_flowChunk {F : Nat} {single : Bool} {str : Str} {Q : Str × Bool → SState → Str → Prop}
    (hQ : ∀ v lb t1 s' t', Spec.Body single t v t1 → (lb = false ∧ t1 = t' ∧ (isBlankzO t'[0]? = true ∨ t'[0]? = some (quoteChar single) ∧ (single = true → t'[1]? ≠ some '\''))
        ∨ lb = true ∧ single = false ∧ s'.mark.column = 0 ∧ ∃ r c, t1 = '\\' :: r ∧ Spec.BreakAt r c t') → Mv s t s' t' → Q (str ++ v, lb) s' t') :
    wpC (flowChunk F single sm str) Q s t := by
  refine wpC_loop (I := fun x s' t' => ∃ v, x = str ++ v ∧ Spec.Body single t v t' ∧ Mv s t s' t') ?_ F _ s t ⟨[], by simp, .done _, Mv.refl _ _⟩
  rintro _ s1 t1 ⟨v, rfl, hv, hm⟩
  wpc
  split
  · rename_i hz
    exact hQ v false t1 s1 t1 hv (.inl ⟨rfl, rfl, .inl hz⟩) hm
  rename_i hz
  obtain ⟨c, r, rfl⟩ : ∃ c r, t1 = c :: r := by
    cases t1 with
    | nil => exact absurd rfl hz
    | cons c r => exact ⟨c, r, rfl⟩
  simp only [List.getElem?_cons_zero, List.getElem?_cons_succ] at hz ⊢
  have hsolid : ¬ Spec.IsBlank c ∧ Spec.isLineBreak c = false := by
    constructor
    · intro h; exact hz (blankz_iff.2 (by rintro d hd; cases hd; exact .inl h))
    · cases hb : Spec.isLineBreak c with
      | false => rfl
      | true => exact absurd (blankz_iff.2 (by rintro d hd; cases hd; exact .inr hb)) hz
  have hcb : isBreak c = false := by rw [← isLineBreak_eq]; exact hsolid.2
  split
  · rename_i h
    simp only [Bool.and_eq_true, beq_iff_eq, Option.some.injEq] at h
    obtain ⟨⟨rfl, rfl⟩, h2⟩ := h
    cases r with
    | nil => simp at h2
    | cons d r =>
      simp at h2; subst h2
      wpc
      refine wpC_skip rfl (by decide) ?_
      intro s2 hm2
      refine wpC_skip rfl (by decide) ?_
      intro s3 hm3
      exact ⟨v ++ ['\''], by simp, body_trans hv (.quote rfl (.done _)), hm.trans (hm2.trans hm3)⟩
  rename_i hqq
  split
  · rename_i hq
    refine hQ v false (c :: r) s1 (c :: r) hv (.inl ⟨rfl, rfl, .inr ⟨by simpa using hq, ?_⟩⟩) hm
    rintro rfl h2
    simp only [List.getElem?_cons_succ] at h2
    simp [h2] at hqq
    simp [quoteChar] at hq
    exact hqq hq
  rename_i hq
  split
  · rename_i h
    simp only [Bool.and_eq_true, Bool.not_eq_true', beq_iff_eq, Option.some.injEq] at h
    obtain ⟨⟨rfl, rfl⟩, h2⟩ := h
    obtain ⟨d, r2, rfl, hd⟩ := head_of (p := isBreakO) rfl h2
    wpc
    refine wpC_skip rfl (by decide) ?_
    intro s2 hm2
    refine wpC_skipLineBreak rfl hd ?_
    intro x s3 t3 hbr hm3 hcol
    exact hQ v true ('\\' :: d :: r2) s3 t3 hv (.inr ⟨rfl, rfl, hcol, d :: r2, x, rfl, hbr⟩) (hm.trans (hm2.trans hm3))
  rename_i hbrk
  split
  · rename_i h
    simp only [Bool.and_eq_true, Bool.not_eq_true', beq_iff_eq, Option.some.injEq] at h
    obtain ⟨rfl, rfl⟩ := h
    wpc
    refine wpC_scanEscape rfl ?_
    rintro x c s2 t2 rfl hx hm2
    exact ⟨v ++ [c], by simp, body_trans hv (.escape rfl hx (.done _)), hm.trans hm2⟩
  · rename_i hesc
    wpc
    refine wpC_read rfl hcb ?_
    intro s2 hm2
    refine ⟨v ++ [c], by simp, body_trans hv (.char c hsolid.1 hsolid.2 ?_ ?_ (.done _)), hm.trans hm2⟩
    · rw [← quote_eq]; simpa using hq
    · rintro rfl rfl; simp at hesc

/-- What is not settled yet about the white space read last. -/
inductive FlowPend (single : Bool) : Str → Str → Nat → Str → Prop
  | none {t : Str} {col : Nat} : FlowPend single t [] col t
  | blanks {b t' : Str} {col : Nat} (hb : ∀ c ∈ b, Spec.IsBlank c) (hn : b ≠ []) (ht : Spec.Solid t') : FlowPend single (b ++ t') b col t'
  | fold {t bs t' : Str} {col : Nat} (hf : Spec.Folds t bs t') (hn : bs ≠ []) (hm : Margin t col t') : FlowPend single t (Spec.fold bs) col t'
  | cont {t0 t1 bs t' : Str} {c : Char} {col : Nat} (hs : single = false) (h0 : Spec.BreakAt t0 c t1) (hf : Spec.Folds t1 bs t') (hm : Margin t0 col t') :
      FlowPend single ('\\' :: t0) bs col t'

theorem margin_doc {t t' : Str} {col : Nat} (h : Margin t col t') (hd : ¬ (col = 0 ∧ Spec.IsDocMarker t')) :
    (∃ p c, t = p ++ c :: t' ∧ Spec.IsBlank c) ∨ ¬ Spec.IsDocMarker t' := by
  obtain ⟨p, x, b, rfl, hx, hb, rfl⟩ := h
  rcases List.eq_nil_or_concat b with rfl | ⟨b', y, rfl⟩
  · right; intro h; exact hd ⟨rfl, h⟩
  · left
    exact ⟨p ++ x :: b', y, by simp, hb y (by simp)⟩

theorem FlowPend.body {single : Bool} {t v t' : Str} {col : Nat} (h : FlowPend single t v col t') (hd : ¬ (col = 0 ∧ Spec.IsDocMarker t')) : Spec.Body single t v t' := by
  cases h with
  | none => exact .done _
  | blanks hb hn ht => have := Spec.Body.blanks (single := single) hb hn ht (.done _); simpa using this
  | fold hf hn hm => have := Spec.Body.fold (single := single) hf hn (margin_doc hm hd) (.done _); simpa using this
  | cont hs h0 hf hm => have := Spec.Body.cont hs h0 hf (margin_doc hm hd) (.done _); simpa using this

theorem fold_cons (c : Char) (bs : Str) : joinBlanks ⟨[c], bs, [], true⟩ = Spec.fold (c :: bs) := joinBlanks_fold c bs []

theorem wpC_flowBody {F : Nat} {single : Bool} {Q : Str → SState → Str → Prop}
    (hQ : ∀ v s' t', Spec.Body single t v t' → t'[0]? = some (quoteChar single) → (single = true → t'[1]? ≠ some '\'') → Mv s t s' t' → Q v s' t') :
    wpC (flowBody F single sm) Q s t := by
  refine wpC_loop (I := fun x s' t' => ∃ v t0 w, x = v ++ w ∧ Spec.Body single t v t0 ∧ FlowPend single t0 w s'.mark.column t' ∧ Mv s t s' t') ?_ F _ s t
    ⟨[], t, [], rfl, .done _, .none, Mv.refl _ _⟩
  rintro _ s1 t1 ⟨v, t0, w, rfl, hv, hw, hm⟩
  rw [wpC_bind, flowHead]
  wpc
  split
  · trivial
  rename_i hdoc
  split
  · trivial
  wpc
  have hnd : ¬ (s1.mark.column = 0 ∧ Spec.IsDocMarker t1) := fun ⟨h1, h2⟩ => hdoc (docIndicator_true h1 h2)
  have hb1 : Spec.Body single t (v ++ w) t1 := body_trans hv (hw.body hnd)
  refine wpC_flowChunk ?_
  intro v2 lb t2 s2 t2' hv2 hform hm2
  have hb2 : Spec.Body single t (v ++ w ++ v2) t2 := body_trans hb1 hv2
  wpc
  split
  · rename_i hq
    have hq : t2'[0]? = some (quoteChar single) := by simpa using hq
    rcases hform with ⟨rfl, rfl, hz | hz⟩ | ⟨rfl, rfl, hcol, r, c, rfl, hbr⟩
    · exfalso; rw [hq] at hz; cases single <;> revert hz <;> decide
    · exact hQ _ _ _ hb2 hq hz.2 (hm.trans hm2)
    · -- an escaped line break, then the quote
      have hsol : Spec.Solid t2' := solid_of (by rw [hq]; decide) (by rw [hq]; decide)
      have hmg : Margin r 0 t2' := Margin.brk (p := []) rfl hbr
      have hnd2 : ¬ ((0 : Nat) = 0 ∧ Spec.IsDocMarker t2') := by
        rintro ⟨_, x, hx | hx, _⟩ <;> (subst hx; simp [quoteChar] at hq)
      have := body_trans hb2 ((FlowPend.cont rfl hbr (.stop _ hsol) hmg).body hnd2)
      rw [List.append_nil] at this
      exact hQ _ _ _ this hq (by simp) (hm.trans hm2)
  · rename_i hq
    wpc
    rcases hform with ⟨rfl, rfl, hz | hz⟩ | ⟨rfl, rfl, hcol, r, c, rfl, hbr⟩
    · refine wpC_flowBlanks ?_
      intro bv s3 t3 hbv hsol hm3
      refine ⟨v ++ w ++ v2, t2, joinBlanks bv, by simp, hb2, ?_, hm.trans (hm2.trans hm3)⟩
      cases hbv with
      | line ht hb =>
        rename_i b
        subst ht
        cases b with
        | nil => exact .none
        | cons x b => exact .blanks hb (by simp) hsol
      | lines hf hmg =>
        rw [fold_cons]
        have := hf.folds (.stop _ hsol)
        rw [List.append_nil] at this
        exact .fold this (by simp) hmg
    · exact absurd (by simpa using hz.1) hq
    · refine wpC_flowBlanks_cont hcol ?_
      intro bv bs s3 t3 hf hj hmg hsol hm3
      refine ⟨v ++ w ++ v2, '\\' :: r, joinBlanks bv, by simp, hb2, ?_, hm.trans (hm2.trans hm3)⟩
      have h1 := hf.folds (.stop _ hsol)
      rw [List.append_nil] at h1
      rw [hj]
      refine .cont rfl hbr h1 ?_
      rcases hmg with ⟨b, rfl, hb, hc⟩ | ⟨p, x, b, rfl, hx, hb, hc⟩
      · obtain ⟨p, x, b', hr, hx, hb', hl⟩ := Margin.brk (p := []) (t := r) rfl hbr
        have : b' = [] := List.length_eq_zero_iff.1 hl.symm
        subst this
        exact ⟨p, x, b, by simpa using hr, hx, hb, hc⟩
      · obtain ⟨p', x', b', hr, hx', hb', hl⟩ := Margin.brk (p := []) (t := r) rfl hbr
        have : b' = [] := List.length_eq_zero_iff.1 hl.symm
        subst this
        exact ⟨p' ++ x' :: p, x, b, by simpa using hr, hx, hb, hc⟩

theorem wpC_scanFlowScalar {F : Nat} {single : Bool} {Q : Token → SState → Str → Prop} {r : Str} (ht : t = quoteChar single :: r)
    (hQ : ∀ tok s' t', Spelled (s.flowLevel != 0) s.indent s.mark t tok s'.mark t' → nodeData tok.data = true → Q tok s' t') : wpC (scanFlowScalar F single) Q s t := by
  unfold scanFlowScalar
  wpc
  refine wpC_skip ht (by cases single <;> decide) ?_
  intro s1 hm1
  refine wpC_flowBody ?_
  intro v s2 t2 hv hq hqq hm2
  cases t2 with
  | nil => simp at hq
  | cons c t2 =>
    simp at hq; subst hq
    refine wpC_skip rfl (by cases single <;> decide) ?_
    intro s3 hm3
    have hmv := hm1.trans (hm2.trans hm3)
    rw [← ht] at hmv
    obtain ⟨p, hp⟩ := hmv.prefix
    refine hQ _ _ _ ⟨rfl, p, t2, hp, hmv.2, Adv.refl _ _, Sep.refl _ _, ?_, by cases single <;> nofun⟩ (by cases single <;> rfl)
    have hbody : Spec.Quoted single (p ++ t2) v t2 := by
      rw [← hp]
      refine ⟨r, by rw [ht, quote_eq], by rw [← quote_eq]; exact hv, fun h => ?_⟩
      have := hqq h
      simpa [List.head?_eq_getElem?] using this
    cases single <;> exact hbody

end
end Yaml
