import Verif.Lib.Lexeme3
import Verif.Lib.EmitFolded
import Verif.Spec.Lexemes

/-
The lexemes after which the scanner has read on into the white space: plain and block scalars.
-/

namespace Yaml.Lx
open Yaml Scanner Spec
set_option linter.unusedSimpArgs false
set_option linter.unusedVariables false

section
variable {out : List TokenData} {A : Cfg} {s s' : SState}

theorem Here.ahead2 (h : Here out A s) {w g u : Str} (hm : Mv s (w ++ (g ++ u)) s' u) (hg : Ws A.flow A.allowed g) (hs : NoSplit w (g ++ u)) {b : Bool}
    (hb : b = (A.allowed || (A.flow == 0 && hasBrk g))) : Ahead out (A.eat w) (g ++ u) { s' with simpleKeyAllowed := b } u := by
  have hm' : Mv s ((w ++ g) ++ u) s' u := by simpa using hm
  have h1 := (h.move hm').allow b
  refine ⟨h1.op, ?_, ⟨g, rfl, hg, hb⟩, h1.flow, h1.indent, h1.indents, ?_, h1.toks, h1.parsed⟩
  · obtain ⟨p, p1, p2, p3⟩ := hm'.2
    obtain rfl : p = w ++ g := (List.append_inj_left' p1 rfl).symm
    refine ⟨g, rfl, ?_, ?_⟩
    · show s'.mark = advance (advance A.mark w) g
      rw [p2, h.mark]
      apply advance_append
      rintro ⟨h1, h2⟩
      refine hs ⟨h1, ?_⟩
      cases g with
      | nil => cases h2
      | cons c g => exact h2
    · rintro ⟨h1, h2⟩
      refine p3 ⟨?_, h2⟩
      cases g with
      | nil => cases h1
      | cons c g => rw [List.getLast?_append, h1]; rfl
  · intro m _ _
    show staleList m s'.simpleKeys.reverse = staleList m A.keys.reverse
    rw [show s'.simpleKeys = A.keys from h1.keys]

theorem Ahead.push {t u : Str} (h : Ahead out A t s u) {k : Token} (hk : k.data ≠ .streamEnd) : Ahead out (A.push k.data) t (pushS k s) u :=
  ⟨h.op.push hk, h.adv, h.gap, h.flow, h.indent, h.indents, h.keys, by
    show A.toks ++ [k.data] = out ++ (s.tokens ++ [k]).map _
    rw [h.toks]; simp, h.parsed⟩

end

/-! ### White space after a scalar -/

theorem breakAt_cases {t t' : Str} {c : Char} (h : BreakAt t c t') : ∃ b, t = b ++ t' ∧ Blanks b ∧ hasBrk b = true ∧ NoSplit b t' := by
  cases h with
  | crlf t => exact ⟨['\r', '\n'], rfl, by intro c hc; right; simp at hc; rcases hc with rfl | rfl <;> decide, by decide, by rintro ⟨h, _⟩; simp at h⟩
  | one c t h1 h2 =>
    rw [isLineBreak_eq] at h1
    refine ⟨[_], rfl, by intro d hd; right; simp at hd; rw [hd]; exact h1, by simp [hasBrk, h1], ?_⟩
    rintro ⟨h3, h4⟩
    simp at h3
    exact h2 ⟨h3, h4⟩

theorem gap_blanks {t v t' : Str} (h : Gap t v t') : ∃ g, t = g ++ t' ∧ Blanks g ∧ hasBrk g = decide (v ≠ []) ∧ Solid t' := by
  induction h with
  | stop t h => exact ⟨[], rfl, Blanks.nil, by simp [hasBrk], h⟩
  | @space t v t' h ih =>
    obtain ⟨g, rfl, h2, h3, h4⟩ := ih
    refine ⟨' ' :: g, rfl, ?_, ?_, h4⟩
    · intro c hc
      rcases List.mem_cons.1 hc with rfl | hc
      · exact Or.inl rfl
      · exact h2 c hc
    · rw [← h3]; simp [hasBrk, isBreak]
  | @brk t t1 v t' c hb h ih =>
    obtain ⟨g, rfl, h2, h3, h4⟩ := ih
    obtain ⟨b, rfl, b2, b3, b4⟩ := breakAt_cases hb
    exact ⟨b ++ g, by simp, b2.append h2, by rw [hasBrk_append, b3]; simp, h4⟩

theorem ws_blanks {f : Nat} {al : Bool} (h : f ≠ 0 ∨ al = false) {b g : Str} (hb : ∀ x ∈ b, IsBlank x) (hg : Ws f al g) : Ws f al (b ++ g) := by
  induction b with
  | nil => exact hg
  | cons c b ih =>
    have := ih fun x hx => hb x (List.mem_cons_of_mem _ hx)
    rcases hb c List.mem_cons_self with rfl | rfl
    · exact .space this
    · exact .tab h this

theorem hasBrk_blanks {b : Str} (hb : ∀ x ∈ b, IsBlank x) : hasBrk b = false := hasBrk_flat fun x hx => (hb x hx).noBreak

theorem plainEnd_gap {fl : Bool} {n : Int} {t t' : Str} {brk : Bool} (h : PlainEnd fl n t brk t') :
    ∃ g, t = g ++ t' ∧ (∀ f al, f ≠ 0 ∨ al = false → Ws f al g) ∧ hasBrk g = brk := by
  cases h with
  | here h => exact ⟨[], rfl, fun _ _ _ => .nil, rfl⟩
  | gap hb hg hne h =>
    obtain ⟨g, rfl, h2, h3, h4⟩ := gap_blanks hg
    exact ⟨_, (List.append_assoc _ _ _).symm, fun f al h => ws_blanks h hb h2.ws, by rw [hasBrk_append, hasBrk_blanks hb, h3]; rfl⟩

theorem solid_ne_cr {c : Char} (h : isLineBreak c = false) : c ≠ '\r' := by rintro rfl; exact absurd h (by decide)

theorem plainBody_last {fl : Bool} {n : Int} {t v t' : Str} (h : PlainBody fl n t v t') : t = t' ∨ ∃ p c, t = p ++ c :: t' ∧ c ≠ '\r' := by
  induction h with
  | done => exact Or.inl rfl
  | @char c t v t' hc h ih =>
    rcases ih with rfl | ⟨p, d, rfl, hd⟩
    · exact Or.inr ⟨[], c, rfl, solid_ne_cr hc.solid.2⟩
    · exact Or.inr ⟨c :: p, d, rfl, hd⟩
  | @blanks b c t v t' hk hb hc hx h ih =>
    rcases ih with rfl | ⟨p, d, rfl, hd⟩
    · exact Or.inr ⟨_, c, rfl, solid_ne_cr hc.solid.2⟩
    · exact Or.inr ⟨b ++ c :: p, d, by simp, hd⟩
  | @fold b t0 bs t v t' c hb hf hn hi hc hx h ih =>
    obtain ⟨p0, x, k, rfl, _, _, _⟩ := hi
    rcases ih with rfl | ⟨p, d, rfl, hd⟩
    · exact Or.inr ⟨b ++ (p0 ++ x :: List.replicate k ' '), c, by simp, solid_ne_cr hc.solid.2⟩
    · exact Or.inr ⟨b ++ (p0 ++ x :: (List.replicate k ' ' ++ c :: p)), d, by simp, hd⟩

/-- The text of a plain scalar does not end with CR. -/
theorem plain_last {fl : Bool} {n : Int} {w v : Str} (h : PlainScalar fl n w v false []) : w.getLast? ≠ some '\r' := by
  obtain ⟨c, t1, v1, t', rfl, rfl, hc, hx, hb, he⟩ := h
  have hc' := solid_ne_cr hc.solid.2
  obtain ⟨g, hg, hgb, hgn⟩ := plainEnd_gap he
  simp only [List.append_nil] at hg
  subst hg
  have hgl : ∀ x, t'.getLast? = some x → x ≠ '\r' := by
    intro x hx' hr
    have hm := List.mem_of_getLast? hx'
    have : isBreak x = false := by
      simp only [hasBrk, List.any_eq_false] at hgn
      simpa using hgn x hm
    rw [hr] at this; exact absurd this (by decide)
  have hlast : ∀ p (x : Char), x ≠ '\r' → (p ++ x :: t').getLast? ≠ some '\r' := by
    intro p x hx' hr
    rw [List.getLast?_append] at hr
    cases ht : t'.getLast? with
    | none => rw [List.getLast?_eq_none_iff.1 ht] at hr; simp at hr; exact hx' hr
    | some y =>
      rw [List.getLast?_cons, ht] at hr
      simp at hr
      exact hgl y ht hr
  rcases plainBody_last hb with h | ⟨p, d, h, hd⟩
  · rw [h]; exact hlast [] c hc'
  · rw [h]; exact hlast (c :: p) d hd

section
variable {F : Nat} {A : Cfg}

/-- The scanner takes what starts like a plain scalar for one. -/
theorem dispatch_first {t : Str} {m : Mark} {fl : Nat} (h : PlainFirst (fl != 0) t) (hz0 : ∀ c r, t = c :: r → ¬ IsBlank c ∧ isLineBreak c = false)
    (hd : m.column ≠ 0 ∨ ¬ IsDocMarker t) : dispatch F m fl t[0]? t[1]? t[2]? t[3]? = fetchPlainScalar F := by
  obtain ⟨c, r, rfl, hc⟩ := h
  obtain ⟨hb, hl⟩ := hz0 c r rfl
  have hz : isBlankzO (some c) = false := blankz_false hb hl
  have hdoc := docIndicator_text (m := m) hd
  simp only [Scanner.isDocIndicator, List.getElem?_cons_zero, List.getElem?_cons_succ] at hdoc
  simp only [List.getElem?_cons_zero, List.getElem?_cons_succ]
  have hends : ¬ EndsTag r → isBlankzO r[0]? = false := by
    intro he
    rw [Bool.eq_false_iff, ne_eq, blankz_iff, ← List.head?_eq_getElem?]
    intro hh
    apply he
    intro d r' h
    exact hh d (by rw [h]; rfl)
  have hd1 : (m.column == 0 && some c == some '-' && r[0]? == some '-' && r[1]? == some '-' && isBlankzO r[2]?) = false ∧
      (m.column == 0 && some c == some '.' && r[0]? == some '.' && r[1]? == some '.' && isBlankzO r[2]?) = false := by
    constructor
    · rw [Bool.eq_false_iff]
      intro h
      simp only [Bool.and_eq_true] at h
      obtain ⟨⟨⟨⟨a1, a2⟩, a3⟩, a4⟩, a5⟩ := h
      rw [a1, a2, a3, a4, a5] at hdoc
      simp at hdoc
    · rw [Bool.eq_false_iff]
      intro h
      simp only [Bool.and_eq_true] at h
      obtain ⟨⟨⟨⟨a1, a2⟩, a3⟩, a4⟩, a5⟩ := h
      rw [a1, a2, a3, a4, a5] at hdoc
      simp at hdoc
  unfold Scanner.dispatch
  rw [if_neg (by simp)]
  rcases hc with hc | ⟨hc, he⟩
  · have h1 : (cs! "-?:,[]{}#&*!|>'\"%@`").contains c = false := by
      rw [Bool.eq_false_iff]; intro h; exact hc (by simpa using h)
    simp only [List.contains_cons, List.contains_nil, Bool.or_false, Bool.or_eq_false_iff, beq_eq_false_iff_ne, ne_eq] at h1
    rw [if_neg (by simp [h1]), if_neg (by rw [hd1.1]; simp), if_neg (by rw [hd1.2]; simp)]
    unfold canStartPlain
    simp [h1, hz]
  · have hz1 := hends he
    have hz2 : isBlankO r[0]? = false := by
      rw [isBlankzO] at hz1; simp only [Bool.or_eq_false_iff] at hz1; exact hz1.1
    rw [if_neg (by rcases hc with rfl | ⟨_, rfl | rfl⟩ <;> simp), if_neg (by rw [hd1.1]; simp), if_neg (by rw [hd1.2]; simp)]
    unfold canStartPlain
    rcases hc with rfl | ⟨hf, rfl | rfl⟩
    · simp [hz1, hz2]
    · have hf : fl = 0 := by simpa using hf
      simp [hz1, hz2, hf]
    · have hf : fl = 0 := by simpa using hf
      simp [hz1, hz2, hf]

/-- A plain scalar. -/
theorem lex_plain {w v t rest : Str} {brk : Bool} (hv : PlainFirst (A.flow != 0) (w ++ t)) (hw : w ≠ [])
    (hp : PlainScalar (A.flow != 0) (A.indent + 1) (w ++ t) v brk rest) (he : PlainEnd (A.flow != 0) (A.indent + 1) t brk rest)
    (hcr : w.getLast? ≠ some '\r') (hcol : A.flow = 0 → A.indent ≤ A.mark.column) (hdoc : A.mark.column ≠ 0 ∨ ¬ IsDocMarker (w ++ t))
    (hr : A.allowed = true → A.hot = false) :
    Lex F A (w ++ t) (((A.save.allow (A.flow != 0 && brk)).eat w).push (.scalar v .plain)) t := by
  intro out s e h hF
  have hsolid : ∀ c r, w ++ t = c :: r → ¬ IsBlank c ∧ isLineBreak c = false := by
    obtain ⟨c', t1, v1, t', h1, h2, h3, _⟩ := hp
    intro c r h
    rw [h] at h1; cases h1
    exact h3.solid
  have hdis := dispatch_first (F := F) (m := A.mark) hv hsolid hdoc
  rw [h.mark, h.flow, hdis]
  unfold fetchPlainScalar
  simp only [M.wp_bind]
  refine wp_save h hr fun s1 h1 => ?_
  simp only [M.wp_bind, M.wp_modify, allowSimpleKey]
  obtain ⟨g, hg1, hg2, hg3⟩ := plainEnd_gap he
  have hsf : A.save.flow = A.flow := by unfold Cfg.save; split <;> rfl
  have hsi : A.save.indent = A.indent := by unfold Cfg.save; split <;> rfl
  have hsm : A.save.mark = A.mark := by unfold Cfg.save; split <;> rfl
  have hfl : s1.flowLevel = A.flow := by rw [h1.flow, hsf]
  have hin : s1.indent = A.indent := by rw [h1.indent, hsi]
  have hmk : s1.mark = A.mark := by rw [h1.mark, hsm]
  refine wpT_scanPlainScalar (v := v) (rest := rest) (brk := brk) ?_ (by simp at hF ⊢; omega) ?_ ?_ fun s2 m h2 => ?_
  · show PlainScalar (s1.flowLevel != 0) (s1.indent + 1) _ _ _ _
    rw [hfl, hin]; exact hp
  · show s1.flowLevel = 0 → s1.indent ≤ s1.mark.column
    rw [hfl, hin, hmk]; exact hcol
  · show s1.mark.column ≠ 0 ∨ _
    rw [hmk]; exact hdoc
  simp only [pushToken, M.wp_modify]
  have hns : NoSplit w (g ++ rest) := fun h => hcr h.1
  have h2' : Mv { s1 with simpleKeyAllowed := false } (w ++ (g ++ rest)) s2 rest := by rw [← hg1]; exact h2
  have hA := ((h1.allow false).ahead2 h2' (hg2 _ _ (Or.inr rfl)) hns (b := (A.save.allow false).allowed || ((A.save.allow false).flow == 0 && hasBrk g)) rfl)
  have hlen : rest.length < (w ++ t).length := by rw [hg1]; have := List.length_pos_iff.2 hw; simp; omega
  refine ⟨trivial, ?_, hlen⟩
  rw [hg1]
  have hst : (if brk = true then { s2 with simpleKeyAllowed := true } else s2) = { s2 with simpleKeyAllowed := brk } := by
    have : s2.simpleKeyAllowed = false := by rw [h2.1]
    cases brk
    · rw [if_neg (by simp)]; rw [← this]
    · rfl
  have hB : Ahead out ((A.save.allow (A.flow != 0 && brk)).eat w) (g ++ rest) (if brk = true then { s2 with simpleKeyAllowed := true } else s2) rest := by
    rw [hst]
    refine ⟨?_, hA.adv, ⟨g, rfl, hg2 _ _ ?_, ?_⟩, hA.flow, hA.indent, hA.indents, hA.keys, hA.toks, hA.parsed⟩
    · exact hA.op.allow brk
    · show A.save.flow ≠ 0 ∨ (A.flow != 0 && brk) = false
      rw [hsf]
      by_cases hf : A.flow = 0 <;> simp [hf]
    · show brk = ((A.flow != 0 && brk) || (A.save.flow == 0 && hasBrk g))
      rw [hsf, hg3]
      cases brk <;> by_cases hf : A.flow = 0 <;> simp [hf]
  exact hB.push (k := ⟨.scalar v .plain, s1.mark, m⟩) (by intro hh; cases hh)

/-- A literal or folded scalar. -/
theorem lex_block {lit : Bool} {w v g rest : Str} (hp : BlockScalar (!lit) A.indent (w ++ (g ++ rest)) v rest) (hg : Blanks g)
    (hs : NoSplit w (g ++ rest)) (hf : A.flow = 0) (hr : A.hot = false) (hw : w ≠ []) :
    Lex F A (w ++ (g ++ rest)) (((A.clear.allow true).eat w).push (.scalar v (if lit then .literal else .folded))) (g ++ rest) := by
  intro out s e h hF
  obtain ⟨c, w', rfl⟩ := List.exists_cons_of_ne_nil hw
  have hc : c = if lit then '|' else '>' := by
    obtain ⟨hd, chomp, inc, l, t0, c', t1, n, bs, t2, ls, t3, k, _, h2, _⟩ := hp
    simp at h2
    cases lit <;> simpa using h2.1
  have hfl0 : (s.flowLevel == 0) = true := by rw [h.flow, hf]; rfl
  have hdis : ∀ x y z, dispatch F s.mark s.flowLevel (some c) x y z = fetchBlockScalar F lit := by
    intro x y z; cases lit <;> simp [dispatch, hc, hfl0]
  simp only [List.cons_append, List.getElem?_cons_zero]
  rw [hdis]
  unfold fetchBlockScalar
  simp only [M.wp_bind]
  refine wp_remove h hr fun s1 h1 => ?_
  simp only [M.wp_bind, M.wp_modify, allowSimpleKey]
  have hin : s1.indent = A.indent := h1.indent
  refine wpT_scanBlockScalar (v := v) (rest := rest) ?_ (by simp at hF ⊢; omega) fun s2 m h2 => ?_
  · show BlockScalar (!lit) s1.indent _ _ _
    rw [hin]; exact hp
  simp only [pushToken, M.wp_modify]
  have h2' : Mv { s1 with simpleKeyAllowed := true } ((c :: w') ++ (g ++ rest)) s2 rest := h2
  have hA := ((h1.allow true).ahead2 h2' hg.ws hs (b := true) (by simp [Cfg.allow]))
  have hst : s2 = { s2 with simpleKeyAllowed := true } := by rw [h2.1]
  rw [← hst] at hA
  exact ⟨trivial, hA.push (k := ⟨.scalar v (if lit then .literal else .folded), s1.mark, m⟩) (by intro hh; cases hh), by simp; omega⟩

end

end Yaml.Lx
