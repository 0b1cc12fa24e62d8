import Verif.Lib.Spans3
import Verif.Props.Tiling
import Verif.Props.ParserSound

/-
C58: events and parser errors point to the right places of the text.
-/

namespace Yaml.Props
open Yaml Spec ParserObj
set_option linter.unusedSimpArgs false

variable {enc : Encoding} {items : List SrcItem} {T : List Char} {F : Nat} {evs : List Event} {o : ParserObj}

/-! ### Tokens do not overlap -/

theorem position_mono (p s : List Char) : le (position p) (position (p ++ s)) := by
  by_cases hc : p.getLast? = some '\r' ∧ s.head? = some '\n'
  · obtain ⟨h1, h2⟩ := hc
    obtain ⟨q, rfl⟩ : ∃ q, p = q ++ ['\r'] := by
      rcases List.eq_nil_or_concat p with rfl | ⟨q, c, rfl⟩
      · simp at h1
      · simp at h1; subst h1; exact ⟨q, by simp⟩
    obtain ⟨s', rfl⟩ : ∃ s', s = '\n' :: s' := by
      cases s with
      | nil => simp at h2
      | cons c s => simp at h2; subst h2; exact ⟨s, rfl⟩
    unfold position
    rw [advance_append _ q ['\r'] (by simp), show q ++ ['\r'] ++ '\n' :: s' = q ++ ('\r' :: '\n' :: s') by simp,
      advance_append _ q ('\r' :: '\n' :: s') (by simp), advance_crlf, advance_cons _ _ _ (by simp)]
    have h := advance_mono (Scanner.newlineMark 2 (advance ⟨0, 0, 0⟩ q)) s'
    simp only [advance, isBreak, Scanner.newlineMark] at h ⊢
    refine ⟨?_, ?_⟩
    · simp [lenUtf8]; omega
    · simp; omega
  · unfold position
    rw [advance_append _ p s hc]
    have := advance_mono (advance ⟨0, 0, 0⟩ p) s
    exact ⟨by omega, by omega⟩

theorem le_endMark (T : List Char) : le (position T) (Spec.endMark T) := ⟨Nat.le_refl _, Or.inl (Nat.lt_succ_self _)⟩

theorem not_position_endMark {T : List Char} : ¬ IsPosition T (Spec.endMark T) := by
  rintro ⟨pre, suf, h1, h2, h3⟩
  have h4 := position_mono pre suf
  rw [← h1, ← h3] at h4
  have := h4.2
  simp [Spec.endMark] at this
  omega

/-- Consecutive tokens. -/
theorem tiles_next {d : Nat} {st : List Nat} {p q : List Char} {A B : List Token} {t u : Token} (h : Tiles T d st p (A ++ t :: u :: B) q) :
    ∃ a b, MarkAt T a t.endMark ∧ MarkAt T (a ++ b) u.startMark ∧ ∃ r, T = a ++ b ++ r := by
  induction A generalizing d st p with
  | nil =>
    cases h with
    | cons hT hg hs he hw hl h =>
      cases h with
      | cons hT' hg' hs' he' hw' hl' h' => exact ⟨_, _, he, hs', _, by rw [hT'.trans (List.append_assoc _ _ _).symm]⟩
  | cons a A ih =>
    cases h with
    | cons hT hg hs he hw hl h => exact ih h

/-- C58 (with C11): tokens do not overlap; each ends before the next ones start. -/
theorem C58_tokens_disjoint {ts : List Token} {so : ScannerObj} (hT : Future enc items T) (hF : srcSize items + 2 < F)
    (h : ScannerObj.Reads F (ScannerObj.new items enc) ts so) (he : EndsOnce ts) : ts.Pairwise (fun a b => le a.endMark b.startMark) := by
  have h1 := C11_marks_ordered hT hF h he
  have h2 := C10_marks_are_positions hT hF h he
  obtain ⟨more, q, h3⟩ := C53_tokens_cover_the_text_so_far hT hF h he
  have hw : ∀ t ∈ ts, IsPosition T t.endMark ∨ t.startMark = t.endMark := by
    rcases reads_hist hT hF h he with h0 | ⟨s, hh⟩
    · simp at h0; rw [h0.1]; simp
    · exact fun t ht => hh.wide t (by simp [ht])
  have adj : ∀ A t u B, ts = A ++ t :: u :: B → le t.endMark u.startMark := by
    intro A t u B e
    rcases hw t (by rw [e]; simp) with hp | hp
    · rw [e] at h3
      rw [List.append_assoc, List.cons_append, List.cons_append] at h3
      obtain ⟨a, b, m1, m2, r, hr⟩ := tiles_next h3
      rcases m1 with m1 | ⟨_, m1⟩
      · rw [m1]
        rcases m2 with m2 | ⟨m3, m2⟩
        · rw [m2]; exact position_mono a b
        · rw [m2]
          refine Spec.le_trans ?_ (le_endMark T)
          rw [← m3]
          exact position_mono a b
      · rw [m1] at hp
        exact absurd hp not_position_endMark
    · rw [← hp]
      have := h1.1
      rw [e, List.pairwise_append] at this
      exact (List.pairwise_cons.1 this.2.1).1 u (by simp)
  have gen : ∀ A B, ts = A ++ B → B.Pairwise (fun a b => le a.endMark b.startMark) := by
    intro A B
    induction B generalizing A with
    | nil => intro _; exact .nil
    | cons t B ih =>
      intro e
      refine List.pairwise_cons.2 ⟨?_, ih (A ++ [t]) (by rw [e]; simp)⟩
      intro u hu
      cases B with
      | nil => cases hu
      | cons v B =>
        have hv := adj A t v B e
        rcases List.mem_cons.1 hu with rfl | hu
        · exact hv
        · have := h1.1
          rw [e, List.pairwise_append] at this
          have := (List.pairwise_cons.1 (List.pairwise_cons.1 this.2.1).2).1 u hu
          exact Spec.le_trans hv this
  exact gen [] ts rfl

/-! ### Events -/

/-- The calls so far. -/
theorem located_inv {ts : List Token} {fin : Out Token} (hs : Scans F (ScannerObj.new items enc) ts fin)
    (hl : ts.length < F) (hfin : (∃ e, fin = .err e) ∨ ∃ x, fin = .panic x) (h : Parses F (new items enc) evs o) :
    ∃ evs1 n G D c toks st pk, evs = evs1 ++ List.replicate n ⟨.streamEnd, Mark.zero, Mark.zero⟩ ∧ PInv F ts fin evs1 o G D c toks st pk ∧
      (n ≠ 0 → o.p.state = .end_) ∧ Located ts c evs1 ∧ ∀ m ∈ o.p.marks, ∃ u ∈ c, m = u.startMark := by
  induction h with
  | nil => exact ⟨[], 0, _, _, _, _, _, _, rfl, PInv.start hs, by simp, .nil, by simp [ParserObj.new, PState.new]⟩
  | @snoc evs e o1 o2 h hstep ih =>
    obtain ⟨evs1, n, G, D, c, toks, st, pk, rfl, hp, hn, hc, hm⟩ := ih
    by_cases hend : o1.p.state = .end_
    · rw [PInv.ended hend] at hstep
      simp at hstep
      obtain ⟨rfl, rfl⟩ := hstep
      exact ⟨evs1, n + 1, G, D, c, toks, st, pk, by rw [List.append_assoc, List.replicate_succ'], hp, fun _ => hend, hc, hm⟩
    · have hn0 : n = 0 := by
        by_cases h : n = 0
        · exact h
        · exact absurd (hn h) hend
      subst hn0
      have el := congrArg List.length hp.split
      simp only [List.length_append] at el
      have hw : wpA (Parser.parse F) (SpanRes toks o1.p.marks) o1.p (lv toks fin st pk) := by
        refine Free.wp_mono stepL_mono ?_ (wpM_parse (F := F) (fin := fin) (st := st) (pk := pk) (by omega) hp.good hend)
        rintro ⟨r, p'⟩ g' h
        cases r with
        | ok r => exact h
        | err e => trivial
        | panic x => trivial
        | fuel => exact h
      have := hp.parse_with hl hfin hend hw
      rw [hstep] at this
      obtain ⟨G', D', c', toks', pk', hp', g', rfl, c1, h1, h2, h3⟩ := this
      have hc' : c' = c ++ c1 := by
        have e1 := hp'.split
        rw [hp.split, h1, ← List.append_assoc] at e1
        exact (List.append_cancel_right e1).symm
      subst hc'
      refine ⟨evs1 ++ [e], 0, G', D', c ++ c1, g'.toks, true, pk', by simp, hp', by simp, .snoc hc (by rw [hp.split, h1]) h2, ?_⟩
      intro m hm'
      rcases h3 m hm' with h | ⟨u, hu, h⟩
      · obtain ⟨u, hu, h⟩ := hm m h
        exact ⟨u, by simp [hu], h⟩
      · exact ⟨u, by simp [hu], h⟩

/-- C58.  The events are made from consecutive shares of the tokens that a scanner alone returns on the same input, and have the marks
which belong to their shares. -/
theorem C58_event_marks (hF : 4 * srcSize items + 4 < F) (h : Parses F (new items enc) evs o) (he : EventsEndOnce evs) :
    ∃ ts so c, ScannerObj.Reads F (ScannerObj.new items enc) ts so ∧ EndsOnce ts ∧ Located ts c evs := by
  obtain ⟨T, hT⟩ := Future.exists enc items
  obtain ⟨ts, fin, h1, h2, h3, h4⟩ := tokens_of_input hT hF
  obtain ⟨evs1, n, G, D, c, toks, st, pk, g1, g2, g3, g4, _⟩ := located_inv h1 h3 (h4.imp (fun ⟨e, h, _⟩ => ⟨e, h⟩) (fun ⟨e, h, _⟩ => ⟨e, h⟩)) h
  have : n = 0 := by
    cases n with
    | zero => rfl
    | succ n =>
      exfalso
      obtain ⟨e, hm, hd⟩ := (ended_state g2).1 (g3 (by simp))
      rw [g1, List.replicate_succ', ← List.append_assoc, EventsEndOnce, List.dropLast_concat] at he
      rw [he e (by simp [hm])] at hd
      simp at hd
  subst this
  simp at g1
  subst g1
  obtain ⟨so, hr⟩ := h1.reads (List.append_nil ts).symm
  exact ⟨ts, so, c, hr, scans_once h1, g4⟩

theorem spans_mem {e : Event} {l all : List Token} (h : Spans e l) (hl : ∀ t ∈ l, t ∈ all) :
    (∃ t ∈ all, e.startMark = t.startMark) ∧ ∃ t ∈ all, e.endMark = t.endMark := by
  obtain ⟨⟨t, ht, h1⟩, u, hu, h2⟩ := h
  exact ⟨⟨t, hl t (List.mem_of_head? ht), h1⟩, u, hl u (List.mem_of_getLast? hu), h2⟩

/-- The marks of an event are marks of tokens. -/
theorem placed_mem {c rest : List Token} {e : Event} (h : Placed c rest e) :
    (∃ t ∈ c ++ rest, e.startMark = t.startMark ∨ e.startMark = t.endMark) ∧ ∃ t ∈ c ++ rest, e.endMark = t.startMark ∨ e.endMark = t.endMark := by
  have key : ∀ l, Spans e l → (∀ t ∈ l, t ∈ c ++ rest) →
      (∃ t ∈ c ++ rest, e.startMark = t.startMark ∨ e.startMark = t.endMark) ∧ ∃ t ∈ c ++ rest, e.endMark = t.startMark ∨ e.endMark = t.endMark := by
    intro l h1 h2
    obtain ⟨⟨t, ht, a⟩, u, hu, b⟩ := spans_mem h1 h2
    exact ⟨⟨t, ht, .inl a⟩, u, hu, .inr b⟩
  cases h with
  | streamStart he hs => exact key _ hs (by simp)
  | streamEnd he ht hs => exact key _ hs (by simp)
  | documentStart he h0 hds ht hs => exact key _ hs (by simp +contextual [or_imp])
  | implicitStart he hs => exact key _ hs (by simp)
  | documentEnd he ht hs => exact key _ hs (by simp)
  | @implicitEnd t rest e he hs => exact ⟨⟨t, by simp, .inl hs.1⟩, t, by simp, .inl hs.2⟩
  | alias he h0 ht hs => exact key _ hs (by simp)
  | scalar he h0 hp hn ht hs => exact key _ hs (by simp +contextual [or_imp])
  | bare he h0 hp hs => exact key _ hs (by intro t h; simp [h])
  | opens h0 hp ht hs => exact key _ hs (by simp +contextual [or_imp])
  | pair he h0 ht hs => exact key _ hs (by simp)
  | closes h0 ht hs => exact key _ hs (by simp)
  | ends he hs => exact key _ hs (by simp)
  | @omittedAfter c0 t rest e he h0 hs => exact ⟨⟨t, by simp, .inr hs.1⟩, t, by simp, .inr hs.2⟩
  | @omittedBefore c0 t rest e he h0 hs => exact ⟨⟨t, by simp, .inl hs.1⟩, t, by simp, .inl hs.2⟩

/-- The share of an event in the middle. -/
theorem located_at {all ts : List Token} {pre post : List Event} {e : Event} (h : Located all ts (pre ++ e :: post)) :
    ∃ A c rest, all = A ++ (c ++ rest) ∧ Located all A pre ∧ Placed c rest e := by
  generalize hl : pre ++ e :: post = l at h
  induction h generalizing post with
  | nil => simp at hl
  | @snoc ts c rest evs' e' h hs hp ih =>
    rcases List.eq_nil_or_concat post with rfl | ⟨post', x, rfl⟩
    · obtain ⟨rfl, h2⟩ := List.append_inj' hl rfl
      cases h2
      exact ⟨ts, c, rest, hs, h, hp⟩
    · have hl : (pre ++ e :: post') ++ [x] = evs' ++ [e'] := by rw [← hl]; simp
      obtain ⟨h1, h2⟩ := List.append_inj' hl rfl
      exact ih h1

/-- C58.  All marks of events are positions in the text. -/
theorem C58_positions (hT : Future enc items T) (hF : 4 * srcSize items + 4 < F) (h : Parses F (new items enc) evs o) (he : EventsEndOnce evs) :
    ∀ e ∈ evs, IsMark T e.startMark ∧ IsMark T e.endMark := by
  obtain ⟨ts, so, c, hr, hends, hloc⟩ := C58_event_marks hF h he
  have hm := C10_marks_are_positions hT (by omega) hr hends
  intro e hmem
  obtain ⟨pre, post, rfl⟩ := List.append_of_mem hmem
  obtain ⟨A, c', rest, hall, _, hp⟩ := located_at hloc
  obtain ⟨⟨t, ht, h1⟩, u, hu, h2⟩ := placed_mem hp
  have g1 := hm t (by rw [hall]; exact List.mem_append_right _ ht)
  have g2 := hm u (by rw [hall]; exact List.mem_append_right _ hu)
  constructor
  · rcases h1 with h1 | h1 <;> rw [h1]
    · exact g1.1
    · exact g1.2
  · rcases h2 with h2 | h2 <;> rw [h2]
    · exact g2.1
    · exact g2.2

/-- C58.  A scalar event with content is spelled by the text before its end mark; without properties this text starts at its start mark. -/
theorem C58_scalar_text (hT : Future enc items T) (hF : 4 * srcSize items + 4 < F) {pre post : List Event} {e : Event}
    (h : Parses F (new items enc) (pre ++ e :: post) o) (he : EventsEndOnce (pre ++ e :: post)) {a tag : Option Str} {v : Str} {p q : Bool} {s : ScalarStyle}
    (hd : e.data = .scalar a tag v p q s) (hv : v ≠ [] ∨ s ≠ .plain) :
    ∃ x w r t flow n, T = x ++ (w ++ r) ∧ t.data = .scalar v s ∧ Spells flow n t w r ∧ MarkAt T (x ++ w) e.endMark ∧
      (a = none → tag = none → MarkAt T x e.startMark) := by
  obtain ⟨ts, so, c, hr, hends, hloc⟩ := C58_event_marks hF h he
  obtain ⟨A, c', rest, hall, _, hp⟩ := located_at hloc
  have no : ∀ {a' tag' p'}, e.data = .scalar a' tag' [] p' false .plain → False := by
    intro a' tag' p' h
    rw [hd] at h
    simp at h
    rcases hv with hv | hv
    · exact hv h.2.2.1
    · exact hv h.2.2.2.2.2
  cases hp with
  | @scalar c0 ps t rest e a' tag' v' p' q' s' he' h0 hp hn ht hs =>
    rw [hd] at he'
    simp at he'
    obtain ⟨rfl, rfl, rfl, rfl, rfl, rfl⟩ := he'
    rw [show ts = (A ++ (c0 ++ ps)) ++ t :: rest by rw [hall]; simp] at hr hends
    obtain ⟨x, w, r, g1, g2, g3, d, st, _, g4⟩ := C53_each_token_is_in_the_text hT (by omega) hr hends
    obtain ⟨⟨b, hb, h1⟩, b', hb', h2⟩ := hs
    simp at hb'
    subst hb'
    refine ⟨x, w, r, t, _, _, g1, ht, g4, by rw [h2]; exact g3, ?_⟩
    intro ha htg
    rw [hn ha htg] at hb
    simp at hb
    subst hb
    rw [h1]
    exact g2
  | opens h0 hp ht hs => rw [hd] at ht; exact ht.elim
  | closes h0 ht hs => rw [hd] at ht; exact ht.elim
  | bare he' => exact (no he').elim
  | omittedAfter he' => exact (no he').elim
  | omittedBefore he' => exact (no he').elim
  | ends he' => rw [hd] at he'; simp at he'
  | streamStart he' => rw [hd] at he'; simp at he'
  | streamEnd he' => rw [hd] at he'; simp at he'
  | documentStart he' => rw [hd] at he'; simp at he'
  | implicitStart he' => rw [hd] at he'; simp at he'
  | documentEnd he' => rw [hd] at he'; simp at he'
  | implicitEnd he' => rw [hd] at he'; simp at he'
  | alias he' => rw [hd] at he'; simp at he'
  | pair he' => rw [hd] at he'; simp at he'

/-- How the tokens are ordered. -/
structure InOrder (all : List Token) : Prop where
  starts : all.Pairwise (fun a b => le a.startMark b.startMark)
  ends : all.Pairwise (fun a b => le a.endMark b.startMark)
  wide : ∀ t ∈ all, le t.startMark t.endMark

theorem InOrder.right {A B : List Token} (h : InOrder (A ++ B)) : InOrder B :=
  ⟨(List.pairwise_append.1 h.starts).2.1, (List.pairwise_append.1 h.ends).2.1, fun t ht => h.wide t (by simp [ht])⟩

theorem InOrder.left {A B : List Token} (h : InOrder (A ++ B)) : InOrder A :=
  ⟨(List.pairwise_append.1 h.starts).1, (List.pairwise_append.1 h.ends).1, fun t ht => h.wide t (by simp [ht])⟩

theorem spans_order {e : Event} {l : List Token} (h : Spans e l) (ho : InOrder l) : le e.startMark e.endMark ∧ ∀ u ∈ l, le e.startMark u.startMark := by
  obtain ⟨⟨t, ht, h1⟩, u, hu, h2⟩ := h
  obtain ⟨l', rfl⟩ : ∃ l', l = t :: l' := by cases l with | nil => simp at ht | cons a l => simp at ht; subst ht; exact ⟨l, rfl⟩
  have all : ∀ v ∈ t :: l', le t.startMark v.startMark := by
    intro v hv
    rcases List.mem_cons.1 hv with rfl | hv
    · exact Spec.le_refl _
    · exact (List.pairwise_cons.1 ho.starts).1 v hv
  rw [h1, h2]
  have hm := List.mem_of_getLast? hu
  exact ⟨Spec.le_trans (all u hm) (ho.wide u hm), all⟩

/-- An event starts before the tokens to come, and not before the first of its share (or of those to come). -/
theorem placed_order {c rest : List Token} {e : Event} (h : Placed c rest e) (ho : InOrder (c ++ rest)) :
    le e.startMark e.endMark ∧ (∀ u ∈ rest, le e.startMark u.startMark) ∧ ∃ u ∈ c ++ rest, le u.startMark e.startMark := by
  have key : ∀ c0 l, c = c0 ++ l → l ≠ [] → Spans e l →
      le e.startMark e.endMark ∧ (∀ u ∈ rest, le e.startMark u.startMark) ∧ ∃ u ∈ c ++ rest, le u.startMark e.startMark := by
    rintro c0 l rfl hne h1
    rw [List.append_assoc] at ho
    have ho' := ho.right
    obtain ⟨g1, g2⟩ := spans_order h1 ho'.left
    obtain ⟨⟨t, ht, h2⟩, _⟩ := h1
    have hm := List.mem_of_head? ht
    refine ⟨g1, fun u hu => ?_, t, by simp [hm], by rw [h2]; exact Spec.le_refl _⟩
    exact Spec.le_trans (g2 t hm) ((List.pairwise_append.1 ho'.starts).2.2 t hm u hu)
  have next : ∀ t r, rest = t :: r → e.startMark = t.startMark → ∀ u ∈ rest, le e.startMark u.startMark := by
    rintro t r rfl h1 u hu
    rw [h1]
    rcases List.mem_cons.1 hu with rfl | hu
    · exact Spec.le_refl _
    · exact (List.pairwise_cons.1 ho.right.starts).1 u hu
  have one : ∀ t r, rest = t :: r → Spans e [t] →
      le e.startMark e.endMark ∧ (∀ u ∈ rest, le e.startMark u.startMark) ∧ ∃ u ∈ c ++ rest, le u.startMark e.startMark := by
    rintro t r hr h1
    have h2 : e.startMark = t.startMark := by obtain ⟨⟨u, hu, h⟩, _⟩ := h1; simp at hu; subst hu; exact h
    have h3 : e.endMark = t.endMark := by obtain ⟨_, u, hu, h⟩ := h1; simp at hu; subst hu; exact h
    refine ⟨?_, next t r hr h2, t, by simp [hr], by rw [h2]; exact Spec.le_refl _⟩
    rw [h2, h3]
    exact ho.wide t (by simp [hr])
  have point : ∀ t r, rest = t :: r → Point e t.startMark →
      le e.startMark e.endMark ∧ (∀ u ∈ rest, le e.startMark u.startMark) ∧ ∃ u ∈ c ++ rest, le u.startMark e.startMark := by
    rintro t r hr ⟨h1, h2⟩
    refine ⟨by rw [h1, h2]; exact Spec.le_refl _, next t r hr h1, t, by simp [hr], by rw [h1]; exact Spec.le_refl _⟩
  cases h with
  | streamStart he hs => exact key [] _ rfl (by simp) hs
  | streamEnd he ht hs => exact key _ _ rfl (by simp) hs
  | documentStart he h0 hds ht hs => exact key _ _ rfl (by simp) hs
  | implicitStart he hs => exact one _ _ rfl hs
  | documentEnd he ht hs => exact key [] _ rfl (by simp) hs
  | implicitEnd he hs => exact point _ _ rfl hs
  | alias he h0 ht hs => exact key _ _ rfl (by simp) hs
  | scalar he h0 hp hn ht hs => exact key _ _ rfl (by simp) hs
  | @bare c0 ps rest e a tag p he h0 hp hs =>
    refine key c0 ps rfl ?_ hs
    rintro rfl
    obtain ⟨⟨t, ht, _⟩, _⟩ := hs
    simp at ht
  | @opens c0 ps t rest e h0 hp ht hs =>
    cases ps with
    | nil => exact one t rest rfl hs
    | cons a ps =>
      have ho1 : InOrder (c0 ++ ((a :: ps ++ [t]) ++ rest)) := by simpa using ho
      obtain ⟨g1, g2⟩ := spans_order hs ho1.right.left
      obtain ⟨⟨b, hb, h2⟩, _⟩ := hs
      have hm := List.mem_of_head? hb
      refine ⟨g1, fun u hu => ?_, b, by simp at hm ⊢; rcases hm with h | h | h <;> simp [h], by rw [h2]; exact Spec.le_refl _⟩
      rcases List.mem_cons.1 hu with rfl | hu
      · exact g2 u (by simp)
      · exact Spec.le_trans (g2 b hm) ((List.pairwise_append.1 ho1.right.starts).2.2 b hm u hu)
  | pair he h0 ht hs => exact key _ _ rfl (by simp) hs
  | closes h0 ht hs => exact key _ _ rfl (by simp) hs
  | ends he hs => exact one _ _ rfl hs
  | @omittedAfter c0 t rest e he h0 hs =>
    refine ⟨by rw [hs.1, hs.2]; exact Spec.le_refl _, fun u hu => ?_, t, by simp, by rw [hs.1]; exact ho.wide t (by simp)⟩
    rw [hs.1]
    exact (List.pairwise_append.1 ho.ends).2.2 t (by simp) u hu
  | omittedBefore he h0 hs => exact point _ _ rfl hs

theorem located_order {all ts : List Token} {evs : List Event} (h : Located all ts evs) (ho : InOrder all) :
    EventsOrdered evs ∧ ∀ rest, all = ts ++ rest → ∀ e ∈ evs, ∀ u ∈ rest, le e.startMark u.startMark := by
  induction h with
  | nil => exact ⟨⟨.nil, by simp⟩, by simp⟩
  | @snoc ts c rest evs e h hs hp ih =>
    obtain ⟨⟨ih1, ih2⟩, ih3⟩ := ih
    rw [hs] at ho
    obtain ⟨g1, g2, u, hu, g3⟩ := placed_order hp ho.right
    refine ⟨⟨?_, ?_⟩, ?_⟩
    · rw [List.pairwise_append]
      refine ⟨ih1, by simp, ?_⟩
      intro a ha b hb
      simp at hb; subst hb
      exact Spec.le_trans (ih3 _ hs a ha u hu) g3
    · intro a ha
      rcases List.mem_append.1 ha with ha | ha
      · exact ih2 a ha
      · simp at ha; subst ha; exact g1
    · intro rest' hr a ha v hv
      have : rest' = rest := by
        rw [hs, ← List.append_assoc] at hr
        exact (List.append_cancel_left hr).symm
      subst this
      rcases List.mem_append.1 ha with ha | ha
      · exact ih3 _ hs a ha v (by simp [hv])
      · simp at ha; subst ha; exact g2 v hv

/-- C58.  Events are in the order of the text: their start marks never go backwards, and none ends before it starts. -/
theorem C58_order (hF : 4 * srcSize items + 4 < F) (h : Parses F (new items enc) evs o) (he : EventsEndOnce evs) : EventsOrdered evs := by
  obtain ⟨T, hT⟩ := Future.exists enc items
  obtain ⟨ts, so, c, hr, hends, hloc⟩ := C58_event_marks hF h he
  have h1 := C11_marks_ordered hT (by omega) hr hends
  exact (located_order hloc ⟨h1.1, C58_tokens_disjoint hT (by omega) hr hends, h1.2⟩).1

/-! ### Errors -/

/-- C58.  A parser error points at a token: the problem mark is the start of one of the tokens that a scanner alone returns on the same
input, the context mark, if there is a context, the start of this token or of an earlier one. -/
theorem C58_error_marks (hF : 4 * srcSize items + 4 < F) (h : Parses F (new items enc) evs o) {c pr : String} {cm pm : Mark}
    (hx : (o.parse F).1 = .err (.parser c cm pr pm)) :
    ∃ ts so, ScannerObj.Reads F (ScannerObj.new items enc) ts so ∧ EndsOnce ts ∧ ErrorPlaced ts c cm pm := by
  obtain ⟨T, hT⟩ := Future.exists enc items
  obtain ⟨ts, fin, h1, h2, h3, h4⟩ := tokens_of_input hT hF
  have hfin : (∃ e, fin = .err e) ∨ ∃ x, fin = .panic x := h4.imp (fun ⟨e, h, _⟩ => ⟨e, h⟩) (fun ⟨e, h, _⟩ => ⟨e, h⟩)
  obtain ⟨evs1, n, G, D, d, toks, st, pk, g1, g2, g3, g4, g5⟩ := located_inv h1 h3 hfin h
  obtain ⟨so, hr⟩ := h1.reads (List.append_nil ts).symm
  refine ⟨ts, so, hr, scans_once h1, ?_⟩
  have hne : o.p.state ≠ .end_ := by
    intro hend
    rw [PInv.ended hend] at hx
    simp at hx
  have hend : (o.p.state == .end_) = false := by simpa using hne
  have hrel := g2.rel
  rw [hend] at hrel
  have el := congrArg List.length g2.split
  simp only [List.length_append] at el
  have hw : M.wp stepL NoP (fun e _ _ => fin = .err e ∨ SpanErr toks o.p.marks e) (Parser.parse F) (fun _ _ _ => True) o.p (lv toks fin st pk) := by
    have a := wp_parse (F := F) (fin := fin) (st := st) (pk := pk) (by omega) g2.good hne
    have b := wpM_parse (F := F) (fin := fin) (st := st) (pk := pk) (by omega) g2.good hne
    refine Free.wp_mono stepL_mono ?_ (wp_andL _ _ _ _ a b)
    rintro ⟨r, s'⟩ b' ⟨h1, h2⟩
    cases r with
    | ok a => trivial
    | err e => exact h2
    | panic p => exact h1
    | fuel => exact h1
  have := run_of_wp (F := F) (m := Parser.parse F) (o := o) hw hrel hfin
  have e : o.parse F = o.run F (Parser.parse F) := rfl
  rw [e] at hx
  generalize o.run F (Parser.parse F) = q at this hx
  obtain ⟨out, o'⟩ := q
  subst hx
  obtain ⟨g', hE, _⟩ := this
  rcases hE with hE | ⟨c', cm', pr', pm', A, t, B, he, hs, hp, hc⟩
  · rcases h4 with ⟨e, he, hm⟩ | ⟨x, hx, _⟩
    · rw [hE] at he
      cases he
      rcases hm with hm | ⟨_, _, _, _, hm, _⟩
      · rcases hm with ⟨_, _, _, hm⟩ | ⟨_, hm⟩ <;> simp at hm
      · simp at hm
    · rw [hE] at hx; simp at hx
  · simp at he
    obtain ⟨rfl, rfl, rfl, rfl⟩ := he
    refine ⟨d ++ A, t, B, by rw [g2.split, hs]; simp, hp, ?_⟩
    rcases hc with ⟨a, b⟩ | hc | ⟨u, hu, hc⟩
    · exact .inl ⟨a, b⟩
    · obtain ⟨u, hu, hm⟩ := g5 _ hc
      exact .inr ⟨u, by simp [hu], hm⟩
    · exact .inr ⟨u, by simp at hu ⊢; rcases hu with h | h <;> simp [h], hc⟩

/-! ### Concrete cases -/

/-- The text `- !!str &a b`, `-`, `- [x: ]`. -/
def markSample : List SrcItem := [.data ((cs! "- !!str &a b\n-\n").map fun c => UInt8.ofNat c.toNat), .data ((cs! "- [x: ]\n").map fun c => UInt8.ofNat c.toNat)]

/-- The hypotheses of the theorems above are met; the marks of its events. -/
theorem C58_sample : Parses 200 (new markSample) (parseN 200 13 (new markSample)).1 (parseN 200 13 (new markSample)).2.2 ∧
    4 * srcSize markSample + 4 < 200 ∧ EventsEndOnce (parseN 200 13 (new markSample)).1 ∧
    (parseN 200 13 (new markSample)).1.map (fun e => (e.startMark.index, e.endMark.index)) =
      [(0, 0), (0, 0), (0, 0), (2, 12), (14, 14), (17, 18), (18, 18), (18, 19), (21, 21), (21, 22), (21, 22), (23, 23), (23, 23)] :=
  ⟨parseN_parses _ _ (by decide +kernel), by decide +kernel, by unfold EventsEndOnce; decide +kernel, by decide +kernel⟩

/-- The text `- x`, `- k: a`, `  b: c`, `  - d`: the last line is wrong in the mapping that starts in the second. -/
def markError : List SrcItem := [.data ((cs! "- x\n- k: a\n  b: c\n  - d").map fun c => UInt8.ofNat c.toNat)]

/-- The hypotheses of `C58_error_marks` are met; the error points to the start of the mapping and to the wrong `-`. -/
theorem C58_error_sample : Parses 200 (new markError) (parseN 200 9 (new markError)).1 (parseN 200 9 (new markError)).2.2 ∧ 4 * srcSize markError + 4 < 200 ∧
    ((parseN 200 9 (new markError)).2.2.parse 200).1 = .err (.parser "while parsing a block mapping" ⟨6, 1, 2⟩ "did not find expected key" ⟨20, 3, 2⟩) :=
  ⟨parseN_parses _ _ (by decide +kernel), by decide +kernel, by decide +kernel⟩

end Yaml.Props
