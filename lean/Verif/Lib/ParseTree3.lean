import Verif.Lib.ParseTree2
import Verif.Lib.TextScan

/-
Tokens that derive from the grammar are parsed to the events they stand for: documents and streams.
-/

namespace Yaml
open Spec Parser
set_option linter.unusedSimpArgs false
set_option linter.unusedVariables false

variable {fin : Out Token} {F : Nat} {D : List TagDirective}

theorem append_new {p : PState} {g : Toks} {Q : Unit → PState → Toks → Prop} {v : TagDirective} {dup : Bool} {m : Mark}
    (hn : ∀ d ∈ p.tagDirectives, v.handle ≠ d.handle) (hQ : Q () { p with tagDirectives := p.tagDirectives ++ [v] } g) :
    M.wp stepL NoP NoE (appendTagDirective v dup m) Q p g := by
  unfold appendTagDirective
  pws
  rw [if_neg (by simpa using hn)]
  exact hQ

theorem append_default {p : PState} {g : Toks} {Q : Unit → PState → Toks → Prop} {v : TagDirective} {m : Mark}
    (hQ : Q () { p with tagDirectives := addDir p.tagDirectives v } g) :
    M.wp stepL NoP NoE (appendTagDirective v true m) Q p g := by
  unfold appendTagDirective
  pws
  unfold addDir at hQ
  split
  · rename_i h
    rw [if_pos h] at hQ
    rw [if_pos trivial]
    exact hQ
  · rename_i h
    rw [if_neg h] at hQ
    exact hQ

theorem run_directiveLoop {ds : List TokenData} {v : Option VersionDirective} {tags : List TagDirective} (hd : IsDirectives ds v tags) :
    ∀ {F : Nat} {l : List Token} {t : Token} {rest : List Token} {p : PState} {st pk : Bool} {v0 : Option VersionDirective} {tags0 : List TagDirective}
      {Q : Option VersionDirective × List TagDirective × Token → PState → Toks → Prop},
      l.map (·.data) = ds → l.length < F → (∀ a b, t.data ≠ .versionDirective a b) → (∀ a b, t.data ≠ .tagDirective a b) →
      p.tagDirectives = tags0 → (v = none ∨ v0 = none) → (∀ d ∈ tags, ∀ e ∈ tags0, d.handle ≠ e.handle) →
      Q (v.or v0, tags0 ++ tags, t) { p with tagDirectives := tags0 ++ tags } (lv (t :: rest) fin true true) →
      M.wp stepL NoP NoE (M.loop F (fun ((version, tags) : Option VersionDirective × List TagDirective) => do
        let token ← peek
        match token.data with
        | .versionDirective major minor =>
          if version.isSome then
            parserError "" Mark.zero "found duplicate %YAML directive" token.startMark
          else if major != 1 || (minor != 1 && minor != 2) then
            parserError "" Mark.zero "found incompatible YAML document" token.startMark
          else do
            skip
            pure (.inl (some ⟨major, minor⟩, tags))
        | .tagDirective handle prefix_ => do
          (M.prim (TokOp.setFront (.tagDirective [] [])) : Pars Unit)
          appendTagDirective ⟨handle, prefix_⟩ false token.startMark
          skip
          pure (.inl (version, tags ++ [⟨handle, prefix_⟩]))
        | _ => pure (.inr (version, tags, token))) (v0, tags0)) Q p (lv (l ++ t :: rest) fin st pk) := by
  induction hd with
  | none =>
    intro F l t rest p st pk v0 tags0 Q hl hF h1 h2 hp hv hn hQ
    have : l = [] := List.map_eq_nil_iff.1 hl
    subst this
    obtain ⟨F, rfl⟩ : ∃ n, F = n + 1 := ⟨F - 1, by simp at hF; omega⟩
    rw [M.wp_loop_succ]
    simp only [List.nil_append]
    pws
    obtain ⟨d, m1, m2⟩ := t
    have : Q (v0, tags0, ⟨d, m1, m2⟩) p (lv (⟨d, m1, m2⟩ :: rest) fin true true) := by
      have : ({ p with tagDirectives := tags0 ++ [] } : PState) = p := by rw [List.append_nil, ← hp]
      rw [this, List.append_nil] at hQ
      exact hQ
    cases d with
    | versionDirective a b => exact absurd rfl (h1 a b)
    | tagDirective a b => exact absurd rfl (h2 a b)
    | _ => exact this
  | @version ts tags h minor hm ih =>
    intro F l t rest p st pk v0 tags0 Q hl hF h1 h2 hp hv hn hQ
    obtain ⟨⟨d, m1, m2⟩, l', rfl, hd, hl'⟩ := List.map_eq_cons_iff.1 hl
    simp only at hd; subst hd
    obtain ⟨F, rfl⟩ : ∃ n, F = n + 1 := ⟨F - 1, by simp at hF; omega⟩
    have hv0 : v0 = Option.none := by simpa using hv
    subst hv0
    rw [M.wp_loop_succ]
    simp only [List.cons_append]
    pws
    rw [if_neg (by simp), if_neg (by rcases hm with rfl | rfl <;> simp)]
    pws
    rw [wp_skip_lv (by simp)]
    refine ih hl' (by simp at hF; omega) h1 h2 hp (Or.inl rfl) hn ?_
    exact hQ
  | @tag ts v tags h d hd ih =>
    intro F l t rest p st pk v0 tags0 Q hl hF h1 h2 hp hv hn hQ
    obtain ⟨⟨d', m1, m2⟩, l', rfl, hd', hl'⟩ := List.map_eq_cons_iff.1 hl
    simp only at hd'; subst hd'
    obtain ⟨F, rfl⟩ : ∃ n, F = n + 1 := ⟨F - 1, by simp at hF; omega⟩
    rw [M.wp_loop_succ]
    simp only [List.cons_append]
    pws
    rw [M.wp_prim]
    refine ⟨by simp, rfl, rfl, _, _, rfl, by simp, ?_⟩
    refine append_new (by rw [hp]; exact hn d (by simp)) ?_
    rw [wp_skip_lv (by simp)]
    refine ih hl' (by simp at hF; omega) h1 h2 (by simp [hp]) hv ?_ ?_
    · intro e he f hf
      rcases List.mem_append.1 hf with hf | hf
      · exact hn e (List.mem_cons_of_mem _ he) f hf
      · simp at hf; subst hf; exact hd e he
    · rw [List.append_assoc]
      exact hQ

theorem run_processDirectives {ds : List TokenData} {v : Option VersionDirective} {tags : List TagDirective} (hd : IsDirectives ds v tags)
    {F : Nat} {l : List Token} {t : Token} {rest : List Token} {p : PState} {st pk : Bool}
    {Q : Option VersionDirective × List TagDirective → PState → Toks → Prop}
    (hl : l.map (·.data) = ds) (hF : l.length < F) (h1 : ∀ a b, t.data ≠ .versionDirective a b) (h2 : ∀ a b, t.data ≠ .tagDirective a b)
    (hp : p.tagDirectives = []) (hQ : Q (v, tags) { p with tagDirectives := withDefaults tags } (lv (t :: rest) fin true true)) :
    M.wp stepL NoP NoE (processDirectives F) Q p (lv (l ++ t :: rest) fin st pk) := by
  unfold processDirectives directiveLoop
  rw [M.wp_bind]
  refine run_directiveLoop hd hl hF h1 h2 hp (Or.inr rfl) (by simp) ?_
  pws
  refine append_default ?_
  refine append_default ?_
  unfold withDefaults at hQ
  simpa using hQ

theorem run_skipDocumentEnds {c : List Token} {t : Token} {rest : List Token} {p : PState} {Q : Token → PState → Toks → Prop}
    (hc : ∀ t ∈ c, t.data = .documentEnd) (ht : t.data ≠ .documentEnd) (hQ : Q t p (lv (t :: rest) fin true true)) :
    ∀ {F : Nat} {st pk : Bool}, c.length < F → M.wp stepL NoP NoE (skipDocumentEnds F false) Q p (lv (c ++ t :: rest) fin st pk) := by
  unfold skipDocumentEnds
  simp only [Bool.false_eq_true, if_false]
  induction c with
  | nil =>
    intro F st pk hF
    obtain ⟨F, rfl⟩ : ∃ n, F = n + 1 := ⟨F - 1, by simp at hF; omega⟩
    rw [M.wp_loop_succ]
    simp only [List.nil_append]
    pws
    rw [if_neg (by simpa using ht)]
    exact hQ
  | cons a c ih =>
    intro F st pk hF
    obtain ⟨F, rfl⟩ : ∃ n, F = n + 1 := ⟨F - 1, by simp at hF; omega⟩
    have ha := hc a (by simp)
    rw [M.wp_loop_succ]
    simp only [List.cons_append]
    pws
    rw [if_pos (by simp [ha])]
    pws
    rw [wp_skip_lv (by simp [ha])]
    exact ih (fun t ht => hc t (List.mem_cons_of_mem _ ht)) (by simp at hF; omega)

/-- The beginning of `parse_document_start`. -/
theorem run_documentEnds {implicit : Bool} {c : List Token} {t : Token} {rest : List Token} {p : PState} {Q : Token → PState → Toks → Prop}
    (hc : ∀ t ∈ c, t.data = .documentEnd) (hi : implicit = true → c = []) (ht : t.data ≠ .documentEnd) (hQ : Q t p (lv (t :: rest) fin true true))
    {F : Nat} {st pk : Bool} (hF : c.length < F) : M.wp stepL NoP NoE (skipDocumentEnds F implicit) Q p (lv (c ++ t :: rest) fin st pk) := by
  cases implicit with
  | false => exact run_skipDocumentEnds hc ht hQ hF
  | true =>
    rw [hi rfl]
    unfold skipDocumentEnds
    simp only [List.nil_append, if_true]
    pws
    exact hQ

theorem _root_.Yaml.Spec.IsDirectives.head {ds : List TokenData} {v : Option VersionDirective} {tags : List TagDirective} (hd : IsDirectives ds v tags) (ts : List TokenData) :
    ∃ d ts', ds ++ .documentStart :: ts = d :: ts' ∧ startsExplicitDocument d = true ∧ d ≠ .documentEnd ∧ d ≠ .streamEnd := by
  cases hd with
  | none => exact ⟨_, _, rfl, rfl, by simp, by simp⟩
  | version => exact ⟨_, _, rfl, rfl, by simp, by simp⟩
  | tag => exact ⟨_, _, rfl, rfl, by simp, by simp⟩

theorem does_docStart {implicit : Bool} {c : List Token} {ds : List TokenData} {v : Option VersionDirective} {tags : List TagDirective} (hd : IsDirectives ds v tags)
    {l : List Token} {t : Token} {rest : List Token} {r : List PSt} (hc : ∀ t ∈ c, t.data = .documentEnd) (hi : implicit = true → c = [])
    (hl : l.map (·.data) = ds) (ht : t.data = .documentStart) (hF : c.length < F) (hF' : l.length < F) :
    Does fin (parseDocumentStart F implicit) r [] (c ++ (l ++ t :: rest)) (.documentStart v tags false) .documentContent (.documentEnd :: r) (withDefaults tags) rest := by
  intro p st pk hr hD
  obtain ⟨d, ts', e, h1, h2, h3⟩ := hd.head (rest.map (·.data))
  have : (l ++ t :: rest).map (·.data) = d :: ts' := by simp [hl, ht, ← e]
  obtain ⟨t1, l1, e1, h4, h5⟩ := List.map_eq_cons_iff.1 this
  unfold parseDocumentStart
  rw [M.wp_bind, e1]
  refine run_documentEnds hc hi (by rw [h4]; exact h2) ?_ hF
  rw [if_neg (by rw [h4, h1]; simp), if_pos (by rw [h4]; simpa using h3), ← e1]
  pws
  refine run_processDirectives hd hl hF' (by rw [ht]; simp) (by rw [ht]; simp) hD ?_
  dsimp only
  pws
  rw [if_pos (by simp [ht])]
  pws
  rw [wp_skip_lv (by simp [ht])]
  dn

theorem does_docImplicit {t : Token} {rest : List Token} {r : List PSt} (ht : startsExplicitDocument t.data = false) (hF : 0 < F) :
    Does fin (parseDocumentStart F true) r [] (t :: rest) (.documentStart none [] true) .blockNode (.documentEnd :: r) (withDefaults []) (t :: rest) := by
  intro p st pk hr hD
  unfold parseDocumentStart skipDocumentEnds
  rw [M.wp_bind, if_pos rfl, wp_peek_cons]
  rw [if_pos (by rw [ht]; rfl)]
  pws
  refine run_processDirectives (l := []) .none rfl hF ?_ ?_ hD ?_
  · intro a b h; rw [h] at ht; simp [startsExplicitDocument] at ht
  · intro a b h; rw [h] at ht; simp [startsExplicitDocument] at ht
  dn

theorem does_streamEnd {implicit : Bool} {c : List Token} {t : Token} {rest : List Token} {r : List PSt} (hc : ∀ t ∈ c, t.data = .documentEnd)
    (hi : implicit = true → c = []) (ht : t.data = .streamEnd) (hF : c.length < F) :
    Does fin (parseDocumentStart F implicit) r D (c ++ t :: rest) .streamEnd .end_ r D rest := by
  intro p st pk hr hD
  unfold parseDocumentStart
  rw [M.wp_bind]
  refine run_documentEnds hc hi (by simp [ht]) ?_ hF
  rw [if_neg (by simp [ht, startsExplicitDocument]), if_neg (by simp [ht])]
  pws
  rw [wp_skip]
  refine ⟨by simp, by simp, hr, hD, false, by simp [ht]⟩

theorem does_docEnd {t : Token} {rest : List Token} (ht : t.data ≠ .documentEnd) {r : List PSt} :
    Does fin parseDocumentEnd r D (t :: rest) (.documentEnd true) .documentStart r [] (t :: rest) := by
  intro p st pk hr hD
  unfold parseDocumentEnd
  have e : (t.data == .documentEnd) = false := by simpa using ht
  pws
  rw [M.wp_when, if_neg (by rw [e]; simp), e]
  dn

theorem does_docEndX {t : Token} {rest : List Token} (ht : t.data = .documentEnd) {r : List PSt} :
    Does fin parseDocumentEnd r D (t :: rest) (.documentEnd false) .documentStart r [] rest := by
  intro p st pk hr hD
  unfold parseDocumentEnd
  have e : (t.data == .documentEnd) = true := by simp [ht]
  pws
  rw [M.wp_when, if_pos e, e, wp_skip_lv (by simp [ht])]
  dn

/-- The root of an explicit document. -/
theorem OptClaim.content {ts : List TokenData} {es : List EventData} (h : OptClaim F fin D true false ts es) {l : List Token} (hl : l.map (·.data) = ts) {t : Token}
    {r : List PSt} {rest : List Token} (ht : endsDocumentContent t.data = true) :
    Begins F fin parseDocumentContent (.documentEnd :: r) (withDefaults D) (l ++ t :: rest) es .documentEnd r (withDefaults D) (t :: rest) := by
  rcases h with ⟨rfl, rfl⟩ | h
  · have : l = [] := List.map_eq_nil_iff.1 hl
    subst this
    refine Does.begins ?_
    intro p st pk hr hD
    unfold parseDocumentContent
    simp only [List.nil_append]
    pws
    rw [if_pos ht]
    pws
    rw [wp_popState hr]
    dn
  · obtain ⟨t1, l', rfl, h1⟩ := h.head hl
    have h2 := starts_not (show starts t1.data = true by simpa using h1)
    refine (h.2 .documentEnd r _ t rest (by simp) hl ?_).via fun _ _ _ _ _ hd => ?_
    · generalize t.data = d at ht
      cases d <;> simp_all [endsDocumentContent, follows]
    · intro p st pk hr hD
      have := hd p true true hr hD
      unfold parseDocumentContent
      simp only [List.cons_append] at this ⊢
      pws
      rw [if_neg (by simp [h2.2.2.2.2.2.2.2.1])]
      exact this

/-- What comes after a document ends it. -/
theorem _root_.Yaml.Spec.DerivesDocs.head {ts : List TokenData} {es : List EventData} (h : DerivesDocs lax ts es) (d : TokenData) (ts' : List TokenData) (e : ts = d :: ts') :
    endsDocumentContent d = true := by
  cases h with
  | none => cases e
  | stray h => cases e; rfl
  | doc hd h explicit hs hne =>
    cases hd with
    | none => cases e; rfl
    | version => cases e; rfl
    | tag => cases e; rfl

/-- The end of a document, with what follows. -/
theorem calls_docEnd {explicit : Bool} {ts : List TokenData} {fs : List EventData} {l1 l2 : List Token} {tE : Token} {r : List PSt} (hs : DerivesDocs lax ts fs)
    (hne : explicit = false → ts.head? ≠ some .documentEnd) (h1 : l1.map (·.data) = docEnd explicit) (h2 : l2.map (·.data) = ts) (hE : tE.data = .streamEnd)
    (h : Calls F fin .documentStart r [] (l2 ++ [tE]) (fs ++ [.streamEnd]) .end_ r [] []) :
    ∃ t rest, l1 ++ (l2 ++ [tE]) = t :: rest ∧ endsDocumentContent t.data = true ∧
      Calls F fin .documentEnd r D (t :: rest) (.documentEnd (!explicit) :: (fs ++ [.streamEnd])) .end_ r [] [] := by
  cases explicit with
  | true =>
    obtain ⟨t1, rfl, ht⟩ := List.map_eq_singleton_iff.1 h1
    exact ⟨t1, _, rfl, by rw [ht]; rfl, .cons (by simp) (does_docEndX ht) h⟩
  | false =>
    have : l1 = [] := List.map_eq_nil_iff.1 h1
    subst this
    obtain ⟨t, l, e, ht⟩ := head_append (P := fun d => endsDocumentContent d = true ∧ d ≠ .documentEnd) (t := tE) (rest := []) h2
      (fun d ts' e => ⟨hs.head d ts' e, by rintro rfl; exact hne rfl (by rw [e]; rfl)⟩) ⟨by rw [hE]; rfl, by rw [hE]; simp⟩
    refine ⟨t, l, by rw [List.nil_append, e], ht.1, ?_⟩
    refine .cons (by simp) (does_docEnd ht.2) ?_
    rw [← e]; exact h

/-- The documents are parsed. -/
theorem docs_claim {ts : List TokenData} {es : List EventData} (h : DerivesDocs lax ts es) : ∀ {implicit : Bool} {c l : List Token} {tE : Token},
    (∀ t ∈ c, t.data = .documentEnd) → (implicit = true → c = [] ∧ ts.head? ≠ some .documentEnd) → l.map (·.data) = ts → tE.data = .streamEnd →
    c.length + l.length + 1 < F → Begins F fin (parseDocumentStart F implicit) [] [] (c ++ (l ++ [tE])) (es ++ [.streamEnd]) .end_ [] [] [] := by
  induction h with
  | none =>
    intro implicit c l tE hc hi hl hE hF
    have : l = [] := List.map_eq_nil_iff.1 hl
    subst this
    exact (does_streamEnd hc (fun h => (hi h).1) hE (by omega)).begins
  | stray h ih =>
    intro implicit c l tE hc hi hl hE hF
    obtain ⟨t1, l', rfl, h1, h2⟩ := List.map_eq_cons_iff.1 hl
    cases implicit with
    | true => exact absurd rfl (hi rfl).2
    | false =>
      have := ih (implicit := false) (c := c ++ [t1]) (l := l') (tE := tE) (by
        intro t ht
        rcases List.mem_append.1 ht with ht | ht
        · exact hc t ht
        · simp at ht; rw [ht]; exact h1) (by simp) h2 hE (by simp at hF ⊢; omega)
      simpa using this
  | @doc ds n ts v tags es fs hd h explicit hs hne ih =>
    intro implicit c l tE hc hi hl hE hF
    obtain ⟨ld, l2, rfl, h1, h2⟩ := List.map_eq_append_iff.1 hl
    obtain ⟨tS, l3, rfl, hS, h3⟩ := List.map_eq_cons_iff.1 h2
    obtain ⟨ln, l4, rfl, h4, h5⟩ := List.map_eq_append_iff.1 h3
    obtain ⟨le, l5, rfl, h6, h7⟩ := List.map_eq_append_iff.1 h5
    simp only [List.length_append, List.length_cons] at hF
    have next : Calls F fin .documentStart [] [] (l5 ++ [tE]) (fs ++ [.streamEnd]) .end_ [] [] [] :=
      Begins.calls (x := .documentStart) (ih (implicit := false) (c := []) (by simp) (by simp) h7 hE (by simp; omega)) (by simp)
    obtain ⟨t, rest, e, ht, hcalls⟩ := calls_docEnd (D := withDefaults tags) hs hne h6 h7 hE next
    have e1 : c ++ ((ld ++ tS :: (ln ++ (le ++ l5))) ++ [tE]) = c ++ (ld ++ tS :: (ln ++ t :: rest)) := by rw [← e]; simp
    rw [e1]
    refine ⟨_, _, _, _, _, _, rfl, does_docStart hd hc (fun h => (hi h).1) h1 hS (by omega) (by omega), ?_⟩
    show Calls F fin _ _ _ _ ((es ++ .documentEnd (!explicit) :: fs) ++ [.streamEnd]) _ _ _ _
    rw [List.append_assoc]
    exact Calls.trans (Begins.calls (x := .documentContent) ((derives_claim h : OptClaim F fin tags true false n es).content h4 ht) (by simp)) hcalls

/-- A whole stream is parsed. -/
theorem stream_claim {ts : List TokenData} {es : List EventData} (h : DerivesStream lax ts es) {l : List Token} (hl : l.map (·.data) = ts) (hF : l.length < F) :
    Calls F fin .streamStart [] [] l es .end_ [] [] [] := by
  have start : ∀ {enc : Encoding} {t : Token} {l : List Token}, t.data = .streamStart enc →
      Does fin parseStreamStart [] [] (t :: l) (.streamStart enc) .implicitDocumentStart [] [] l := by
    intro enc t l ht p st pk hr hD
    obtain ⟨d, m1, m2⟩ := t
    simp only at ht; subst ht
    unfold parseStreamStart
    pws
    rw [wp_skip_lv (by simp)]
    dn
  cases h with
  | explicit enc h hne =>
    obtain ⟨tS, l2, rfl, hS, h2⟩ := List.map_eq_cons_iff.1 hl
    obtain ⟨l3, l4, rfl, h3, h4⟩ := List.map_eq_append_iff.1 h2
    obtain ⟨tE, rfl, hE⟩ := List.map_eq_singleton_iff.1 h4
    simp at hF
    refine .cons (by simp) (start hS) (Begins.calls (x := .implicitDocumentStart) ?_ (by simp))
    exact docs_claim (implicit := true) (c := []) h (by simp) (fun _ => ⟨rfl, hne⟩) h3 hE (by simp; omega)
  | implicit enc h explicit hs hne =>
    obtain ⟨tS, l2, rfl, hS, h2⟩ := List.map_eq_cons_iff.1 hl
    obtain ⟨ln, l3, rfl, h3, h4⟩ := List.map_eq_append_iff.1 h2
    obtain ⟨le, l4, rfl, h5, h6⟩ := List.map_eq_append_iff.1 h4
    obtain ⟨l5, l6, rfl, h7, h8⟩ := List.map_eq_append_iff.1 h6
    obtain ⟨tE, rfl, hE⟩ := List.map_eq_singleton_iff.1 h8
    simp only [List.length_append, List.length_cons, List.length_nil] at hF
    have next : Calls F fin .documentStart [] [] (l5 ++ [tE]) (_ ++ [.streamEnd]) .end_ [] [] [] :=
      Begins.calls (x := .documentStart) (docs_claim (implicit := false) (c := []) hs (by simp) (by simp) h7 hE (by simp; omega)) (by simp)
    obtain ⟨t, rest, e, ht, hcalls⟩ := calls_docEnd (D := withDefaults []) hs hne h5 h7 hE next
    have hn : NodeClaim F fin [] true false _ _ := derives_claim h
    obtain ⟨t1, l', e2, h1⟩ := hn.head h3
    have h2 := starts_not (show starts t1.data = true by simpa using h1)
    refine .cons (by simp) (start hS) ?_
    rw [e]
    refine .cons (x := .implicitDocumentStart) (by simp) (l1 := ln ++ t :: rest) ?_ (Calls.trans (Begins.calls (x := .blockNode) (hn.2 .documentEnd [] ln t rest (by simp) h3 ?_) (by simp)) hcalls)
    · rw [e2]
      exact does_docImplicit h2.2.2.2.2.2.2.2.2 (by omega)
    · generalize t.data = d at ht
      cases d <;> simp_all [endsDocumentContent, follows]

/-- The calls as calls on the object. -/
theorem Calls.parses {x x' : PSt} {r r' : List PSt} {D D' : List TagDirective} {l l' : List Token} {es : List EventData} (h : Calls F fin x r D l es x' r' D' l')
    (hfin : (∃ e, fin = .err e) ∨ ∃ x, fin = .panic x) : ∀ {o : ParserObj} {st pk : Bool}, o.p.state = x → o.p.states = r → o.p.tagDirectives = D →
    Rel F ⟨l, fin, st, x == .end_, pk, false⟩ o.s o.r → (∀ y, fin ≠ .panic y) →
    ∃ evs o', ParserObj.Parses F o evs o' ∧ evs.map (·.data) = es := by
  induction h with
  | nil => intro o st pk h1 h2 h3 hr _; exact ⟨[], o, .nil, rfl⟩
  | @cons x x1 x2 r r1 r2 D D1 D2 l l1 l2 ev evs hx hd hs ih =>
    intro o st pk h1 h2 h3 hr hnp
    have hxe : (x == .end_) = false := by simpa using hx
    rw [hxe] at hr
    have hw : M.wp stepL NoP NoE (Parser.parse F) (fun e p' g' => e.data = ev ∧ p'.state = x1 ∧ p'.states = r1 ∧ p'.tagDirectives = D1 ∧
      ∃ pk', g' = ⟨l1, fin, true, x1 == .end_, pk', false⟩) o.p (lv l fin st pk) := by
      unfold Parser.parse
      rw [M.wp_bind, M.wp_prim]
      refine ⟨rfl, ?_⟩
      show M.wp stepL NoP NoE (if ((lv l fin st pk).ended || o.p.state == .end_) = true then pure (Event.new .streamEnd) else stateMachine F o.p.state) _ o.p (lv l fin st pk)
      rw [if_neg (by simp [h1, hx]), h1]
      exact hd o.p st pk h2 h3
    have hrun := run_of_wp (F := F) (m := Parser.parse F) (o := o) hw hr hfin
    have e : o.parse F = o.run F (Parser.parse F) := rfl
    generalize hq : o.run F (Parser.parse F) = q at hrun
    obtain ⟨out, o'⟩ := q
    cases out with
    | ok a =>
      obtain ⟨g', ⟨g1, g2, g3, g4, pk', rfl⟩, hrel⟩ := hrun
      obtain ⟨evs', o2, k1, k2⟩ := ih g2 g3 g4 hrel hnp
      refine ⟨a :: evs', o2, ?_, by simp [g1, k2]⟩
      have hstep : o.parse F = (.ok a, o') := by rw [e, hq]
      clear k2 ih
      induction k1 with
      | nil => exact .snoc .nil hstep
      | snoc h' hs' ih => exact .snoc (evs := a :: _) ih hs'
    | err a => obtain ⟨_, h, _⟩ := hrun; exact h.elim
    | panic a => exact absurd hrun (hnp a)
    | fuel => exact hrun.elim

end Yaml
