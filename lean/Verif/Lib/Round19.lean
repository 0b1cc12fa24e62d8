import Verif.Lib.Round18

/-
Reading back, scanner side: the directives of a document.
-/

namespace Yaml.Rt
open Yaml Emitter Lx Spec
set_option linter.unusedSimpArgs false
set_option linter.unusedVariables false

theorem break_at {lb : Break} (hl : lb ≠ .any) {t : Str} (ht : t.head? ≠ some '\n') : ∃ c, BreakAt (breakChars lb ++ t) c t := by
  cases lb with
  | any => exact absurd rfl hl
  | cr => exact ⟨_, .one '\r' t (by decide) (fun h => ht h.2)⟩
  | ln => exact ⟨_, .one '\n' t (by decide) (fun h => by cases h.1)⟩
  | crln => exact ⟨_, .crlf t⟩

theorem advance_eol {lb : Break} (hl : lb ≠ .any) (m : Mark) (w : Str) : (advance m (w ++ breakChars lb)).column = 0 := by
  have := colAfter_advance m (w ++ breakChars lb)
  rw [colAfter_append, colAfter_break hl] at this
  omega

/-- The `%TAG` lines. -/
theorem read_tagLines (F : Nat) {lb : Break} (hl : lb ≠ .any) : ∀ (tags : List TagDirective) (A : Cfg) (t : Str), Top A → A.mark.column = 0 →
    (∀ d ∈ tags, DirectiveOk d ∧ ∀ c ∈ d.prefix_, c.toNat < 128) → (tags.map (·.handle)).Nodup → t.head? ≠ some '\n' →
    ∃ B ts, Reach F A ((tags.flatMap fun t => tagLine t ++ breakChars lb) ++ t) B t ∧ Top B ∧ B.mark.column = 0 ∧ B.toks = A.toks ++ ts ∧ IsDirectives ts none tags ∧
      (tags = [] → B = A)
  | [], A, t, hA, h0, _, _, _ => ⟨A, [], .refl _ _, hA, h0, (List.append_nil _).symm, .none, fun _ => rfl⟩
  | d :: tags, A, t, hA, h0, hd, hn, ht => by
    obtain ⟨⟨hh, hp⟩, ha⟩ := hd d (by simp)
    rw [List.map_cons, List.nodup_cons] at hn
    have ht1 : ((tags.flatMap fun t => tagLine t ++ breakChars lb) ++ t).head? ≠ some '\n' := by
      cases tags with
      | nil => exact ht
      | cons d' tags => simp [tagLine]
    obtain ⟨c, hb⟩ := break_at hl ht1
    have hw : DirectiveText (cs! "TAG" ++ ([' '] ++ (d.handle ++ ([' '] ++ uriOf d.prefix_)))) (.tagDirective d.handle d.prefix_) :=
      .tag ⟨by simp, by simp [IsBlank]⟩ ⟨by simp, by simp [IsBlank]⟩ hh (uriOf_text true _ ha (Or.inl rfl)) hp
    obtain ⟨B, r, b1, b2, b3, b4, b5⟩ := read_directive (A := A) F hw (.blanks (sp := []) (by simp)) hb (by simp) (g := []) hA (by intro c h; cases h) h0
    have h1 : B.mark.column = 0 := by
      rw [b4, List.nil_append, ← List.append_assoc, ← List.cons_append]
      exact advance_eol hl _ _
    obtain ⟨C, ts, k1, k2, k3, k4, k5, _⟩ := read_tagLines F hl tags B t b1 h1 (fun x hx => hd x (by simp [hx])) hn.2 ht
    refine ⟨C, _ :: ts, ?_, k2, k3, by rw [k4, b3, List.append_assoc]; rfl, .tag k5 d ?_, fun h => by cases h⟩
    · have e : (((d :: tags).flatMap fun t => tagLine t ++ breakChars lb) ++ t) =
          [] ++ '%' :: ((cs! "TAG" ++ ([' '] ++ (d.handle ++ ([' '] ++ uriOf d.prefix_)))) ++ ([] ++ (breakChars lb ++ ((tags.flatMap fun t => tagLine t ++ breakChars lb) ++ t)))) := by
        simp [tagLine]
      rw [e]
      exact r.trans k1
    · intro e he heq
      exact hn.1 (List.mem_map.2 ⟨e, he, heq⟩)

/-- The directives. -/
theorem read_dirs (F : Nat) {lb : Break} (hl : lb ≠ .any) (v : Option VersionDirective) (tags : List TagDirective) {A : Cfg} {t : Str} (hA : Top A) (h0 : A.mark.column = 0)
    (hv : ∀ x, v = some x → x.major = 1 ∧ (x.minor = 1 ∨ x.minor = 2)) (hd : ∀ d ∈ tags, DirectiveOk d ∧ ∀ c ∈ d.prefix_, c.toNat < 128) (hn : (tags.map (·.handle)).Nodup)
    (ht : t.head? ≠ some '\n') :
    ∃ B ts, Reach F A (dirText lb v tags ++ t) B t ∧ Top B ∧ B.mark.column = 0 ∧ B.toks = A.toks ++ ts ∧ IsDirectives ts v tags ∧ (v = none → tags = [] → B = A) := by
  cases v with
  | none =>
    obtain ⟨B, ts, k1, k2, k3, k4, k5, k6⟩ := read_tagLines F hl tags A t hA h0 hd hn ht
    exact ⟨B, ts, k1, k2, k3, k4, k5, fun _ => k6⟩
  | some v =>
    obtain ⟨hM, hm⟩ := hv v rfl
    have ht1 : ((tags.flatMap fun t => tagLine t ++ breakChars lb) ++ t).head? ≠ some '\n' := by
      cases tags with
      | nil => exact ht
      | cons d' tags => simp [tagLine]
    obtain ⟨c, hb⟩ := break_at hl ht1
    obtain ⟨M, mi⟩ := v
    cases (show M = 1 from hM)
    have hw : DirectiveText (cs! "YAML" ++ ([' '] ++ (if mi = 1 then cs! "1.1" else cs! "1.2"))) (.versionDirective 1 mi) := by
      rcases hm with hm | hm <;> cases (show mi = _ from hm)
      · exact .version (sp := [' ']) (maj := ['1']) (min := ['1']) ⟨by simp, by simp [IsBlank]⟩ (by simp [IsDigit]) (by simp [IsDigit]) (by decide) (by decide)
      · exact .version (sp := [' ']) (maj := ['1']) (min := ['2']) ⟨by simp, by simp [IsBlank]⟩ (by simp [IsDigit]) (by simp [IsDigit]) (by decide) (by decide)
    obtain ⟨B, r, b1, b2, b3, b4, b5⟩ := read_directive (A := A) F hw (.blanks (sp := []) (by simp)) hb (by simp) (g := []) hA (by intro c h; cases h) h0
    have h1 : B.mark.column = 0 := by
      rw [b4, List.nil_append, ← List.append_assoc, ← List.cons_append]
      exact advance_eol hl _ _
    obtain ⟨C, ts, k1, k2, k3, k4, k5, _⟩ := read_tagLines F hl tags B t b1 h1 hd hn ht
    refine ⟨C, _ :: ts, ?_, k2, k3, by rw [k4, b3, List.append_assoc]; rfl, .version k5 mi hm, fun h => by cases h⟩
    have e : dirText lb (some ⟨1, mi⟩) tags ++ t =
        [] ++ '%' :: ((cs! "YAML" ++ ([' '] ++ (if mi = 1 then cs! "1.1" else cs! "1.2"))) ++ ([] ++ (breakChars lb ++ ((tags.flatMap fun t => tagLine t ++ breakChars lb) ++ t)))) := by
      simp [dirText, versionText]
    rw [e]
    exact r.trans k1

end Yaml.Rt
