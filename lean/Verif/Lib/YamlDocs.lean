import Verif.Lib.YamlBlock

/-
Reading YAML texts: documents.
-/

namespace Yaml.Lx
open Yaml Scanner Spec Rt
set_option linter.unusedSimpArgs false
set_option linter.unusedVariables false

section
variable {F : Nat}

theorem doc_text {c : Char} {t : Str} : [c, c, c] ++ t = c :: c :: c :: t := rfl

/-- `---` or `...` after white space. -/
theorem read_marker {A : Cfg} {p : Place} {c : Char} {d : TokenData} {g t : Str} (hc : (c = '-' ∧ d = .documentStart) ∨ (c = '.' ∧ d = .documentEnd)) (h : Top A)
    (hp : AtPlace p A) (hg : Space false p.isNone g) (h0 : p.after g = some 0) (hz : EndsTag t) :
    ∃ B, Reach F A (g ++ ([c, c, c] ++ t)) B t ∧ Top B ∧ B.toks = A.toks ++ [d] ∧ B.allowed = false := by
  obtain ⟨B, b1, b2, b3, b4, b5, b6⟩ := read_doc F (g := []) hc (h.skip g) .nil (by exact after_col hp h.flow h0) hz
  refine ⟨B, .skip (hp.ws h.flow hg) (noSplit_cons ?_) b1, b2, b4, b6⟩
  rcases hc with ⟨rfl, _⟩ | ⟨rfl, _⟩ <;> decide

theorem breakAt_last {b t : Str} {c : Char} (h : BreakAt (b ++ t) c t) : ∃ b0 x, b = b0 ++ [x] ∧ isBreak x = true := by
  generalize hz : b ++ t = z at h
  cases h with
  | crlf t =>
    have : b = ['\r', '\n'] := List.append_cancel_right (show b ++ t = ['\r', '\n'] ++ t from hz)
    exact ⟨['\r'], '\n', this, by decide⟩
  | one c t h1 h2 =>
    have : b = [c] := List.append_cancel_right (show b ++ t = [c] ++ t from hz)
    exact ⟨[], c, this, by rw [← isLineBreak_eq]; exact h1⟩

theorem dirText_head {d : Str} {ds : List TokenData} {t : Str} (h : DirText d ds ('-' :: t)) : ∃ c r, d ++ '-' :: t = c :: r ∧ c ≠ '\n' := by
  cases h with
  | none => exact ⟨_, _, rfl, by decide⟩
  | line => exact ⟨_, _, rfl, by decide⟩

theorem directive_notEnd {w : Str} {d : TokenData} (h : DirectiveText w d) : d ≠ .streamEnd := by
  cases h <;> simp

/-- Directives. -/
theorem reads_dirs {d : Str} {ds : List TokenData} {t : Str} (h : DirText d ds ('-' :: t)) : ∀ {A : Cfg}, Top A → A.mark.column = 0 →
    ∃ B, Reach F A (d ++ '-' :: t) B ('-' :: t) ∧ Top B ∧ B.toks = A.toks ++ ds ∧ B.mark.column = 0 := by
  generalize hu : '-' :: t = u at h
  induction h with
  | none => intro A hA h0; exact ⟨A, .refl _ _, hA, by simp, h0⟩
  | @line w l b g r u d c ds hw hl hb hg h0 hr ih =>
    subst hu
    intro A hA hA0
    obtain ⟨B, b1, b2, b3, b4, b5, b6⟩ := read_directive F (g := []) hw hl hb (directive_notEnd hw) hA .nil hA0
    have hB0 : B.mark.column = 0 := by
      obtain ⟨b0, x, rfl, hx⟩ := breakAt_last hb
      have e : '%' :: (w ++ (l ++ (b0 ++ [x]))) = ('%' :: (w ++ (l ++ b0))) ++ [x] := by simp
      rw [b5, e]
      exact advance_last _ _ hx
    have hat : AtPlace none B := ⟨b6, by simp⟩
    have hg' : Ws B.flow B.allowed g := by
      rw [b2.flow, b6]
      exact space_ws (fl := false) (by simp) hg (fun h => by cases h)
    have hc0 : (B.skip g).mark.column = 0 := by
      show (advance B.mark g).column = 0
      cases hbk : hasBrk g with
      | true => rw [advance_col_brk B.mark ⟨0, 0, 0⟩ g hbk]; exact h0
      | false =>
        have hflat : ∀ c ∈ g, isBreak c = false := by
          intro c hc
          cases hx : isBreak c with
          | false => rfl
          | true => unfold hasBrk at hbk; rw [List.any_eq_false] at hbk; exact absurd hx (by simpa using hbk c hc)
        have h1 := (advance_flat ⟨0, 0, 0⟩ g hflat).2.1
        have h2 := (advance_flat B.mark g hflat).2.1
        unfold position at h0
        rw [h0] at h1
        simp at h1
        rw [h2, hB0, ← h1]
    obtain ⟨C, c1, c2, c3, c4⟩ := ih rfl (b2.skip g) hc0
    obtain ⟨x, y, hxy, hx⟩ := dirText_head hr
    refine ⟨C, ?_, c2, ?_, c4⟩
    · have := b1.trans (.skip hg' (by rw [hxy]; exact noSplit_cons hx) c1)
      simpa using this
    · rw [c3]
      show B.toks ++ ds = _
      rw [b4]; simp

theorem directives_head {ds : List TokenData} {v : Option VersionDirective} {tags : List TagDirective} (h : IsDirectives ds v tags) (ts : List TokenData) :
    (ds ++ .documentStart :: ts).head? ≠ some .documentEnd := by
  cases h <;> simp

/-- What is shown of the rest of the documents. -/
def RDocs (F : Nat) (T : Str) (P : List TokenData → Prop) (A : Cfg) : Prop :=
  ∃ B t' ts, Reach F A T B t' ∧ Top B ∧ WsT B.flow B.allowed t' [] ∧ B.toks = A.toks ++ ts ∧ P ts

mutual
theorem reads_docs {dirs : Bool} {p : Place} {T : Str} {es : List EventData} : YamlDocs dirs p T es → ∀ A : Cfg, Top A → AtPlace p A →
    RDocs F T (fun ts => DerivesDocs false ts es ∧ ts.head? ≠ some .documentEnd) A
  | .none hg => fun A hA hp => ⟨A, T, [], .refl _ _, hA, by rw [hA.flow, hp.allowed]; exact spaceEnd_ws hg, by simp, .none, by simp⟩
  | .doc (g := g) (d := d) (w := w) (r := r) (ds := ds) (explicit := explicit) hg h0 hd hds hdirs he h hr => fun A hA hp => by
    obtain ⟨B, b1, b2, b3, b4⟩ := reads_dirs (F := F) hd (hA.skip g) (after_col hp hA.flow h0)
    obtain ⟨C, c1, c2, c3, c4, c5, c6⟩ := read_doc F (g := []) (Or.inl ⟨rfl, rfl⟩) b2 .nil b4 he
    have hC : InBlock (-1) none C := ⟨c2.cool, c2.flow, c2.indent, ⟨c6, by simp⟩, fun _ => by omega, fun h => by rw [c6] at h; cases h⟩
    obtain ⟨E, ts, e1, e2, e3, e4, e5, e6⟩ := reads_blockNode (F := F) h C hC
    obtain ⟨G, t', us, g1, g2, g3, g4, ts', g5, g6, g7⟩ := reads_end hr _ (c2.moved e2) e5
    obtain ⟨x, y, hxy, hx⟩ := dirText_head hd
    refine ⟨G, t', _, ?_, g2, g3, ?_, DerivesDocs.doc hds e3 explicit g6 g7, directives_head hds _⟩
    · have := Reach.skip (hp.ws hA.flow hg) (by rw [hxy]; exact noSplit_cons hx) (b1.trans (c1.trans (e1.trans g1)))
      simpa using this
    · rw [g4, e2.toks, c4, b3, g5]
      show A.toks ++ ds ++ _ ++ ts ++ _ = _
      simp
theorem reads_end {p : Place} {explicit : Bool} {T : Str} {es : List EventData} : YamlEnd p explicit T es → ∀ A : Cfg, Top A → AtPlace p A →
    RDocs F T (fun us => ∃ ts, us = docEnd explicit ++ ts ∧ DerivesDocs false ts es ∧ (explicit = false → ts.head? ≠ some .documentEnd)) A
  | .implicit h => fun A hA hp => by
    obtain ⟨B, t', ts, b1, b2, b3, b4, b5, b6⟩ := reads_docs h _ hA hp
    exact ⟨B, t', ts, b1, b2, b3, b4, ts, rfl, b5, fun _ => b6⟩
  | .explicit (g := g) (r := r) hg h0 he h => fun A hA hp => by
    obtain ⟨B, b1, b2, b3, b4⟩ := read_marker (F := F) (Or.inr ⟨rfl, rfl⟩) hA hp hg h0 he
    obtain ⟨C, t', ts, c1, c2, c3, c4, c5⟩ := reads_more h _ b2 b4
    refine ⟨C, t', _, b1.trans c1, c2, c3, ?_, ts, rfl, c5, fun h => by cases h⟩
    rw [c4, b3]; simp [docEnd]
theorem reads_more {T : Str} {es : List EventData} : YamlMore T es → ∀ A : Cfg, Top A → A.allowed = false → RDocs F T (fun ts => DerivesDocs false ts es) A
  | .docs h => fun A hA ha => by
    obtain ⟨B, t', ts, b1, b2, b3, b4, b5, b6⟩ := reads_docs h _ hA ⟨ha, by simp⟩
    exact ⟨B, t', ts, b1, b2, b3, b4, b5⟩
  | .again (g := g) (r := r) hg h0 he h => fun A hA ha => by
    obtain ⟨B, b1, b2, b3, b4⟩ := read_marker (F := F) (p := none) (Or.inr ⟨rfl, rfl⟩) hA ⟨ha, by simp⟩ hg h0 he
    obtain ⟨C, t', ts, c1, c2, c3, c4, c5⟩ := reads_more h _ b2 b4
    refine ⟨C, t', _, b1.trans c1, c2, c3, ?_, .stray c5⟩
    rw [c4, b3]; simp
end

/-- The tokens of a YAML text stand for the events it denotes. -/
theorem runs_yaml {T : Str} {es : List EventData} (h : YamlText T es) (e : Encoding) : ∃ toks, Runs F (start e) T toks ∧ DerivesStream false toks (yamlStream e es) := by
  have htop := top_start e
  have hat : AtPlace (some 0) (start e) := ⟨rfl, fun k hk => by cases hk; rfl⟩
  cases h with
  | explicit h =>
    obtain ⟨B, t', ts, b1, b2, b3, b4, b5, b6⟩ := reads_docs (F := F) h _ htop hat
    refine ⟨_, ⟨B, t', b1, b2.final b3⟩, ?_⟩
    rw [b4]
    exact DerivesStream.explicit e b5 b6
  | @implicit w r p' es fs explicit hne h hr =>
    have hA : InBlock (-1) (some 0) (start e) := ⟨htop.cool, rfl, rfl, hat, by simp, fun _ => by
      intro k ks hk
      simp [start] at hk
      rw [← hk.1]; rfl⟩
    obtain ⟨E, ts, e1, e2, e3, e4, e5, e6⟩ := reads_blockNode (F := F) h _ hA
    obtain ⟨G, t', us, g1, g2, g3, g4, ts', g5, g6, g7⟩ := reads_end hr _ (htop.moved e2) e5
    refine ⟨_, ⟨G, t', e1.trans g1, g2.final g3⟩, ?_⟩
    have := DerivesStream.implicit (lax := false) e (e4 hne) explicit g6 g7
    rw [g4, e2.toks, g5]
    simpa [yamlStream, start] using this

end

end Yaml.Lx
