import Verif.Lib.Lexeme5
import Verif.Lib.Same
import Verif.Props.ParserGrammar

/-
The scanner object over an input that decodes to a text: it returns the tokens of the text.
-/

namespace Yaml.Lx
open Yaml Scanner Spec
set_option linter.unusedSimpArgs false
set_option linter.unusedVariables false

/-- The configuration at the beginning of the text. -/
def start (e : Encoding) : Cfg := ⟨Mark.zero, 0, -1, [], true, [emptyKey], [.streamStart e]⟩

section
variable {F : Nat} {e : Encoding} {T : Str} {toks : List TokenData}

theorem Phase.idle {out : List TokenData} {s : SState} {u : Str} (h : Phase F e T toks out s u) : Idle s := by
  cases h with
  | start => exact Or.inl rfl
  | mid h => exact Or.inr (Or.inl h.op)
  | ended h =>
    exact Or.inr (Or.inr ⟨h.started, h.notAvail, h.notProduced, h.queue, fun k hk hp => absurd hp (by rw [h.keys k hk]; simp)⟩)

theorem not_big {T : Str} {p : PanicSite} (h : Bad T p) (hb : Big p) (hl : T.length ≤ i32Max) : False := by
  rcases h with ⟨rfl, _⟩ | ⟨rfl, _⟩ | ⟨rfl, _⟩ | ⟨_, h⟩
  · rcases hb with h | h <;> cases h
  · rcases hb with h | h <;> cases h
  · rcases hb with h | h <;> cases h
  · omega

/-- One call of `scan` on the object. -/
theorem scan_phase {out : List TokenData} {o : ScannerObj} {b : Inp} (h : Phase F e T toks out o.s b.text) (hr : RC e b o.r) (hF : b.text.length + 8 < F) :
    match o.scan F with
    | (.ok t, o') => (t.data ≠ .streamEnd ∧ ∃ b', RC e b' o'.r ∧ Phase F e T toks (out ++ [t.data]) o'.s b'.text ∧ b'.text.length ≤ b.text.length) ∨
        (t.data = .streamEnd ∧ toks = out ++ [t.data])
    | (.panic p, _) => Big p
    | _ => False := by
  have w1 := wpB_scan_idle (F := F) h.idle (b := b) (by omega)
  obtain ⟨x1, c1, y1, z1, q1⟩ := exec_clean _ w1 hr
  have key := wpT_scan h hF
  unfold M.wp at key
  rw [wp_stepT] at key
  unfold ScannerObj.scan runA
  revert key x1 z1 y1
  generalize execT (scan F o.s) ⟨b.text, e⟩ = q
  generalize execA (Scanner.scan F o.s) o.r = q'
  obtain ⟨⟨o1, s1⟩, r1⟩ := q'
  obtain ⟨⟨o2, s2⟩, x⟩ := q
  intro x1 y1 z1 key
  simp only [Prod.mk.injEq] at x1
  obtain ⟨rfl, rfl⟩ := x1
  cases o1 with
  | ok t =>
    obtain ⟨k1, k2⟩ := key
    refine k2.imp (fun ⟨a1, a2, a3⟩ => ⟨a1, c1, y1, ?_, ?_⟩) id
    · rw [z1]; exact a2
    · rw [z1]; exact a3
  | err => exact key
  | panic p => exact key
  | fuel => exact key

theorem scans_phase {o : ScannerObj} {ts : List Token} {fin : Out Token} (hs : Scans F o ts fin) (hfin : ∀ p, fin = .panic p → Bad T p) (hl : T.length ≤ i32Max) :
    ∀ {out : List TokenData} {b : Inp}, Phase F e T toks out o.s b.text → RC e b o.r → b.text.length + 8 < F →
    fin = .err (.io .unexpectedEof) ∧ toks = out ++ ts.map (·.data) := by
  induction hs with
  | @stop o x hx hn hp h0 =>
    intro out b h hr hF
    have := scan_phase h hr hF
    revert this hx
    generalize o.scan F = q
    obtain ⟨r, o'⟩ := q
    intro hx this
    simp only at hx
    subst hx
    cases r with
    | ok t => exact absurd rfl (hn t)
    | err e => exact this.elim
    | panic p => exact (not_big (hfin p rfl) this hl).elim
    | fuel => exact this.elim
  | @last o o' t hs ht h0 hpk h1 h2 =>
    intro out b h hr hF
    have := scan_phase h hr hF
    rw [hs] at this
    rcases this with ⟨h3, _⟩ | ⟨_, h3⟩
    · exact absurd ht h3
    · exact ⟨rfl, h3⟩
  | @cons o o' t ts x hs ht h0 hpk h1 h2 h ih =>
    intro out b h hr hF
    have := scan_phase h hr hF
    rw [hs] at this
    rcases this with ⟨_, b', h3, h4, h5⟩ | ⟨h3, _⟩
    · obtain ⟨k1, k2⟩ := ih hfin h4 h3 (by omega)
      exact ⟨k1, by rw [k2]; simp⟩
    · exact absurd h3 ht

/-- A scanner over an input that decodes to `T` returns the tokens of `T`. -/
theorem scans_of_runs {items : List SrcItem} {enc : Encoding} (hc : Clean enc items e T) (hsz : 4 * srcSize items < Reader.maxInput)
    (hl : T.length ≤ i32Max) (hF : 4 * srcSize items + 8 < F) (hr : Runs F (start e) T toks) :
    ∃ ts, Scans F (ScannerObj.new items enc) ts (.err (.io .unexpectedEof)) ∧ ts.map (·.data) = toks ∧ ts.length < F := by
  have hTl := hc.future.length_le
  obtain ⟨ts, fin, h1, h2, h3, h4⟩ := Props.tokens_of_input hc.future (F := F) (by omega)
  have hbad : ∀ p, fin = .panic p → Bad T p := by
    intro p hp
    rcases h4 with ⟨e, h, _⟩ | ⟨x, h, hb⟩
    · rw [h] at hp; cases hp
    · rw [h] at hp; cases hp; exact hb
  obtain ⟨k1, k2⟩ := scans_phase (e := e) (toks := toks) h1 hbad hl (out := []) (b := ⟨T, 0⟩) (.start hr) (RC.start hc hsz) (by show T.length + 8 < F; omega)
  exact ⟨ts, k1 ▸ h1, by rw [k2]; simp, h3⟩

/-- ... and a parser the events that these tokens stand for. -/
theorem parses_of_runs {items : List SrcItem} {enc : Encoding} {es : List EventData} (hc : Clean enc items e T) (hsz : 4 * srcSize items < Reader.maxInput)
    (hl : T.length ≤ i32Max) (hF : 4 * srcSize items + 8 < F) (hr : Runs F (start e) T toks) (hd : DerivesStream false toks es) :
    ∃ evs o', ParserObj.Parses F (ParserObj.new items enc) evs o' ∧ evs.map (·.data) = es := by
  obtain ⟨ts, h1, h2, h3⟩ := scans_of_runs hc hsz hl hF hr
  exact Props.parses_of_scans h1 h3 (h2 ▸ hd)

end

end Yaml.Lx
