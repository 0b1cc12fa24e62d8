import Verif.Lib.Trans4

/-
The calls of `parse` on a parser object follow the table.
-/

namespace Yaml
open Spec Parser
set_option linter.unusedSimpArgs false
set_option linter.unusedVariables false

/-- The calls so far: the tokens at the start, the events, and the state reached. -/
inductive Chain (l0 : List TokenData) : List EventData → List TagDirective → PSt → List PSt → List TokenData → Prop
  | nil : Chain l0 [] [] .streamStart [] l0
  | snoc {es : List EventData} {D : List TagDirective} {x x' : PSt} {r r' : List PSt} {l l' : List TokenData} {ev : EventData}
      (h : Chain l0 es D x r l) (hs : Tr D x r l ev x' r' l') : Chain l0 (es ++ [ev]) (dirsAfter D ev) x' r' l'

theorem Chain.acc {l0 l : List TokenData} {es fs : List EventData} {D : List TagDirective} {x : PSt} {r : List PSt} (h : Chain l0 es D x r l)
    (ha : Acc D x r l fs) : Acc [] .streamStart [] l0 (es ++ fs) := by
  induction h generalizing fs with
  | nil => exact ha
  | snoc h hs ih =>
    rw [List.append_assoc]
    exact ih (.step hs ha)

theorem ParserObj.Parses.chain {F : Nat} {items : List SrcItem} {enc : Encoding} {ts : List Token} {fin : Out Token} {evs : List Event} {o : ParserObj}
    (h : ParserObj.Parses F (ParserObj.new items enc) evs o) (hs : Scans F (ScannerObj.new items enc) ts fin)
    (hF : ts.length < F) (hfin : (∃ e, fin = .err e) ∨ ∃ x, fin = .panic x) :
    ∃ evs1 n G c toks st pk, evs = evs1 ++ List.replicate n ⟨.streamEnd, Mark.zero, Mark.zero⟩ ∧ PInv F ts fin evs1 o G (inForce evs1) c toks st pk ∧
      (n ≠ 0 → o.p.state = .end_) ∧ Chain (dd ts) (evs1.map (·.data)) (inForce evs1) o.p.state o.p.states (dd toks) := by
  induction h with
  | nil => exact ⟨[], 0, _, _, _, _, _, rfl, PInv.start hs, by simp, .nil⟩
  | @snoc evs e o1 o2 h hstep ih =>
    obtain ⟨evs1, n, G, c, toks, st, pk, rfl, hp, hn, hc⟩ := ih
    by_cases hend : o1.p.state = .end_
    · rw [PInv.ended hend] at hstep
      simp at hstep
      obtain ⟨rfl, rfl⟩ := hstep
      exact ⟨evs1, n + 1, G, c, toks, st, pk, by rw [List.append_assoc, List.replicate_succ'], hp, fun _ => hend, hc⟩
    · have hn0 : n = 0 := by
        by_cases h : n = 0
        · exact h
        · exact absurd (hn h) hend
      subst hn0
      have el := congrArg List.length hp.split
      simp only [List.length_append] at el
      have := hp.parse_with hF hfin hend (wpA_parse (by omega) hp.good hend)
      rw [hstep] at this
      obtain ⟨G', D', c', toks', pk', hp', g', rfl, hT⟩ := this
      have hD : D' = inForce (evs1 ++ [e]) := hp'.dirs
      subst hD
      refine ⟨evs1 ++ [e], 0, G', c', g'.toks, true, pk', by simp, hp', by simp, ?_⟩
      have e1 : inForce (evs1 ++ [e]) = dirsAfter (inForce evs1) e.data := by
        unfold inForce
        rw [List.foldl_append]
        rfl
      rw [e1, List.map_append]
      exact .snoc hc hT

end Yaml
