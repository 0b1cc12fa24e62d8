import Verif.Basic

/-
C41: what an error reports.
-/

namespace Yaml.Props
open Yaml

/-- The errors that carry positions: scanner, parser and composer errors. -/
def located : ErrorKind → Bool
  | .scanner | .parser | .composer => true
  | _ => false

/-- C41: a located error of kind `k` (built from a context, its mark, a problem and its mark)
reports its kind, problem and problem mark; it has a context and a context mark exactly when the
context text is not empty, and they are the ones given. -/
theorem located_error_reports (c : String) (cm : Mark) (p : String) (pm : Mark) :
    ∀ e ∈ [Err.scanner c cm p pm, Err.parser c cm p pm, Err.composer c cm p pm],
      located e.kind = true ∧ e.problem = p ∧ e.problemMark = some pm ∧
      (c ≠ "" → e.context = some c ∧ e.contextMark = some cm) ∧
      (c = "" → e.context = none ∧ e.contextMark = none) := by
  intro e he
  simp only [List.mem_cons, List.not_mem_nil, or_false] at he
  rcases he with rfl | rfl | rfl <;>
    refine ⟨rfl, rfl, rfl, fun h => ?_, fun h => ?_⟩ <;> simp [Err.context, Err.contextMark, h]

/-- C41: the three constructors give three different kinds. -/
theorem error_kinds_distinct (c : String) (cm : Mark) (p : String) (pm : Mark) :
    (Err.scanner c cm p pm).kind = .scanner ∧ (Err.parser c cm p pm).kind = .parser ∧
    (Err.composer c cm p pm).kind = .composer := ⟨rfl, rfl, rfl⟩

/-- C41: marks exist exactly for scanner, parser and composer errors. -/
theorem marks_iff_located (e : Err) :
    (e.problemMark.isSome = true ↔ located e.kind = true) ∧
    (e.contextMark.isSome = true → located e.kind = true) ∧
    (e.context.isSome = e.contextMark.isSome) := by
  cases e <;> simp [Err.problemMark, Err.contextMark, Err.context, Err.kind, located] <;> (split <;> rfl)

/-- C41: displayed positions count from one. -/
theorem display_located (io : IoKind → String) (c : String) (cm : Mark) (p : String) (pm : Mark) (hc : c ≠ "") :
    (Err.scanner c cm p pm).display io =
      "Scanner error: " ++ ("line " ++ toString (pm.line + 1) ++ " column " ++ toString (pm.column + 1) ++ ": " ++ p
        ++ " " ++ c ++ " (" ++ ("line " ++ toString (cm.line + 1) ++ " column " ++ toString (cm.column + 1)) ++ ")") := by
  simp only [Err.display, Err.kind, ErrorKind.display, displayProblem, if_neg hc, Mark.display]
  rfl

/-- C41: `TryFrom<Error> for io::Error` succeeds exactly for I/O errors, returning that error,
and otherwise gives the error back. -/
theorem try_into_io (e : Err) :
    (∀ k, e.tryIntoIo = .inl k ↔ e = .io k) ∧ (∀ e', e.tryIntoIo = .inr e' ↔ e = e' ∧ e.kind ≠ .io) := by
  cases e <;> simp [Err.tryIntoIo, Err.kind, eq_comm]

example : (Err.scanner "while scanning" ⟨3, 1, 2⟩ "bad" ⟨5, 1, 4⟩).contextMark = some ⟨3, 1, 2⟩ := by decide

end Yaml.Props
