import Verif.Basic

/-
A text written with another line break (for C62).
-/

namespace Yaml.Spec

/-- The characters a choice of `set_break` stands for; `any` is the default of the library, LF. -/
def chosenBreak : Break → Str
  | .cr => cs! "\r"
  | .ln => cs! "\n"
  | .crln => cs! "\r\n"
  | .any => cs! "\n"

/-- The text with every LF replaced by the characters `brk`. -/
def withBreak (brk : Str) : Str → Str
  | [] => []
  | c :: t => if c = '\n' then brk ++ withBreak brk t else c :: withBreak brk t

end Yaml.Spec
