import Verif.Api
import Verif.Lib.Source

/-
Specification for C67: iterating over a scanner or parser.
-/

namespace Yaml.Spec

/-- The item that stands for the result of a call: `Some` of it, be it `Ok` or `Err`. -/
def item {α : Type} : Out α → Out (Option (Except Err α))
  | .ok a => .ok (some (.ok a))
  | .err e => .ok (some (.error e))
  | .panic x => .panic x
  | .fuel => .fuel

/-- The items of an iterator, given the results of calls: one for each up to the first that satisfies `last`, and it; then `None`. -/
def itemsOf {α : Type} (last : α → Bool) : List (Out α) → List (Out (Option (Except Err α)))
  | [] => []
  | .ok a :: r => item (.ok a) :: if last a then r.map (fun _ => .ok none) else itemsOf last r
  | x :: r => item x :: itemsOf last r

/-- The results of `n` calls; the first that is not `Ok` ends the list. -/
def callsOk {ω α : Type} (call : ω → Out α × ω) : Nat → ω → List (Out α)
  | 0, _ => []
  | n + 1, o =>
    match call o with
    | (.ok a, o') => .ok a :: callsOk call n o'
    | (r, _) => [r]

/-- The items of `n` calls of an iterator's `next`; the first that is not `None` or `Some(Ok(_))` ends the list: what
`for x in iterator { x?; … }` meets. -/
def iterateOk {ω α : Type} (next : ω → Out (Option (Except Err α)) × ω) : Nat → ω → List (Out (Option (Except Err α)))
  | 0, _ => []
  | n + 1, o =>
    match next o with
    | (.ok none, o') => .ok none :: iterateOk next n o'
    | (.ok (some (.ok a)), o') => .ok (some (.ok a)) :: iterateOk next n o'
    | (r, _) => [r]

/-- `Called o rs o'`: from `o`, calls of `scan` returned `rs`, all of them `Ok` or `Err`, and left `o'`.  Each had passes enough
for what is to be read. -/
inductive Called (o : ScannerObj) : List (Out Token) → ScannerObj → Prop
  | nil : Called o [] o
  | ok {rs : List (Out Token)} {t : Token} {F : Nat} {o1 o2 : ScannerObj} (h : Called o rs o1) (hF : o1.r.buffer.length + srcSize o1.r.items + 2 < F)
      (hs : o1.scan F = (.ok t, o2)) : Called o (rs ++ [.ok t]) o2
  | err {rs : List (Out Token)} {e : Err} {F : Nat} {o1 o2 : ScannerObj} (h : Called o rs o1) (hF : o1.r.buffer.length + srcSize o1.r.items + 2 < F)
      (hs : o1.scan F = (.err e, o2)) : Called o (rs ++ [.err e]) o2

end Yaml.Spec
