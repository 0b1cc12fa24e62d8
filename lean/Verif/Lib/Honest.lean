import Verif.Lib.Run

/-
Errors that are handed on: a method that fails does so with an error of its own or with the error with which the
operation below it failed, and then it did nothing more.
-/

namespace Yaml.Cu
open Yaml Scanner
set_option linter.unusedSimpArgs false
set_option linter.unusedVariables false

/-- Operations that may fail. -/
class Fails (Op : Type) (Ans : Op → Type) where
  bad : (o : Op) → Ans o → Option Err

instance : Fails CharOp CharOp.Ans where
  bad o := match o with
    | .cache _ => fun a => a
    | .get _ => fun _ => none
    | .pop => fun _ => none
    | .enc => fun _ => none

instance : Fails TokOp TokOp.Ans where
  bad o := match o with
    | .peek => fun a => match a with | .ok _ => none | .error e => some e
    | .setFront _ => fun _ => none
    | .skip => fun _ => none
    | .streamEnded => fun _ => none
    | .streamStarted => fun _ => none

/-- The state is the failure that was met; nothing may be done after one. -/
def stepF (Op : Type) (Ans : Op → Type) [Fails Op Ans] : Step Op Ans (Option Err) :=
  fun o K b => b = none ∧ ∀ a, K a (Fails.bad o a)

/-- An error that is not from reading. -/
def Own : Err → Prop
  | .scanner .. => True
  | .parser .. => True
  | .composer .. => True
  | _ => False

/-- What a method may return. -/
def Told {α S : Type} : Out α × S → Option Err → Prop
  | (.ok _, _), b => b = none
  | (.err e, _), b => b = some e ∨ (b = none ∧ Own e)
  | _, b => b = none

section
variable {Op : Type} {Ans : Op → Type} [Fails Op Ans] {S α β σ : Type}

theorem stepF_mono : (stepF Op Ans).Mono := fun o K K' b h h1 => ⟨h1.1, fun a => h _ _ (h1.2 a)⟩

/-- `m` hands failures on. -/
class Honest (m : M Op Ans S α) : Prop where
  told : ∀ s, (m s).wp (stepF Op Ans) Told none

theorem Honest.then {m : M Op Ans S α} {f : α → M Op Ans S β} (hm : Honest m) (h : ∀ a, Honest (f a)) : Honest (m >>= f) := by
  constructor
  intro s
  show ((m s).bind (M.cont f)).wp _ Told none
  rw [Free.wp_bind]
  refine Free.wp_mono stepF_mono ?_ (hm.told s)
  rintro ⟨o, s'⟩ b hb
  cases o with
  | ok a =>
    have hb : b = none := hb
    subst hb
    exact (h a).told s'
  | err e => exact hb
  | panic => exact hb
  | fuel => exact hb

instance : Honest (M.get : M Op Ans S S) := ⟨fun s => rfl⟩
instance {f : S → S} : Honest (M.modify f : M Op Ans S Unit) := ⟨fun s => rfl⟩
instance {a : α} : Honest (pure a : M Op Ans S α) := ⟨fun s => rfl⟩
instance {x : PanicSite} : Honest (M.panic x : M Op Ans S α) := ⟨fun s => rfl⟩
instance : Honest (M.outOfFuel : M Op Ans S α) := ⟨fun s => rfl⟩
instance {m : M Op Ans S α} {f : α → M Op Ans S β} [hm : Honest m] [h : ∀ a, Honest (f a)] : Honest (m >>= f) := hm.then h
instance {p : Prop} [Decidable p] {m n : M Op Ans S α} [h : Honest m] [h' : Honest n] : Honest (if p then m else n) := by
  split
  · exact h
  · exact h'
instance {b : Bool} {m : M Op Ans S Unit} [h : Honest m] : Honest (M.when b m) := by
  cases b
  · exact (inferInstance : Honest (pure () : M Op Ans S Unit))
  · exact h

theorem Honest.loop {body : σ → M Op Ans S (σ ⊕ α)} (h : ∀ x, Honest (body x)) : ∀ (F : Nat) (x : σ), Honest (M.loop F body x)
  | 0, x => ⟨fun s => rfl⟩
  | F + 1, x => by
    refine Honest.then (h x) fun a => ?_
    cases a with
    | inl x' => exact Honest.loop h F x'
    | inr a => exact (inferInstance : Honest (pure a : M Op Ans S α))

instance {F : Nat} {body : σ → M Op Ans S (σ ⊕ α)} {x : σ} [h : ∀ x, Honest (body x)] : Honest (M.loop F body x) := Honest.loop h F x

theorem Honest.throw {e : Err} (h : Own e) : Honest (M.throw e : M Op Ans S α) := ⟨fun s => .inr ⟨rfl, h⟩⟩

end

/-- Through a method, matches included. -/
macro "hon" : tactic => `(tactic| repeat' first | infer_instance | (refine Honest.then inferInstance ?_) | (refine Honest.then ?_ ?_) | (refine Honest.loop ?_ _ _) | (intro _) | split)

/-! ### The scanner -/

instance {a : String} {m : Mark} {b : String} {α : Type} : Honest (scannerError a m b : Scan α) := ⟨fun s => .inr ⟨rfl, trivial⟩⟩
instance {i : Nat} : Honest (at_ i) := ⟨fun s => ⟨rfl, fun a => rfl⟩⟩
instance : Honest popChar := ⟨fun s => ⟨rfl, fun a => rfl⟩⟩
instance : Honest (M.prim CharOp.enc : Scan Encoding) := ⟨fun s => ⟨rfl, fun a => rfl⟩⟩
instance : Honest getMark := ⟨fun s => rfl⟩
instance {f : Mark → Mark} : Honest (setMark f) := ⟨fun s => rfl⟩
instance {b : Bool} : Honest (allowSimpleKey b) := ⟨fun s => rfl⟩
instance {n : Nat} : Honest (cache n) := ⟨fun s => ⟨rfl, fun a => by cases a with | none => rfl | some e => exact .inl rfl⟩⟩

instance : Honest skipChar := by unfold skipChar; hon
instance : Honest skipLineBreak := by unfold skipLineBreak; hon
instance {x : Str} : Honest (readChar x) := by unfold readChar; hon
instance {x : Str} : Honest (readLineBreak x) := by unfold readLineBreak; hon
instance {F : Nat} {p : Option Char → Bool} : Honest (skipWhile F p) := by unfold skipWhile; hon
instance {F : Nat} {p : Option Char → Bool} {x : Str} : Honest (readWhile F p x) := by unfold readWhile; hon
instance : Honest staleSimpleKeys := by unfold staleSimpleKeys; hon
instance : Honest removeSimpleKey := by unfold removeSimpleKey; hon
instance : Honest saveSimpleKey := by unfold saveSimpleKey; hon
instance : Honest increaseFlowLevel := by unfold increaseFlowLevel; hon
instance : Honest decreaseFlowLevel := by unfold decreaseFlowLevel; hon
instance {t : Token} : Honest (pushToken t) := by unfold pushToken; hon
instance {n : Nat} {t : Token} : Honest (insertToken n t) := by unfold insertToken; hon
instance {a : Nat} {b : Option Nat} {c : TokenData} {d : Mark} : Honest (rollIndent a b c d) := by unfold rollIndent; hon
instance {a : Int} : Honest (unrollIndent a) := by unfold unrollIndent; hon
instance {F : Nat} : Honest (scanToNextToken F) := by unfold scanToNextToken; hon
instance {F : Nat} {m : Mark} : Honest (scanDirectiveName F m) := by unfold scanDirectiveName; hon
instance {F : Nat} {m : Mark} : Honest (scanVersionDirectiveNumber F m) := by unfold scanVersionDirectiveNumber; hon
instance {F : Nat} {m : Mark} : Honest (scanVersionDirectiveValue F m) := by unfold scanVersionDirectiveValue; hon
instance {F : Nat} {d : Bool} {m : Mark} : Honest (scanTagHandle F d m) := by unfold scanTagHandle; hon
instance {F : Nat} {d : Bool} {m : Mark} {x : Str} : Honest (scanUriEscapes F d m x) := by unfold scanUriEscapes; hon
instance {F : Nat} {u d : Bool} {x : Str} {m : Mark} : Honest (scanTagUri F u d x m) := by unfold scanTagUri; hon
instance {F : Nat} {m : Mark} : Honest (scanTagDirectiveValue F m) := by unfold scanTagDirectiveValue; hon
instance {F : Nat} {m : Mark} {x : Str} : Honest (scanDirectiveValue F m x) := by unfold scanDirectiveValue; hon
instance {F : Nat} : Honest (skipBlanksAndComment F) := by unfold skipBlanksAndComment; hon
instance {F : Nat} : Honest (scanDirective F) := by unfold scanDirective; hon
instance {F : Nat} {a : Bool} : Honest (scanAnchor F a) := by unfold scanAnchor; hon
instance {F : Nat} {m : Mark} : Honest (scanTagBody F m) := by unfold scanTagBody; hon
instance {F : Nat} : Honest (scanTag F) := by unfold scanTag; hon
instance {F : Nat} {i : Int} : Honest (skipIndent F i) := by unfold skipIndent; hon
instance {F : Nat} {i : Int} {x : Str} {m : Mark} : Honest (scanBlockScalarBreaks F i x m) := by unfold scanBlockScalarBreaks; hon
instance {m : Mark} {c : Option Char} : Honest (blockIndicatorDigit m c) := by unfold blockIndicatorDigit; hon
instance {m : Mark} : Honest (blockScalarHeader m) := by unfold blockScalarHeader; hon
instance {F : Nat} {l : Bool} {m : Mark} {v : BlockVars} : Honest (blockContent F l m v) := by unfold blockContent; hon
instance {F : Nat} {l : Bool} : Honest (scanBlockScalar F l) := by unfold scanBlockScalar; hon

theorem hexLoop_honest {m : Mark} : ∀ {n k v : Nat}, Honest (hexLoop m n k v)
  | 0, k, v => by unfold hexLoop; infer_instance
  | n + 1, k, v => by
    have := fun {k v : Nat} => hexLoop_honest (m := m) (n := n) (k := k) (v := v)
    unfold hexLoop
    hon
instance {m : Mark} {n k v : Nat} : Honest (hexLoop m n k v) := hexLoop_honest

theorem skipChars_honest : ∀ {n : Nat}, Honest (skipChars n)
  | 0 => by unfold skipChars; infer_instance
  | n + 1 => by
    have := skipChars_honest (n := n)
    unfold skipChars
    infer_instance
instance {n : Nat} : Honest (skipChars n) := skipChars_honest

instance {m : Mark} {x : Str} : Honest (scanEscape m x) := by unfold scanEscape; hon
instance {F : Nat} {x : Bool} {m : Mark} {y : Str} : Honest (flowChunk F x m y) := by unfold flowChunk; hon
instance {F : Nat} {v : BlankVars} : Honest (flowBlanks F v) := by unfold flowBlanks; hon
instance {m : Mark} : Honest (flowHead m) := by unfold flowHead; hon
instance {F : Nat} {x : Bool} {m : Mark} : Honest (flowBody F x m) := by unfold flowBody; hon
instance {F : Nat} {x : Bool} : Honest (scanFlowScalar F x) := by unfold scanFlowScalar; hon
instance {F : Nat} {m : Mark} {v : PlainVars} : Honest (plainChunk F m v) := by unfold plainChunk; hon
instance {F : Nat} {i : Int} {m : Mark} {v : BlankVars} : Honest (plainBlanks F i m v) := by unfold plainBlanks; hon
instance {F : Nat} {i : Int} {m : Mark} : Honest (plainBody F i m) := by unfold plainBody; hon
instance {F : Nat} : Honest (scanPlainScalar F) := by unfold scanPlainScalar; hon
instance {n : Nat} {d : TokenData} : Honest (fetchIndicator n d) := by unfold fetchIndicator; hon
instance : Honest fetchStreamStart := by unfold fetchStreamStart; hon
instance : Honest fetchStreamEnd := by unfold fetchStreamEnd; hon
instance {F : Nat} : Honest (fetchDirective F) := by unfold fetchDirective; hon
instance {d : TokenData} : Honest (fetchDocumentIndicator d) := by unfold fetchDocumentIndicator; hon
instance {d : TokenData} : Honest (fetchFlowCollectionStart d) := by unfold fetchFlowCollectionStart; hon
instance {d : TokenData} : Honest (fetchFlowCollectionEnd d) := by unfold fetchFlowCollectionEnd; hon
instance : Honest fetchFlowEntry := by unfold fetchFlowEntry; hon
instance {d : TokenData} {x : String} : Honest (startBlockCollection d x) := by unfold startBlockCollection; hon
instance : Honest fetchBlockEntry := by unfold fetchBlockEntry; hon
instance : Honest fetchKey := by unfold fetchKey; hon
instance : Honest fetchValue := by unfold fetchValue; hon
instance {F : Nat} {a : Bool} : Honest (fetchAnchor F a) := by unfold fetchAnchor; hon
instance {F : Nat} : Honest (fetchTag F) := by unfold fetchTag; hon
instance {F : Nat} {a : Bool} : Honest (fetchBlockScalar F a) := by unfold fetchBlockScalar; hon
instance {F : Nat} {a : Bool} : Honest (fetchFlowScalar F a) := by unfold fetchFlowScalar; hon
instance {F : Nat} : Honest (fetchPlainScalar F) := by unfold fetchPlainScalar; hon

theorem Honest.ite {S α : Type} {Op : Type} {Ans : Op → Type} [Fails Op Ans] {p : Prop} [Decidable p] {m n : M Op Ans S α} (h : Honest m) (h' : Honest n) : Honest (if p then m else n) := inferInstance

instance {F : Nat} {m : Mark} {fl : Nat} {c0 c1 c2 c3 : Option Char} : Honest (dispatch F m fl c0 c1 c2 c3) := by
  unfold dispatch
  repeat' first | infer_instance | (refine Honest.ite ?_ ?_) | (refine Honest.then inferInstance fun _ => ?_)
instance {F : Nat} : Honest (fetchNextToken F) := by
  unfold fetchNextToken
  repeat' first | infer_instance | (refine Honest.ite ?_ ?_) | (refine Honest.then inferInstance fun _ => ?_)
instance {F : Nat} : Honest (fetchMoreTokens F) := by
  unfold fetchMoreTokens
  repeat' first | infer_instance | (refine Honest.ite ?_ ?_) | (refine Honest.then ?_ fun _ => ?_) | (refine Honest.loop (fun _ => ?_) _ _)
instance {F : Nat} : Honest (Scanner.scan F) := by unfold Scanner.scan; hon
instance {F : Nat} : Honest (Scanner.peek F) := by unfold Scanner.peek; hon
instance {d : TokenData} : Honest (Scanner.setFront d) := by unfold Scanner.setFront; hon
instance : Honest Scanner.skipToken := by unfold Scanner.skipToken; hon

end Yaml.Cu
