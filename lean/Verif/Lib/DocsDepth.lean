import Verif.Lib.Trans5
import Verif.Spec.Tokens

/-
The parser never has fewer flow collections open than the scanner.
-/

namespace Yaml.Dx
open Yaml Yaml.Spec
set_option linter.unusedSimpArgs false
set_option linter.unusedVariables false

/-- Flow collections open after the tokens, from `n` open ones. -/
def depthFrom (n : Nat) (l : List TokenData) : Nat :=
  l.foldl (fun n d => if d = .flowSequenceStart ∨ d = .flowMappingStart then n + 1 else if d = .flowSequenceEnd ∨ d = .flowMappingEnd then n - 1 else n) n

theorem depthFrom_append (n : Nat) (a b : List TokenData) : depthFrom n (a ++ b) = depthFrom (depthFrom n a) b := List.foldl_append ..
theorem depthFrom_nil (n : Nat) : depthFrom n [] = n := rfl
theorem depthFrom_cons (n : Nat) (d : TokenData) (l : List TokenData) :
    depthFrom n (d :: l) = depthFrom (if d = .flowSequenceStart ∨ d = .flowMappingStart then n + 1 else if d = .flowSequenceEnd ∨ d = .flowMappingEnd then n - 1 else n) l := rfl

theorem flowDepth_eq (ts : List Token) : flowDepth ts = depthFrom 0 (dd ts) := by
  unfold flowDepth depthFrom dd
  rw [List.foldl_map]
  congr 1
  funext n t
  simp [isFlowStart, isFlowEnd]

/-- Whether a state is inside a flow collection of its own. -/
def wOf : PSt → Nat
  | .flowSequenceEntry | .flowSequenceEntryMappingKey | .flowSequenceEntryMappingValue | .flowSequenceEntryMappingEnd
  | .flowMappingKey | .flowMappingValue | .flowMappingEmptyValue => 1
  | _ => 0

def wAll : List PSt → Nat
  | [] => 0
  | x :: r => wOf x + wAll r

theorem props_depth {D : List TagDirective} {ps : List TokenData} {a t : Option Str} (h : IsProps D ps a t) (n : Nat) : depthFrom n ps = n := by
  cases h <;> simp [depthFrom]

theorem directives_depth {ds : List TokenData} {v : Option VersionDirective} {tags : List TagDirective} (h : IsDirectives ds v tags) (n : Nat) : depthFrom n ds = n := by
  induction h with
  | none => rfl
  | version _ _ _ ih => rw [depthFrom_cons]; simpa using ih
  | tag _ _ _ ih => rw [depthFrom_cons]; simpa using ih

theorem ends_depth (c : List TokenData) (hc : ∀ d ∈ c, d = .documentEnd) (n : Nat) : depthFrom n c = n := by
  induction c with
  | nil => rfl
  | cons d c ih =>
    rw [depthFrom_cons, hc d (by simp)]
    simpa using ih fun d hd => hc d (by simp [hd])

/-- The tokens taken from `l` to leave `l'` keep the depth within bounds. -/
def Keeps (w : Nat) (l : List TokenData) (w' : Nat) (l' : List TokenData) : Prop :=
  ∃ c, l = c ++ l' ∧ ∀ n, n ≤ w → depthFrom n c ≤ w'

theorem Keeps.one {w w' : Nat} {d : TokenData} {l l' : List TokenData} (h : Keeps w l w' l') (h1 : d ≠ .flowSequenceStart) (h2 : d ≠ .flowMappingStart) :
    Keeps w (d :: l) w' l' := by
  obtain ⟨c, rfl, h⟩ := h
  refine ⟨d :: c, rfl, fun n hn => ?_⟩
  rw [depthFrom_cons]
  simp only [h1, h2, or_self, if_false]
  split
  · exact h _ (by omega)
  · exact h _ hn

theorem Keeps.pre {w w' : Nat} {ps l l' : List TokenData} (h : Keeps w l w' l') (hp : ∀ n, depthFrom n ps = n) : Keeps w (ps ++ l) w' l' := by
  obtain ⟨c, rfl, h⟩ := h
  refine ⟨ps ++ c, by simp, fun n hn => ?_⟩
  rw [depthFrom_append, hp]
  exact h _ hn

theorem Keeps.refl {w w' : Nat} (h : w ≤ w') (l : List TokenData) : Keeps w l w' l := ⟨[], rfl, fun n hn => Nat.le_trans hn h⟩

theorem Keeps.open_ {w w' : Nat} {d : TokenData} {l l' : List TokenData} (h : Keeps (w + 1) l w' l') : Keeps w (d :: l) w' l' := by
  obtain ⟨c, rfl, h⟩ := h
  refine ⟨d :: c, rfl, fun n hn => ?_⟩
  rw [depthFrom_cons]
  split
  · exact h _ (by omega)
  · split
    · exact h _ (by omega)
    · exact h _ (by omega)

theorem Keeps.close {w w' : Nat} {d : TokenData} {l l' : List TokenData} (hd : d = .flowSequenceEnd ∨ d = .flowMappingEnd) (h : Keeps w l w' l') : Keeps (w + 1) (d :: l) w' l' := by
  obtain ⟨c, rfl, h⟩ := h
  refine ⟨d :: c, rfl, fun n hn => ?_⟩
  rw [depthFrom_cons]
  rcases hd with rfl | rfl <;> exact h _ (by simp; omega)

theorem ntr_keeps {D : List TagDirective} {b i : Bool} {r r' : List PSt} {l l' : List TokenData} {ev : EventData} {x' : PSt} (h : NTr D b i r l ev x' r' l') :
    Keeps (wAll r) l (wAll (x' :: r')) l' := by
  cases h with
  | alias n => exact (Keeps.refl (Nat.le_refl _) _).one (by simp) (by simp)
  | scalar hp v s => exact ((Keeps.refl (Nat.le_refl _) _).one (by simp) (by simp)).pre (props_depth hp)
  | bare hp hne => exact (Keeps.refl (Nat.le_refl _) _).pre (props_depth hp)
  | blockSeq hp hb => exact (Keeps.refl (by simp [wAll]) _).pre (props_depth hp)
  | blockMap hp hb => exact (Keeps.refl (by simp [wAll]) _).pre (props_depth hp)
  | flowSeq hp => exact (Keeps.refl (by simp [wAll]) _).pre (props_depth hp)
  | flowMap hp => exact (Keeps.refl (by simp [wAll]) _).pre (props_depth hp)
  | indentless hp hi => exact (Keeps.refl (by simp [wAll]) _).pre (props_depth hp)

theorem Keeps.le {w v w' : Nat} {l l' : List TokenData} (h : Keeps w l w' l') (hv : v ≤ w) : Keeps v l w' l' := by
  obtain ⟨c, e, h⟩ := h
  exact ⟨c, e, fun n hn => h n (by omega)⟩

theorem fstr_keeps {D : List TagDirective} {r r' : List PSt} {l l' : List TokenData} {ev : EventData} {x' : PSt} (h : FSTr D r l ev x' r' l') :
    Keeps (wAll r + 1) l (wAll (x' :: r')) l' := by
  cases h with
  | pair => exact (Keeps.refl (by simp [wAll, wOf]; omega) _).one (by simp) (by simp)
  | close => exact (Keeps.refl (Nat.le_refl _) _).close (Or.inl rfl)
  | node h => exact (ntr_keeps h).le (by simp [wAll, wOf]; omega)

theorem fmtr_keeps {D : List TagDirective} {r r' : List PSt} {l l' : List TokenData} {ev : EventData} {x' : PSt} (h : FMTr D r l ev x' r' l') :
    Keeps (wAll r + 1) l (wAll (x' :: r')) l' := by
  cases h with
  | keyEmpty => exact (Keeps.refl (by simp [wAll, wOf]; omega) _).one (by simp) (by simp)
  | key h => exact ((ntr_keeps h).le (by simp [wAll, wOf]; omega)).one (by simp) (by simp)
  | close => exact (Keeps.refl (Nat.le_refl _) _).close (Or.inr rfl)
  | node h => exact (ntr_keeps h).le (by simp [wAll, wOf]; omega)

theorem tr_keeps {D : List TagDirective} {x x' : PSt} {r r' : List PSt} {l l' : List TokenData} {ev : EventData} (h : Tr D x r l ev x' r' l') :
    Keeps (wAll (x :: r)) l (wAll (x' :: r')) l' := by
  induction h with
  | docStart hx hc hd =>
    refine Keeps.pre (Keeps.pre (Keeps.one (Keeps.refl ?_ _) (by simp) (by simp)) (directives_depth hd)) (ends_depth _ hc)
    rcases hx with ⟨rfl, _⟩ | rfl <;> simp [wAll, wOf]
  | streamEnd hx hc =>
    refine Keeps.pre (Keeps.one (Keeps.refl ?_ _) (by simp) (by simp)) (ends_depth _ hc)
    rcases hx with ⟨rfl, _⟩ | rfl <;> simp [wAll, wOf]
  | enterSeq h ih => exact ih.one (by simp) (by simp)
  | enterMap h ih => exact ih.one (by simp) (by simp)
  | content h => exact (ntr_keeps h).le (by simp [wAll, wOf])
  | blockNode h => exact (ntr_keeps h).le (by simp [wAll, wOf])
  | item h => exact ((ntr_keeps h).le (by simp [wAll, wOf])).one (by simp) (by simp)
  | ind h => exact ((ntr_keeps h).le (by simp [wAll, wOf])).one (by simp) (by simp)
  | key h => exact ((ntr_keeps h).le (by simp [wAll, wOf])).one (by simp) (by simp)
  | value h => exact ((ntr_keeps h).le (by simp [wAll, wOf])).one (by simp) (by simp)
  | enterFlowSeq h => exact ((fstr_keeps h).le (by simp [wAll, wOf])).open_
  | enterFlowMap h => exact ((fmtr_keeps h).le (by simp [wAll, wOf])).open_
  | flowSeqMore h => exact ((fstr_keeps h).le (by simp [wAll, wOf]; omega)).one (by simp) (by simp)
  | flowMapMore h => exact ((fmtr_keeps h).le (by simp [wAll, wOf]; omega)).one (by simp) (by simp)
  | flowSeqEnd => exact ((Keeps.refl (Nat.le_refl _) _).close (Or.inl rfl)).le (by simp [wAll, wOf]; omega)
  | flowMapEnd => exact ((Keeps.refl (Nat.le_refl _) _).close (Or.inr rfl)).le (by simp [wAll, wOf]; omega)
  | pairLax hd =>
    refine Keeps.one (Keeps.refl (by simp [wAll, wOf]) _) ?_ ?_ <;> rcases hd with rfl | rfl | rfl <;> simp
  | pairKey h => exact (ntr_keeps h).le (by simp [wAll, wOf])
  | pairValue h => exact ((ntr_keeps h).le (by simp [wAll, wOf])).one (by simp) (by simp)
  | flowValue h => exact ((ntr_keeps h).le (by simp [wAll, wOf])).one (by simp) (by simp)
  | _ => first
    | exact Keeps.refl (by simp [wAll, wOf]) _
    | exact (Keeps.refl (by simp [wAll, wOf]) _).one (by simp) (by simp)

theorem chain_keeps {l0 l : List TokenData} {es : List EventData} {D : List TagDirective} {x : PSt} {r : List PSt} (h : Chain l0 es D x r l) :
    ∃ c, l0 = c ++ l ∧ depthFrom 0 c ≤ wAll (x :: r) := by
  induction h with
  | nil => exact ⟨[], rfl, Nat.zero_le _⟩
  | snoc h hs ih =>
    obtain ⟨c, rfl, hc⟩ := ih
    obtain ⟨c', rfl, hc'⟩ := tr_keeps hs
    exact ⟨c ++ c', by simp, by rw [depthFrom_append]; exact hc' _ hc⟩

end Yaml.Dx
