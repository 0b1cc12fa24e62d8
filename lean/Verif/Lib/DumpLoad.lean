import Verif.Spec.DumpLoad
import Verif.Lib.Unfold

/-
Events that say the same compose to documents that are the same up to styles and marks.
-/

namespace Yaml
open Spec
set_option linter.unusedVariables false
set_option linter.unusedSimpArgs false

/-- Events that mean the same to the loader, up to style and marks. -/
def Sim (e e' : EventData) : Prop :=
  match e, e' with
  | .alias a, .alias a' => a' = a
  | .scalar a t v _ _ _, .scalar a' t' v' _ _ _ => a' = a ∧ v' = v ∧ tagOr t' (cs! "tag:yaml.org,2002:str") = tagOr t (cs! "tag:yaml.org,2002:str")
  | .sequenceStart a t _ _, .sequenceStart a' t' _ _ => a' = a ∧ tagOr t' (cs! "tag:yaml.org,2002:seq") = tagOr t (cs! "tag:yaml.org,2002:seq")
  | .mappingStart a t _ _, .mappingStart a' t' _ _ => a' = a ∧ tagOr t' (cs! "tag:yaml.org,2002:map") = tagOr t (cs! "tag:yaml.org,2002:map")
  | .sequenceEnd, .sequenceEnd => True
  | .mappingEnd, .mappingEnd => True
  | _, _ => False

/-- Nodes that are the same up to style and marks. -/
def NSim (n n' : Node) : Prop :=
  n'.tag = n.tag ∧
    match n.data, n'.data with
    | .scalar v _, .scalar v' _ => v' = v
    | .sequence items _, .sequence items' _ => items' = items
    | .mapping pairs _, .mapping pairs' _ => pairs' = pairs
    | _, _ => False

namespace Spec.All2
variable {α β : Type} {R : α → β → Prop}

theorem append {a : List α} {b : List β} {a' : List α} {b' : List β} (h : All2 R a b) (h' : All2 R a' b') : All2 R (a ++ a') (b ++ b') := by
  induction h with
  | nil => exact h'
  | cons h _ ih => exact .cons h ih

theorem length {a : List α} {b : List β} (h : All2 R a b) : b.length = a.length := by
  induction h with
  | nil => rfl
  | cons _ _ ih => simp [ih]

theorem split {a1 a2 : List α} {b : List β} (h : All2 R (a1 ++ a2) b) : ∃ b1 b2, b = b1 ++ b2 ∧ All2 R a1 b1 ∧ All2 R a2 b2 := by
  induction a1 generalizing b with
  | nil => exact ⟨[], b, rfl, .nil, h⟩
  | cons x a1 ih =>
    cases h with
    | cons h hs =>
      obtain ⟨b1, b2, rfl, h1, h2⟩ := ih hs
      exact ⟨_, _, rfl, .cons h h1, h2⟩

theorem mono {S : α → β → Prop} {a : List α} {b : List β} (h : All2 R a b) (hm : ∀ x ∈ a, ∀ y ∈ b, R x y → S x y) : All2 S a b := by
  induction h with
  | nil => exact .nil
  | cons h _ ih => exact .cons (hm _ List.mem_cons_self _ List.mem_cons_self h) (ih fun x hx y hy => hm x (List.mem_cons_of_mem _ hx) y (List.mem_cons_of_mem _ hy))

end Spec.All2

mutual
/-- Trees with events that mean the same. -/
def TSim : Tree → Tree → Prop
  | .leaf e, .leaf e' => Sim e.data e'.data
  | .coll s cs t, .coll s' cs' t' => Sim s.data s'.data ∧ TSims cs cs' ∧ Sim t.data t'.data
  | _, _ => False
def TSims : List Tree → List Tree → Prop
  | [], [] => True
  | t :: ts, t' :: ts' => TSim t t' ∧ TSims ts ts'
  | _, _ => False
end

theorem tSims_length : ∀ {ts ts' : List Tree}, TSims ts ts' → ts'.length = ts.length
  | [], [], _ => rfl
  | _ :: ts, _ :: ts', h => by simp [tSims_length h.2]
  | [], _ :: _, h => h.elim
  | _ :: _, [], h => h.elim

mutual
theorem tree_sim : ∀ (t : Tree), t.Good → ∀ {es : List Event}, All2 (fun e e' : Event => Sim e.data e'.data) t.events es → ∃ t', es = t'.events ∧ TSim t t' ∧ t'.Good
  | .leaf e, hg, es, h => by
    simp only [Tree.events] at h
    cases h with
    | @cons _ e' _ _ h hs =>
      cases hs
      refine ⟨.leaf e', rfl, h, ?_⟩
      rcases hg with ⟨a, hg⟩ | ⟨a, g, v, i, j, y, hg⟩
      · rw [hg] at h
        unfold Sim at h
        split at h <;> first | exact Or.inl ⟨_, by assumption⟩ | simp_all
      · rw [hg] at h
        unfold Sim at h
        split at h <;> first | exact Or.inr ⟨_, _, _, _, _, _, by assumption⟩ | simp_all
  | .coll s cs t, hg, es, h => by
    simp only [Tree.events] at h
    cases h with
    | @cons _ s' _ _ h hs =>
      obtain ⟨b1, b2, rfl, h1, h2⟩ := hs.split
      cases h2 with
      | @cons _ t' _ _ h2 h3 =>
        cases h3
        obtain ⟨cs', rfl, k1, k2⟩ := trees_sim cs hg.2 h1
        refine ⟨.coll s' cs' t', rfl, ⟨h, k1, h2⟩, ?_, k2⟩
        rcases hg.1 with ⟨a, g, i, y, e1, e2⟩ | ⟨a, g, i, y, e1, e2, e3⟩
        · left
          rw [e1] at h; rw [e2] at h2
          unfold Sim at h h2
          split at h <;> first | (split at h2 <;> first | exact ⟨_, _, _, _, by assumption, by assumption⟩ | simp_all) | simp_all
        · right
          rw [e1] at h; rw [e2] at h2
          unfold Sim at h h2
          split at h <;> first | (split at h2 <;> first | exact ⟨_, _, _, _, by assumption, by assumption, by rw [tSims_length k1]; exact e3⟩ | simp_all) | simp_all
theorem trees_sim : ∀ (ts : List Tree), GoodAll ts → ∀ {es : List Event}, All2 (fun e e' : Event => Sim e.data e'.data) (eventsAll ts) es → ∃ ts', es = eventsAll ts' ∧ TSims ts ts' ∧ GoodAll ts'
  | [], _, es, h => by
    simp only [eventsAll] at h
    cases h
    exact ⟨[], rfl, trivial, trivial⟩
  | t :: ts, hg, es, h => by
    simp only [eventsAll] at h
    obtain ⟨b1, b2, rfl, h1, h2⟩ := h.split
    obtain ⟨t', rfl, k1, k2⟩ := tree_sim t hg.1 h1
    obtain ⟨ts', rfl, k3, k4⟩ := trees_sim ts hg.2 h2
    exact ⟨t' :: ts', rfl, ⟨k1, k3⟩, k2, k4⟩
end

mutual
theorem compose_sim : ∀ (t t' : Tree) {names : Names} {n : Nat} {q : Nat × List Node × Names}, TSim t t' → t.compose names n = some q →
    ∃ new', t'.compose names n = some (q.1, new', q.2.2) ∧ All2 NSim q.2.1 new'
  | .leaf e, .leaf e', names, n, q, h, hc => by
    have h : Sim e.data e'.data := h
    unfold Sim at h
    unfold Tree.compose at hc ⊢
    split at h <;> first | exact h.elim | (rename_i x1 x2; simp only [x1, x2] at hc ⊢; try (cases hc; done))
    · subst h
      obtain ⟨i, h1, h2⟩ := Option.map_eq_some_iff.1 hc
      subst h2
      exact ⟨[], by rw [h1]; rfl, .nil⟩
    · obtain ⟨rfl, rfl, h⟩ := h
      obtain ⟨i, h1, h2⟩ := Option.map_eq_some_iff.1 hc
      subst h2
      exact ⟨_, by rw [h1]; rfl, .cons ⟨h, rfl⟩ .nil⟩
  | .coll s cs t, .coll s' cs' t', names, n, q, h, hc => by
    obtain ⟨h, hs, _⟩ := h
    unfold Sim at h
    unfold Tree.compose at hc ⊢
    split at h <;> first | exact h.elim | (rename_i x1 x2; simp only [x1, x2] at hc ⊢; try (cases hc; done))
    · obtain ⟨rfl, h⟩ := h
      obtain ⟨nm, h1, h2⟩ := Option.bind_eq_some_iff.1 hc
      obtain ⟨r, h3, h4⟩ := Option.map_eq_some_iff.1 h2
      subst h4
      obtain ⟨new', h5, h6⟩ := composeAll_sim cs cs' hs h3
      exact ⟨_, by rw [h1, Option.bind_some, h5]; rfl, .cons ⟨h, rfl⟩ h6⟩
    · obtain ⟨rfl, h⟩ := h
      obtain ⟨nm, h1, h2⟩ := Option.bind_eq_some_iff.1 hc
      obtain ⟨r, h3, h4⟩ := Option.map_eq_some_iff.1 h2
      subst h4
      obtain ⟨new', h5, h6⟩ := composeAll_sim cs cs' hs h3
      exact ⟨_, by rw [h1, Option.bind_some, h5]; rfl, .cons ⟨h, rfl⟩ h6⟩
  | .leaf _, .coll _ _ _, _, _, _, h, _ => h.elim
  | .coll _ _ _, .leaf _, _, _, _, h, _ => h.elim
theorem composeAll_sim : ∀ (ts ts' : List Tree) {names : Names} {n : Nat} {q : List Nat × List Node × Names}, TSims ts ts' → composeAll names n ts = some q →
    ∃ new', composeAll names n ts' = some (q.1, new', q.2.2) ∧ All2 NSim q.2.1 new'
  | [], [], _, _, q, _, hc => by
    unfold composeAll at hc ⊢
    cases hc
    exact ⟨[], rfl, .nil⟩
  | t :: ts, t' :: ts', names, n, q, h, hc => by
    unfold composeAll at hc ⊢
    obtain ⟨r, h1, h2⟩ := Option.bind_eq_some_iff.1 hc
    obtain ⟨u, h3, h4⟩ := Option.map_eq_some_iff.1 h2
    subst h4
    obtain ⟨new1, k1, k2⟩ := compose_sim t t' h.1 h1
    obtain ⟨new2, k3, k4⟩ := composeAll_sim ts ts' h.2 h3
    refine ⟨new1 ++ new2, ?_, k2.append k4⟩
    rw [k1, Option.bind_some]
    simp only
    rw [k2.length, k3]
    rfl
  | [], _ :: _, _, _, _, h, _ => h.elim
  | _ :: _, [], _, _, _, h, _ => h.elim
end

end Yaml
