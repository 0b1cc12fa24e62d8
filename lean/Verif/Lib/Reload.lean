import Verif.Lib.Load
import Verif.Lib.Unfold
import Verif.Spec.DumpLoad

/-
The documents that a composer makes: where their nodes come from, in which order they are dumped, and how often they are
referred to.
-/

namespace Yaml
open Spec

/-- The node was made from the event. -/
def FromEvent (e : EventData) (n : Node) : Prop :=
  match e, n.data with
  | .scalar _ tag v _ _ st, .scalar v' st' => v' = v ∧ st' = st ∧ n.tag = tagOr tag (cs! "tag:yaml.org,2002:str")
  | .sequenceStart _ tag _ _, .sequence _ _ => n.tag = tagOr tag (cs! "tag:yaml.org,2002:seq")
  | .mappingStart _ tag _ _, .mapping _ _ => n.tag = tagOr tag (cs! "tag:yaml.org,2002:map")
  | _, _ => False

mutual
theorem compose_from : ∀ (t : Tree) {names names' : Names} {n id : Nat} {new : List Node},
    t.compose names n = some (id, new, names') → ∀ m ∈ new, ∃ e ∈ t.events, FromEvent e.data m
  | .leaf e, names, names', n, id, new, h => by
    unfold Tree.compose at h
    split at h
    · cases hf : names.find ‹_› with
      | none => rw [hf] at h; simp at h
      | some i =>
        rw [hf] at h; simp at h
        obtain ⟨rfl, rfl, rfl⟩ := h
        simp
    · rename_i anchor tag value _ _ style he
      cases hd : names.define anchor (n + 1) with
      | none => rw [hd] at h; simp at h
      | some names2 =>
        rw [hd] at h; simp at h
        obtain ⟨rfl, rfl, rfl⟩ := h
        intro m hm
        simp at hm; subst hm
        exact ⟨e, by simp [Tree.events], by rw [he]; exact ⟨rfl, rfl, rfl⟩⟩
    · simp at h
  | .coll s cs t, names, names', n, id, new, h => by
    unfold Tree.compose at h
    split at h
    · rename_i anchor tag _ style he
      cases hd : names.define anchor (n + 1) with
      | none => rw [hd] at h; simp at h
      | some names2 =>
        rw [hd] at h; simp at h
        obtain ⟨ids, nodes, names3, h1, rfl, rfl, rfl⟩ := h
        intro m hm
        rcases List.mem_cons.1 hm with rfl | hm
        · exact ⟨s, by simp [Tree.events], by rw [he]; rfl⟩
        · obtain ⟨e, g1, g2⟩ := composeAll_from cs h1 m hm
          exact ⟨e, by simp [Tree.events, g1], g2⟩
    · rename_i anchor tag _ style he
      cases hd : names.define anchor (n + 1) with
      | none => rw [hd] at h; simp at h
      | some names2 =>
        rw [hd] at h; simp at h
        obtain ⟨ids, nodes, names3, h1, rfl, rfl, rfl⟩ := h
        intro m hm
        rcases List.mem_cons.1 hm with rfl | hm
        · exact ⟨s, by simp [Tree.events], by rw [he]; rfl⟩
        · obtain ⟨e, g1, g2⟩ := composeAll_from cs h1 m hm
          exact ⟨e, by simp [Tree.events, g1], g2⟩
    · simp at h

theorem composeAll_from : ∀ (cs : List Tree) {names names' : Names} {n : Nat} {ids : List Nat} {new : List Node},
    composeAll names n cs = some (ids, new, names') → ∀ m ∈ new, ∃ e ∈ eventsAll cs, FromEvent e.data m
  | [], names, names', n, ids, new, h => by
    simp [composeAll] at h
    obtain ⟨rfl, rfl, rfl⟩ := h
    simp
  | t :: ts, names, names', n, ids, new, h => by
    unfold composeAll at h
    cases h1 : t.compose names n with
    | none => rw [h1] at h; simp at h
    | some q1 =>
      obtain ⟨id1, new1, names1⟩ := q1
      rw [h1] at h
      simp only [Option.bind_some] at h
      cases h2 : composeAll names1 (n + new1.length) ts with
      | none => rw [h2] at h; simp at h
      | some r =>
        obtain ⟨ids2, new2, names2⟩ := r
        rw [h2] at h; simp at h
        obtain ⟨rfl, rfl, rfl⟩ := h
        intro m hm
        rcases List.mem_append.1 hm with hm | hm
        · obtain ⟨e, g1, g2⟩ := compose_from t h1 m hm
          exact ⟨e, by simp [eventsAll, g1], g2⟩
        · obtain ⟨e, g1, g2⟩ := composeAll_from ts h2 m hm
          exact ⟨e, by simp [eventsAll, g1], g2⟩
end

theorem pairUp_all : ∀ (ids : List Nat), ids.length % 2 = 0 → (pairUp ids).flatMap (fun p => [p.1, p.2]) = ids
  | [], _ => rfl
  | [_], h => by simp at h
  | a :: b :: r, h => by
    simp only [pairUp, List.flatMap_cons, List.cons_append, List.nil_append]
    rw [pairUp_all r (by simp at h; omega)]

theorem one_to (n : Nat) : List.range' 1 n ++ [n + 1] = List.range' 1 (n + 1) := by
  rw [List.range'_concat]; simp [Nat.add_comm]

variable {nodes : List Node} {name : Nat → Option Str}

mutual
/-- The nodes of a composed document are dumped in the order of their numbers. -/
theorem compose_walks : ∀ (t : Tree) {names names' : Names} {n id : Nat} {new : List Node}, NamesIn names n → t.Good →
    t.compose names n = some (id, new, names') → (∀ k m, new[k]? = some m → nodes[n + k]? = some m) →
    ∀ {t' : Tree} {seen' : List Nat}, Unfolds nodes name (List.range' 1 n) id t' seen' → seen' = List.range' 1 (n + new.length)
  | .leaf e, names, names', n, id, new, hn, hg, h, hnew, t', seen', hu => by
    unfold Tree.compose at h
    split at h
    · cases hf : names.find ‹_› with
      | none => rw [hf] at h; simp at h
      | some i =>
        rw [hf] at h; simp at h
        obtain ⟨rfl, rfl, rfl⟩ := h
        have := hn.find hf
        have hm : i ∈ List.range' 1 n := by rw [List.mem_range'_1]; omega
        cases hu <;> first | rfl | contradiction
    · rename_i anchor tag value _ _ style he
      cases hd : names.define anchor (n + 1) with
      | none => rw [hd] at h; simp at h
      | some names2 =>
        rw [hd] at h; simp at h
        obtain ⟨rfl, rfl, rfl⟩ := h
        have hx := hnew 0 _ rfl
        have hm : n + 1 ∉ List.range' 1 n := by rw [List.mem_range'_1]; omega
        cases hu with
        | alias => contradiction
        | scalar => exact one_to n
        | sequence _ _ hd => rw [Nat.add_sub_cancel, ← Nat.add_zero n, hx] at hd; cases hd
        | mapping _ _ hd => rw [Nat.add_sub_cancel, ← Nat.add_zero n, hx] at hd; cases hd
    · simp at h
  | .coll s cs t, names, names', n, id, new, hn, hg, h, hnew, t', seen', hu => by
    unfold Tree.compose at h
    split at h
    · rename_i anchor tag _ style he
      cases hd : names.define anchor (n + 1) with
      | none => rw [hd] at h; simp at h
      | some names2 =>
        rw [hd] at h; simp at h
        obtain ⟨ids, new1, names3, h1, rfl, rfl, rfl⟩ := h
        have hx := hnew 0 _ rfl
        have hm : n + 1 ∉ List.range' 1 n := by rw [List.mem_range'_1]; omega
        cases hu with
        | alias => contradiction
        | scalar _ _ hd => rw [Nat.add_sub_cancel, ← Nat.add_zero n, hx] at hd; cases hd
        | sequence _ _ hd' hs =>
          rw [Nat.add_sub_cancel, ← Nat.add_zero n, hx] at hd'; cases hd'
          rw [one_to] at hs
          have := composeAll_walks cs (hn.define hd (by omega) (Nat.le_refl _) (by omega)) hg.2 h1
            (fun k m hk => by have := hnew (k + 1) m (by simpa using hk); rw [← this]; congr 1; omega) hs
          rw [this, List.length_cons]; congr 1; omega
        | mapping _ _ hd => rw [Nat.add_sub_cancel, ← Nat.add_zero n, hx] at hd; cases hd
    · rename_i anchor tag _ style he
      cases hd : names.define anchor (n + 1) with
      | none => rw [hd] at h; simp at h
      | some names2 =>
        rw [hd] at h; simp at h
        obtain ⟨ids, new1, names3, h1, rfl, rfl, rfl⟩ := h
        have hx := hnew 0 _ rfl
        have hm : n + 1 ∉ List.range' 1 n := by rw [List.mem_range'_1]; omega
        have hev : ids.length % 2 = 0 := by
          have := composeAll_length cs h1
          simp only at this
          rw [this]
          rcases hg.1 with ⟨_, _, _, _, h, _⟩ | ⟨_, _, _, _, _, _, h⟩
          · rw [he] at h; cases h
          · exact h
        cases hu with
        | alias => contradiction
        | scalar _ _ hd => rw [Nat.add_sub_cancel, ← Nat.add_zero n, hx] at hd; cases hd
        | sequence _ _ hd => rw [Nat.add_sub_cancel, ← Nat.add_zero n, hx] at hd; cases hd
        | mapping _ _ hd' hs =>
          rw [Nat.add_sub_cancel, ← Nat.add_zero n, hx] at hd'; cases hd'
          rw [one_to, pairUp_all _ hev] at hs
          have := composeAll_walks cs (hn.define hd (by omega) (Nat.le_refl _) (by omega)) hg.2 h1
            (fun k m hk => by have := hnew (k + 1) m (by simpa using hk); rw [← this]; congr 1; omega) hs
          rw [this, List.length_cons]; congr 1; omega
    · simp at h

theorem composeAll_walks : ∀ (cs : List Tree) {names names' : Names} {n : Nat} {ids : List Nat} {new : List Node}, NamesIn names n → GoodAll cs →
    composeAll names n cs = some (ids, new, names') → (∀ k m, new[k]? = some m → nodes[n + k]? = some m) →
    ∀ {ts' : List Tree} {seen' : List Nat}, UnfoldsAll nodes name (List.range' 1 n) ids ts' seen' → seen' = List.range' 1 (n + new.length)
  | [], names, names', n, ids, new, hn, hg, h, hnew, ts', seen', hu => by
    simp [composeAll] at h
    obtain ⟨rfl, rfl, rfl⟩ := h
    cases hu
    rfl
  | t :: ts, names, names', n, ids, new, hn, hg, h, hnew, ts', seen', hu => by
    unfold composeAll at h
    cases h1 : t.compose names n with
    | none => rw [h1] at h; simp at h
    | some q1 =>
      obtain ⟨id1, new1, names1⟩ := q1
      rw [h1] at h
      simp only [Option.bind_some] at h
      cases h2 : composeAll names1 (n + new1.length) ts with
      | none => rw [h2] at h; simp at h
      | some r =>
        obtain ⟨ids2, new2, names2⟩ := r
        rw [h2] at h; simp at h
        obtain ⟨rfl, rfl, rfl⟩ := h
        have f1 := compose_fine t hn h1
        cases hu with
        | cons hu hus =>
          have := compose_walks t hn hg.1 h1 (fun k m hk => hnew k m (by
            have hlt := (List.getElem?_eq_some_iff.1 hk).1
            rw [List.getElem?_append_left hlt]; exact hk)) hu
          subst this
          have := composeAll_walks ts f1.names hg.2 h2 (fun k m hk => by
            have := hnew (new1.length + k) m (by rw [List.getElem?_append_right (by omega)]; simpa using hk)
            rw [← this]; congr 1; omega) hus
          rw [this, List.length_append]; congr 1; omega
end

/-- How often nodes are referred to. -/
def refsIn (nodes : List Node) : List Nat := nodes.flatMap fun n => refs n.data

def NoAlias (es : List Event) : Prop := ∀ e ∈ es, ∀ a, e.data ≠ .alias a

mutual
/-- Without aliases, every node is referred to once. -/
theorem compose_once : ∀ (t : Tree) {names names' : Names} {n id : Nat} {new : List Node}, t.Good → NoAlias t.events →
    t.compose names n = some (id, new, names') → ∀ k, (id :: refsIn new).count k ≤ if n < k ∧ k ≤ n + new.length then 1 else 0
  | .leaf e, names, names', n, id, new, hg, ha, h, k => by
    unfold Tree.compose at h
    split at h
    · rename_i he
      exact absurd he (ha e (by simp [Tree.events]) _)
    · rename_i anchor tag value _ _ style he
      cases hd : names.define anchor (n + 1) with
      | none => rw [hd] at h; simp at h
      | some names2 =>
        rw [hd] at h; simp at h
        obtain ⟨rfl, rfl, rfl⟩ := h
        simp only [refsIn, List.flatMap_cons, List.flatMap_nil, refs, List.count_cons, List.count_nil, List.append_nil, beq_iff_eq, List.length_cons, List.length_nil]
        split <;> split <;> omega
    · simp at h
  | .coll s cs t, names, names', n, id, new, hg, ha, h, k => by
    have ha' : NoAlias (eventsAll cs) := fun e he => ha e (by simp [Tree.events, he])
    unfold Tree.compose at h
    split at h
    · rename_i anchor tag _ style he
      cases hd : names.define anchor (n + 1) with
      | none => rw [hd] at h; simp at h
      | some names2 =>
        rw [hd] at h; simp at h
        obtain ⟨ids, new1, names3, h1, rfl, rfl, rfl⟩ := h
        have := composeAll_once cs hg.2 ha' h1 k
        simp only [refsIn, List.flatMap_cons, refs, List.count_cons, List.count_append, beq_iff_eq, List.length_cons] at this ⊢
        split at this <;> split <;> split <;> omega
    · rename_i anchor tag _ style he
      cases hd : names.define anchor (n + 1) with
      | none => rw [hd] at h; simp at h
      | some names2 =>
        rw [hd] at h; simp at h
        obtain ⟨ids, new1, names3, h1, rfl, rfl, rfl⟩ := h
        have := composeAll_once cs hg.2 ha' h1 k
        have hev : ids.length % 2 = 0 := by
          have := composeAll_length cs h1
          simp only at this
          rw [this]
          rcases hg.1 with ⟨_, _, _, _, h, _⟩ | ⟨_, _, _, _, _, _, h⟩
          · rw [he] at h; cases h
          · exact h
        simp only [refsIn, List.flatMap_cons, refs, pairUp_all _ hev, List.count_cons, List.count_append, beq_iff_eq, List.length_cons] at this ⊢
        split at this <;> split <;> split <;> omega
    · simp at h

theorem composeAll_once : ∀ (cs : List Tree) {names names' : Names} {n : Nat} {ids : List Nat} {new : List Node}, GoodAll cs → NoAlias (eventsAll cs) →
    composeAll names n cs = some (ids, new, names') → ∀ k, (ids ++ refsIn new).count k ≤ if n < k ∧ k ≤ n + new.length then 1 else 0
  | [], names, names', n, ids, new, hg, ha, h, k => by
    simp [composeAll] at h
    obtain ⟨rfl, rfl, rfl⟩ := h
    simp [refsIn]
  | t :: ts, names, names', n, ids, new, hg, ha, h, k => by
    unfold composeAll at h
    cases h1 : t.compose names n with
    | none => rw [h1] at h; simp at h
    | some q1 =>
      obtain ⟨id1, new1, names1⟩ := q1
      rw [h1] at h
      simp only [Option.bind_some] at h
      cases h2 : composeAll names1 (n + new1.length) ts with
      | none => rw [h2] at h; simp at h
      | some r =>
        obtain ⟨ids2, new2, names2⟩ := r
        rw [h2] at h; simp at h
        obtain ⟨rfl, rfl, rfl⟩ := h
        have g1 := compose_once t hg.1 (fun e he => ha e (by simp [eventsAll, he])) h1 k
        have g2 := composeAll_once ts hg.2 (fun e he => ha e (by simp [eventsAll, he])) h2 k
        simp only [refsIn, List.flatMap_append, List.count_cons, List.count_append, beq_iff_eq, List.length_append, List.cons_append] at g1 g2 ⊢
        generalize (if id1 = k then 1 else 0) = x at g1 ⊢
        split at g1 <;> split at g2 <;> split <;> omega
end

end Yaml
