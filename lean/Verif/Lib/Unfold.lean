import Verif.Lib.Dump2
import Verif.Spec.Events

/-
Facts about the unfolding of a document graph.
-/

namespace Yaml
namespace Document
open Spec Emitter
set_option linter.unusedSimpArgs false
set_option linter.unusedVariables false

variable {nodes : List Node} {name : Nat → Option Str}

/-- What is known of the nodes written in between. -/
structure Between (nodes : List Node) (seen : List Nat) (from_ : Nat → Prop) (seen' : List Nat) : Prop where
  nodup : seen.Nodup → seen'.Nodup
  pos : (∀ x ∈ seen, 0 < x) → ∀ x ∈ seen', 0 < x
  range : (∀ x ∈ seen, x ≤ nodes.length) → ∀ x ∈ seen', x ≤ nodes.length
  reach : ∀ x ∈ seen', x ∈ seen ∨ ∃ y, from_ y ∧ Reach nodes y x
  closed : ∀ x ∈ seen', x ∉ seen → ∃ n, nodes[x - 1]? = some n ∧ ∀ y ∈ refs n.data, y ∈ seen'

theorem Reach.trans' {i j k : Nat} (h : Reach nodes i j) (h' : Reach nodes j k) : Reach nodes i k := by
  induction h' with
  | refl => exact h
  | step _ hn hk ih => exact .step ih hn hk

theorem nodup_snoc {seen : List Nat} {i : Nat} (hi : i ∉ seen) (h : seen.Nodup) : (seen ++ [i]).Nodup := by
  rw [List.nodup_append]
  exact ⟨h, by simp, by intro x hx y hy; simp at hy; rw [hy]; rintro rfl; exact hi hx⟩

theorem between_coll {seen seen' : List Nat} {i : Nat} {n : Node} (hi : i ∉ seen) (h0 : 0 < i) (hd : nodes[i - 1]? = some n)
    (h : Between nodes (seen ++ [i]) (· ∈ refs n.data) seen') (hsub : ∀ y ∈ refs n.data, y ∈ seen') (hg : ∃ x, seen' = seen ++ [i] ++ x) :
    Between nodes seen (· = i) seen' := by
  obtain ⟨hlt, _⟩ := List.getElem?_eq_some_iff.1 hd
  refine ⟨fun hn => h.nodup (nodup_snoc hi hn), ?_, ?_, ?_, ?_⟩
  · intro hp
    refine h.pos ?_
    intro x hx
    rcases List.mem_append.1 hx with hx | hx
    · exact hp x hx
    · simp at hx; omega
  · intro hp
    refine h.range ?_
    intro x hx
    rcases List.mem_append.1 hx with hx | hx
    · exact hp x hx
    · simp at hx; omega
  · intro x hx
    rcases h.reach x hx with hx | ⟨y, hy, hr⟩
    · rcases List.mem_append.1 hx with hx | hx
      · exact Or.inl hx
      · simp at hx; subst hx; exact Or.inr ⟨x, rfl, .refl _⟩
    · exact Or.inr ⟨i, rfl, Reach.trans' (.step (.refl i) hd hy) hr⟩
  · intro x hx hs
    by_cases hxi : x = i
    · subst hxi; exact ⟨n, hd, hsub⟩
    · exact h.closed x hx (by simp [hs, hxi])

mutual
theorem unfolds_between {seen seen' : List Nat} {i : Nat} {t : Tree} :
    Unfolds nodes name seen i t seen' → Between nodes seen (· = i) seen' ∧ i ∈ seen'
  | .alias hi hn => ⟨⟨id, id, id, fun x hx => Or.inl hx, fun x hx hs => absurd hx hs⟩, hi⟩
  | .scalar hi h0 hd => by
    refine ⟨between_coll hi h0 hd ⟨id, id, id, fun x hx => Or.inl hx, fun x hx hs => absurd hx hs⟩ ?_ ⟨[], by simp⟩, by simp⟩
    intro y hy; simp [refs] at hy
  | .sequence hi h0 hd hs => by
    obtain ⟨h1, h2⟩ := unfoldsAll_between hs
    obtain ⟨x, hx⟩ := unfoldsAll_grows hs
    exact ⟨between_coll hi h0 hd h1 h2 ⟨x, hx⟩, by rw [hx]; simp⟩
  | .mapping hi h0 hd hs => by
    obtain ⟨h1, h2⟩ := unfoldsAll_between hs
    obtain ⟨x, hx⟩ := unfoldsAll_grows hs
    exact ⟨between_coll hi h0 hd h1 h2 ⟨x, hx⟩, by rw [hx]; simp⟩
theorem unfoldsAll_between {seen seen' : List Nat} {is : List Nat} {ts : List Tree} :
    UnfoldsAll nodes name seen is ts seen' → Between nodes seen (· ∈ is) seen' ∧ ∀ i ∈ is, i ∈ seen'
  | .nil => ⟨⟨id, id, id, fun x hx => Or.inl hx, fun x hx hs => absurd hx hs⟩, by simp⟩
  | .cons (seen' := seen1) h hs => by
    obtain ⟨h1, h2⟩ := unfolds_between h
    obtain ⟨h3, h4⟩ := unfoldsAll_between hs
    obtain ⟨x, hx⟩ := unfoldsAll_grows hs
    have sub : ∀ y, y ∈ _ → y ∈ seen' := fun y hy => by rw [hx]; exact List.mem_append_left _ hy
    refine ⟨⟨fun hn => h3.nodup (h1.nodup hn), fun hp => h3.pos (h1.pos hp), fun hp => h3.range (h1.range hp), ?_, ?_⟩, ?_⟩
    · intro x hx
      rcases h3.reach x hx with hx | ⟨y, hy, hr⟩
      · rcases h1.reach x hx with hx | ⟨y, rfl, hr⟩
        · exact Or.inl hx
        · exact Or.inr ⟨_, List.mem_cons_self, hr⟩
      · exact Or.inr ⟨y, List.mem_cons_of_mem _ hy, hr⟩
    · intro x hx' hs'
      by_cases h5 : x ∈ seen1
      · obtain ⟨n, h6, h7⟩ := h1.closed x h5 hs'
        exact ⟨n, h6, fun y hy => sub y (h7 y hy)⟩
      · exact h3.closed x hx' h5
    · intro j hj
      rcases List.mem_cons.1 hj with rfl | hj
      · exact sub _ h2
      · exact h4 j hj
end

/-- The nodes written are those reachable from the root, each once. -/
theorem unfolds_reach {t : Tree} {seen : List Nat} (h : Unfolds nodes name [] 1 t seen) :
    seen.Nodup ∧ ∀ j, j ∈ seen ↔ Reach nodes 1 j := by
  obtain ⟨h1, h2⟩ := unfolds_between h
  refine ⟨h1.nodup List.nodup_nil, fun j => ⟨?_, ?_⟩⟩
  · intro hj
    rcases h1.reach j hj with hj | ⟨y, rfl, hr⟩
    · simp at hj
    · exact hr
  · intro hr
    induction hr with
    | refl => exact h2
    | step _ hn hk ih =>
      obtain ⟨n, h3, h4⟩ := h1.closed _ ih (by simp)
      rw [hn] at h3; cases h3
      exact h4 _ hk

theorem unfoldsAll_length {seen seen' : List Nat} {is : List Nat} {ts : List Tree} (h : UnfoldsAll nodes name seen is ts seen') : ts.length = is.length := by
  induction is generalizing seen ts with
  | nil => cases h; rfl
  | cons i is ih => cases h with
    | cons _ hs => simp [ih hs]

theorem flat_even (pairs : List (Nat × Nat)) : (pairs.flatMap fun p => [p.1, p.2]).length % 2 = 0 := by
  induction pairs with
  | nil => rfl
  | cons p ps ih => simp only [List.flatMap_cons, List.length_append, List.length_cons, List.length_nil]; omega

mutual
theorem unfolds_good {seen seen' : List Nat} {i : Nat} {t : Tree} : Unfolds nodes name seen i t seen' → t.Good
  | .alias hi hn => Or.inl ⟨_, rfl⟩
  | .scalar hi h0 hd => Or.inr ⟨_, _, _, _, _, _, rfl⟩
  | .sequence hi h0 hd hs => ⟨Or.inl ⟨_, _, _, _, rfl, rfl⟩, unfoldsAll_good hs⟩
  | .mapping hi h0 hd hs => ⟨Or.inr ⟨_, _, _, _, rfl, rfl, by rw [unfoldsAll_length hs]; exact flat_even _⟩, unfoldsAll_good hs⟩
theorem unfoldsAll_good {seen seen' : List Nat} {is : List Nat} {ts : List Tree} : UnfoldsAll nodes name seen is ts seen' → GoodAll ts
  | .nil => trivial
  | .cons h hs => ⟨unfolds_good h, unfoldsAll_good hs⟩
end

/-! ### Trees and the grammar -/

mutual
theorem good_isNode : ∀ t : Tree, t.Good → IsNode (t.events.map (·.data))
  | .leaf e, h => by
    rcases h with ⟨a, h⟩ | ⟨a, g, v, i, j, y, h⟩
    · simp only [Tree.events, List.map_cons, List.map_nil, h]; exact .alias a
    · simp only [Tree.events, List.map_cons, List.map_nil, h]; exact .scalar ..
  | .coll s cs t, h => by
    obtain ⟨he, hg⟩ := h
    rcases he with ⟨a, g, i, y, h1, h2⟩ | ⟨a, g, i, y, h1, h2, h3⟩
    · simp only [Tree.events, List.map_cons, List.map_append, List.map_nil, h1, h2]
      exact .sequence _ _ _ _ (goodAll_isNodes cs hg)
    · simp only [Tree.events, List.map_cons, List.map_append, List.map_nil, h1, h2]
      exact .mapping _ _ _ _ (goodAll_isPairs cs hg h3)
theorem goodAll_isNodes : ∀ ts : List Tree, GoodAll ts → IsNodes ((eventsAll ts).map (·.data))
  | [], _ => .nil
  | t :: ts, h => by
    simp only [eventsAll, List.map_append]
    exact .cons (good_isNode t h.1) (goodAll_isNodes ts h.2)
theorem goodAll_isPairs : ∀ ts : List Tree, GoodAll ts → ts.length % 2 = 0 → IsPairs ((eventsAll ts).map (·.data))
  | [], _, _ => .nil
  | [t], _, h => by simp at h
  | k :: v :: ts, h, hl => by
    simp only [eventsAll, List.map_append]
    rw [← List.append_assoc]
    exact .cons (good_isNode k h.1) (good_isNode v h.2.1) (goodAll_isPairs ts h.2.2 (by simp only [List.length_cons] at hl; omega))
end

/-! ### Composing the events again -/

/-- The names of the nodes written, from number `k` on. -/
def namesFrom (name : Nat → Option Str) : Nat → List Nat → Names
  | _, [] => []
  | k, j :: js => (match name j with | some a => [(a, k + 1)] | none => []) ++ namesFrom name (k + 1) js

theorem namesFrom_append (k : Nat) (x y : List Nat) : namesFrom name k (x ++ y) = namesFrom name k x ++ namesFrom name (k + x.length) y := by
  induction x generalizing k with
  | nil => simp [namesFrom]
  | cons j js ih => simp only [List.cons_append, namesFrom, ih, List.length_cons, List.append_assoc]; rw [show k + (js.length + 1) = k + 1 + js.length by omega]

theorem namesFrom_mem {k : Nat} {l : List Nat} {a : Str} {n : Nat} (h : (a, n) ∈ namesFrom name k l) : ∃ j ∈ l, name j = some a := by
  induction l generalizing k with
  | nil => simp [namesFrom] at h
  | cons j js ih =>
    rcases List.mem_append.1 h with h | h
    · cases hj : name j with
      | none => rw [hj] at h; simp at h
      | some b =>
        rw [hj] at h; simp at h
        exact ⟨j, List.mem_cons_self, by rw [hj, h.1]⟩
    · obtain ⟨i, h1, h2⟩ := ih h
      exact ⟨i, List.mem_cons_of_mem _ h1, h2⟩

/-- The name finds the node. -/
theorem namesFrom_find (inj : ∀ i j a, name i = some a → name j = some a → i = j) {l : List Nat} {j : Nat} {a : Str} (hj : j ∈ l) (ha : name j = some a) (k : Nat) :
    Names.find (namesFrom name k l) a = some (k + l.idxOf j + 1) := by
  unfold Names.find
  induction l generalizing k with
  | nil => simp at hj
  | cons i is ih =>
    by_cases hij : i = j
    · subst hij
      simp [namesFrom, ha, List.find?, List.idxOf_cons]
    · have hj' : j ∈ is := by exact (List.mem_cons.1 hj).resolve_left fun h => hij h.symm
      have hne : name i ≠ some a := fun h => hij (inj _ _ _ h ha)
      have := ih hj' (k + 1)
      have hid : (i :: is).idxOf j = is.idxOf j + 1 := by
        have hb : (i == j) = false := by simpa using hij
        rw [List.idxOf_cons, hb]; rfl
      rw [hid]
      simp only [namesFrom, List.find?_append]
      cases hn : name i with
      | none => simp only [List.find?_nil, Option.none_or]; rw [this]; congr 1; omega
      | some b =>
        have : b ≠ a := fun h => hne (by rw [hn, h])
        simp only [List.find?_cons, List.find?_nil, this, decide_false, Option.none_or]
        rw [‹Option.map _ _ = _›]; congr 1; omega

/-- A node not written yet is given its name. -/
theorem namesFrom_define (inj : ∀ i j a, name i = some a → name j = some a → i = j) {l : List Nat} {i : Nat} (hi : i ∉ l) :
    Names.define (namesFrom name 0 l) (name i) (l.length + 1) = some (namesFrom name 0 (l ++ [i])) := by
  rw [namesFrom_append]
  unfold Names.define
  cases hn : name i with
  | none => simp [namesFrom, hn]
  | some a =>
    have : (namesFrom name 0 l).any (fun x => decide (x.1 = a)) = false := by
      rw [List.any_eq_false]
      rintro ⟨b, n⟩ hb
      obtain ⟨j, h1, h2⟩ := namesFrom_mem hb
      simp only [decide_eq_true_eq]
      rintro rfl
      exact hi (inj _ _ _ hn h2 ▸ h1)
    simp only [this, Bool.false_eq_true, if_false, namesFrom, hn, List.append_nil, Nat.zero_add]

theorem place_prefix {seen rest : List Nat} {j : Nat} (h : j ∈ seen) : place (seen ++ rest) j = seen.idxOf j + 1 := by
  unfold place
  rw [List.idxOf_append, if_pos h]

theorem place_new {seen rest : List Nat} {i : Nat} (h : i ∉ seen) : place (seen ++ i :: rest) i = seen.length + 1 := by
  unfold place
  rw [List.idxOf_append, if_neg h]
  simp

theorem pairUp_flat (ρ : Nat → Nat) (pairs : List (Nat × Nat)) : pairUp ((pairs.flatMap fun p => [p.1, p.2]).map ρ) = pairs.map fun p => (ρ p.1, ρ p.2) := by
  induction pairs with
  | nil => rfl
  | cons p ps ih => simp [pairUp, ih]

mutual
theorem unfolds_compose (inj : ∀ i j a, name i = some a → name j = some a → i = j) {seen seen' : List Nat} {i : Nat} {t : Tree} :
    Unfolds nodes name seen i t seen' → ∀ final rest, final = seen' ++ rest →
      ∃ new, seen' = seen ++ new ∧
        t.compose (namesFrom name 0 seen) seen.length = some (place final i, renumbered nodes (place final) new, namesFrom name 0 seen') ∧ (renumbered nodes (place final) new).length = new.length
  | .alias hi hn => by
    rintro final rest rfl
    refine ⟨[], by simp, ?_, rfl⟩
    simp only [Tree.compose, ev, namesFrom_find inj hi hn, Option.map_some, Nat.zero_add, place_prefix hi, renumbered, List.filterMap_nil]
  | .scalar hi h0 hd => by
    rintro final rest rfl
    refine ⟨[i], rfl, ?_, by simp [renumbered, hd]⟩
    simp only [Tree.compose, ev, namesFrom_define inj hi, Option.map_some, renumbered, List.filterMap_cons, hd, List.filterMap_nil, renumber]
    rw [List.append_assoc, List.singleton_append, place_new hi]
  | .sequence (items := items) hi h0 hd hs => by
    rintro final rest rfl
    obtain ⟨new, h1, h2, h3⟩ := unfoldsAll_compose inj hs _ rest rfl
    refine ⟨i :: new, by rw [h1]; simp, ?_, by simp [renumbered, hd]; simpa [renumbered] using h3⟩
    simp only [List.length_append, List.length_cons, List.length_nil] at h2
    simp only [Tree.compose, ev, namesFrom_define inj hi, Option.bind_some, h2, Option.map_some]
    have e : place (seen' ++ rest) i = seen.length + 1 := by
      rw [h1, List.append_assoc, List.append_assoc, List.singleton_append, place_new hi]
    rw [e]
    simp [renumbered, hd, renumber]
  | .mapping hi h0 hd hs => by
    rintro final rest rfl
    obtain ⟨new, h1, h2, h3⟩ := unfoldsAll_compose inj hs _ rest rfl
    refine ⟨i :: new, by rw [h1]; simp, ?_, by simp [renumbered, hd]; simpa [renumbered] using h3⟩
    simp only [List.length_append, List.length_cons, List.length_nil] at h2
    simp only [Tree.compose, ev, namesFrom_define inj hi, Option.bind_some, h2, Option.map_some]
    have e : place (seen' ++ rest) i = seen.length + 1 := by
      rw [h1, List.append_assoc, List.append_assoc, List.singleton_append, place_new hi]
    rw [e, pairUp_flat]
    simp [renumbered, hd, renumber]
theorem unfoldsAll_compose (inj : ∀ i j a, name i = some a → name j = some a → i = j) {seen seen' : List Nat} {is : List Nat} {ts : List Tree} :
    UnfoldsAll nodes name seen is ts seen' → ∀ final rest, final = seen' ++ rest →
      ∃ new, seen' = seen ++ new ∧
        composeAll (namesFrom name 0 seen) seen.length ts = some (is.map (place final), renumbered nodes (place final) new, namesFrom name 0 seen') ∧ (renumbered nodes (place final) new).length = new.length
  | .nil => by
    rintro final rest rfl
    exact ⟨[], by simp, rfl, rfl⟩
  | .cons (seen' := seen1) h hs => by
    rintro final rest rfl
    obtain ⟨new2, h4, h5, h6⟩ := unfoldsAll_compose inj hs _ rest rfl
    obtain ⟨new, h1, h2, h3⟩ := unfolds_compose inj h (seen' ++ rest) (new2 ++ rest) (by rw [h4, List.append_assoc])
    refine ⟨new ++ new2, by rw [h4, h1, List.append_assoc], ?_, ?_⟩
    · simp only [composeAll, h2, Option.bind_some, h3]
      have : seen.length + new.length = seen1.length := by rw [h1]; exact (List.length_append).symm
      rw [this, h5]
      simp [renumbered]
    · have : renumbered nodes (place (seen' ++ rest)) (new ++ new2) = renumbered nodes (place (seen' ++ rest)) new ++ renumbered nodes (place (seen' ++ rest)) new2 := by
        simp [renumbered]
      rw [this, List.length_append, h3, h6, List.length_append]
end

/-! ### Which documents can be unfolded -/

/-- The references of node `i`. -/
def refsAt (nodes : List Node) (i : Nat) : List Nat := (nodes[i - 1]?.map fun n => refs n.data).getD []

/-- References still to be followed are counted among the references of the nodes written. -/
def Pending (nodes : List Node) (seen pending : List Nat) : Prop :=
  ∀ x, (if x ∈ seen then 1 else 0) + pending.count x ≤ (1 :: seen.flatMap (refsAt nodes)).count x

theorem sum_le_of_subset (f : Nat → Nat) : ∀ (l L : List Nat), l.Nodup → (∀ x ∈ l, x ∈ L) → (l.map f).sum ≤ (L.map f).sum := by
  intro l
  induction l with
  | nil => intro L _ _; simp
  | cons a l ih =>
    intro L hn hs
    have ha := hs a List.mem_cons_self
    have hp := List.perm_cons_erase ha
    rw [List.nodup_cons] at hn
    have h1 : (L.map f).sum = f a + ((L.erase a).map f).sum := by
      rw [(hp.map f).sum_nat]; simp
    have h2 := ih (L.erase a) hn.2 fun x hx => by
      have : x ≠ a := fun h => hn.1 (h ▸ hx)
      exact (List.mem_erase_of_ne this).2 (hs x (List.mem_cons_of_mem _ hx))
    rw [h1]; simp only [List.map_cons, List.sum_cons]; omega

theorem count_le_total {seen : List Nat} (hn : seen.Nodup) (hr : ∀ x ∈ seen, 1 ≤ x ∧ x ≤ nodes.length) (x : Nat) :
    (1 :: seen.flatMap (refsAt nodes)).count x ≤ (1 :: nodes.flatMap fun n => refs n.data).count x := by
  rw [List.count_cons, List.count_cons]
  have : (seen.flatMap (refsAt nodes)).count x ≤ (nodes.flatMap fun n => refs n.data).count x := by
    rw [List.count_flatMap, List.count_flatMap]
    have e : nodes.map (List.count x ∘ fun n => refs n.data) = ((List.range nodes.length).map (· + 1)).map (List.count x ∘ refsAt nodes) := by
      rw [List.map_map]
      apply List.ext_getElem (by simp)
      intro i h1 h2
      simp only [List.length_map] at h1
      simp [refsAt, List.getElem?_eq_getElem h1]
    rw [e]
    exact sum_le_of_subset _ _ _ hn fun y hy => by
      have := hr y hy
      rw [List.mem_map]; exact ⟨y - 1, by rw [List.mem_range]; omega, by omega⟩
  omega

/-- Every node that is met again has a name, so the unfolding does not get stuck. -/
theorem unfolds_exists (hw : WellFormed nodes) (hno : ∀ n ∈ nodes, n.data ≠ .noNode) (hname : ∀ i, 1 ≤ i → i ≤ nodes.length → Shared nodes i → (name i).isSome = true) :
    ∀ (F : Nat) (i : Nat) (seen P : List Nat), nodes.length < F + seen.length → 1 ≤ i ∧ i ≤ nodes.length → seen.Nodup → (∀ x ∈ seen, 1 ≤ x ∧ x ≤ nodes.length) →
      Pending nodes seen (i :: P) → ∃ t seen', Unfolds nodes name seen i t seen' ∧ Pending nodes seen' P ∧ seen'.Nodup ∧ (∀ x ∈ seen', 1 ≤ x ∧ x ≤ nodes.length) := by
  intro F
  induction F with
  | zero =>
    intro i seen P hF _ hn hr
    have := hn.length_le_of_subset (l₂ := (List.range nodes.length).map (· + 1)) (by
      intro i hi
      have := hr i hi
      rw [List.mem_map]
      exact ⟨i - 1, by rw [List.mem_range]; omega, by omega⟩)
    simp at this; omega
  | succ F ih =>
    intro i seen P hF hi hn hr hp
    have items : ∀ (is : List Nat) (seen P : List Nat), nodes.length < F + seen.length → (∀ i ∈ is, 1 ≤ i ∧ i ≤ nodes.length) → seen.Nodup → (∀ x ∈ seen, 1 ≤ x ∧ x ≤ nodes.length) →
        Pending nodes seen (is ++ P) → ∃ ts seen', UnfoldsAll nodes name seen is ts seen' ∧ Pending nodes seen' P ∧ seen'.Nodup ∧ (∀ x ∈ seen', 1 ≤ x ∧ x ≤ nodes.length) := by
      intro is
      induction is with
      | nil => intro seen P _ _ hn hr hp; exact ⟨[], seen, .nil, hp, hn, hr⟩
      | cons j js ihs =>
        intro seen P hF hj hn hr hp
        obtain ⟨t, seen1, h1, h2, h3, h4⟩ := ih j seen (js ++ P) hF (hj j List.mem_cons_self) hn hr hp
        obtain ⟨x, hx⟩ := unfolds_grows h1
        obtain ⟨ts, seen2, h5, h6⟩ := ihs seen1 P (by rw [hx]; simp; omega) (fun i hi => hj i (List.mem_cons_of_mem _ hi)) h3 h4 h2
        exact ⟨_, _, .cons h1 h5, h6⟩
    by_cases hs : i ∈ seen
    · have h1 := hp i
      rw [if_pos hs, List.count_cons_self] at h1
      have h2 := count_le_total hn hr i
      have h3 : Shared nodes i := by unfold Shared; omega
      obtain ⟨a, ha⟩ := Option.isSome_iff_exists.1 (hname i hi.1 hi.2 h3)
      refine ⟨_, _, .alias hs ha, ?_, hn, hr⟩
      intro x
      have := hp x
      rw [List.count_cons] at this
      omega
    · obtain ⟨n, hd⟩ : ∃ n, nodes[i - 1]? = some n := ⟨_, List.getElem?_eq_getElem (by omega)⟩
      have hmem := List.mem_of_getElem? hd
      have hp' : Pending nodes (seen ++ [i]) (refs n.data ++ P) := by
        intro x
        have h1 := hp x
        rw [List.count_cons] at h1
        have e : (1 :: (seen ++ [i]).flatMap (refsAt nodes)).count x = (1 :: seen.flatMap (refsAt nodes)).count x + (refs n.data).count x := by
          rw [List.flatMap_append, ← List.cons_append, List.count_append]
          simp [refsAt, hd]
        rw [e, List.count_append]
        by_cases hxi : x = i
        · subst hxi
          simp only [hs, if_false, beq_self_eq_true, if_true, List.mem_append, List.mem_singleton, or_true] at h1 ⊢
          omega
        · simp only [List.mem_append, List.mem_singleton, hxi, or_false] at h1 ⊢
          omega
      have hn' := nodup_snoc hs hn
      have hr' : ∀ x ∈ seen ++ [i], 1 ≤ x ∧ x ≤ nodes.length := by
        intro x hx
        rcases List.mem_append.1 hx with hx | hx
        · exact hr x hx
        · simp at hx; rw [hx]; exact hi
      have hF' : nodes.length < F + (seen ++ [i]).length := by simp; omega
      have hw' := hw n hmem
      have hno' := hno n hmem
      obtain ⟨data, tag, m, m'⟩ := n
      cases data with
      | noNode => exact absurd rfl hno'
      | scalar v st => exact ⟨_, _, .scalar hs (by omega) hd, by simpa [refs] using hp', hn', hr'⟩
      | sequence its st =>
        obtain ⟨ts, seen', h1, h2⟩ := items its _ P hF' hw' hn' hr' hp'
        exact ⟨_, _, .sequence hs (by omega) hd h1, h2⟩
      | mapping ps st =>
        obtain ⟨ts, seen', h1, h2⟩ := items _ _ P hF' hw' hn' hr' hp'
        exact ⟨_, _, .mapping hs (by omega) hd h1, h2⟩

/-- The whole document can be unfolded. -/
theorem unfolds_root (hw : WellFormed nodes) (hno : ∀ n ∈ nodes, n.data ≠ .noNode) (hne : nodes ≠ [])
    (hname : ∀ i, 1 ≤ i → i ≤ nodes.length → Shared nodes i → (name i).isSome = true) : ∃ t seen, Unfolds nodes name [] 1 t seen := by
  have : 1 ≤ nodes.length := by
    cases nodes with
    | nil => exact absurd rfl hne
    | cons _ _ => simp
  obtain ⟨t, seen, h, _⟩ := unfolds_exists hw hno hname (nodes.length + 1) 1 [] [] (by simp) ⟨by omega, this⟩ List.nodup_nil (by simp) (by intro x; simp)
  exact ⟨t, seen, h⟩

end Document
end Yaml
