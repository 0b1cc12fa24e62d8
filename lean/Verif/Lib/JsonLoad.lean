import Verif.Spec.Json

/-
The document of the events of a JSON value.
-/

namespace Yaml
open Spec
set_option linter.unusedSimpArgs false
set_option linter.unusedVariables false

theorem nodeIs_at {pre mid post : List Node} {n : Node} {tag : Str} {i : Nat} (hi : i = pre.length + 1) (ht : n.tag = some tag) :
    NodeIs (pre ++ (n :: mid) ++ post) i n.data tag :=
  ⟨pre.length, n, hi, by simp, rfl, ht⟩

def StopData : EventData → Prop
  | .sequenceEnd => True
  | .mappingEnd => True
  | .documentEnd _ => True
  | _ => False

theorem good_leaf_data {e : Event} (h : (Tree.leaf e).Good) : (∃ a, e.data = .alias a) ∨ ∃ a g v i j y, e.data = .scalar a g v i j y := by
  unfold Tree.Good at h; exact h

theorem tree_scalar {t : Tree} (hg : t.Good) {v : Str} {i j : Bool} {y : ScalarStyle} {r r' : List EventData}
    (h : t.events.map (·.data) ++ r = .scalar none none v i j y :: r') : r = r' ∧ ∃ e, t = .leaf e ∧ e.data = .scalar none none v i j y := by
  cases t with
  | leaf e =>
    simp [Tree.events] at h
    exact ⟨h.2, e, rfl, h.1⟩
  | coll s cs t =>
    simp [Tree.events] at h
    unfold Tree.Good at hg
    rcases hg.1 with ⟨a, g, i, y, h1, _⟩ | ⟨a, g, i, y, h1, _⟩ <;> rw [h1] at h <;> simp at h

theorem compose_scalar {e : Event} {v : Str} {i j : Bool} {y : ScalarStyle} {pre nodes post : List Node} {id : Nat} {names : Names}
    (he : e.data = .scalar none none v i j y) (h : (Tree.leaf e).compose [] pre.length = some (id, nodes, names)) :
    names = [] ∧ NodeIs (pre ++ nodes ++ post) id (.scalar v y) (cs! "tag:yaml.org,2002:str") := by
  unfold Tree.compose at h
  rw [he] at h
  simp [Names.define, tagOr] at h
  obtain ⟨h1, h2, h3⟩ := h
  subst h2
  exact ⟨h3, pre.length, _, h1.symm, by simp; rfl, rfl, rfl⟩

theorem all_stop {ts : List Tree} (hg : GoodAll ts) {r r' : List EventData} {x : EventData} (hx : StopData x)
    (h : (eventsAll ts).map (·.data) ++ r = x :: r') : ts = [] ∧ r = x :: r' := by
  cases ts with
  | nil => simp [eventsAll] at h; exact ⟨rfl, h⟩
  | cons t ts =>
    unfold GoodAll at hg
    have hg := hg.1
    cases t with
    | leaf e =>
      simp [eventsAll, Tree.events] at h
      rcases good_leaf_data hg with ⟨a, h1⟩ | ⟨_, _, _, _, _, _, h1⟩ <;> rw [← h.1, h1] at hx <;> exact absurd hx (by simp [StopData])
    | coll s cs t =>
      simp [eventsAll, Tree.events] at h
      unfold Tree.Good at hg
      rcases hg.1 with ⟨a, g, i, y, h1, _⟩ | ⟨a, g, i, y, h1, _⟩ <;> rw [← h.1, h1] at hx <;> exact absurd hx (by simp [StopData])

theorem stop_seq {t : EventData} {s : EventData} {n : Nat} (h : Ends s t n) : StopData t := by
  rcases h with ⟨_, _, _, _, _, rfl⟩ | ⟨_, _, _, _, _, rfl, _⟩ <;> trivial

mutual
theorem json_tree : ∀ {v : Json} {t : Tree}, t.Good → ∀ {r r' : List EventData}, t.events.map (·.data) ++ r = v.events ++ r' →
    r = r' ∧ ∀ {pre nodes post : List Node} {id : Nat} {names : Names}, t.compose [] pre.length = some (id, nodes, names) →
      names = [] ∧ JsonNode (pre ++ nodes ++ post) id v
  | .word w, t, hg, r, r', h => by
    obtain ⟨h1, e, rfl, he⟩ := tree_scalar hg (by simpa [Json.events] using h)
    refine ⟨h1, fun {pre nodes post id names} hc => ?_⟩
    obtain ⟨a, b⟩ := compose_scalar (post := post) he hc
    exact ⟨a, .word b⟩
  | .str w, t, hg, r, r', h => by
    obtain ⟨h1, e, rfl, he⟩ := tree_scalar hg (by simpa [Json.events] using h)
    refine ⟨h1, fun {pre nodes post id names} hc => ?_⟩
    obtain ⟨a, b⟩ := compose_scalar (post := post) he hc
    exact ⟨a, .str b⟩
  | .arr vs, .leaf e, hg, r, r', h => by
    simp [Json.events, Tree.events] at h
    rcases good_leaf_data hg with ⟨a, h1⟩ | ⟨_, _, _, _, _, _, h1⟩ <;> rw [h1] at h <;> simp at h
  | .obj vs, .leaf e, hg, r, r', h => by
    simp [Json.events, Tree.events] at h
    rcases good_leaf_data hg with ⟨a, h1⟩ | ⟨_, _, _, _, _, _, h1⟩ <;> rw [h1] at h <;> simp at h
  | .arr vs, .coll s cs x, hg, r, r', h => by
    unfold Tree.Good at hg
    simp [Json.events, Tree.events] at h
    obtain ⟨hs, h⟩ := h
    obtain ⟨h1, h2⟩ := json_items (v := vs) hg.2 (x := x.data) (x' := .sequenceEnd) (stop_seq hg.1) trivial h
    simp at h1
    refine ⟨h1.2, fun {pre nodes post id names} hc => ?_⟩
    unfold Tree.compose at hc
    rw [hs] at hc
    simp [Names.define, tagOr] at hc
    obtain ⟨is, ns, nm, hq, rfl, rfl, rfl⟩ := hc
    obtain ⟨a, b⟩ := h2 (pre := pre ++ [⟨.sequence is .flow, some (cs! "tag:yaml.org,2002:seq"), s.startMark, x.endMark⟩]) (post := post) (by simpa using hq)
    exact ⟨a, .arr (nodeIs_at rfl rfl) (by simpa using b)⟩
  | .obj vs, .coll s cs x, hg, r, r', h => by
    unfold Tree.Good at hg
    simp [Json.events, Tree.events] at h
    obtain ⟨hs, h⟩ := h
    obtain ⟨h1, h2⟩ := json_members (v := vs) hg.2 (x := x.data) (x' := .mappingEnd) (stop_seq hg.1) trivial h
    simp at h1
    refine ⟨h1.2, fun {pre nodes post id names} hc => ?_⟩
    unfold Tree.compose at hc
    rw [hs] at hc
    simp [Names.define, tagOr] at hc
    obtain ⟨is, ns, nm, hq, rfl, rfl, rfl⟩ := hc
    obtain ⟨a, b⟩ := h2 (pre := pre ++ [⟨.mapping (pairUp is) .flow, some (cs! "tag:yaml.org,2002:map"), s.startMark, x.endMark⟩]) (post := post) (by simpa using hq)
    exact ⟨a, .obj (nodeIs_at rfl rfl) (by simpa using b)⟩
theorem json_items : ∀ {v : List Json} {ts : List Tree}, GoodAll ts → ∀ {x x' : EventData} {r r' : List EventData}, StopData x → StopData x' →
    (eventsAll ts).map (·.data) ++ x :: r = itemEvents v ++ x' :: r' →
    x :: r = x' :: r' ∧ ∀ {pre nodes post : List Node} {ids : List Nat} {names : Names}, composeAll [] pre.length ts = some (ids, nodes, names) →
      names = [] ∧ JsonNodes (pre ++ nodes ++ post) ids v
  | [], ts, hg, x, x', r, r', hx, hx', h => by
    obtain ⟨rfl, h1⟩ := all_stop hg hx' (by simpa [itemEvents] using h)
    refine ⟨h1, fun {pre nodes post id names} hc => ?_⟩
    simp [composeAll] at hc
    obtain ⟨rfl, rfl, rfl⟩ := hc
    exact ⟨rfl, .nil⟩
  | v :: vs, [], hg, x, x', r, r', hx, hx', h => by
    cases v <;> simp [itemEvents, eventsAll, Json.events] at h <;> rw [h.1] at hx <;> exact absurd hx (by simp [StopData])
  | v :: vs, t :: ts, hg, x, x', r, r', hx, hx', h => by
    unfold GoodAll at hg
    simp [itemEvents, eventsAll] at h
    obtain ⟨h1, h2⟩ := json_tree hg.1 h
    obtain ⟨h3, h4⟩ := json_items hg.2 hx hx' h1
    refine ⟨h3, fun {pre nodes post ids names} hc => ?_⟩
    rw [composeAll] at hc
    simp [Option.bind_eq_some_iff, Option.map_eq_some_iff] at hc
    obtain ⟨id, ns, nm, hq, is, ms, nm', hq', rfl, rfl, rfl⟩ := hc
    obtain ⟨rfl, b⟩ := h2 (post := ms ++ post) hq
    obtain ⟨a', b'⟩ := h4 (pre := pre ++ ns) (post := post) (by simpa using hq')
    exact ⟨a', .cons (by simpa using b) (by simpa using b')⟩
theorem json_members : ∀ {v : List (Str × Json)} {ts : List Tree}, GoodAll ts → ∀ {x x' : EventData} {r r' : List EventData}, StopData x → StopData x' →
    (eventsAll ts).map (·.data) ++ x :: r = memberEvents v ++ x' :: r' →
    x :: r = x' :: r' ∧ ∀ {pre nodes post : List Node} {ids : List Nat} {names : Names}, composeAll [] pre.length ts = some (ids, nodes, names) →
      names = [] ∧ JsonPairs (pre ++ nodes ++ post) (pairUp ids) v
  | [], ts, hg, x, x', r, r', hx, hx', h => by
    obtain ⟨rfl, h1⟩ := all_stop hg hx' (by simpa [memberEvents] using h)
    refine ⟨h1, fun {pre nodes post id names} hc => ?_⟩
    simp [composeAll] at hc
    obtain ⟨rfl, rfl, rfl⟩ := hc
    exact ⟨rfl, .nil⟩
  | (n, v) :: vs, [], hg, x, x', r, r', hx, hx', h => by
    simp [memberEvents, eventsAll] at h; rw [h.1] at hx; exact absurd hx (by simp [StopData])
  | (n, v) :: vs, [t], hg, x, x', r, r', hx, hx', h => by
    unfold GoodAll at hg
    simp [memberEvents, eventsAll] at h
    obtain ⟨h1, _⟩ := tree_scalar hg.1 h
    cases v <;> simp [Json.events] at h1 <;> rw [h1.1] at hx <;> exact absurd hx (by simp [StopData])
  | (n, v) :: vs, k :: t :: ts, hg, x, x', r, r', hx, hx', h => by
    unfold GoodAll at hg
    obtain ⟨hk, hg⟩ := hg
    unfold GoodAll at hg
    simp [memberEvents, eventsAll] at h
    obtain ⟨h0, e, rfl, he⟩ := tree_scalar hk h
    obtain ⟨h1, h2⟩ := json_tree hg.1 h0
    obtain ⟨h3, h4⟩ := json_members hg.2 hx hx' h1
    refine ⟨h3, fun {pre nodes post ids names} hc => ?_⟩
    rw [composeAll] at hc
    simp [Option.bind_eq_some_iff, Option.map_eq_some_iff] at hc
    obtain ⟨id0, ns0, nm0, hq0, is0, ms0, nm0', hq0', rfl, rfl, rfl⟩ := hc
    obtain ⟨rfl, b0⟩ := compose_scalar (post := ms0 ++ post) he hq0
    rw [composeAll] at hq0'
    simp [Option.bind_eq_some_iff, Option.map_eq_some_iff] at hq0'
    obtain ⟨id, ns, nm, hq, is, ms, nm', hq', rfl, rfl, rfl⟩ := hq0'
    obtain ⟨rfl, b⟩ := h2 (pre := pre ++ ns0) (post := ms ++ post) (by simpa using hq)
    obtain ⟨a', b'⟩ := h4 (pre := pre ++ ns0 ++ ns) (post := post) (by simpa [Nat.add_assoc] using hq')
    exact ⟨a', .cons (by simpa using b0) (by simpa using b) (by simpa using b')⟩
end

end Yaml
