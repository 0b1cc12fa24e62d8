import Verif.Spec.Documents

/-
C25: the document building API.
-/

namespace Yaml.Props
open Yaml Spec

/-- A call of the building API. -/
inductive BuildCall where
  | addScalar (tag : Option Str) (value : Str) (style : ScalarStyle)
  | addSequence (tag : Option Str) (style : CollStyle)
  | addMapping (tag : Option Str) (style : CollStyle)
  | appendItem (sequence item : Int)
  | appendPair (mapping key value : Int)

/-- Perform a call; a panicking call leaves what the document is at that moment. -/
def BuildCall.run (d : Document) : BuildCall → Document
  | .addScalar t v s => (d.addScalar t v s).2
  | .addSequence t s => (d.addSequence t s).2
  | .addMapping t s => (d.addMapping t s).2
  | .appendItem s i => (d.appendSequenceItem s i).2
  | .appendPair m k v => (d.appendMappingPair m k v).2

theorem inRange_iff (d : Document) (x : Int) : d.inRange x = true ↔ ∃ n, HasNode d x n := by
  unfold Document.inRange HasNode
  simp only [Bool.and_eq_true, decide_eq_true_eq]
  constructor
  · rintro ⟨h1, h2⟩
    exact ⟨d.nodes[x.toNat - 1], x.toNat - 1, by omega, by simp [h2]⟩
  · rintro ⟨n, i, rfl, hi⟩
    obtain ⟨h, _⟩ := List.getElem?_eq_some_iff.1 hi
    refine ⟨by omega, ?_⟩
    have : ((i : Int) + 1).toNat - 1 = i := by omega
    rw [this]; exact h

theorem hasNode_toNat {d : Document} {x : Int} {n : Node} (h : HasNode d x n) :
    d.nodes[x.toNat - 1]? = some n ∧ 1 ≤ x.toNat ∧ x.toNat ≤ d.nodes.length := by
  obtain ⟨i, rfl, hi⟩ := h
  obtain ⟨h, _⟩ := List.getElem?_eq_some_iff.1 hi
  have e : ((i : Int) + 1).toNat = i + 1 := by omega
  rw [e]
  exact ⟨hi, by omega, by omega⟩

theorem hasNode_of {d : Document} {x : Int} {n : Node} (h0 : 0 < x) (h : d.nodes[x.toNat - 1]? = some n) :
    HasNode d x n := ⟨x.toNat - 1, by omega, h⟩

/-- C25: `add_scalar`, `add_sequence` and `add_mapping` return the id of the new node, which is
the last one and has the given contents (with the default tag if none is given), and no other
node changes. -/
theorem add_returns_new_node (d : Document) :
    (∀ tag value style,
      HasNode (d.addScalar tag value style).2 (d.addScalar tag value style).1
        ⟨.scalar value style, some (tag.getD strTag), Mark.zero, Mark.zero⟩ ∧
      (d.addScalar tag value style).1 = (d.addScalar tag value style).2.nodes.length ∧
      (d.addScalar tag value style).2.nodes.length = d.nodes.length + 1 ∧
      ∀ id n, HasNode d id n → HasNode (d.addScalar tag value style).2 id n) ∧
    (∀ tag style,
      HasNode (d.addSequence tag style).2 (d.addSequence tag style).1
        ⟨.sequence [] style, some (tag.getD seqTag), Mark.zero, Mark.zero⟩ ∧
      (d.addSequence tag style).1 = (d.addSequence tag style).2.nodes.length ∧
      (d.addSequence tag style).2.nodes.length = d.nodes.length + 1 ∧
      ∀ id n, HasNode d id n → HasNode (d.addSequence tag style).2 id n) ∧
    (∀ tag style,
      HasNode (d.addMapping tag style).2 (d.addMapping tag style).1
        ⟨.mapping [] style, some (tag.getD mapTag), Mark.zero, Mark.zero⟩ ∧
      (d.addMapping tag style).1 = (d.addMapping tag style).2.nodes.length ∧
      (d.addMapping tag style).2.nodes.length = d.nodes.length + 1 ∧
      ∀ id n, HasNode d id n → HasNode (d.addMapping tag style).2 id n) := by
  have key : ∀ node : Node,
      HasNode (d.pushNode node).2 (d.pushNode node).1 node ∧
      (d.pushNode node).1 = (d.pushNode node).2.nodes.length ∧
      (d.pushNode node).2.nodes.length = d.nodes.length + 1 ∧
      ∀ id n, HasNode d id n → HasNode (d.pushNode node).2 id n := by
    intro node
    refine ⟨⟨d.nodes.length, rfl, ?_⟩, ?_, ?_, ?_⟩
    · simp [Document.pushNode]
    · simp [Document.pushNode]
    · simp [Document.pushNode]
    · rintro id n ⟨i, rfl, hi⟩
      obtain ⟨h, _⟩ := List.getElem?_eq_some_iff.1 hi
      exact ⟨i, rfl, by simp only [Document.pushNode]; rw [List.getElem?_append_left h]; exact hi⟩
  exact ⟨fun _ _ _ => key _, fun _ _ => key _, fun _ _ => key _⟩

/-- C25: `append_sequence_item` succeeds exactly when the first argument is the id of a sequence
and the second the id of a node; it then appends that reference to that sequence and changes
nothing else; otherwise it panics and the document is unchanged. -/
theorem append_sequence_item_exact (d : Document) (sequence item : Int) :
    (∃ items style tag m1 m2,
      HasNode d sequence ⟨.sequence items style, tag, m1, m2⟩ ∧ (∃ n, HasNode d item n) ∧
      (d.appendSequenceItem sequence item).1 = .ok () ∧
      HasNode (d.appendSequenceItem sequence item).2 sequence ⟨.sequence (items ++ [item.toNat]) style, tag, m1, m2⟩ ∧
      (d.appendSequenceItem sequence item).2.nodes.length = d.nodes.length ∧
      ∀ id n, id ≠ sequence → (HasNode (d.appendSequenceItem sequence item).2 id n ↔ HasNode d id n)) ∨
    (¬ (∃ items style tag m1 m2, HasNode d sequence ⟨.sequence items style, tag, m1, m2⟩ ∧ ∃ n, HasNode d item n) ∧
      (d.appendSequenceItem sequence item) = (.panic .appendItemAssert, d)) := by
  unfold Document.appendSequenceItem
  by_cases hs : d.inRange sequence = true
  · rw [if_neg (by simp [hs])]
    obtain ⟨n, hn⟩ := (inRange_iff d sequence).1 hs
    obtain ⟨h1, h2, h3⟩ := hasNode_toNat hn
    rw [h1]
    obtain ⟨data, tag, m1, m2⟩ := n
    have huniq : ∀ n', HasNode d sequence n' → n' = ⟨data, tag, m1, m2⟩ := by
      intro n' h'
      have := (hasNode_toNat h').1
      rw [h1] at this; exact (Option.some.inj this).symm
    cases data with
    | sequence items style =>
      by_cases hi : d.inRange item = true
      · left
        dsimp only
        rw [if_neg (by simp [hi])]
        refine ⟨items, style, tag, m1, m2, hn, (inRange_iff d item).1 hi, rfl, ?_, ?_, ?_⟩
        · refine hasNode_of (by omega) ?_
          simp only [Document.modifyData, List.getElem?_modify_eq, h1]; rfl
        · simp [Document.modifyData]
        · intro id n hid
          constructor
          · rintro ⟨i, rfl, hi'⟩
            refine ⟨i, rfl, ?_⟩
            simp only [Document.modifyData] at hi'
            rw [List.getElem?_modify_ne] at hi'
            · exact hi'
            · omega
          · rintro ⟨i, rfl, hi'⟩
            refine ⟨i, rfl, ?_⟩
            simp only [Document.modifyData]
            rw [List.getElem?_modify_ne]
            · exact hi'
            · omega
      · right
        dsimp only
        rw [if_pos (by simp [hi])]
        refine ⟨?_, rfl⟩
        rintro ⟨_, _, _, _, _, _, h⟩
        exact hi ((inRange_iff d item).2 h)
    | noNode | scalar _ _ | mapping _ _ =>
      right
      refine ⟨?_, rfl⟩
      rintro ⟨_, _, _, _, _, h, _⟩
      have := huniq _ h
      simp at this
  · right
    rw [if_pos (by simp [hs])]
    refine ⟨?_, rfl⟩
    rintro ⟨_, _, _, _, _, h, _⟩
    exact hs ((inRange_iff d sequence).2 ⟨_, h⟩)

/-- C25: `yaml_document_append_mapping_pair` succeeds exactly when the first argument is the id
of a mapping and the others are ids of nodes; it then appends that pair to that mapping and
changes nothing else; otherwise it panics and the document is unchanged. -/
theorem append_mapping_pair_exact (d : Document) (mapping key value : Int) :
    (∃ pairs style tag m1 m2,
      HasNode d mapping ⟨.mapping pairs style, tag, m1, m2⟩ ∧ (∃ n, HasNode d key n) ∧ (∃ n, HasNode d value n) ∧
      (d.appendMappingPair mapping key value).1 = .ok () ∧
      HasNode (d.appendMappingPair mapping key value).2 mapping
        ⟨.mapping (pairs ++ [(key.toNat, value.toNat)]) style, tag, m1, m2⟩ ∧
      (d.appendMappingPair mapping key value).2.nodes.length = d.nodes.length ∧
      ∀ id n, id ≠ mapping → (HasNode (d.appendMappingPair mapping key value).2 id n ↔ HasNode d id n)) ∨
    (¬ (∃ pairs style tag m1 m2, HasNode d mapping ⟨.mapping pairs style, tag, m1, m2⟩ ∧
        (∃ n, HasNode d key n) ∧ ∃ n, HasNode d value n) ∧
      (d.appendMappingPair mapping key value) = (.panic .appendPairAssert, d)) := by
  unfold Document.appendMappingPair
  by_cases hs : d.inRange mapping = true
  · rw [if_neg (by simp [hs])]
    obtain ⟨n, hn⟩ := (inRange_iff d mapping).1 hs
    obtain ⟨h1, h2, h3⟩ := hasNode_toNat hn
    rw [h1]
    obtain ⟨data, tag, m1, m2⟩ := n
    have huniq : ∀ n', HasNode d mapping n' → n' = ⟨data, tag, m1, m2⟩ := by
      intro n' h'
      have := (hasNode_toNat h').1
      rw [h1] at this; exact (Option.some.inj this).symm
    cases data with
    | mapping pairs style =>
      by_cases hi : (d.inRange key && d.inRange value) = true
      · left
        dsimp only
        rw [if_neg (by simp [hi])]
        rw [Bool.and_eq_true] at hi
        refine ⟨pairs, style, tag, m1, m2, hn, (inRange_iff d key).1 hi.1, (inRange_iff d value).1 hi.2, rfl, ?_, ?_, ?_⟩
        · refine hasNode_of (by omega) ?_
          simp only [Document.modifyData, List.getElem?_modify_eq, h1]; rfl
        · simp [Document.modifyData]
        · intro id n hid
          constructor
          · rintro ⟨i, rfl, hi'⟩
            refine ⟨i, rfl, ?_⟩
            simp only [Document.modifyData] at hi'
            rw [List.getElem?_modify_ne] at hi'
            · exact hi'
            · omega
          · rintro ⟨i, rfl, hi'⟩
            refine ⟨i, rfl, ?_⟩
            simp only [Document.modifyData]
            rw [List.getElem?_modify_ne]
            · exact hi'
            · omega
      · right
        dsimp only
        rw [if_pos (by rw [Bool.eq_false_iff.2 hi]; rfl)]
        refine ⟨?_, rfl⟩
        rintro ⟨_, _, _, _, _, _, hk, hv⟩
        exact hi (by rw [(inRange_iff d key).2 hk, (inRange_iff d value).2 hv]; rfl)
    | noNode | scalar _ _ | sequence _ _ =>
      right
      refine ⟨?_, rfl⟩
      rintro ⟨_, _, _, _, _, h, _⟩
      have := huniq _ h
      simp at this
  · right
    rw [if_pos (by simp [hs])]
    refine ⟨?_, rfl⟩
    rintro ⟨_, _, _, _, _, h, _⟩
    exact hs ((inRange_iff d mapping).2 ⟨_, h⟩)

theorem wellFormed_push {nodes : List Node} (h : WellFormed nodes) {n : Node} (hn : refs n.data = []) :
    WellFormed (nodes ++ [n]) := by
  intro n' hn' r hr
  rcases List.mem_append.1 hn' with h' | h'
  · have := h n' h' r hr
    simp only [List.length_append, List.length_singleton]; omega
  · simp at h'; subst h'; rw [hn] at hr; simp at hr

theorem mem_modify {α : Type} {l : List α} {i : Nat} {f : α → α} {x : α} (h : x ∈ l.modify i f) :
    x ∈ l ∨ ∃ y, l[i]? = some y ∧ x = f y := by
  obtain ⟨j, hj, rfl⟩ := List.mem_iff_getElem.1 h
  rw [List.getElem_modify]
  rw [List.length_modify] at hj
  split
  · rename_i e; subst e
    exact Or.inr ⟨l[i], by simp [hj], rfl⟩
  · exact Or.inl (List.getElem_mem _)

theorem wellFormed_modify {d : Document} (h : WellFormed d.nodes) {i : Nat} {f : NodeData → NodeData}
    (hf : ∀ n, d.nodes[i - 1]? = some n → ∀ r ∈ refs (f n.data), 1 ≤ r ∧ r ≤ d.nodes.length) :
    WellFormed (d.modifyData i f).nodes := by
  intro n hn r hr
  have hl : (d.modifyData i f).nodes.length = d.nodes.length := by simp [Document.modifyData]
  rw [hl]
  rcases mem_modify hn with h' | ⟨y, hy, rfl⟩
  · exact h n h' r hr
  · exact hf y hy r hr

/-- C25: any sequence of calls of the building API, starting with a well-formed document (an
empty one, say), leaves a well-formed document. -/
theorem building_keeps_well_formed (calls : List BuildCall) (d : Document) (h : WellFormed d.nodes) :
    WellFormed (calls.foldl BuildCall.run d).nodes := by
  induction calls generalizing d with
  | nil => exact h
  | cons c cs ih =>
    refine ih _ ?_
    cases c with
    | addScalar t v s => exact wellFormed_push h rfl
    | addSequence t s => exact wellFormed_push h rfl
    | addMapping t s => exact wellFormed_push h rfl
    | appendItem s i =>
      show WellFormed (d.appendSequenceItem s i).2.nodes
      unfold Document.appendSequenceItem
      split
      · exact h
      · split
        · rename_i items style _ _ _ hnode
          split
          · exact h
          · rename_i hi
            obtain ⟨n, hn⟩ := (inRange_iff d i).1 (by simpa using hi)
            have hn := hasNode_toNat hn
            refine wellFormed_modify h ?_
            intro n' hn' r hr
            rw [hnode] at hn'
            simp only [refs, List.mem_append, List.mem_singleton] at hr
            rcases hr with hr | rfl
            · exact h _ (List.mem_of_getElem? hnode) r hr
            · exact hn.2
        · exact h
    | appendPair m k v =>
      show WellFormed (d.appendMappingPair m k v).2.nodes
      unfold Document.appendMappingPair
      split
      · exact h
      · split
        · rename_i pairs style _ _ _ hnode
          split
          · exact h
          · rename_i hi
            simp only [Bool.not_eq_true', Bool.not_eq_false, Bool.and_eq_true] at hi
            obtain ⟨n, hn⟩ := (inRange_iff d k).1 hi.1
            obtain ⟨n2, hn2⟩ := (inRange_iff d v).1 hi.2
            have hn := hasNode_toNat hn
            have hn2 := hasNode_toNat hn2
            refine wellFormed_modify h ?_
            intro n' hn' r hr
            rw [hnode] at hn'
            simp only [refs, List.flatMap_append, List.mem_append, List.flatMap_cons, List.flatMap_nil,
              List.append_nil, List.mem_cons, List.not_mem_nil, or_false] at hr
            rcases hr with hr | rfl | rfl
            · exact h _ (List.mem_of_getElem? hnode) r hr
            · exact hn.2
            · exact hn2.2
        · exact h

/-- C25: `get_node` finds exactly the nodes of the document, for every id but 0. -/
theorem get_node_exact (oc : Bool) (d : Document) (id : Int) (h0 : id ≠ 0) :
    ∃ r, d.getNode oc id = .ok r ∧ ∀ n, r = some n ↔ HasNode d id n := by
  unfold Document.getNode
  rw [if_neg h0]
  split
  · refine ⟨none, rfl, fun n => ⟨fun h => by simp at h, ?_⟩⟩
    rintro ⟨i, rfl, _⟩; omega
  · refine ⟨_, rfl, fun n => ⟨fun h => hasNode_of (by omega) h, fun h => (hasNode_toNat h).1⟩⟩

/-- What is missing from C25: `get_node(0)` panics when overflow checks are on (`index as usize - 1`
underflows), whatever the document. -/
theorem get_node_zero_panics (d : Document) : d.getNode true 0 = .panic .indexUnderflow := rfl

/-- The hypotheses are met by a real history: a mapping from a scalar to a sequence containing
the mapping itself. -/
example :
    let d := [BuildCall.addMapping none .block, .addScalar none ['k'] .plain, .addSequence none .flow,
      .appendPair 1 2 3, .appendItem 3 1, .appendItem 2 1, .appendItem 3 7].foldl BuildCall.run
        (Document.new none [] true true)
    d.nodes.map (fun n => refs n.data) = [[2, 3], [], [1]] := by decide

end Yaml.Props
