import Verif.Spec.Events

/-
A deterministic automaton for the event grammar, and its equivalence with the grammar.
-/

namespace Yaml
open Spec

/-- An open collection: what is expected in it. -/
inductive Coll where
  | seq
  | mapK
  | mapV
deriving DecidableEq, Repr

/-- States of the automaton: before the stream, between documents, inside a document with the open
collections, after the root node, after the stream. -/
inductive GSt where
  | start
  | docs
  | inDoc (stk : List Coll)
  | docEnd
  | done
deriving DecidableEq, Repr

/-- After a complete node. -/
def GSt.after : List Coll → GSt
  | [] => .docEnd
  | .seq :: r => .inDoc (.seq :: r)
  | .mapK :: r => .inDoc (.mapV :: r)
  | .mapV :: r => .inDoc (.mapK :: r)

/-- One event. -/
def gstep : GSt → EventData → Option GSt
  | .start, .streamStart _ => some .docs
  | .docs, .documentStart _ _ _ => some (.inDoc [])
  | .docs, .streamEnd => some .done
  | .inDoc stk, .alias _ => some (.after stk)
  | .inDoc stk, .scalar _ _ _ _ _ _ => some (.after stk)
  | .inDoc stk, .sequenceStart _ _ _ _ => some (.inDoc (.seq :: stk))
  | .inDoc stk, .mappingStart _ _ _ _ => some (.inDoc (.mapK :: stk))
  | .inDoc (.seq :: r), .sequenceEnd => some (.after r)
  | .inDoc (.mapK :: r), .mappingEnd => some (.after r)
  | .docEnd, .documentEnd _ => some .docs
  | _, _ => none

/-- A run of the automaton. -/
inductive GRun : GSt → List EventData → GSt → Prop
  | nil (s : GSt) : GRun s [] s
  | cons {s s' s'' : GSt} {e : EventData} {es : List EventData} (h : gstep s e = some s') (hr : GRun s' es s'') : GRun s (e :: es) s''

theorem GRun.snoc {s s' s'' : GSt} {e : EventData} {es : List EventData} (h : GRun s es s') (hs : gstep s' e = some s'') :
    GRun s (es ++ [e]) s'' := by
  induction h with
  | nil s => exact .cons hs (.nil _)
  | cons h hr ih => exact .cons h (ih hs)

theorem GRun.append {s s' s'' : GSt} {es es' : List EventData} (h : GRun s es s') (h' : GRun s' es' s'') : GRun s (es ++ es') s'' := by
  induction h with
  | nil s => exact h'
  | cons h hr ih => exact .cons h (ih h')

theorem GRun.det {s s1 s2 : GSt} {es : List EventData} (h1 : GRun s es s1) (h2 : GRun s es s2) : s1 = s2 := by
  induction h1 with
  | nil s => cases h2; rfl
  | cons h hr ih =>
    cases h2 with
    | cons h' hr' => rw [h] at h'; cases h'; exact ih hr'

/-- What may follow between documents. -/
def LDocs (w : List EventData) : Prop := ∃ ds, IsDocuments ds ∧ w = ds ++ [.streamEnd]
/-- What may follow the root node. -/
def LEnd (w : List EventData) : Prop := ∃ i w', w = .documentEnd i :: w' ∧ LDocs w'
/-- What may follow a complete node inside the collections `stk`. -/
def LAfter : List Coll → List EventData → Prop
  | [], w => LEnd w
  | .seq :: r, w => ∃ ns w', IsNodes ns ∧ w = ns ++ .sequenceEnd :: w' ∧ LAfter r w'
  | .mapV :: r, w => ∃ ps w', IsPairs ps ∧ w = ps ++ .mappingEnd :: w' ∧ LAfter r w'
  | .mapK :: r, w => ∃ v ps w', IsNode v ∧ IsPairs ps ∧ w = v ++ (ps ++ .mappingEnd :: w') ∧ LAfter r w'
/-- What may follow inside the collections `stk`. -/
def LIn : List Coll → List EventData → Prop
  | [], w => ∃ n w', IsNode n ∧ w = n ++ w' ∧ LEnd w'
  | .seq :: r, w => LAfter (.seq :: r) w
  | .mapK :: r, w => LAfter (.mapV :: r) w
  | .mapV :: r, w => LAfter (.mapK :: r) w
/-- What may follow. -/
def Lang : GSt → List EventData → Prop
  | .start, w => IsStream w
  | .docs, w => LDocs w
  | .inDoc stk, w => LIn stk w
  | .docEnd, w => LEnd w
  | .done, w => w = []

theorem Lang_after (stk : List Coll) (w : List EventData) : Lang (.after stk) w ↔ LAfter stk w := by
  match stk with
  | [] => exact Iff.rfl
  | .seq :: r => exact Iff.rfl
  | .mapK :: r => exact Iff.rfl
  | .mapV :: r => exact Iff.rfl

/-- A node read in `stk` may be followed by what follows a complete node. -/
theorem LIn_node {stk : List Coll} {n w : List EventData} (hn : IsNode n) (hw : LAfter stk w) : LIn stk (n ++ w) := by
  match stk with
  | [] => exact ⟨n, w, hn, rfl, hw⟩
  | .seq :: r =>
    obtain ⟨ns, w', h1, rfl, h2⟩ := hw
    exact ⟨n ++ ns, w', .cons hn h1, by simp, h2⟩
  | .mapK :: r =>
    obtain ⟨v, ps, w', h1, h2, rfl, h3⟩ := hw
    exact ⟨n ++ v ++ ps, w', .cons hn h1 h2, by simp, h3⟩
  | .mapV :: r =>
    obtain ⟨ps, w', h1, rfl, h2⟩ := hw
    exact ⟨n, ps, w', hn, h1, rfl, h2⟩

/-- Reading an event of the automaton stays in the grammar. -/
theorem Lang_step {s s' : GSt} {e : EventData} {w : List EventData} (h : gstep s e = some s') (hw : Lang s' w) : Lang s (e :: w) := by
  unfold gstep at h
  split at h
  · cases h
    obtain ⟨ds, h1, rfl⟩ := hw
    exact .mk _ h1
  · cases h
    obtain ⟨n, w', h1, rfl, i, w'', rfl, ds, h2, rfl⟩ := hw
    rename_i v t j
    exact ⟨_, .cons v t j i h1 h2, by simp⟩
  · cases h
    have hw : w = [] := hw
    subst hw
    exact ⟨[], .nil, rfl⟩
  · cases h
    rw [Lang_after] at hw
    exact LIn_node (.alias _) hw
  · cases h
    rw [Lang_after] at hw
    exact LIn_node (.scalar _ _ _ _ _ _) hw
  · cases h
    obtain ⟨ns, w', h1, rfl, h2⟩ := hw
    rename_i a t i s
    have := LIn_node (.sequence a t i s h1) h2
    simp only [List.cons_append, List.append_assoc, List.nil_append] at this
    exact this
  · cases h
    obtain ⟨ps, w', h1, rfl, h2⟩ := hw
    rename_i a t i s
    have := LIn_node (.mapping a t i s h1) h2
    simp only [List.cons_append, List.append_assoc, List.nil_append] at this
    exact this
  · cases h
    rw [Lang_after] at hw
    exact ⟨[], w, .nil, rfl, hw⟩
  · cases h
    rw [Lang_after] at hw
    exact ⟨[], w, .nil, rfl, hw⟩
  · cases h
    exact ⟨_, w, rfl, hw⟩
  · cases h

theorem LAfter_exists (stk : List Coll) : ∃ w, LAfter stk w := by
  induction stk with
  | nil => exact ⟨_, false, [.streamEnd], rfl, [], .nil, rfl⟩
  | cons f r ih =>
    obtain ⟨w, hw⟩ := ih
    cases f with
    | seq => exact ⟨_, [], w, .nil, rfl, hw⟩
    | mapV => exact ⟨_, [], w, .nil, rfl, hw⟩
    | mapK => exact ⟨_, _, [], w, .alias [], .nil, rfl, hw⟩

/-- From every state the stream can be completed. -/
theorem Lang_exists (s : GSt) : ∃ w, Lang s w := by
  cases s with
  | start => exact ⟨_, .mk .utf8 .nil⟩
  | docs => exact ⟨_, [], .nil, rfl⟩
  | inDoc stk =>
    obtain ⟨w, hw⟩ := LAfter_exists stk
    exact ⟨_, LIn_node (.alias []) hw⟩
  | docEnd => exact LAfter_exists []
  | done => exact ⟨[], rfl⟩

theorem GRun.lang {s s' : GSt} {es w : List EventData} (h : GRun s es s') (hw : Lang s' w) : Lang s (es ++ w) := by
  induction h with
  | nil s => exact hw
  | cons h hr ih => exact Lang_step h (ih hw)

/-- What the automaton reads is the beginning of a stream. -/
theorem GRun.prefix {s : GSt} {es : List EventData} (h : GRun .start es s) : IsStreamPrefix es := by
  obtain ⟨w, hw⟩ := Lang_exists s
  exact ⟨w, h.lang hw⟩

/-- What the automaton accepts is a stream. -/
theorem GRun.stream {es : List EventData} (h : GRun .start es .done) : IsStream es := by
  have := h.lang (w := []) rfl
  rw [List.append_nil] at this
  exact this

/-! ### The automaton accepts the grammar -/

theorem Spec.IsNode.run {n : List EventData} (h : IsNode n) : ∀ stk, GRun (.inDoc stk) n (.after stk) := by
  refine IsNode.rec (motive_1 := fun n _ => ∀ stk, GRun (.inDoc stk) n (.after stk))
    (motive_2 := fun ns _ => ∀ r, GRun (.inDoc (.seq :: r)) ns (.inDoc (.seq :: r)))
    (motive_3 := fun ps _ => ∀ r, GRun (.inDoc (.mapK :: r)) ps (.inDoc (.mapK :: r))) ?_ ?_ ?_ ?_ ?_ ?_ ?_ ?_ h
  · intro a stk; exact .cons rfl (.nil _)
  · intro a t v p q s stk; exact .cons rfl (.nil _)
  · intro a t i s ns _ ih stk
    exact .cons (s' := .inDoc (.seq :: stk)) rfl ((ih stk).append (.cons rfl (.nil _)))
  · intro a t i s ps _ ih stk
    exact .cons (s' := .inDoc (.mapK :: stk)) rfl ((ih stk).append (.cons rfl (.nil _)))
  · intro r; exact .nil _
  · intro n ns _ _ ih1 ih2 r
    exact (ih1 (.seq :: r)).append (ih2 r)
  · intro r; exact .nil _
  · intro k v ps _ _ _ ih1 ih2 ih3 r
    exact ((ih1 (.mapK :: r)).append (ih2 (.mapV :: r))).append (ih3 r)

theorem Spec.IsDocuments.run {ds : List EventData} (h : IsDocuments ds) : GRun .docs ds .docs := by
  induction h with
  | nil => exact .nil _
  | cons v t i j hn _ ih =>
    exact .cons (s' := .inDoc []) rfl ((hn.run []).append (.cons (s' := .docs) rfl ih))

theorem Spec.IsStream.run {es : List EventData} (h : IsStream es) : GRun .start es .done := by
  cases h with
  | mk e hd => exact .cons (s' := .docs) rfl (hd.run.append (.cons rfl (.nil _)))

theorem GRun.split {s s' : GSt} {es es' : List EventData} (h : GRun s (es ++ es') s') : ∃ s1, GRun s es s1 ∧ GRun s1 es' s' := by
  induction es generalizing s with
  | nil => exact ⟨s, .nil _, h⟩
  | cons e es ih =>
    cases h with
    | cons h hr =>
      obtain ⟨s1, h1, h2⟩ := ih hr
      exact ⟨s1, .cons h h1, h2⟩

/-- The automaton reads exactly the beginnings of streams. -/
theorem isStreamPrefix_iff (es : List EventData) : IsStreamPrefix es ↔ ∃ s, GRun .start es s := by
  constructor
  · rintro ⟨w, h⟩
    obtain ⟨s, h1, _⟩ := h.run.split
    exact ⟨s, h1⟩
  · rintro ⟨s, h⟩; exact h.prefix

end Yaml
