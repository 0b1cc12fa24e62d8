import Verif.EmitApi
import Verif.Spec.Dump

/-
`Document::dump` and the events it emits.
-/

namespace Yaml
open Spec
set_option linter.unusedSimpArgs false
set_option linter.unusedVariables false

/-! ### Running methods of the whole emitter -/

theorem sink_exec_bind {α β : Type} (m : Free EmitOp EmitAns α) (f : α → Free EmitOp EmitAns β) (k : Sink) :
    Sink.exec (m.bind f) k = Sink.exec (f (Sink.exec m k).1) (Sink.exec m k).2 := by
  induction m generalizing k with
  | ret a => rfl
  | op o g ih => simp only [Free.bind, Sink.exec]; exact ih _ _

namespace DumperObj

theorem run_pure {α : Type} (a : α) (o : DumperObj) : o.run (pure a) = (.ok a, o) := rfl
theorem run_panic {α : Type} (p : PanicSite) (o : DumperObj) : o.run (M.panic p : Emitter.EmitB α) = (.panic p, o) := rfl
theorem run_getBook (o : DumperObj) : o.run Emitter.getBook = (.ok o.b, o) := rfl
theorem run_modifyBook (f : Book → Book) (o : DumperObj) : o.run (Emitter.modifyBook f) = (.ok (), { o with b := f o.b }) := rfl

theorem run_bind {α β : Type} (m : Emitter.EmitB α) (f : α → Emitter.EmitB β) (o : DumperObj) :
    o.run (m >>= f) = match o.run m with
      | (.ok a, o') => o'.run (f a)
      | (.err e, o') => (.err e, o')
      | (.panic p, o') => (.panic p, o')
      | (.fuel, o') => (.fuel, o') := by
  show DumperObj.run (M.bind m f) o = _
  unfold DumperObj.run M.bind
  simp only [sink_exec_bind]
  generalize Sink.exec (m (o.o.s, o.b)) o.o.k = q
  obtain ⟨⟨r, s, b⟩, k⟩ := q
  cases r <;> rfl

theorem run_lift {α : Type} (m : Emit α) (o : DumperObj) :
    o.run (Emitter.lift m) = ((o.o.run m).1, ⟨(o.o.run m).2, o.b⟩) := by
  unfold DumperObj.run EmitterObj.run Emitter.lift
  simp only [sink_exec_bind]
  rfl

end DumperObj

namespace EmitterObj

theorem feed_append (xs ys : List Event) (o : EmitterObj) :
    o.feed (xs ++ ys) = match o.feed xs with
      | (.ok _, o') => o'.feed ys
      | r => r := by
  induction xs generalizing o with
  | nil => rfl
  | cons e es ih =>
    simp only [List.cons_append, feed]
    generalize o.emit e = q
    obtain ⟨r, o'⟩ := q
    cases r with
    | ok a => exact ih o'
    | _ => rfl

theorem Emits.trans {o o1 o2 : EmitterObj} {xs ys : List Event} (h : Emits o xs o1) (h' : Emits o1 ys o2) : Emits o (xs ++ ys) o2 := by
  induction h' with
  | nil => simpa using h
  | snoc _ hs ih => rw [← List.append_assoc]; exact ih.snoc hs
  | flush _ hs ih => exact ih.flush hs

theorem emits_of_feed {xs : List Event} {o o' : EmitterObj} (h : o.feed xs = (.ok (), o')) : Emits o xs o' := by
  induction xs generalizing o with
  | nil => cases h; exact .nil
  | cons e es ih =>
    simp only [feed] at h
    generalize hq : o.emit e = q at h
    obtain ⟨r, o1⟩ := q
    cases r with
    | ok a => exact Emits.trans (.snoc .nil hq) (ih h)
    | _ => cases h

end EmitterObj

/-! ### Following a list of events -/

/-- The two ended in the same way. -/
def SameEnd {α : Type} (post : α → Book → Prop) : Out Unit × EmitterObj → Out α × DumperObj → Prop
  | (.ok _, o), (.ok a, o') => o'.o = o ∧ post a o'.b
  | (.err e, o), (.err e', o') => e' = e ∧ o'.o = o
  | (.panic p, o), (.panic p', o') => p' = p ∧ o'.o = o
  | (.fuel, o), (.fuel, o') => o'.o = o
  | _, _ => False

/-- The method, called with the bookkeeping `b`, does to the emitter what `emit` of these events does. -/
def Follows {α : Type} (es : List Event) (m : Emitter.EmitB α) (b : Book) (post : α → Book → Prop) : Prop :=
  ∀ o : EmitterObj, SameEnd post (o.feed es) (DumperObj.run m ⟨o, b⟩)

namespace Follows
variable {α β : Type} {b : Book} {post : α → Book → Prop}

theorem pure {a : α} (h : post a b) : Follows [] (pure a : Emitter.EmitB α) b post := fun o => ⟨rfl, h⟩

theorem bind {es es' : List Event} {m : Emitter.EmitB α} {f : α → Emitter.EmitB β} {post' : β → Book → Prop}
    (h : Follows es m b post) (hf : ∀ a b', post a b' → Follows es' (f a) b' post') : Follows (es ++ es') (m >>= f) b post' := by
  intro o
  have h1 := h o
  rw [EmitterObj.feed_append, DumperObj.run_bind]
  generalize o.feed es = q at h1
  generalize DumperObj.run m ⟨o, b⟩ = q' at h1
  obtain ⟨r, o1⟩ := q
  obtain ⟨r', o2⟩ := q'
  cases r <;> cases r' <;> simp only [SameEnd] at h1 ⊢ <;> try exact h1
  obtain ⟨h2, h3⟩ := h1
  have := hf _ _ h3 o1
  obtain ⟨o2, b2⟩ := o2
  simp only at h2 this ⊢
  subst h2
  exact this

theorem emit {e : Event} {post : Unit → Book → Prop} (h : post () b) : Follows [e] (Emitter.lift (Emitter.emit e)) b post := by
  intro o
  rw [DumperObj.run_lift]
  simp only [EmitterObj.feed]
  show SameEnd post (match o.emit e with | (.ok _, o') => o'.feed [] | r => r) ((o.emit e).1, ⟨(o.emit e).2, b⟩)
  generalize o.emit e = q
  obtain ⟨r, o1⟩ := q
  cases r <;> simp only [SameEnd, EmitterObj.feed, and_self, true_and]
  exact h

theorem getBook {es : List Event} {f : Book → Emitter.EmitB α} (h : Follows es (f b) b post) : Follows es (Emitter.getBook >>= f) b post := by
  intro o
  rw [DumperObj.run_bind, DumperObj.run_getBook]
  exact h o

theorem modifyBook {es : List Event} {g : Book → Book} {f : Unit → Emitter.EmitB α} (h : Follows es (f ()) (g b) post) :
    Follows es (Emitter.modifyBook g >>= f) b post := by
  intro o
  rw [DumperObj.run_bind, DumperObj.run_modifyBook]
  exact h o

theorem modifyBook' {g : Book → Book} {post : Unit → Book → Prop} (h : post () (g b)) : Follows [] (Emitter.modifyBook g) b post :=
  fun o => ⟨rfl, h⟩

theorem mono {es : List Event} {m : Emitter.EmitB α} {post' : α → Book → Prop} (h : Follows es m b post) (hp : ∀ a b', post a b' → post' a b') :
    Follows es m b post' := by
  intro o
  have := h o
  generalize o.feed es = q at this
  generalize DumperObj.run m ⟨o, b⟩ = q' at this
  obtain ⟨r, o1⟩ := q
  obtain ⟨r', o2⟩ := q'
  cases r <;> cases r' <;> simp only [SameEnd] at this ⊢ <;> try exact this
  exact ⟨this.1, hp _ _ this.2⟩

/-- If the method returned, the events were accepted. -/
theorem ok {es : List Event} {m : Emitter.EmitB α} (h : Follows es m b post) {o : EmitterObj} {o' : DumperObj} {a : α}
    (hr : DumperObj.run m ⟨o, b⟩ = (.ok a, o')) : o.feed es = (.ok (), o'.o) ∧ post a o'.b := by
  have := h o
  rw [hr] at this
  generalize o.feed es = q at this
  obtain ⟨r, o1⟩ := q
  cases r <;> simp only [SameEnd] at this
  exact ⟨by rw [this.1], this.2⟩

end Follows

/-! ### Names -/

/-- The name of a node, as the table has it. -/
def bookName (b : Book) (i : Nat) : Option Str :=
  match b.anchors[i - 1]? with
  | some a => if i ≠ 0 ∧ a.anchor ≠ 0 then some (Emitter.generateAnchor a.anchor) else none
  | none => none

/-- The table after references `l` to the nodes have been counted. -/
structure Counted (n : Nat) (l : List Nat) (b : Book) : Prop where
  len : b.anchors.length = n
  refs : ∀ (i : Nat) (a : Anchors), b.anchors[i]? = some a → a.references = (l.count (i + 1) : Int)
  fresh : ∀ (i : Nat) (a : Anchors), b.anchors[i]? = some a → a.serialized = false
  ids : ∀ (i : Nat) (a : Anchors), b.anchors[i]? = some a → (a.anchor ≠ 0 ↔ 2 ≤ l.count (i + 1)) ∧ 0 ≤ a.anchor ∧ a.anchor ≤ b.lastAnchorId
  inj : ∀ (i j : Nat) (a c : Anchors), b.anchors[i]? = some a → b.anchors[j]? = some c → a.anchor ≠ 0 → a.anchor = c.anchor → i = j

theorem Counted.start (n : Nat) (b : Book) (h : 0 ≤ b.lastAnchorId) : Counted n [] { b with anchors := List.replicate n {} } := by
  refine ⟨by simp, ?_, ?_, ?_, ?_⟩
  · intro i a h; have := List.mem_replicate.1 (List.mem_of_getElem? h); rw [this.2]; rfl
  · intro i a h; have := List.mem_replicate.1 (List.mem_of_getElem? h); rw [this.2]
  · intro i a h'; have := List.mem_replicate.1 (List.mem_of_getElem? h'); rw [this.2]; simpa using h
  · intro i j a c h h2 h3; have := List.mem_replicate.1 (List.mem_of_getElem? h); rw [this.2] at h3; exact absurd rfl h3

/-- The table after one more reference. -/
def countRef (i : Nat) (a : Anchors) (b : Book) : Book :=
  if a.references + 1 = 2 then
    { b with lastAnchorId := b.lastAnchorId + 1, anchors := b.anchors.set (i - 1) { a with references := a.references + 1, anchor := b.lastAnchorId + 1 } }
  else { b with anchors := b.anchors.set (i - 1) { a with references := a.references + 1 } }

theorem Counted.step {n : Nat} {l : List Nat} {b : Book} (h : Counted n l b) (hid : 0 ≤ b.lastAnchorId) {i : Nat} {a : Anchors} (hi : 0 < i) (ha : b.anchors[i - 1]? = some a) :
    Counted n (l ++ [i]) (countRef i a b) ∧ 0 ≤ (countRef i a b).lastAnchorId := by
  obtain ⟨hlt, _⟩ := List.getElem?_eq_some_iff.1 ha
  have e : i - 1 + 1 = i := by omega
  have hr := h.refs _ _ ha
  rw [e] at hr
  have hcnt : ∀ j, (l ++ [i]).count (j + 1) = l.count (j + 1) + if i - 1 = j then 1 else 0 := by
    intro j
    rw [List.count_append, List.count_singleton]
    have : (i == j + 1) = decide (i - 1 = j) := by
      rw [Bool.eq_iff_iff]; simp only [beq_iff_eq, decide_eq_true_eq]; omega
    rw [this]
    by_cases h : i - 1 = j <;> simp [h]
  have hids := h.ids _ _ ha
  rw [e] at hids
  unfold countRef
  by_cases h2 : a.references + 1 = 2
  · rw [if_pos h2]
    have hone : l.count i = 1 := by omega
    refine ⟨⟨by simpa using h.len, ?_, ?_, ?_, ?_⟩, by show 0 ≤ b.lastAnchorId + 1; omega⟩
    · intro j c hj
      rw [hcnt]
      simp only [List.getElem?_set] at hj
      by_cases hij : i - 1 = j
      · subst hij
        rw [if_pos rfl, if_pos hlt] at hj
        cases hj
        rw [if_pos rfl, e]
        simp only; omega
      · rw [if_neg hij] at hj ⊢
        exact h.refs j c hj
    · intro j c hj
      simp only [List.getElem?_set] at hj
      by_cases hij : i - 1 = j
      · rw [if_pos hij, if_pos (by omega)] at hj
        cases hj
        exact h.fresh _ a ha
      · rw [if_neg hij] at hj
        exact h.fresh j c hj
    · intro j c hj
      rw [hcnt]
      simp only [List.getElem?_set] at hj
      by_cases hij : i - 1 = j
      · subst hij
        rw [if_pos rfl, if_pos hlt] at hj
        cases hj
        rw [if_pos rfl, e]
        simp only; omega
      · rw [if_neg hij] at hj ⊢
        have := h.ids j c hj
        simp only; omega
    · intro j k c d hj hk hc hcd
      simp only [List.getElem?_set] at hj hk
      by_cases hij : i - 1 = j
      · by_cases hik : i - 1 = k
        · omega
        · rw [if_neg hik] at hk
          rw [if_pos hij, if_pos (by omega)] at hj
          cases hj
          have := h.ids k d hk
          simp only at hcd; omega
      · rw [if_neg hij] at hj
        by_cases hik : i - 1 = k
        · rw [if_pos hik, if_pos (by omega)] at hk
          cases hk
          have := h.ids j c hj
          simp only at hcd; omega
        · rw [if_neg hik] at hk
          exact h.inj j k c d hj hk hc hcd
  · rw [if_neg h2]
    have hone : l.count i ≠ 1 := by omega
    refine ⟨⟨by simpa using h.len, ?_, ?_, ?_, ?_⟩, hid⟩
    · intro j c hj
      rw [hcnt]
      simp only [List.getElem?_set] at hj
      by_cases hij : i - 1 = j
      · subst hij
        rw [if_pos rfl, if_pos hlt] at hj
        cases hj
        rw [if_pos rfl, e]
        simp only; omega
      · rw [if_neg hij] at hj ⊢
        exact h.refs j c hj
    · intro j c hj
      simp only [List.getElem?_set] at hj
      by_cases hij : i - 1 = j
      · rw [if_pos hij, if_pos (by omega)] at hj
        cases hj
        exact h.fresh _ a ha
      · rw [if_neg hij] at hj
        exact h.fresh j c hj
    · intro j c hj
      rw [hcnt]
      simp only [List.getElem?_set] at hj
      by_cases hij : i - 1 = j
      · subst hij
        rw [if_pos rfl, if_pos hlt] at hj
        cases hj
        rw [if_pos rfl, e]
        simp only; omega
      · rw [if_neg hij] at hj ⊢
        have := h.ids j c hj
        simp only; omega
    · intro j k c d hj hk hc hcd
      have back : ∀ (j : Nat) (c : Anchors), (b.anchors.set (i - 1) { a with references := a.references + 1 })[j]? = some c →
          ∃ c' : Anchors, b.anchors[j]? = some c' ∧ c'.anchor = c.anchor := by
        intro j c hj
        simp only [List.getElem?_set] at hj
        by_cases hij : i - 1 = j
        · rw [if_pos hij, if_pos (by omega)] at hj
          cases hj
          exact ⟨a, by rw [← hij]; exact ha, rfl⟩
        · rw [if_neg hij] at hj
          exact ⟨c, hj, rfl⟩
      obtain ⟨c', h3, h4⟩ := back j c hj
      obtain ⟨d', h5, h6⟩ := back k d hk
      exact h.inj j k c' d' h3 h5 (by rw [h4]; exact hc) (by rw [h4, h6]; exact hcd)

namespace Document
open Emitter

/-- The children of the root are counted. -/
theorem follows_anchorSubs {n : Nat} : ∀ (l' l : List Nat) (b : Book), Counted n l b → 0 ≤ b.lastAnchorId → (∀ i ∈ l', 1 ≤ i ∧ i ≤ n) →
    Follows [] (anchorSubs l') b fun _ b' => Counted n (l ++ l') b' ∧ b'.opened = b.opened ∧ b'.closed = b.closed := by
  intro l'
  induction l' with
  | nil => intro l b h _ _; exact Follows.pure ⟨by simpa using h, rfl, rfl⟩
  | cons i is ih =>
    intro l b h hid hr
    obtain ⟨h1, h2⟩ := hr i List.mem_cons_self
    have hlt : i - 1 < b.anchors.length := by rw [h.len]; omega
    obtain ⟨a, ha⟩ : ∃ a, b.anchors[i - 1]? = some a := ⟨_, List.getElem?_eq_getElem hlt⟩
    obtain ⟨h3, h4⟩ := h.step hid (by omega) ha
    unfold anchorSubs
    refine Follows.bind (es := []) (es' := []) (post := fun _ b' => b' = countRef i a b) ?_ ?_
    · unfold anchorNodeSub
      rw [if_neg (by omega)]
      refine Follows.getBook ?_
      simp only [ha]
      unfold countRef
      by_cases h2 : a.references + 1 = 2
      · rw [if_pos h2, if_pos h2]; exact Follows.modifyBook' rfl
      · rw [if_neg h2, if_neg h2]; exact Follows.modifyBook' rfl
    · rintro _ b' rfl
      refine (ih (l ++ [i]) _ h3 h4 fun j hj => hr j (List.mem_cons_of_mem _ hj)).mono ?_
      rintro _ b' ⟨h5, h6, h7⟩
      have e : ∀ b : Book, (countRef i a b).opened = b.opened ∧ (countRef i a b).closed = b.closed := by
        intro b; unfold countRef; split <;> exact ⟨rfl, rfl⟩
      exact ⟨by simpa using h5, h6.trans (e b).1, h7.trans (e b).2⟩

/-- If a child does not exist, dumping panics. -/
theorem anchorSubs_bad {n : Nat} : ∀ (l' : List Nat) (o : DumperObj) (o' : DumperObj), o.b.anchors.length = n → o.run (anchorSubs l') = (.ok (), o') → ∀ i ∈ l', 1 ≤ i ∧ i ≤ n := by
  intro l'
  induction l' with
  | nil => intro o o' _ _ i hi; cases hi
  | cons i is ih =>
    intro o o' hn h j hj
    unfold anchorSubs at h
    rw [DumperObj.run_bind] at h
    have key : (1 ≤ i ∧ i ≤ n) ∧ ∃ b', b'.anchors.length = n ∧ o.run (anchorNodeSub i) = (.ok (), { o with b := b' }) := by
      unfold anchorNodeSub at h ⊢
      by_cases h0 : i = 0
      · rw [if_pos h0, DumperObj.run_panic] at h; cases h
      · rw [if_neg h0] at h ⊢
        rw [DumperObj.run_bind, DumperObj.run_getBook] at h ⊢
        cases ha : o.b.anchors[i - 1]? with
        | none =>
          simp only [ha] at h
          rw [DumperObj.run_panic] at h; cases h
        | some a =>
          obtain ⟨hlt, _⟩ := List.getElem?_eq_some_iff.1 ha
          refine ⟨by omega, ?_⟩
          simp only [ha]
          by_cases h2 : a.references + 1 = 2
          · rw [if_pos h2, DumperObj.run_modifyBook]; exact ⟨_, by simpa using hn, rfl⟩
          · rw [if_neg h2, DumperObj.run_modifyBook]; exact ⟨_, by simpa using hn, rfl⟩
    obtain ⟨k1, b', k2, k3⟩ := key
    rw [k3] at h
    rcases List.mem_cons.1 hj with rfl | hj
    · exact k1
    · exact ih _ _ k2 h j hj

theorem children_eq (d : NodeData) : children d = refs d := by cases d <;> rfl

/-- What the dumper has done so far. -/
structure Ser (nodes : List Node) (name : Nat → Option Str) (seen : List Nat) (nodes' : List Node) (b : Book) : Prop where
  len : nodes'.length = nodes.length
  lenA : b.anchors.length = nodes.length
  ser : ∀ (i : Nat) (a : Anchors), b.anchors[i]? = some a → a.serialized = decide (i + 1 ∈ seen)
  named : ∀ (i : Nat) (a : Anchors), b.anchors[i]? = some a → (if a.anchor ≠ 0 then some (generateAnchor a.anchor) else none) = name (i + 1)
  rest : ∀ i, i + 1 ∉ seen → nodes'[i]? = nodes[i]?
  nodup : seen.Nodup
  range : ∀ i ∈ seen, 1 ≤ i ∧ i ≤ nodes.length

theorem Ser.length_le {nodes nodes' : List Node} {name : Nat → Option Str} {seen : List Nat} {b : Book} (h : Ser nodes name seen nodes' b) :
    seen.length ≤ nodes.length := by
  have := h.nodup.length_le_of_subset (l₂ := (List.range nodes.length).map (· + 1)) (by
    intro i hi
    have := h.range i hi
    rw [List.mem_map]
    exact ⟨i - 1, by rw [List.mem_range]; omega, by omega⟩)
  simpa using this

theorem Ser.step {nodes nodes' : List Node} {name : Nat → Option Str} {seen : List Nat} {b : Book} (h : Ser nodes name seen nodes' b) {i : Nat} {a : Anchors}
    (h0 : 0 < i) (hi : i ∉ seen) (ha : b.anchors[i - 1]? = some a) :
    Ser nodes name (seen ++ [i]) (nodes'.set (i - 1) emptyNode) { b with anchors := b.anchors.set (i - 1) { a with serialized := true } } := by
  obtain ⟨hlt, _⟩ := List.getElem?_eq_some_iff.1 ha
  refine ⟨by simpa using h.len, by simpa using h.lenA, ?_, ?_, ?_, ?_, ?_⟩
  · intro j c hj
    simp only [List.getElem?_set] at hj
    by_cases hij : i - 1 = j
    · rw [if_pos hij, if_pos (by omega)] at hj
      cases hj
      have : j + 1 = i := by omega
      simp [this]
    · rw [if_neg hij] at hj
      rw [h.ser j c hj]
      have : j + 1 ≠ i := by omega
      simp [this]
  · intro j c hj
    simp only [List.getElem?_set] at hj
    by_cases hij : i - 1 = j
    · rw [if_pos hij, if_pos (by omega)] at hj
      cases hj
      rw [← hij]; exact h.named (i - 1) a ha
    · rw [if_neg hij] at hj
      exact h.named j c hj
  · intro j hj
    simp only [List.mem_append, List.mem_singleton, not_or] at hj
    rw [List.getElem?_set_ne (by omega)]
    exact h.rest j hj.1
  · rw [List.nodup_append]
    exact ⟨h.nodup, by simp, by intro x hx y hy; simp at hy; rw [hy]; rintro rfl; exact hi hx⟩
  · intro j hj
    rcases List.mem_append.1 hj with hj | hj
    · exact h.range j hj
    · simp at hj; subst hj
      rw [← h.lenA]; omega

mutual
theorem unfolds_grows {nodes : List Node} {name : Nat → Option Str} {seen seen' : List Nat} {i : Nat} {t : Tree} :
    Unfolds nodes name seen i t seen' → ∃ x, seen' = seen ++ x
  | .alias _ _ => ⟨[], by simp⟩
  | .scalar _ _ _ => ⟨_, rfl⟩
  | .sequence _ _ _ h => by obtain ⟨x, rfl⟩ := unfoldsAll_grows h; exact ⟨_, List.append_assoc _ _ _⟩
  | .mapping _ _ _ h => by obtain ⟨x, rfl⟩ := unfoldsAll_grows h; exact ⟨_, List.append_assoc _ _ _⟩
theorem unfoldsAll_grows {nodes : List Node} {name : Nat → Option Str} {seen seen' : List Nat} {is : List Nat} {ts : List Tree} :
    UnfoldsAll nodes name seen is ts seen' → ∃ x, seen' = seen ++ x
  | .nil => ⟨[], by simp⟩
  | .cons h hs => by
    obtain ⟨x, rfl⟩ := unfolds_grows h
    obtain ⟨y, rfl⟩ := unfoldsAll_grows hs
    exact ⟨_, List.append_assoc _ _ _⟩
end

/-- The state in front of a node that was not written yet. -/
theorem Ser.fresh {nodes nodes' : List Node} {name : Nat → Option Str} {seen : List Nat} {b : Book} (h : Ser nodes name seen nodes' b) {i : Nat} {n : Node}
    (h0 : 0 < i) (hi : i ∉ seen) (hd : nodes[i - 1]? = some n) :
    nodes'[i - 1]? = some n ∧ ∃ a, b.anchors[i - 1]? = some a ∧ a.serialized = false ∧ (if a.anchor ≠ 0 then some (generateAnchor a.anchor) else none) = name i := by
  have e : i - 1 + 1 = i := by omega
  obtain ⟨hlt, _⟩ := List.getElem?_eq_some_iff.1 hd
  obtain ⟨a, ha⟩ : ∃ a, b.anchors[i - 1]? = some a := ⟨_, List.getElem?_eq_getElem (by rw [h.lenA]; exact hlt)⟩
  refine ⟨by rw [h.rest _ (by rw [e]; exact hi), hd], a, ha, ?_, ?_⟩
  · rw [h.ser _ _ ha, e]; simpa using hi
  · rw [h.named _ _ ha, e]

mutual
/-- Dumping a node emits its events. -/
theorem follows_dumpNode {nodes : List Node} {name : Nat → Option Str} {seen seen' : List Nat} {i : Nat} {t : Tree} :
    Unfolds nodes name seen i t seen' → ∀ (F : Nat) (nodes' : List Node) (b : Book), Ser nodes name seen nodes' b → nodes.length < F + seen.length →
      Follows t.events (dumpNode F nodes' i) b fun nodes'' b' => Ser nodes name seen' nodes'' b' ∧ b'.opened = b.opened ∧ b'.closed = b.closed
  | .alias (a := a) hi hn => by
    intro F nodes' b h hF
    obtain ⟨h1, h2⟩ := h.range _ hi
    have := h.length_le
    obtain ⟨F, rfl⟩ : ∃ k, F = k + 1 := ⟨F - 1, by omega⟩
    have e : i - 1 + 1 = i := by omega
    obtain ⟨n, hn'⟩ : ∃ n, nodes'[i - 1]? = some n := ⟨_, List.getElem?_eq_getElem (by rw [h.len]; omega)⟩
    obtain ⟨c, hc⟩ : ∃ c, b.anchors[i - 1]? = some c := ⟨_, List.getElem?_eq_getElem (by rw [h.lenA]; omega)⟩
    have hs := h.ser _ _ hc
    have hm := h.named _ _ hc
    rw [e] at hs hm
    unfold dumpNode
    rw [if_neg (by omega)]
    refine Follows.getBook ?_
    simp only [hn', hc, hs, hi, decide_true, if_true]
    rw [hm, hn]
    simp only [Tree.events]
    refine Follows.bind (es := [_]) (es' := []) (post := fun _ b' => b' = b) (Follows.emit rfl) ?_
    rintro _ _ rfl
    exact Follows.pure ⟨h, rfl, rfl⟩
  | .scalar (tag := tag) hi h0 hd => by
    intro F nodes' b h hF
    have hst := h
    obtain ⟨h1, a, ha, h2, h3⟩ := h.fresh h0 hi hd
    have h4 := h.step h0 hi ha
    have h5 := h4.length_le
    rw [List.length_append, List.length_singleton] at h5
    obtain ⟨F, rfl⟩ : ∃ k, F = k + 1 := ⟨F - 1, by omega⟩
    unfold dumpNode
    rw [if_neg (by omega)]
    refine Follows.getBook ?_
    simp only [h1, ha, h2, Bool.false_eq_true, if_false]
    refine Follows.modifyBook ?_
    simp only [Tree.events]
    rw [h3]
    have : ((tag == some strTag) : Bool) = decide (tag = some (cs! "tag:yaml.org,2002:str")) := by
      rw [Bool.eq_iff_iff]; simp [strTag]
    rw [this]
    refine Follows.bind (es := [_]) (es' := []) (post := fun _ b' => b' = _) (Follows.emit rfl) ?_
    rintro _ _ rfl
    exact Follows.pure ⟨h4, rfl, rfl⟩
  | .sequence (tag := tag) hi h0 hd hs => by
    intro F nodes' b h hF
    obtain ⟨h1, a, ha, h2, h3⟩ := h.fresh h0 hi hd
    have h4 := h.step h0 hi ha
    have h5 := h4.length_le
    rw [List.length_append, List.length_singleton] at h5
    obtain ⟨F, rfl⟩ : ∃ k, F = k + 1 := ⟨F - 1, by omega⟩
    unfold dumpNode
    rw [if_neg (by omega)]
    refine Follows.getBook ?_
    simp only [h1, ha, h2, Bool.false_eq_true, if_false]
    refine Follows.modifyBook ?_
    simp only [Tree.events]
    rw [h3]
    have : ((tag == some seqTag) : Bool) = decide (tag = some (cs! "tag:yaml.org,2002:seq")) := by
      rw [Bool.eq_iff_iff]; simp [seqTag]
    rw [this]
    refine Follows.bind (es := [_]) (es' := _ ++ _) (post := fun _ b' => b' = _) (Follows.emit rfl) ?_
    rintro _ _ rfl
    refine Follows.bind (follows_dumpItems hs F _ _ h4 (by simp; omega)) ?_
    rintro nodes2 b2 ⟨h6, h7, h8⟩
    refine Follows.bind (es := [_]) (es' := []) (post := fun _ b' => b' = b2) (Follows.emit rfl) ?_
    rintro _ _ rfl
    exact Follows.pure ⟨h6, h7, h8⟩
  | .mapping (tag := tag) hi h0 hd hs => by
    intro F nodes' b h hF
    obtain ⟨h1, a, ha, h2, h3⟩ := h.fresh h0 hi hd
    have h4 := h.step h0 hi ha
    have h5 := h4.length_le
    rw [List.length_append, List.length_singleton] at h5
    obtain ⟨F, rfl⟩ : ∃ k, F = k + 1 := ⟨F - 1, by omega⟩
    unfold dumpNode
    rw [if_neg (by omega)]
    refine Follows.getBook ?_
    simp only [h1, ha, h2, Bool.false_eq_true, if_false]
    refine Follows.modifyBook ?_
    simp only [Tree.events]
    rw [h3]
    have : ((tag == some mapTag) : Bool) = decide (tag = some (cs! "tag:yaml.org,2002:map")) := by
      rw [Bool.eq_iff_iff]; simp [mapTag]
    rw [this]
    refine Follows.bind (es := [_]) (es' := _ ++ _) (post := fun _ b' => b' = _) (Follows.emit rfl) ?_
    rintro _ _ rfl
    refine Follows.bind (follows_dumpItems hs F _ _ h4 (by simp; omega)) ?_
    rintro nodes2 b2 ⟨h6, h7, h8⟩
    refine Follows.bind (es := [_]) (es' := []) (post := fun _ b' => b' = b2) (Follows.emit rfl) ?_
    rintro _ _ rfl
    exact Follows.pure ⟨h6, h7, h8⟩
theorem follows_dumpItems {nodes : List Node} {name : Nat → Option Str} {seen seen' : List Nat} {is : List Nat} {ts : List Tree} :
    UnfoldsAll nodes name seen is ts seen' → ∀ (F : Nat) (nodes' : List Node) (b : Book), Ser nodes name seen nodes' b → nodes.length < F + seen.length →
      Follows (eventsAll ts) (dumpItems (dumpNode F) is nodes') b fun nodes'' b' => Ser nodes name seen' nodes'' b' ∧ b'.opened = b.opened ∧ b'.closed = b.closed
  | .nil => by
    intro F nodes' b h hF
    exact Follows.pure ⟨h, rfl, rfl⟩
  | .cons h1 hs => by
    intro F nodes' b h hF
    unfold dumpItems
    simp only [eventsAll]
    refine Follows.bind (follows_dumpNode h1 F nodes' b h hF) ?_
    rintro nodes2 b2 ⟨h6, h7, h8⟩
    obtain ⟨x, rfl⟩ := unfolds_grows h1
    refine (follows_dumpItems hs F nodes2 b2 h6 (by simp; omega)).mono ?_
    rintro nodes3 b3 ⟨h9, h10, h11⟩
    exact ⟨h9, h10.trans h7, h11.trans h8⟩
end

/-- A node that could be dumped could be unfolded. -/
theorem dumpNode_ok {nodes : List Node} {name : Nat → Option Str} : ∀ (F : Nat) (i : Nat) (seen : List Nat) (nodes' : List Node) (o o' : DumperObj) (r : List Node),
    Ser nodes name seen nodes' o.b → nodes.length < F + seen.length → o.run (dumpNode F nodes' i) = (.ok r, o') → ∃ t seen', Unfolds nodes name seen i t seen' := by
  intro F
  induction F with
  | zero => intro i seen nodes' o o' r h hF; have := h.length_le; omega
  | succ F ih =>
    intro i seen nodes' o o' r h hF hr
    have items : ∀ (is : List Nat) (seen : List Nat) (nodes' : List Node) (o o' : DumperObj) (r : List Node), Ser nodes name seen nodes' o.b → nodes.length < F + seen.length →
        o.run (dumpItems (dumpNode F) is nodes') = (.ok r, o') → ∃ ts seen', UnfoldsAll nodes name seen is ts seen' := by
      intro is
      induction is with
      | nil => intro seen nodes' o o' r h hF hr; exact ⟨[], seen, .nil⟩
      | cons j js ihs =>
        intro seen nodes' o o' r h hF hr
        unfold dumpItems at hr
        rw [DumperObj.run_bind] at hr
        generalize hq : o.run (dumpNode F nodes' j) = q at hr
        obtain ⟨x, o1⟩ := q
        cases x with
        | ok nodes2 =>
          obtain ⟨t, seen1, hu⟩ := ih j seen nodes' o o1 nodes2 h hF hq
          obtain ⟨_, h6, h7, h8⟩ := (follows_dumpNode hu F nodes' o.b h hF).ok (o := o.o) hq
          obtain ⟨x, rfl⟩ := unfolds_grows hu
          obtain ⟨ts, seen2, hs⟩ := ihs _ nodes2 o1 o' r h6 (by simp; omega) hr
          exact ⟨_, _, .cons hu hs⟩
        | _ => cases hr
    unfold dumpNode at hr
    by_cases h0 : i = 0
    · rw [if_pos h0, DumperObj.run_panic] at hr; cases hr
    rw [if_neg h0, DumperObj.run_bind, DumperObj.run_getBook] at hr
    simp only at hr
    cases hn : nodes'[i - 1]? with
    | none => simp only [hn] at hr; rw [DumperObj.run_panic] at hr; cases hr
    | some n =>
      cases ha : o.b.anchors[i - 1]? with
      | none => simp only [hn, ha] at hr; rw [DumperObj.run_panic] at hr; cases hr
      | some a =>
        have e : i - 1 + 1 = i := by omega
        simp only [hn, ha] at hr
        have hs := h.ser _ _ ha
        have hm := h.named _ _ ha
        rw [e] at hs hm
        by_cases hi : i ∈ seen
        · simp only [hs, hi, decide_true, if_true] at hr
          cases hnm : name i with
          | none =>
            rw [hm, hnm] at hr
            simp only [DumperObj.run_panic] at hr; cases hr
          | some nm => exact ⟨_, _, .alias hi hnm⟩
        · simp only [hs, hi, decide_false, Bool.false_eq_true, if_false] at hr
          have hd : nodes[i - 1]? = some n := by rw [← h.rest _ (by rw [e]; exact hi), hn]
          have h4 := h.step (by omega) hi ha
          rw [DumperObj.run_bind, DumperObj.run_modifyBook] at hr
          simp only at hr
          obtain ⟨data, tag, m, m'⟩ := n
          cases data with
          | noNode => simp only [DumperObj.run_panic] at hr; cases hr
          | scalar v st => exact ⟨_, _, .scalar hi (by omega) hd⟩
          | sequence its st =>
            simp only at hr
            rw [DumperObj.run_bind, DumperObj.run_lift] at hr
            generalize hq : EmitterObj.run (Emitter.emit _) _ = q at hr
            obtain ⟨x, o1⟩ := q
            cases x with
            | ok _ =>
              simp only at hr
              rw [DumperObj.run_bind] at hr
              generalize hq2 : DumperObj.run (dumpItems _ _ _) _ = q2 at hr
              obtain ⟨x2, o2⟩ := q2
              cases x2 with
              | ok nodes2 =>
                obtain ⟨ts, seen', hu⟩ := items its (seen ++ [i]) _ _ _ _ h4 (by simp; omega) hq2
                exact ⟨_, _, .sequence hi (by omega) hd hu⟩
              | _ => cases hr
            | _ => cases hr
          | mapping ps st =>
            simp only at hr
            rw [DumperObj.run_bind, DumperObj.run_lift] at hr
            generalize hq : EmitterObj.run (Emitter.emit _) _ = q at hr
            obtain ⟨x, o1⟩ := q
            cases x with
            | ok _ =>
              simp only at hr
              rw [DumperObj.run_bind] at hr
              generalize hq2 : DumperObj.run (dumpItems _ _ _) _ = q2 at hr
              obtain ⟨x2, o2⟩ := q2
              cases x2 with
              | ok nodes2 =>
                obtain ⟨ts, seen', hu⟩ := items _ (seen ++ [i]) _ _ _ _ h4 (by simp; omega) hq2
                exact ⟨_, _, .mapping hi (by omega) hd hu⟩
              | _ => cases hr
            | _ => cases hr

end Document
end Yaml
