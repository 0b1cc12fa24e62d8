import Verif.Lib.Dump
import Verif.Spec.Emit

/-
Counting references, generated anchors, and the whole of `Document::dump`.
-/

namespace Yaml
open Spec
set_option linter.unusedSimpArgs false
set_option linter.unusedVariables false

namespace Emitter

theorem generateAnchor_inj {a c : Int} (ha : 0 ≤ a) (hc : 0 ≤ c) (h : generateAnchor a = generateAnchor c) : a = c := by
  have val : ∀ n : Int, 0 ≤ n → (Nat.ofDigitChars 10 ((generateAnchor n).drop 2) 0 : Int) = n := by
    intro n hn
    unfold generateAnchor
    simp only [List.cons_append, List.nil_append, List.drop_succ_cons, List.drop_zero]
    rw [Nat.ofDigitChars_append, Nat.ofDigitChars_replicate_zero]
    simp only [Nat.mul_zero, Nat.repr, String.toList_ofList]
    rw [Nat.ofDigitChars_ten_toDigits]
    omega
  have h1 := val a ha
  have h2 := val c hc
  rw [h] at h1
  omega

theorem generateAnchor_ok (a : Int) : NameOk (generateAnchor a) := by
  refine ⟨by simp [generateAnchor], ?_⟩
  intro c hc
  unfold generateAnchor at hc
  simp only [List.mem_append, List.mem_cons, List.not_mem_nil, or_false, List.mem_replicate] at hc
  rcases hc with (hc | ⟨_, rfl⟩) | hc
  · rcases hc with rfl | rfl
    · exact Or.inl (by decide)
    · exact Or.inl (by decide)
  · exact Or.inl (by decide)
  · left
    simp only [Nat.repr, String.toList_ofList] at hc
    have := Nat.isDigit_of_mem_toDigits (by decide) (by decide) hc
    simp [Char.isAlphanum, this]

end Emitter

namespace Document
open Emitter

theorem follows_anchorNode {nodes : List Node} {root : Node} (h0 : nodes[0]? = some root) {b : Book} (h : Counted nodes.length [] b)
    (hid : 0 ≤ b.lastAnchorId) (hr : ∀ i ∈ refs root.data, 1 ≤ i ∧ i ≤ nodes.length) :
    Follows [] (anchorNode nodes 1) b fun _ b' => Counted nodes.length (1 :: refs root.data) b' ∧ b'.opened = b.opened ∧ b'.closed = b.closed := by
  obtain ⟨hlt, _⟩ := List.getElem?_eq_some_iff.1 h0
  obtain ⟨a, ha⟩ : ∃ a, b.anchors[1 - 1]? = some a := ⟨_, List.getElem?_eq_getElem (by rw [h.len]; exact hlt)⟩
  have hz : a.references = 0 := by simpa using h.refs _ _ ha
  obtain ⟨h3, h4⟩ := h.step hid (by omega : 0 < 1) ha
  have hc : countRef 1 a b = { b with anchors := b.anchors.set (1 - 1) { a with references := a.references + 1 } } := by
    unfold countRef; rw [if_neg (by omega)]
  unfold anchorNode
  refine Follows.getBook ?_
  simp only [show (1 - 1 : Nat) = 0 from rfl, h0] at ha ⊢
  simp only [ha]
  refine Follows.modifyBook ?_
  rw [if_pos (by omega), children_eq]
  rw [hc] at h3 h4
  simpa using follows_anchorSubs (refs root.data) [1] _ h3 h4 hr

theorem anchorNode_ok {nodes : List Node} {root : Node} (h0 : nodes[0]? = some root) {o o' : DumperObj} (h : Counted nodes.length [] o.b)
    (hr : o.run (anchorNode nodes 1) = (.ok (), o')) : ∀ i ∈ refs root.data, 1 ≤ i ∧ i ≤ nodes.length := by
  obtain ⟨hlt, _⟩ := List.getElem?_eq_some_iff.1 h0
  obtain ⟨a, ha⟩ : ∃ a, o.b.anchors[1 - 1]? = some a := ⟨_, List.getElem?_eq_getElem (by rw [h.len]; exact hlt)⟩
  have hz : a.references = 0 := by simpa using h.refs _ _ ha
  unfold anchorNode at hr
  rw [DumperObj.run_bind, DumperObj.run_getBook] at hr
  simp only [show (1 - 1 : Nat) = 0 from rfl, h0] at ha hr
  simp only [ha] at hr
  rw [DumperObj.run_bind, DumperObj.run_modifyBook] at hr
  simp only at hr
  rw [if_pos (by omega), children_eq] at hr
  exact anchorSubs_bad _ _ _ (by simpa using h.len) hr

theorem named_of_counted {nodes : List Node} {root : Node} (h0 : nodes[0]? = some root) {b : Book} (h : Counted nodes.length (1 :: refs root.data) b) :
    Named nodes (bookName b) ∧ Ser nodes (bookName b) [] nodes b := by
  have key : ∀ i a, bookName b i = some a → 0 < i ∧ ∃ c, b.anchors[i - 1]? = some c ∧ c.anchor ≠ 0 ∧ a = generateAnchor c.anchor := by
    intro i a hi
    unfold bookName at hi
    cases hc : b.anchors[i - 1]? with
    | none => rw [hc] at hi; cases hi
    | some c =>
      rw [hc] at hi
      simp only at hi
      split at hi
      · rename_i h1
        cases hi
        exact ⟨by omega, c, rfl, h1.2, rfl⟩
      · cases hi
  refine ⟨⟨?_, ?_, ?_⟩, ?_⟩
  · intro i
    unfold bookName
    constructor
    · intro hi
      obtain ⟨a, ha⟩ := Option.isSome_iff_exists.1 hi
      obtain ⟨h1, c, h2, h3, rfl⟩ := key i a ha
      obtain ⟨hlt, _⟩ := List.getElem?_eq_some_iff.1 h2
      rw [h.len] at hlt
      refine ⟨by omega, by omega, root, h0, ?_⟩
      have := ((h.ids _ _ h2).1).1 h3
      rwa [show i - 1 + 1 = i by omega] at this
    · rintro ⟨h1, h2, r, hr, h3⟩
      rw [h0] at hr; cases hr
      obtain ⟨c, hc⟩ : ∃ c, b.anchors[i - 1]? = some c := ⟨_, List.getElem?_eq_getElem (by rw [h.len]; omega)⟩
      have := ((h.ids _ _ hc).1).2 (by rwa [show i - 1 + 1 = i by omega])
      rw [hc]
      simp only
      rw [if_pos ⟨by omega, this⟩]
      rfl
  · intro i j a hi hj
    obtain ⟨h1, c, h2, h3, rfl⟩ := key i a hi
    obtain ⟨h4, d, h5, h6, h7⟩ := key j _ hj
    have := generateAnchor_inj (h.ids _ _ h2).2.1 (h.ids _ _ h5).2.1 h7
    have := h.inj _ _ _ _ h2 h5 h3 this
    omega
  · intro i a hi
    obtain ⟨h1, c, h2, h3, rfl⟩ := key i a hi
    exact generateAnchor_ok _
  · refine ⟨rfl, h.len, ?_, ?_, fun _ _ => rfl, List.nodup_nil, by simp⟩
    · intro i a ha; rw [h.fresh i a ha]; rfl
    · intro i a ha
      unfold bookName
      simp only [Nat.add_sub_cancel, ha]
      by_cases hz : a.anchor ≠ 0
      · rw [if_pos hz, if_pos ⟨by omega, hz⟩]
      · rw [if_neg hz, if_neg (by rintro ⟨_, h⟩; exact hz h)]

/-- The start of the stream, if it was not written yet. -/
def prelude_ (o : Book) : List Event := if o.opened then [] else [ev (.streamStart .any)]

/-- The state of the bookkeeping when the dumper returns. -/
def doneBook (b : Book) : Book := { b with opened := true, anchors := [], lastAnchorId := 0 }

/-- The start of `dump`. -/
def opening (b : Book) : EmitB Unit :=
  M.when (!b.opened) (do
    match ← M.catchErr open_ with
    | .ok _ => pure ()
    | .error e => do
      resetAnchors
      M.throw e)

theorem follows_opening (b : Book) : Follows (prelude_ b) (opening b) b fun _ b' => b' = { b with opened := true } := by
  unfold opening
  cases ho : b.opened with
  | true =>
    have : { b with opened := true } = b := by cases b; simp_all
    simp only [prelude_, ho, if_true, Bool.not_true]
    exact Follows.pure this.symm
  | false =>
    simp only [prelude_, ho, Bool.false_eq_true, if_false, Bool.not_false, M.when, if_true]
    intro o
    have hrun : DumperObj.run (M.catchErr open_) ⟨o, b⟩ = match o.emit (ev (.streamStart .any)) with
        | (.ok _, o') => (.ok (.ok ()), ⟨o', { b with opened := true }⟩)
        | (.err e, o') => (.ok (.error e), ⟨o', b⟩)
        | (.panic p, o') => (.panic p, ⟨o', b⟩)
        | (.fuel, o') => (.fuel, ⟨o', b⟩) := by
      have h1 : DumperObj.run open_ ⟨o, b⟩ = match o.emit (ev (.streamStart .any)) with
        | (.ok _, o') => (.ok (), ⟨o', { b with opened := true }⟩)
        | (.err e, o') => (.err e, ⟨o', b⟩)
        | (.panic p, o') => (.panic p, ⟨o', b⟩)
        | (.fuel, o') => (.fuel, ⟨o', b⟩) := by
        unfold open_
        rw [DumperObj.run_bind, DumperObj.run_getBook]
        simp only [ho, Bool.false_eq_true, if_false]
        rw [DumperObj.run_bind, DumperObj.run_lift]
        show _ = match o.run (Emitter.emit (Event.new (.streamStart .any))) with
          | (.ok _, o') => _
          | (.err e, o') => _
          | (.panic p, o') => _
          | (.fuel, o') => _
        generalize o.run (Emitter.emit (Event.new (.streamStart .any))) = q
        obtain ⟨r, o1⟩ := q
        cases r <;> simp only
        rw [DumperObj.run_modifyBook]
      have h2 : ∀ (m : EmitB Unit) (o : DumperObj), o.run (M.catchErr m) = match o.run m with
          | (.ok a, o') => (.ok (.ok a), o')
          | (.err e, o') => (.ok (.error e), o')
          | (.panic p, o') => (.panic p, o')
          | (.fuel, o') => (.fuel, o') := by
        intro m o
        unfold DumperObj.run M.catchErr
        simp only [sink_exec_bind]
        generalize Sink.exec (m (o.o.s, o.b)) o.o.k = q
        obtain ⟨⟨r, s, b⟩, k⟩ := q
        cases r <;> rfl
      rw [h2, h1]
      generalize o.emit (ev (.streamStart .any)) = q
      obtain ⟨r, o1⟩ := q
      cases r <;> rfl
    rw [DumperObj.run_bind, hrun]
    simp only [EmitterObj.feed]
    generalize o.emit (ev (.streamStart .any)) = q
    obtain ⟨r, o1⟩ := q
    cases r <;> simp only [SameEnd, DumperObj.run_pure, and_self]
    exact ⟨rfl, rfl⟩

theorem anchorSubs_indep : ∀ (l : List Nat) (o o2 : EmitterObj) (b : Book),
    (DumperObj.run (anchorSubs l) ⟨o, b⟩).1 = (DumperObj.run (anchorSubs l) ⟨o2, b⟩).1 ∧ (DumperObj.run (anchorSubs l) ⟨o, b⟩).2 = ⟨o, (DumperObj.run (anchorSubs l) ⟨o2, b⟩).2.b⟩ := by
  intro l
  induction l with
  | nil => intro o o2 b; exact ⟨rfl, rfl⟩
  | cons i is ih =>
    intro o o2 b
    unfold anchorSubs anchorNodeSub
    simp only [DumperObj.run_bind]
    by_cases h0 : i = 0
    · simp only [h0, if_true, DumperObj.run_panic]; exact ⟨trivial, trivial⟩
    · simp only [if_neg h0, DumperObj.run_bind, DumperObj.run_getBook]
      cases ha : b.anchors[i - 1]? with
      | none => simp only [DumperObj.run_panic]; exact ⟨trivial, trivial⟩
      | some a =>
        simp only
        by_cases h2 : a.references + 1 = 2
        · simp only [if_pos h2, DumperObj.run_modifyBook]; exact ih o o2 _
        · simp only [if_neg h2, DumperObj.run_modifyBook]; exact ih o o2 _

/-- The table of references, and its names. -/
theorem anchorNode_run {nodes : List Node} {root : Node} (h0 : nodes[0]? = some root) {b : Book} (h : Counted nodes.length [] b)
    (hid : 0 ≤ b.lastAnchorId) (hr : ∀ i ∈ refs root.data, 1 ≤ i ∧ i ≤ nodes.length) :
    ∃ b', (∀ o, DumperObj.run (anchorNode nodes 1) ⟨o, b⟩ = (.ok (), ⟨o, b'⟩)) ∧ Counted nodes.length (1 :: refs root.data) b' ∧ b'.opened = b.opened ∧ b'.closed = b.closed := by
  let o0 : EmitterObj := ⟨newState, newSink⟩
  have indep : ∀ o : EmitterObj, (DumperObj.run (anchorNode nodes 1) ⟨o, b⟩).1 = (DumperObj.run (anchorNode nodes 1) ⟨o0, b⟩).1
      ∧ (DumperObj.run (anchorNode nodes 1) ⟨o, b⟩).2 = ⟨o, (DumperObj.run (anchorNode nodes 1) ⟨o0, b⟩).2.b⟩ := by
    intro o
    obtain ⟨hlt, _⟩ := List.getElem?_eq_some_iff.1 h0
    obtain ⟨a, ha⟩ : ∃ a, b.anchors[1 - 1]? = some a := ⟨_, List.getElem?_eq_getElem (by rw [h.len]; exact hlt)⟩
    have hz : a.references = 0 := by simpa using h.refs _ _ ha
    unfold anchorNode
    simp only [show (1 - 1 : Nat) = 0 from rfl, h0] at ha ⊢
    simp only [DumperObj.run_bind, DumperObj.run_getBook, ha, DumperObj.run_modifyBook]
    rw [if_pos (by omega)]
    exact anchorSubs_indep _ _ _ _
  have := follows_anchorNode h0 h hid hr o0
  generalize hq : DumperObj.run (anchorNode nodes 1) ⟨o0, b⟩ = q at this indep
  obtain ⟨r, o1⟩ := q
  cases r <;> simp only [SameEnd, EmitterObj.feed] at this
  refine ⟨o1.b, ?_, this.2⟩
  intro o
  obtain ⟨i1, i2⟩ := indep o
  exact Prod.ext i1 i2

theorem follows_of_run {α : Type} {m : EmitB α} {b b' : Book} {a : α} (h : ∀ o, DumperObj.run m ⟨o, b⟩ = (.ok a, ⟨o, b'⟩)) :
    Follows [] m b fun x b2 => x = a ∧ b2 = b' := by
  intro o
  rw [h o]
  exact ⟨rfl, rfl, rfl⟩

/-- `dump` on a document with nodes. -/
theorem dump_eq {d : Document} (h : d.nodes.isEmpty = false) : dump d = (do
    let s ← getBook
    opening s
    let s ← getBook
    if !s.opened then do
      M.panic .dumpNotOpened
      resetAnchors
    else do
      modifyBook fun s => { s with anchors := List.replicate d.nodes.length {} }
      lift <| emit (Event.new (.documentStart d.versionDirective d.tagDirectives d.startImplicit))
      anchorNode d.nodes 1
      let _ ← dumpNode (d.nodes.length + 1) d.nodes 1
      lift <| emit (Event.new (.documentEnd d.endImplicit))
      resetAnchors) := by
  unfold dump opening
  rw [h]
  rfl

/-- `dump` does what emitting the events of the unfolded document does. -/
theorem follows_dump' {d : Document} (hne : d.nodes.isEmpty = false) {b b1 : Book} 
    (hb : ∀ o, DumperObj.run (anchorNode d.nodes 1) ⟨o, { b with opened := true, anchors := List.replicate d.nodes.length {} }⟩ = (.ok (), ⟨o, b1⟩))
    (hop : b1.opened = true) (hcl : b1.closed = b.closed) (hS : Ser d.nodes (bookName b1) [] d.nodes b1) {t : Tree} {seen : List Nat} (hu : Unfolds d.nodes (bookName b1) [] 1 t seen) :
    Follows (prelude_ b ++ docEvents d t) (dump d) b fun _ b' => b' = doneBook b := by
  rw [dump_eq hne]
  refine Follows.getBook ?_
  refine Follows.bind (follows_opening b) ?_
  rintro _ _ rfl
  refine Follows.getBook ?_
  simp only [Bool.not_true, Bool.false_eq_true, if_false]
  refine Follows.modifyBook ?_
  unfold docEvents
  refine Follows.bind (es := [_]) (post := fun _ b' => b' = _) (Follows.emit rfl) ?_
  rintro _ _ rfl
  refine Follows.bind (es := []) (follows_of_run hb) ?_
  rintro _ b3 ⟨_, h3⟩
  rw [h3]
  refine Follows.bind (follows_dumpNode hu _ _ _ hS (by simp)) ?_
  rintro nodes2 b2 ⟨h6, h7, h8⟩
  refine Follows.bind (es := [_]) (es' := []) (post := fun _ b' => b' = b2) (Follows.emit rfl) ?_
  rintro _ b4 rfl
  unfold resetAnchors
  refine Follows.modifyBook' ?_
  unfold doneBook
  obtain ⟨p, q, r, s⟩ := b4
  obtain ⟨p', q', r', s'⟩ := b
  simp only at h7 h8 hop hcl ⊢
  rw [h7, h8, hop, hcl]

theorem follows_dump {d : Document} {root : Node} (h0 : d.nodes[0]? = some root) {b : Book} (hid : 0 ≤ b.lastAnchorId)
    (hr : ∀ i ∈ refs root.data, 1 ≤ i ∧ i ≤ d.nodes.length) :
    ∃ name, Named d.nodes name ∧ ∀ t seen, Unfolds d.nodes name [] 1 t seen →
      Follows (prelude_ b ++ docEvents d t) (dump d) b fun _ b' => b' = doneBook b := by
  have hc : Counted d.nodes.length [] ({ b with opened := true, anchors := List.replicate d.nodes.length {} } : Book) :=
    Counted.start _ { b with opened := true } hid
  obtain ⟨b1, hb, hb1, hop, hcl⟩ := anchorNode_run h0 hc hid hr
  obtain ⟨hN, hS⟩ := named_of_counted h0 hb1
  obtain ⟨hlt, _⟩ := List.getElem?_eq_some_iff.1 h0
  have hne : d.nodes.isEmpty = false := by cases hd : d.nodes with
    | nil => rw [hd] at hlt; simp at hlt
    | cons _ _ => rfl
  exact ⟨_, hN, fun t seen hu => follows_dump' hne hb hop hcl hS hu⟩

/-- If `dump` returned, the document could be unfolded. -/
theorem dump_ok {d : Document} {o o' : DumperObj} (hid : 0 ≤ o.b.lastAnchorId) (hne : d.nodes ≠ []) (h : o.dump d = (.ok (), o')) :
    ∃ name t seen, Named d.nodes name ∧ Unfolds d.nodes name [] 1 t seen ∧ o.o.feed (prelude_ o.b ++ docEvents d t) = (.ok (), o'.o) ∧ o'.b = doneBook o.b := by
  obtain ⟨root, h0⟩ : ∃ r, d.nodes[0]? = some r := by
    cases hd : d.nodes with
    | nil => exact absurd hd hne
    | cons r _ => exact ⟨r, rfl⟩
  have hemp : d.nodes.isEmpty = false := by cases hd : d.nodes with
    | nil => exact absurd hd hne
    | cons _ _ => rfl
  have hdump := h
  unfold DumperObj.dump at h
  rw [dump_eq hemp, DumperObj.run_bind, DumperObj.run_getBook] at h
  simp only at h
  rw [DumperObj.run_bind] at h
  have hf := follows_opening o.b
  generalize hq : DumperObj.run (opening o.b) o = q at h
  obtain ⟨x, o1⟩ := q
  cases x with
  | ok _ =>
    obtain ⟨_, hb1⟩ := hf.ok (o := o.o) hq
    simp only at h
    rw [DumperObj.run_bind, DumperObj.run_getBook] at h
    simp only [hb1, Bool.not_true, Bool.false_eq_true, if_false] at h
    rw [DumperObj.run_bind, DumperObj.run_modifyBook] at h
    simp only at h
    rw [DumperObj.run_bind, DumperObj.run_lift] at h
    generalize hq2 : EmitterObj.run (Emitter.emit _) _ = q2 at h
    obtain ⟨y, o2⟩ := q2
    cases y with
    | ok _ =>
      simp only [hb1] at h
      rw [DumperObj.run_bind] at h
      have hc : Counted d.nodes.length [] ({ o.b with opened := true, anchors := List.replicate d.nodes.length {} } : Book) :=
        Counted.start _ { o.b with opened := true } hid
      generalize hq3 : DumperObj.run (anchorNode _ _) _ = q3 at h
      obtain ⟨z, o3⟩ := q3
      cases z with
      | ok _ =>
        have hr := anchorNode_ok (nodes := d.nodes) h0 hc hq3
        obtain ⟨b1, hb, hb2, hop, hcl⟩ := anchorNode_run h0 hc hid hr
        obtain ⟨hN, hS⟩ := named_of_counted h0 hb2
        have e := hb o2
        rw [hq3] at e
        obtain ⟨e1, e2⟩ := Prod.ext_iff.1 e
        simp only at h e2
        rw [DumperObj.run_bind] at h
        generalize hq4 : DumperObj.run (dumpNode _ _ _) _ = q4 at h
        obtain ⟨w, o4⟩ := q4
        cases w with
        | ok nodes' =>
          obtain ⟨t, seen, hu⟩ := dumpNode_ok (nodes := d.nodes) (name := bookName b1) _ _ [] _ o3 o4 _ (by rw [e2]; exact hS) (by simp) hq4
          obtain ⟨f1, f2⟩ := (follows_dump' hemp hb hop hcl hS hu).ok (o := o.o) hdump
          exact ⟨_, t, seen, hN, hu, f1, f2⟩
        | _ => cases h
      | _ => cases h
    | _ => cases h
  | _ => cases h

/-- `dump` of the empty document ends the stream. -/
theorem follows_dump_nil {d : Document} (hd : d.nodes = []) (b : Book) :
    Follows (prelude_ b ++ if b.closed then [] else [ev .streamEnd]) (dump d) b fun _ b' => b' = { doneBook b with closed := true } := by
  unfold dump
  rw [hd]
  refine Follows.getBook ?_
  refine Follows.bind (follows_opening b) ?_
  rintro _ _ rfl
  simp only [List.isEmpty_nil, if_true]
  refine Follows.bind (post := fun _ b' => b' = { b with opened := true, closed := true }) ?_ (es' := []) ?_ |> fun h => by simpa using h
  · unfold close
    refine Follows.getBook ?_
    cases hc : b.closed with
    | true =>
      simp only [Bool.not_true, Bool.false_eq_true, if_false, if_true]
      refine Follows.pure ?_
      rw [← hc]
    | false =>
      simp only [Bool.not_true, Bool.false_eq_true, if_false]
      refine Follows.bind (es := [_]) (es' := []) (post := fun _ b' => b' = _) (Follows.emit rfl) ?_
      rintro _ _ rfl
      exact Follows.modifyBook' rfl
  · rintro _ _ rfl
    unfold resetAnchors
    exact Follows.modifyBook' rfl

/-! ### The counter is never negative -/

/-- The method keeps the counter of anchors nonnegative, whatever it returns. -/
def Keeps {α : Type} (m : EmitB α) : Prop := ∀ o : DumperObj, 0 ≤ o.b.lastAnchorId → 0 ≤ (o.run m).2.b.lastAnchorId

theorem Keeps.pure {α : Type} (a : α) : Keeps (pure a : EmitB α) := fun o h => h
theorem Keeps.panic {α : Type} (p : PanicSite) : Keeps (M.panic p : EmitB α) := fun o h => h
theorem Keeps.throw {α : Type} (e : Err) : Keeps (M.throw e : EmitB α) := fun o h => h
theorem Keeps.fuel {α : Type} : Keeps (M.outOfFuel : EmitB α) := fun o h => h
theorem Keeps.getBook : Keeps getBook := fun o h => h
theorem Keeps.lift {α : Type} (m : Emit α) : Keeps (lift m) := fun o h => by rw [DumperObj.run_lift]; exact h
theorem Keeps.modifyBook {f : Book → Book} (h : ∀ b : Book, 0 ≤ b.lastAnchorId → 0 ≤ (f b).lastAnchorId) : Keeps (modifyBook f) :=
  fun o ho => h _ ho
theorem Keeps.bind {α β : Type} {m : EmitB α} {f : α → EmitB β} (h : Keeps m) (hf : ∀ a, Keeps (f a)) : Keeps (m >>= f) := by
  intro o ho
  rw [DumperObj.run_bind]
  have := h o ho
  generalize o.run m = q at this
  obtain ⟨r, o1⟩ := q
  cases r with
  | ok a => exact hf a o1 this
  | _ => exact this
theorem Keeps.catchErr {α : Type} {m : EmitB α} (h : Keeps m) : Keeps (M.catchErr m) := by
  intro o ho
  have := h o ho
  have e : (o.run (M.catchErr m)).2 = (o.run m).2 := by
    unfold DumperObj.run M.catchErr
    simp only [sink_exec_bind]
    generalize Sink.exec (m (o.o.s, o.b)) o.o.k = q
    obtain ⟨⟨r, s, b⟩, k⟩ := q
    cases r <;> rfl
  rw [e]; exact this

theorem keeps_resetAnchors : Keeps resetAnchors := Keeps.modifyBook fun b _ => Int.le_refl 0

theorem keeps_open : Keeps open_ := by
  refine Keeps.bind Keeps.getBook fun b => ?_
  split
  · exact Keeps.panic _
  · exact Keeps.bind (Keeps.lift _) fun _ => Keeps.modifyBook fun b h => h

theorem keeps_close : Keeps close := by
  refine Keeps.bind Keeps.getBook fun b => ?_
  split
  · exact Keeps.panic _
  · split
    · exact Keeps.pure _
    · exact Keeps.bind (Keeps.lift _) fun _ => Keeps.modifyBook fun b h => h

theorem keeps_anchorSubs : ∀ l, Keeps (anchorSubs l)
  | [] => Keeps.pure _
  | i :: is => by
    refine Keeps.bind ?_ fun _ => keeps_anchorSubs is
    unfold anchorNodeSub
    split
    · exact Keeps.panic _
    · refine Keeps.bind Keeps.getBook fun b => ?_
      split
      · exact Keeps.panic _
      · split
        · exact Keeps.modifyBook fun b h => by simp only; omega
        · exact Keeps.modifyBook fun b h => h

theorem keeps_dumpNode (F : Nat) : ∀ (nodes : List Node) (i : Nat), Keeps (dumpNode F nodes i) := by
  induction F with
  | zero => intro nodes i; exact Keeps.fuel
  | succ F ih =>
    intro nodes i
    have items : ∀ is nodes, Keeps (dumpItems (dumpNode F) is nodes) := by
      intro is
      induction is with
      | nil => intro nodes; exact Keeps.pure _
      | cons j js ih' => intro nodes; exact Keeps.bind (ih _ _) fun _ => ih' _
    unfold dumpNode
    by_cases h0 : i = 0
    · rw [if_pos h0]; exact Keeps.panic _
    rw [if_neg h0]
    refine Keeps.bind Keeps.getBook fun b => ?_
    cases hn : nodes[i - 1]? with
    | none => exact Keeps.panic _
    | some node =>
      cases ha : b.anchors[i - 1]? with
      | none => exact Keeps.panic _
      | some a =>
        simp only
        generalize (if a.anchor ≠ 0 then some (generateAnchor a.anchor) else none) = anchor
        by_cases hs : a.serialized = true
        · rw [if_pos hs]
          cases anchor with
          | none => exact Keeps.panic _
          | some x => exact Keeps.bind (Keeps.lift _) fun _ => Keeps.pure _
        · rw [if_neg hs]
          refine Keeps.bind (Keeps.modifyBook fun b h => h) fun _ => ?_
          obtain ⟨data, tag, m, m'⟩ := node
          cases data with
          | noNode => exact Keeps.panic _
          | scalar v st => exact Keeps.bind (Keeps.lift _) fun _ => Keeps.pure _
          | sequence its st => exact Keeps.bind (Keeps.lift _) fun _ => Keeps.bind (items _ _) fun _ => Keeps.bind (Keeps.lift _) fun _ => Keeps.pure _
          | mapping its st => exact Keeps.bind (Keeps.lift _) fun _ => Keeps.bind (items _ _) fun _ => Keeps.bind (Keeps.lift _) fun _ => Keeps.pure _

theorem keeps_anchorNode (nodes : List Node) (i : Nat) : Keeps (anchorNode nodes i) := by
  unfold anchorNode
  refine Keeps.bind Keeps.getBook fun b => ?_
  split
  · refine Keeps.bind (Keeps.modifyBook fun b h => h) fun _ => ?_
    split
    · exact keeps_anchorSubs _
    · split
      · exact Keeps.modifyBook fun b h => by simp only; omega
      · exact Keeps.pure _
  · exact Keeps.panic _

theorem keeps_opening (b : Book) : Keeps (opening b) := by
  unfold opening M.when
  split
  · refine Keeps.bind (Keeps.catchErr keeps_open) fun r => ?_
    split
    · exact Keeps.pure _
    · exact Keeps.bind keeps_resetAnchors fun _ => Keeps.throw _
  · exact Keeps.pure _

theorem keeps_dump (d : Document) : Keeps (dump d) := by
  cases hd : d.nodes.isEmpty with
  | false =>
    rw [dump_eq hd]
    refine Keeps.bind Keeps.getBook fun b => Keeps.bind (keeps_opening b) fun _ => Keeps.bind Keeps.getBook fun b' => ?_
    split
    · exact Keeps.bind (Keeps.panic _) fun _ => keeps_resetAnchors
    · exact Keeps.bind (Keeps.modifyBook fun b h => h) fun _ => Keeps.bind (Keeps.lift _) fun _ => Keeps.bind (keeps_anchorNode _ _) fun _ =>
        Keeps.bind (keeps_dumpNode _ _ _) fun _ => Keeps.bind (Keeps.lift _) fun _ => keeps_resetAnchors
  | true =>
    unfold dump
    rw [hd]
    exact Keeps.bind Keeps.getBook fun b => Keeps.bind (keeps_opening b) fun _ => Keeps.bind keeps_close fun _ => keeps_resetAnchors

end Document
end Yaml
