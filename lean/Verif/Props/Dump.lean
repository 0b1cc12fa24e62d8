import Verif.Lib.Unfold
import Verif.Props.Emitter
import Verif.Props.Parser

/-
C39: `Document::dump`.  `Reached o`: `o` is an emitter after any calls.  `DumpOf d es`: `es` are the events of the graph
of `d` from node 1, every node in full where it is met first and as an alias later (Spec/Dump.lean).
-/

namespace Yaml.Props
open Yaml Yaml.Spec Yaml.Document Yaml.Emitter Yaml.EmitterObj
set_option linter.unusedVariables false

theorem reached_id {o : DumperObj} (h : o.Reached) : 0 ≤ o.b.lastAnchorId := by
  induction h with
  | new => exact Int.le_refl 0
  | emit _ ev ih => exact Keeps.lift _ _ ih
  | open_ _ ih => exact keeps_open _ ih
  | close _ ih => exact keeps_close _ ih
  | dump _ d ih => exact keeps_dump d _ ih

/-- The start of the stream, unless `open` has emitted it. -/
def streamStartOf (o : DumperObj) : List Event := if o.b.opened then [] else [ev (.streamStart .any)]

/-- C39: if `dump` returns, it has emitted exactly the events of the document. -/
theorem C39_dump_ok (o o' : DumperObj) (d : Document) (ho : o.Reached) (hne : d.nodes ≠ []) (h : o.dump d = (.ok (), o')) :
    ∃ es, DumpOf d es ∧ Emits o.o (streamStartOf o ++ es) o'.o ∧ o'.b.opened = true ∧ o'.b.closed = o.b.closed := by
  obtain ⟨name, t, seen, h1, h2, h3, h4⟩ := dump_ok (reached_id ho) hne h
  exact ⟨_, ⟨name, t, seen, h1, h2, rfl⟩, emits_of_feed h3, by rw [h4]; rfl, by rw [h4]; rfl⟩

/-- C39: in the events of a document every node that can be reached from the root is there once, nothing else is, and the
events are those of one document. -/
theorem C39_each_node_once (d : Document) (name : Nat → Option Str) (t : Tree) (seen : List Nat) (h : Unfolds d.nodes name [] 1 t seen) :
    seen.Nodup ∧ (∀ j, j ∈ seen ↔ Reach d.nodes 1 j) ∧ IsNode (t.events.map (·.data)) := by
  obtain ⟨h1, h2⟩ := unfolds_reach h
  exact ⟨h1, h2, good_isNode t (unfolds_good h)⟩

/-- The root is written first. -/
theorem walk_head {nodes : List Node} {name : Nat → Option Str} {t : Tree} {seen : List Nat} (hu : Unfolds nodes name [] 1 t seen) :
    place seen 1 = 1 ∧ seen.head? = some 1 := by
  cases hu with
  | alias hi => simp at hi
  | scalar => exact ⟨rfl, rfl⟩
  | sequence _ _ _ hs =>
    obtain ⟨x, rfl⟩ := unfoldsAll_grows hs
    exact ⟨rfl, rfl⟩
  | mapping _ _ _ hs =>
    obtain ⟨x, rfl⟩ := unfoldsAll_grows hs
    exact ⟨rfl, rfl⟩

theorem compose_walk {d : Document} {name : Nat → Option Str} {t : Tree} {seen : List Nat} {es : List Event} (hN : Named d.nodes name)
    (hu : Unfolds d.nodes name [] 1 t seen) (he : es = docEvents d t) :
    ∃ d' : Document, DocumentOf es d' ∧ d'.nodes = renumbered d.nodes (place seen) seen ∧ d'.nodes.length = seen.length ∧
      d'.versionDirective = d.versionDirective ∧ d'.tagDirectives = d.tagDirectives ∧ d'.startImplicit = d.startImplicit ∧ d'.endImplicit = d.endImplicit := by
  subst he
  obtain ⟨new, h3, h4, h5⟩ := unfolds_compose hN.inj hu seen [] (by simp)
  rw [List.nil_append] at h3
  subst h3
  rw [(walk_head hu).1] at h4
  refine ⟨⟨renumbered d.nodes (place seen) seen, d.versionDirective, d.tagDirectives, d.startImplicit, d.endImplicit, Mark.zero, Mark.zero⟩, ?_,
    rfl, h5, rfl, rfl, rfl, rfl⟩
  exact ⟨_, _, t, d.versionDirective, d.tagDirectives, d.startImplicit, d.endImplicit, _, rfl, unfolds_good hu, rfl, rfl, h4, rfl, rfl, rfl, rfl, rfl, rfl⟩

/-- C39: read back, the events are the document without the nodes that cannot be reached, in the order in which they are
met (`seen`), so every alias is to the anchor that was emitted with its node. -/
theorem C39_compose (d : Document) (es : List Event) (h : DumpOf d es) :
    ∃ (seen : List Nat) (d' : Document), seen.Nodup ∧ (∀ j, j ∈ seen ↔ Reach d.nodes 1 j) ∧ seen.head? = some 1 ∧
      DocumentOf es d' ∧ d'.nodes = renumbered d.nodes (place seen) seen ∧ d'.nodes.length = seen.length ∧
      d'.versionDirective = d.versionDirective ∧ d'.tagDirectives = d.tagDirectives ∧ d'.startImplicit = d.startImplicit ∧ d'.endImplicit = d.endImplicit := by
  obtain ⟨name, t, seen, hN, hu, he⟩ := h
  obtain ⟨h1, h2⟩ := unfolds_reach hu
  obtain ⟨d', h⟩ := compose_walk hN hu he
  exact ⟨seen, d', h1, h2, (walk_head hu).2, h⟩

/-- C39: for a document in which only the children of the root (or the root) are shared, `dump` does exactly what `emit` of its events
would do: the same result, the same error, the same state of the emitter. -/
theorem C39_dump_partial (o : DumperObj) (d : Document) (ho : o.Reached) (hd : Dumpable d) :
    ∃ es, DumpOf d es ∧ ∀ r o', o.dump d = (r, o') → o.o.feed (streamStartOf o ++ es) = (r, o'.o) ∧ (r = .ok () → o'.b.opened = true) := by
  obtain ⟨root, h0⟩ : ∃ r, d.nodes[0]? = some r := by
    cases hn : d.nodes with
    | nil => exact absurd hn hd.root
    | cons r _ => exact ⟨r, rfl⟩
  obtain ⟨name, hN, hF⟩ := follows_dump h0 (reached_id ho) (hd.wf root (List.mem_of_getElem? h0))
  obtain ⟨t, seen, hu⟩ := unfolds_root (name := name) hd.wf hd.nodes hd.root fun i h1 h2 hs => (hN.some_iff i).2 ⟨h1, h2, hd.shared i hs⟩
  refine ⟨_, ⟨name, t, seen, hN, hu, rfl⟩, fun r o' hr => ?_⟩
  have := hF t seen hu o.o
  have hr' : DumperObj.run (Document.dump d) ⟨o.o, o.b⟩ = (r, o') := hr
  rw [hr'] at this
  show o.o.feed (prelude_ o.b ++ docEvents d t) = _ ∧ _
  generalize o.o.feed (prelude_ o.b ++ docEvents d t) = q at this
  obtain ⟨x, o1⟩ := q
  cases x <;> cases r <;> simp only [SameEnd] at this
  · exact ⟨by rw [this.1], fun _ => by rw [this.2]; rfl⟩
  · exact ⟨by rw [this.1, this.2], fun h => by cases h⟩
  · exact ⟨by rw [this.1, this.2], fun h => by cases h⟩
  · exact ⟨by rw [this], fun h => by cases h⟩

theorem unfolds_events {nodes : List Node} {name : Nat → Option Str} (hN : Named nodes name) {seen seen' : List Nat} {i : Nat} {t : Tree}
    (P : EventData → Prop) (halias : ∀ i a, name i = some a → P (.alias a)) (hsc : ∀ i n v st p, n ∈ nodes → P (.scalar (name i) n.tag v p p st))
    (hse : ∀ i n p st, n ∈ nodes → P (.sequenceStart (name i) n.tag p st)) (hma : ∀ i n p st, n ∈ nodes → P (.mappingStart (name i) n.tag p st))
    (h1 : P .sequenceEnd) (h2 : P .mappingEnd) (h : Unfolds nodes name seen i t seen') : ∀ e ∈ t.events, P e.data := by
  refine Unfolds.rec (motive_1 := fun seen i t seen' _ => ∀ e ∈ t.events, P e.data) (motive_2 := fun seen is ts seen' _ => ∀ e ∈ eventsAll ts, P e.data)
    ?_ ?_ ?_ ?_ ?_ ?_ h
  · intro seen i a _ hn e he; simp [Tree.events] at he; subst he; exact halias i a hn
  · intro seen i tag m m' v st _ _ hd e he
    simp [Tree.events] at he; subst he
    exact hsc i ⟨.scalar v st, tag, m, m'⟩ v st _ (List.mem_of_getElem? hd)
  · intro seen seen' i tag m m' items st ts _ _ hd _ ih e he
    simp only [Tree.events, List.mem_cons, List.mem_append, List.not_mem_nil, or_false] at he
    rcases he with rfl | he | rfl
    · exact hse i ⟨.sequence items st, tag, m, m'⟩ _ st (List.mem_of_getElem? hd)
    · exact ih e he
    · exact h1
  · intro seen seen' i tag m m' items st ts _ _ hd _ ih e he
    simp only [Tree.events, List.mem_cons, List.mem_append, List.not_mem_nil, or_false] at he
    rcases he with rfl | he | rfl
    · exact hma i ⟨.mapping items st, tag, m, m'⟩ _ st (List.mem_of_getElem? hd)
    · exact ih e he
    · exact h2
  · intro seen e he; simp [eventsAll] at he
  · intro seen seen' seen'' i is t ts _ _ ih1 ih2 e he
    simp only [eventsAll, List.mem_append] at he
    rcases he with he | he
    · exact ih1 e he
    · exact ih2 e he

theorem dumpOf_ok {d : Document} {es : List Event} (h : DumpOf d es) (hd : Dumpable d) (ha : AsciiTags d) (c : Bool) :
    (∀ e ∈ es, EventOk c e.data ∧ AsciiTag e.data) := by
  obtain ⟨name, t, seen, hN, hu, rfl⟩ := h
  have key : ∀ e ∈ t.events, EventOk c e.data ∧ AsciiTag e.data := by
    refine unfolds_events hN (fun e => EventOk c e ∧ AsciiTag e) ?_ ?_ ?_ ?_ ⟨trivial, by intro t ht; cases ht⟩ ⟨trivial, by intro t ht; cases ht⟩ hu
    · intro i a hi; exact ⟨hN.ok i a hi, by intro t ht; cases ht⟩
    · intro i n v st p hn
      obtain ⟨tg, h1, h2⟩ := hd.tagged n hn
      refine ⟨⟨fun a => hN.ok i a, fun h => ?_, fun t ht _ => ?_⟩, fun t ht => ha n hn t ht⟩
      · rw [h1] at h; cases h
      · rw [h1] at ht; cases ht; exact h2
    · intro i n p st hn
      obtain ⟨tg, h1, h2⟩ := hd.tagged n hn
      refine ⟨⟨fun a => hN.ok i a, fun t ht _ => ?_⟩, fun t ht => ha n hn t ht⟩
      rw [h1] at ht; cases ht; exact h2
    · intro i n p st hn
      obtain ⟨tg, h1, h2⟩ := hd.tagged n hn
      refine ⟨⟨fun a => hN.ok i a, fun t ht _ => ?_⟩, fun t ht => ha n hn t ht⟩
      rw [h1] at ht; cases ht; exact h2
  intro e he
  simp only [docEvents, List.mem_cons, List.mem_append, List.not_mem_nil, or_false] at he
  rcases he with rfl | he | rfl
  · exact ⟨hd.directives c, by intro t ht; cases ht⟩
  · exact key e he
  · exact ⟨trivial, by intro t ht; cases ht⟩

theorem dumpsOf_documents {ds : List Document} {es : List Event} (h : DumpsOf ds es) : IsDocuments (es.map (·.data)) := by
  induction h with
  | nil => exact .nil
  | @cons d ds es es' h _ ih =>
    obtain ⟨name, t, seen, hN, hu, rfl⟩ := h
    simp only [docEvents, List.cons_append, List.map_cons, List.map_append, List.append_assoc, List.map_nil, ev]
    have := IsDocuments.cons d.versionDirective d.tagDirectives d.startImplicit d.endImplicit (good_isNode t (unfolds_good hu)) ih
    simpa using this

theorem dumpAll_same {ds : List Document} (hd : ∀ d ∈ ds, Dumpable d) {o : DumperObj} (ho : o.Reached) (hop : o.b.opened = true) :
    ∃ es, DumpsOf ds es ∧ ∀ r o', o.dumpAll ds = (r, o') → o.o.feed es = (r, o'.o) ∧ (r = .ok () → o'.Reached ∧ o'.b.opened = true) := by
  suffices hs : ∃ es, DumpsOf ds es ∧ o.o.feed es = ((o.dumpAll ds).1, (o.dumpAll ds).2.o) ∧ ((o.dumpAll ds).1 = .ok () → (o.dumpAll ds).2.Reached ∧ (o.dumpAll ds).2.b.opened = true) by
    obtain ⟨es, h1, h2, h3⟩ := hs
    refine ⟨es, h1, fun r o' hr => ?_⟩
    rw [hr] at h2 h3
    exact ⟨h2, h3⟩
  induction ds generalizing o with
  | nil => exact ⟨[], .nil, rfl, fun _ => ⟨ho, hop⟩⟩
  | cons d ds ih =>
    obtain ⟨es, h1, h2⟩ := C39_dump_partial o d ho (hd d List.mem_cons_self)
    unfold DumperObj.dumpAll
    generalize hq : o.dump d = q at h2
    obtain ⟨r, o1⟩ := q
    obtain ⟨h3, h4⟩ := h2 r o1 rfl
    have hst : streamStartOf o = [] := by unfold streamStartOf; rw [hop]; rfl
    rw [hst, List.nil_append] at h3
    cases r with
    | ok _ =>
      have ho1 : o1.Reached := by have := ho.dump d; rw [hq] at this; exact this
      obtain ⟨es', h5, h6, h7⟩ := ih (fun d hd' => hd d (List.mem_cons_of_mem _ hd')) ho1 (h4 rfl)
      refine ⟨es ++ es', .cons h1 h5, ?_, h7⟩
      rw [feed_append, h3]
      exact h6
    | _ =>
      -- the rest is not emitted
      have : ∃ es', DumpsOf ds es' := by
        clear ih h1 h2 h3 h4 hq
        induction ds with
        | nil => exact ⟨[], .nil⟩
        | cons d' ds ih2 =>
          obtain ⟨es', h⟩ := ih2 fun x hx => hd x (by rcases List.mem_cons.1 hx with rfl | hx <;> simp [*])
          obtain ⟨es2, h', _⟩ := C39_dump_partial o d' ho (hd d' (by simp))
          exact ⟨_, .cons h' h⟩
      obtain ⟨es', h5⟩ := this
      refine ⟨es ++ es', .cons h1 h5, ?_, fun h => by cases h⟩
      rw [feed_append, h3]

/-- C39, a whole stream: opening a new emitter, dumping documents and closing it succeeds, and exactly the events of the documents are emitted. -/
theorem C39_stream_partial (enc : Encoding) (cfg : List Setting) (w : Writer) (ds : List Document) (hw : w.Good)
    (hd : ∀ d ∈ ds, Dumpable d) (ha : ∀ d ∈ ds, AsciiTags d) :
    ∃ (es : List Event) (o1 o2 o3 : DumperObj), DumpsOf ds es ∧ IsStream ((ev (.streamStart .any) :: (es ++ [ev .streamEnd])).map (·.data)) ∧
      DumperObj.open_ ⟨new enc cfg w, {}⟩ = (.ok (), o1) ∧ o1.dumpAll ds = (.ok (), o2) ∧ o2.close = (.ok (), o3) ∧
      Emits (new enc cfg w) (ev (.streamStart .any) :: (es ++ [ev .streamEnd])) o3.o := by
  -- the object after `open`
  have hopen : ∀ (e : EmitterObj) (e' : EmitterObj), e.emit (ev (.streamStart .any)) = (.ok (), e') → DumperObj.open_ ⟨e, {}⟩ = (.ok (), ⟨e', { opened := true }⟩) := by
    intro e e' he
    unfold DumperObj.open_ Emitter.open_
    rw [DumperObj.run_bind, DumperObj.run_getBook]
    simp only [Bool.false_eq_true, if_false]
    rw [DumperObj.run_bind, DumperObj.run_lift]
    have he' : EmitterObj.run (Emitter.emit (Event.new (.streamStart .any))) e = (.ok (), e') := he
    rw [he']
    simp only
    rw [DumperObj.run_modifyBook]
  have hclose : ∀ (o : DumperObj) (e' : EmitterObj), o.b.opened = true → o.b.closed = false → o.o.emit (ev .streamEnd) = (.ok (), e') → ∃ o', o.close = (.ok (), o') ∧ o'.o = e' := by
    intro o e' h1 h2 he
    refine ⟨⟨e', { o.b with closed := true }⟩, ?_, rfl⟩
    unfold DumperObj.close Emitter.close
    rw [DumperObj.run_bind, DumperObj.run_getBook]
    simp only [h1, h2, Bool.not_true, Bool.false_eq_true, if_false]
    rw [DumperObj.run_bind, DumperObj.run_lift]
    have he' : EmitterObj.run (Emitter.emit (Event.new .streamEnd)) o.o = (.ok (), e') := he
    rw [he']
    simp only
    rw [DumperObj.run_modifyBook, ← h1]
  -- the events
  have hopened : ∃ e1, (new enc cfg w).emit (ev (.streamStart .any)) = (.ok (), e1) := by
    obtain ⟨o, ho⟩ := feed_accepts enc cfg w [ev (.streamStart .any)] hw ⟨[.streamEnd], by simpa [ev] using IsStream.mk .any .nil⟩
      (by simp [ev, EventOk]) (tagsFit_ascii (by simp [ev, AsciiTag, eventTag]))
    simp only [feed] at ho
    generalize (new enc cfg w).emit (ev (.streamStart .any)) = q at ho
    obtain ⟨r, e1⟩ := q
    cases r with
    | ok _ => exact ⟨e1, rfl⟩
    | _ => cases ho
  obtain ⟨e1, he1⟩ := hopened
  have ho1 := hopen _ _ he1
  have hr1 : DumperObj.Reached ⟨e1, { opened := true }⟩ := by
    have := (DumperObj.Reached.new enc cfg w).open_
    rw [ho1] at this; exact this
  obtain ⟨es, hes, hsame⟩ := dumpAll_same hd hr1 rfl
  have hdocs := dumpsOf_documents hes
  have hstream : IsStream ((ev (.streamStart .any) :: (es ++ [ev .streamEnd])).map (·.data)) := by
    simp only [List.map_cons, List.map_append, List.map_nil]
    exact IsStream.mk .any hdocs
  have hok : ∀ e ∈ es, EventOk (cfgCanonical cfg) e.data ∧ AsciiTag e.data := by
    clear hsame hdocs hstream
    induction hes with
    | nil => simp
    | cons h _ ih =>
      intro e he
      rcases List.mem_append.1 he with he | he
      · exact dumpOf_ok h (hd _ List.mem_cons_self) (ha _ List.mem_cons_self) _ e he
      · exact ih (fun d hd' => hd d (List.mem_cons_of_mem _ hd')) (fun d hd' => ha d (List.mem_cons_of_mem _ hd')) e he
  obtain ⟨e3, he3⟩ := feed_accepts enc cfg w _ hw ⟨[], by rw [List.append_nil]; exact hstream⟩
    (by
      intro x hx
      simp only [List.mem_cons, List.mem_append, List.not_mem_nil, or_false] at hx
      rcases hx with rfl | hx | rfl
      · trivial
      · exact (hok x hx).1
      · trivial)
    (tagsFit_ascii (by
      intro x hx
      obtain ⟨y, hy, rfl⟩ := List.mem_map.1 hx
      simp only [List.mem_cons, List.mem_append, List.not_mem_nil, or_false] at hy
      rcases hy with rfl | hy | rfl
      · intro t ht; cases ht
      · exact (hok y hy).2
      · intro t ht; cases ht))
  have hem := emits_of_feed he3
  simp only [feed] at he3
  rw [he1] at he3
  simp only at he3
  rw [feed_append] at he3
  generalize hq : DumperObj.dumpAll ds ⟨e1, { opened := true }⟩ = q at hsame
  obtain ⟨r, o2⟩ := q
  obtain ⟨h5, h6⟩ := hsame r o2 rfl
  simp only at h5
  rw [h5] at he3
  cases r with
  | ok _ =>
    simp only [feed] at he3
    generalize hq3 : o2.o.emit (ev .streamEnd) = q3 at he3
    obtain ⟨r3, e4⟩ := q3
    cases r3 with
    | ok _ =>
      simp only at he3
      cases he3
      have hcl : o2.b.closed = false := by
        have : ∀ (ds : List Document) (o : DumperObj) (o' : DumperObj), (∀ d ∈ ds, Dumpable d) → o.Reached → o.b.closed = false → o.dumpAll ds = (.ok (), o') → o'.b.closed = false := by
          intro ds
          induction ds with
          | nil => intro o o' _ _ h1 h2; cases h2; exact h1
          | cons d ds ih =>
            intro o o' hd ho h1 h2
            unfold DumperObj.dumpAll at h2
            generalize hq : o.dump d = q at h2
            obtain ⟨r, o1⟩ := q
            cases r with
            | ok _ =>
              obtain ⟨_, _, _, _, h3⟩ := C39_dump_ok o o1 d ho (hd d List.mem_cons_self).root hq
              have ho1 : o1.Reached := by have := ho.dump d; rw [hq] at this; exact this
              exact ih o1 o' (fun x hx => hd x (List.mem_cons_of_mem _ hx)) ho1 (h3.trans h1) h2
            | _ => cases h2
        exact this ds _ o2 hd hr1 rfl hq
      obtain ⟨o3, h7, h8⟩ := hclose o2 _ (h6 rfl).2 hcl hq3
      exact ⟨es, _, o2, o3, hes, hstream, ho1, hq, h7, by rw [h8]; exact hem⟩
    | _ => cases he3
  | _ => cases he3

/-- Dumping a document without nodes ends the stream. -/
theorem C39_empty (o o' : DumperObj) (d : Document) (ho : o.Reached) (hd : d.nodes = []) (h : o.dump d = (.ok (), o')) :
    Emits o.o (streamStartOf o ++ if o.b.closed then [] else [ev .streamEnd]) o'.o ∧ o'.b.closed = true := by
  obtain ⟨h1, h2⟩ := (follows_dump_nil hd o.b).ok (o := o.o) h
  exact ⟨emits_of_feed h1, by rw [h2]⟩

/-! ### Examples -/

/-- `[&id001 a, *id001, {b: a}]` as a graph: node 2 is shared by the root. -/
def sampleGraph : Document :=
  ⟨[⟨.sequence [2, 2, 3] .any, some seqTag, Mark.zero, Mark.zero⟩, ⟨.scalar (cs! "a") .any, some strTag, Mark.zero, Mark.zero⟩,
    ⟨.mapping [(4, 2)] .any, some mapTag, Mark.zero, Mark.zero⟩, ⟨.scalar (cs! "b") .any, some strTag, Mark.zero, Mark.zero⟩],
    none, [], true, true, Mark.zero, Mark.zero⟩

/-- A mapping that is its own value: a cycle through the root. -/
def sampleCycle : Document :=
  ⟨[⟨.mapping [(2, 1)] .any, some mapTag, Mark.zero, Mark.zero⟩, ⟨.scalar (cs! "a") .any, some strTag, Mark.zero, Mark.zero⟩],
    none, [], true, true, Mark.zero, Mark.zero⟩

/-- A node shared below the children of the root: `[[a, a]]` with one node `a`. -/
def sampleDeep : Document :=
  ⟨[⟨.sequence [2] .any, some seqTag, Mark.zero, Mark.zero⟩, ⟨.sequence [3, 3] .any, some seqTag, Mark.zero, Mark.zero⟩,
    ⟨.scalar (cs! "a") .any, some strTag, Mark.zero, Mark.zero⟩],
    none, [], true, true, Mark.zero, Mark.zero⟩

theorem sampleGraph_dumpable : Dumpable sampleGraph := by
  refine ⟨by decide, by unfold WellFormed; decide, by decide, ?_, ?_, ?_⟩
  · intro n hn
    simp only [sampleGraph, List.mem_cons, List.not_mem_nil, or_false] at hn
    rcases hn with rfl | rfl | rfl | rfl <;> exact ⟨_, rfl, by decide⟩
  · intro i h
    refine ⟨_, rfl, ?_⟩
    unfold Shared at h
    simp only [sampleGraph, refs, List.flatMap_cons, List.flatMap_nil, List.cons_append, List.nil_append, List.append_nil, List.count_cons, List.count_nil, beq_iff_eq] at h ⊢
    repeat' split at h
    all_goals (try omega)
    all_goals (simp_all)
  · intro c; refine ⟨?_, by simp [sampleGraph], by simp [sampleGraph]⟩; intro v hv; cases hv

example : AsciiTags sampleGraph := by unfold AsciiTags; decide

/-- The graph above, dumped. -/
example : (DumperObj.dumpAll [sampleGraph, sampleCycle] (DumperObj.open_ ⟨new .any [] ⟨[], []⟩, {}⟩).2).1 = .ok () := by decide +kernel

example : written (DumperObj.dumpAll [sampleGraph, sampleCycle] (DumperObj.open_ ⟨new .any [] ⟨[], []⟩, {}⟩).2).2.close.2.o =
    (String.toUTF8 "- &id001 a\n- *id001\n- b: *id001\n--- &id001\na: *id001\n").data.toList := by decide +kernel

/-- C39 is refuted as stated: the document `[[a, a]]` with one shared node is well formed, but dumping it panics, since references are
counted only among the children of the root. -/
theorem C39_refuted : ∃ (d : Document) (o : DumperObj), WellFormed d.nodes ∧ d.nodes ≠ [] ∧ (∀ n ∈ d.nodes, n.data ≠ .noNode) ∧ o.Reached ∧
    (o.dump d).1 = .panic .dumpAliasNoAnchor :=
  ⟨sampleDeep, _, by unfold WellFormed; decide, by decide, by decide, .new .any [] ⟨[], []⟩, by decide +kernel⟩

end Yaml.Props
