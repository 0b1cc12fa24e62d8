import Verif.Lib.DumpLoad
import Verif.Props.Dump
import Verif.Props.RoundTrip
import Verif.Props.LoadComplete

/-
C49: what `Document::dump` writes, `Document::load` reads back.
-/

namespace Yaml.Props
open Yaml Yaml.Spec Yaml.Document Yaml.Emitter Yaml.EmitterObj
set_option linter.unusedVariables false
set_option linter.unusedSimpArgs false

/-- The first event of a node, as it is dumped. -/
def nodeEvent (a : Option Str) (n : Node) : EventData :=
  match n.data with
  | .scalar v st => .scalar a n.tag v (n.tag = some (cs! "tag:yaml.org,2002:str")) (n.tag = some (cs! "tag:yaml.org,2002:str")) st
  | .sequence _ st => .sequenceStart a n.tag (n.tag = some (cs! "tag:yaml.org,2002:seq")) st
  | .mapping _ st => .mappingStart a n.tag (n.tag = some (cs! "tag:yaml.org,2002:map")) st
  | .noNode => .streamEnd

theorem unfolds_each {nodes : List Node} {name : Nat → Option Str} {seen seen' : List Nat} {i : Nat} {t : Tree}
    (P : EventData → Prop) (halias : ∀ a, P (.alias a)) (hsc : ∀ i n, n ∈ nodes → n.data ≠ .noNode → P (nodeEvent (name i) n))
    (h1 : P .sequenceEnd) (h2 : P .mappingEnd) (h : Unfolds nodes name seen i t seen') : ∀ e ∈ t.events, P e.data := by
  refine Unfolds.rec (motive_1 := fun seen i t seen' _ => ∀ e ∈ t.events, P e.data) (motive_2 := fun seen is ts seen' _ => ∀ e ∈ eventsAll ts, P e.data)
    ?_ ?_ ?_ ?_ ?_ ?_ h
  · intro seen i a _ hn e he; simp [Tree.events] at he; subst he; exact halias a
  · intro seen i tag m m' v st _ _ hd e he
    simp [Tree.events] at he; subst he
    exact hsc i ⟨.scalar v st, tag, m, m'⟩ (List.mem_of_getElem? hd) (by simp)
  · intro seen seen' i tag m m' items st ts _ _ hd _ ih e he
    simp only [Tree.events, List.mem_cons, List.mem_append, List.not_mem_nil, or_false] at he
    rcases he with rfl | he | rfl
    · exact hsc i ⟨.sequence items st, tag, m, m'⟩ (List.mem_of_getElem? hd) (by simp)
    · exact ih e he
    · exact h1
  · intro seen seen' i tag m m' items st ts _ _ hd _ ih e he
    simp only [Tree.events, List.mem_cons, List.mem_append, List.not_mem_nil, or_false] at he
    rcases he with rfl | he | rfl
    · exact hsc i ⟨.mapping items st, tag, m, m'⟩ (List.mem_of_getElem? hd) (by simp)
    · exact ih e he
    · exact h2
  · intro seen e he; simp [eventsAll] at he
  · intro seen seen' seen'' i is t ts _ _ ih1 ih2 e he
    simp only [eventsAll, List.mem_append] at he
    rcases he with he | he
    · exact ih1 e he
    · exact ih2 e he

/-- What is read for a dumped event means the same to the loader. -/
theorem nodeEvent_sim {c : Bool} {a : Option Str} {n : Node} {t : Str} (ht : n.tag = some t) (hn : n.data ≠ .noNode) {e' : EventData}
    (h : SameEvent c (nodeEvent a n) e') : Sim (nodeEvent a n) e' := by
  obtain ⟨data, tag, m, m'⟩ := n
  subst ht
  cases data with
  | noNode => exact absurd rfl hn
  | scalar v st =>
    simp only [nodeEvent] at h ⊢
    cases e' with
    | scalar a' t' v' p' q' st' =>
      simp only [SameEvent] at h
      obtain ⟨rfl, rfl, h⟩ := h
      refine ⟨rfl, rfl, ?_⟩
      simp only [writtenTag] at h
      by_cases hc : c = true ∨ t ≠ (cs! "tag:yaml.org,2002:str")
      · have : (c || (!decide (some t = some (cs! "tag:yaml.org,2002:str")) && !decide (some t = some (cs! "tag:yaml.org,2002:str")))) = true := by
          rcases hc with rfl | hc
          · simp
          · simp [hc]
        rw [if_pos this] at h
        rw [h.1]
      · simp only [not_or, Decidable.not_not] at hc
        obtain ⟨hc, rfl⟩ := hc
        simp at hc
        subst hc
        simp at h
        rcases h with ⟨_, rfl, _⟩ | ⟨_, rfl, _⟩ <;> rfl
    | _ => exact h.elim
  | sequence items st =>
    simp only [nodeEvent] at h ⊢
    cases e' with
    | sequenceStart a' t' i' st' =>
      obtain ⟨rfl, h, _⟩ := h
      refine ⟨rfl, ?_⟩
      simp only [writtenTag] at h
      by_cases hc : c = true ∨ t ≠ (cs! "tag:yaml.org,2002:seq")
      · rw [h, if_pos (by rcases hc with rfl | hc <;> simp [*])]
      · simp only [not_or, Decidable.not_not] at hc
        obtain ⟨hc, rfl⟩ := hc
        simp at hc
        subst hc
        simp at h
        subst h
        rfl
    | _ => exact h.elim
  | mapping items st =>
    simp only [nodeEvent] at h ⊢
    cases e' with
    | mappingStart a' t' i' st' =>
      obtain ⟨rfl, h, _⟩ := h
      refine ⟨rfl, ?_⟩
      simp only [writtenTag] at h
      by_cases hc : c = true ∨ t ≠ (cs! "tag:yaml.org,2002:map")
      · rw [h, if_pos (by rcases hc with rfl | hc <;> simp [*])]
      · simp only [not_or, Decidable.not_not] at hc
        obtain ⟨hc, rfl⟩ := hc
        simp at hc
        subst hc
        simp at h
        subst h
        rfl
    | _ => exact h.elim

theorem sameEvents_all2 {c : Bool} : ∀ {es es' : List Event}, SameEvents c (es.map (·.data)) (es'.map (·.data)) → All2 (fun e e' : Event => SameEvent c e.data e'.data) es es'
  | [], [], _ => .nil
  | _ :: _, _ :: _, h => .cons h.1 (sameEvents_all2 h.2)
  | [], _ :: _, h => h.elim
  | _ :: _, [], h => h.elim

theorem documentsOf_cons {e es : List Event} {d : Document} {ds : List Document} (h : DocumentOf e d) (hs : DocumentsOf es ds) : DocumentsOf (e ++ es) (d :: ds) := by
  induction hs with
  | nil => simpa using DocumentsOf.snoc .nil h
  | @snoc es devs ds d' hs hd ih =>
    rw [← List.append_assoc]
    exact .snoc (ds := d :: ds) ih hd

theorem filterMap_all2 {α β : Type} (f : α → Option β) : ∀ (l : List α), (l.filterMap f).length = l.length → All2 (fun a b => f a = some b) l (l.filterMap f)
  | [], _ => .nil
  | a :: l, h => by
    have hle := List.length_filterMap_le f l
    cases hf : f a with
    | none =>
      rw [List.filterMap_cons_none hf] at h
      simp at h; omega
    | some b =>
      rw [List.filterMap_cons_some hf] at h ⊢
      exact .cons hf (filterMap_all2 f l (by simpa only [List.length_cons, Nat.add_right_cancel_iff] using h))

theorem renumber_copy {ρ : Nat → Nat} {n n' : Node} (hn : n.data ≠ .noNode) (h : NSim (renumber ρ n) n') : CopyNode ρ n n' := by
  obtain ⟨data, tag, m, m'⟩ := n
  obtain ⟨data', tag', k, k'⟩ := n'
  cases data with
  | noNode => exact absurd rfl hn
  | _ => cases data' <;> simp_all [NSim, renumber, CopyNode, defaultTag]

theorem All2.comp {α β γ : Type} {R : α → β → Prop} {S : β → γ → Prop} {a : List α} {b : List β} {c : List γ} (h : All2 R a b) (h' : All2 S b c) :
    All2 (fun x z => ∃ y, R x y ∧ S y z) a c := by
  induction h generalizing c with
  | nil => cases h'; exact .nil
  | cons h _ ih => cases h' with
    | cons k ks => exact .cons ⟨_, h, k⟩ (ih ks)

/-- `d'` is a copy of `d`, numbered in the order in which the nodes of `d` are dumped. -/
def Walked (d d' : Document) : Prop := ∃ name t ids, Unfolds d.nodes name [] 1 t ids ∧ CopyBy ids d d'

theorem Walked.copy {d d' : Document} (h : Walked d d') : Copy d d' := by
  obtain ⟨name, t, ids, h1, h2⟩ := h
  obtain ⟨g1, g2⟩ := unfolds_reach h1
  exact ⟨ids, g1, g2, (walk_head h1).2, h2⟩

/-- The events read for a dumped document are those of a copy. -/
theorem dumpOf_copy {c : Bool} {d : Document} {es es' : List Event} (h : DumpOf d es) (hd : Dumpable d)
    (hs : All2 (fun e e' : Event => SameEvent c e.data e'.data) es es') : ∃ d', DocumentOf es' d' ∧ Walked d d' := by
  obtain ⟨name, t0, seen, hN, hu, he⟩ := h
  obtain ⟨d1, g4, g5, g6, g7, g8, g9, g10⟩ := compose_walk hN hu he
  obtain ⟨first, last, root, v, tags, i, j, names, k1, k2, k3, k4, k5, k6, k7, k8, k9, _, _⟩ := g4
  have hroot : root.events = t0.events := by
    rw [he] at k1
    simp only [docEvents, List.cons.injEq] at k1
    exact ((List.append_inj' k1.2 rfl).1).symm
  have hstd : ∀ e ∈ root.events, ∀ e', SameEvent c e.data e' → Sim e.data e' := by
    rw [hroot]
    refine unfolds_each (fun e => ∀ e', SameEvent c e e' → Sim e e') ?_ ?_ ?_ ?_ hu
    · intro a e' h; cases e' <;> first | exact h | exact h.elim
    · intro i n hn hnn e' h
      obtain ⟨t, ht, _⟩ := hd.tagged n hn
      exact nodeEvent_sim ht hnn h
    · intro e' h; cases e' <;> first | exact h | exact h.elim
    · intro e' h; cases e' <;> first | exact h | exact h.elim
  subst k1
  cases hs with
  | @cons _ first' _ _ hf hs =>
    obtain ⟨mid, lst, rfl, hm, hl⟩ := hs.split
    cases hl with
    | @cons _ last' _ _ hl hnil =>
      cases hnil
      obtain ⟨root', rfl, r1, r2⟩ := tree_sim root k2 (hm.mono fun x hx y hy hxy => hstd x hx _ hxy)
      obtain ⟨new', r3, r4⟩ := compose_sim root root' r1 k5
      rw [k3] at hf
      rw [k4] at hl
      obtain ⟨v', tags', i', hf1, hf2⟩ : ∃ v' tags' i', first'.data = .documentStart v' tags' i' ∧ (v' = v ∧ tags' = tags ∧ (i' = true → i = true)) := by
        cases hx : first'.data <;> rw [hx] at hf <;> first | exact ⟨_, _, _, rfl, hf⟩ | exact hf.elim
      obtain ⟨j', hl1, hl2⟩ : ∃ j', last'.data = .documentEnd j' ∧ (j' = true → j = true) := by
        cases hx : last'.data <;> rw [hx] at hl <;> first | exact ⟨_, rfl, hl⟩ | exact hl.elim
      obtain ⟨rfl, rfl, hi⟩ := hf2
      refine ⟨⟨new', v', tags', i', j', first'.startMark, last'.endMark⟩,
        ⟨first', last', root', v', tags', i', j', names, rfl, r2, hf1, hl1, r3, rfl, rfl, rfl, rfl, rfl, rfl⟩,
        name, t0, seen, hu, ?_, ?_, ?_, ?_, ?_⟩
      · have r4 : All2 NSim d1.nodes new' := r4
        have hr := filterMap_all2 (fun j => d.nodes[j - 1]?.map (renumber (place seen))) seen (by
          have : (renumbered d.nodes (place seen) seen).length = seen.length := by rw [← g5]; exact g6
          exact this)
        have hr : All2 (fun j m => d.nodes[j - 1]?.map (renumber (place seen)) = some m) seen d1.nodes := by rw [g5]; exact hr
        refine (All2.comp hr r4).mono fun j hj n' _ hx => ?_
        obtain ⟨m, hm1, hm2⟩ := hx
        obtain ⟨n, hn1, rfl⟩ := Option.map_eq_some_iff.1 hm1
        exact ⟨n, hn1, renumber_copy (hd.nodes n (List.mem_of_getElem? hn1)) hm2⟩
      · rw [← g7, k6]
      · rw [← g8, k7]
      · rw [← g9, k8]; exact hi
      · rw [← g10, k9]; exact hl2

theorem dumpsOf_copy {c : Bool} {ds : List Document} {es : List Event} (h : DumpsOf ds es) : ∀ {es' : List Event}, (∀ d ∈ ds, Dumpable d) →
    All2 (fun e e' : Event => SameEvent c e.data e'.data) es es' → ∃ ds', DocumentsOf es' ds' ∧ All2 Walked ds ds' := by
  induction h with
  | nil => intro es' _ h; cases h; exact ⟨[], .nil, .nil⟩
  | @cons d ds e1 e2 h _ ih =>
    intro es' hd hs
    obtain ⟨b1, b2, rfl, h1, h2⟩ := hs.split
    obtain ⟨d', k1, k2⟩ := dumpOf_copy h (hd d (by simp)) h1
    obtain ⟨ds', k3, k4⟩ := ih (fun d hd' => hd d (by simp [hd'])) h2
    exact ⟨d' :: ds', documentsOf_cons k1 k3, .cons k2 k4⟩

/-- Events that can be read back and do not start a document. -/
theorem readable_append {c : Bool} {D : List TagDirective} {r : List EventData} (hr : Readable c D r) : ∀ (l : List EventData),
    (∀ e ∈ l, (∀ v t i, e ≠ .documentStart v t i) ∧ (∀ t, writtenTag c e = some t → TagReadable D t) ∧
      (∀ anchor tag v p q, e = .scalar anchor tag v p q .folded → FoldReadable v)) → Readable c D (l ++ r)
  | [], _ => hr
  | e :: l, h => by
    obtain ⟨h1, h2, h3⟩ := h e List.mem_cons_self
    refine ⟨fun v t i he => absurd he (h1 v t i), h2, h3, ?_⟩
    have ih := readable_append hr l fun x hx => h x (List.mem_cons_of_mem _ hx)
    cases e <;> first | exact ih | exact absurd rfl (h1 _ _ _)

theorem dumpOf_readable {c : Bool} {d : Document} {es : List Event} (h : DumpOf d es) (hd : Dumpable d) (hr : ReadableDoc c d) {r : List EventData}
    (hrest : ∀ D, Readable c D r) (D : List TagDirective) : Readable c D (es.map (·.data) ++ r) := by
  obtain ⟨name, t, seen, hN, hu, rfl⟩ := h
  simp only [docEvents, List.map_cons, List.map_append, List.map_nil, List.cons_append, List.append_assoc, ev]
  refine ⟨?_, ?_, ?_, ?_⟩
  · intro v tags i he; cases he; exact hr.prefixes
  · intro t ht; cases ht
  · intro a t v p q he; cases he
  · refine readable_append (D := d.tagDirectives) ?_ _ ?_
    · refine ⟨?_, ?_, ?_, hrest _⟩
      · intro v tags i he; cases he
      · intro t ht; cases ht
      · intro a t v p q he; cases he
    · intro e he
      obtain ⟨e, he', rfl⟩ := List.mem_map.1 he
      refine unfolds_each (fun e => (∀ v t i, e ≠ .documentStart v t i) ∧ (∀ t, writtenTag c e = some t → TagReadable d.tagDirectives t) ∧
        (∀ anchor tag v p q, e = .scalar anchor tag v p q .folded → FoldReadable v)) ?_ ?_ ?_ ?_ hu e he'
      · intro a; exact ⟨by simp, by simp [writtenTag], by simp⟩
      · intro i n hn hnn
        obtain ⟨tg, htg, _⟩ := hd.tagged n hn
        have htags := hr.tags n hn
        have hfold := hr.folded n hn
        obtain ⟨data, tag, m, m'⟩ := n
        cases htg
        cases data with
        | noNode => exact absurd rfl hnn
        | scalar v st =>
          refine ⟨by simp [nodeEvent], ?_, ?_⟩
          · intro t ht
            simp only [nodeEvent, writtenTag] at ht
            split at ht
            · cases ht
              refine htags _ rfl ?_
              rename_i hcond
              simp [defaultTag] at hcond ⊢
              exact hcond
            · cases ht
          · intro a t v' p q he
            simp only [nodeEvent, EventData.scalar.injEq] at he
            exact hfold v' (by simp [he.2.2.1, he.2.2.2.2.2])
        | _ =>
          refine ⟨by simp [nodeEvent], ?_, by simp [nodeEvent]⟩
          intro t ht
          simp only [nodeEvent, writtenTag] at ht
          split at ht
          · cases ht
            refine htags _ rfl ?_
            rename_i hcond
            simp [defaultTag] at hcond ⊢
            exact hcond
          · cases ht
      · exact ⟨by simp, by simp [writtenTag], by simp⟩
      · exact ⟨by simp, by simp [writtenTag], by simp⟩

theorem dumpsOf_readable {c : Bool} {ds : List Document} {es : List Event} (h : DumpsOf ds es) : (∀ d ∈ ds, Dumpable d) → (∀ d ∈ ds, ReadableDoc c d) →
    ∀ D, Readable c D (es.map (·.data) ++ [.streamEnd]) := by
  induction h with
  | nil =>
    intro _ _ D
    refine ⟨?_, ?_, ?_, trivial⟩ <;> intros <;> simp_all [writtenTag]
  | @cons d ds e1 e2 h _ ih =>
    intro hd hr D
    rw [List.map_append, List.append_assoc]
    exact dumpOf_readable h (hd d (by simp)) (hr d (by simp)) (ih (fun d hd' => hd d (by simp [hd'])) (fun d hd' => hr d (by simp [hd']))) D

theorem dumpsOf_lost {c : Bool} {ds : List Document} {es : List Event} (h : DumpsOf ds es) {e : Encoding}
    (hl : FirstLost c (.streamStart e :: (es.map (·.data) ++ [.streamEnd]))) : ∃ d, ds.head? = some d ∧ LostDoc c d := by
  obtain ⟨hc, e', tag, q, st, rest, hst, heq⟩ := hl
  simp only [List.cons.injEq] at heq
  obtain ⟨_, heq⟩ := heq
  cases h with
  | nil => simp at heq
  | @cons d ds e1 e2 h _ =>
    refine ⟨d, rfl, hc, ?_⟩
    obtain ⟨name, t, seen, hN, hu, rfl⟩ := h
    simp only [docEvents, List.map_cons, List.map_append, List.cons_append, List.append_assoc, ev, List.cons.injEq, EventData.documentStart.injEq] at heq
    obtain ⟨⟨h1, h2, h3⟩, heq⟩ := heq
    refine ⟨h1, h2, h3, ?_⟩
    cases hu with
    | alias hi => simp at hi
    | @scalar _ _ tag0 m m' v st0 hi h0 hn =>
      simp only [Tree.events, ev, List.map_cons, List.map_nil, List.cons_append, List.nil_append, List.cons.injEq, EventData.scalar.injEq] at heq
      obtain ⟨⟨_, rfl, rfl, h6, _, rfl⟩, _⟩ := heq
      refine ⟨⟨.scalar [] st0, tag0, m, m'⟩, st0, ?_, rfl, hst, by simpa using h6⟩
      rw [List.head?_eq_getElem?]
      exact hn
    | sequence => simp [Tree.events, ev] at heq
    | mapping => simp [Tree.events, ev] at heq

theorem dump_load_walked (enc : Encoding) (cfg : List Setting) (w : Writer) (ds : List Document) (hw : w.Good)
    (hd : ∀ d ∈ ds, Dumpable d) (ha : ∀ d ∈ ds, AsciiTags d) (hr : ∀ d ∈ ds, ReadableDoc (cfgCanonical cfg) d) (hl : ∀ d, ds.head? = some d → ¬ LostDoc (cfgCanonical cfg) d) :
    ∃ o1 o2 o3 : DumperObj, DumperObj.open_ ⟨new enc cfg w, {}⟩ = (.ok (), o1) ∧ o1.dumpAll ds = (.ok (), o2) ∧ o2.close = (.ok (), o3) ∧
      ∀ {items : List SrcItem} {penc : Encoding} {F : Nat}, o3.o.written = w.bytes ++ bytesOf items → Delivers (if enc = .any then .utf8 else enc) penc items →
        srcSize items < 2 ^ 31 → 16 * srcSize items + 10 < F →
        ∃ ds' o', ParserObj.Loads F (ParserObj.new items penc) (ds' ++ [emptyDocument]) o' ∧ All2 Walked ds ds' := by
  obtain ⟨es, o1, o2, o3, h1, h2, h3, h4, h5, h6⟩ := C39_stream_partial enc cfg w ds hw hd ha
  refine ⟨o1, o2, o3, h3, h4, h5, fun {items penc F} hout hdel hsz hF => ?_⟩
  have hread : Readable (cfgCanonical cfg) [] ((ev (.streamStart .any) :: (es ++ [ev .streamEnd])).map (·.data)) := by
    simp only [List.map_cons, List.map_append, List.map_nil]
    refine ⟨?_, ?_, ?_, dumpsOf_readable h1 hd hr _⟩ <;> intros <;> simp_all [writtenTag, ev]
  have hlost : ¬ FirstLost (cfgCanonical cfg) ((ev (.streamStart .any) :: (es ++ [ev .streamEnd])).map (·.data)) := by
    intro h
    simp only [List.map_cons, List.map_append, List.map_nil, ev] at h
    obtain ⟨d, k1, k2⟩ := dumpsOf_lost h1 h
    exact hl d k1 k2
  have henc : streamEnc enc (ev (.streamStart .any) :: (es ++ [ev .streamEnd])) = (if enc = .any then .utf8 else enc) := by
    cases enc <;> rfl
  obtain ⟨evs', o', p1, p2, _⟩ := C44_round_trip_partial h6 h2 hread hlost hout (by rw [henc]; exact hdel) hsz (F := F) (by omega)
  have p3 := sameEvents_all2 p2
  cases p3 with
  | @cons _ first _ _ a1 a2 =>
    obtain ⟨body, lst, rfl, b1, b2⟩ := a2.split
    cases b2 with
    | @cons _ last _ _ c1 c2 =>
      cases c2
      obtain ⟨ds', e1, e2⟩ := dumpsOf_copy h1 hd b1
      obtain ⟨en, hx⟩ : ∃ en, first.data = .streamStart en := by
        cases hx : first.data <;> rw [hx] at a1 <;> first | exact ⟨_, rfl⟩ | exact a1.elim
      have hy : last.data = .streamEnd := by
        cases hx : last.data <;> rw [hx] at c1 <;> first | rfl | exact c1.elim
      exact ⟨ds', o', C48_load_all hF p1 hx hy e1, e2⟩

/-- C49, for documents that are `Dumpable` and `ReadableDoc`, with ASCII tags, of which the first is not lost (`LostDoc`); missing: the
others, for which there are documents that are not read back (`C39_refuted`, `C34_refuted`, `C38_refuted`, `C44_refuted`).

Dumping documents to a new emitter succeeds, and loading what was written returns copies of all documents in their order and then
the empty document. -/
theorem C49_dump_load_partial (enc : Encoding) (cfg : List Setting) (w : Writer) (ds : List Document) (hw : w.Good)
    (hd : ∀ d ∈ ds, Dumpable d) (ha : ∀ d ∈ ds, AsciiTags d) (hr : ∀ d ∈ ds, ReadableDoc (cfgCanonical cfg) d) (hl : ∀ d, ds.head? = some d → ¬ LostDoc (cfgCanonical cfg) d) :
    ∃ o1 o2 o3 : DumperObj, DumperObj.open_ ⟨new enc cfg w, {}⟩ = (.ok (), o1) ∧ o1.dumpAll ds = (.ok (), o2) ∧ o2.close = (.ok (), o3) ∧
      ∀ {items : List SrcItem} {penc : Encoding} {F : Nat}, o3.o.written = w.bytes ++ bytesOf items → Delivers (if enc = .any then .utf8 else enc) penc items →
        srcSize items < 2 ^ 31 → 16 * srcSize items + 10 < F →
        ∃ ds' o', ParserObj.Loads F (ParserObj.new items penc) (ds' ++ [emptyDocument]) o' ∧ All2 Copy ds ds' := by
  obtain ⟨o1, o2, o3, h1, h2, h3, h⟩ := dump_load_walked enc cfg w ds hw hd ha hr hl
  refine ⟨o1, o2, o3, h1, h2, h3, fun {items penc F} a b c d => ?_⟩
  obtain ⟨ds', o', g1, g2⟩ := h a b c d
  exact ⟨ds', o', g1, g2.mono fun _ _ _ _ h => h.copy⟩

/-- The hypotheses are met by the graph with a shared node and the one with a cycle; the sample is delivered in two pieces. -/
theorem C49_sample : (∀ d ∈ [sampleGraph, sampleCycle], Dumpable d ∧ AsciiTags d ∧ ReadableDoc false d ∧ ¬ LostDoc false d) ∧
    Delivers .utf8 .any [.data (String.toUTF8 "- &id001 a\n- *id001\n- b: *id0").data.toList, .data (String.toUTF8 "01\n--- &id001\na: *id001\n").data.toList] := by
  refine ⟨?_, trivial, Or.inr (Or.inl ⟨rfl, rfl, trivial, by decide +kernel⟩)⟩
  intro d hd
  simp only [List.mem_cons, List.not_mem_nil, or_false] at hd
  rcases hd with rfl | rfl
  · refine ⟨sampleGraph_dumpable, by unfold AsciiTags; decide, ⟨by simp [sampleGraph], ?_, ?_⟩, ?_⟩
    · intro n hn t ht h
      simp only [sampleGraph, List.mem_cons, List.not_mem_nil, or_false] at hn
      rcases hn with rfl | rfl | rfl | rfl <;> cases ht <;> simp [defaultTag, seqTag, strTag, mapTag] at h
    · intro n hn v hv
      simp only [sampleGraph, List.mem_cons, List.not_mem_nil, or_false] at hn
      rcases hn with rfl | rfl | rfl | rfl <;> simp at hv
    · rintro ⟨_, _, _, _, n, st, h1, h2, _⟩
      simp [sampleGraph] at h1
      subst h1
      cases h2
  · refine ⟨?_, by unfold AsciiTags; decide, ⟨by simp [sampleCycle], ?_, ?_⟩, ?_⟩
    · refine ⟨by decide, by unfold WellFormed; decide, by decide, ?_, ?_, ?_⟩
      · intro n hn
        simp only [sampleCycle, List.mem_cons, List.not_mem_nil, or_false] at hn
        rcases hn with rfl | rfl <;> exact ⟨_, rfl, by decide⟩
      · intro i h
        refine ⟨_, rfl, ?_⟩
        unfold Shared at h
        simp only [sampleCycle, refs, List.flatMap_cons, List.flatMap_nil, List.cons_append, List.nil_append, List.append_nil, List.count_cons, List.count_nil, beq_iff_eq] at h ⊢
        repeat' split at h
        all_goals (try omega)
        all_goals (simp_all)
      · intro c; refine ⟨?_, by simp [sampleCycle], by simp [sampleCycle]⟩; intro v hv; cases hv
    · intro n hn t ht h
      simp only [sampleCycle, List.mem_cons, List.not_mem_nil, or_false] at hn
      rcases hn with rfl | rfl <;> cases ht <;> simp [defaultTag, seqTag, strTag, mapTag] at h
    · intro n hn v hv
      simp only [sampleCycle, List.mem_cons, List.not_mem_nil, or_false] at hn
      rcases hn with rfl | rfl <;> simp at hv
    · rintro ⟨_, _, _, _, n, st, h1, h2, _⟩
      simp [sampleCycle] at h1
      subst h1
      cases h2

/-- A document with one empty scalar. -/
def lostDocument : Document := ⟨[⟨.scalar [] .plain, some strTag, Mark.zero, Mark.zero⟩], none, [], true, true, Mark.zero, Mark.zero⟩

/-- C49 is false in full: this document is dumped without an error, but what was written is an empty line, a stream without documents. -/
theorem C49_refuted : Dumpable lostDocument ∧ AsciiTags lostDocument ∧ ReadableDoc false lostDocument ∧
    (let o := DumperObj.dumpAll [lostDocument] (DumperObj.open_ ⟨new .any [] ⟨[], []⟩, {}⟩).2
     o.1 = .ok () ∧ o.2.close.1 = .ok () ∧ written o.2.close.2.o = [10] ∧
     (ParserObj.load 99 (ParserObj.new [.data (written o.2.close.2.o)])).1 = .ok emptyDocument) := by
  refine ⟨⟨by decide, by unfold WellFormed; decide, by decide, ?_, ?_, ?_⟩, by unfold AsciiTags; decide, ⟨by simp [lostDocument], ?_, ?_⟩, by decide +kernel⟩
  · intro n hn
    simp only [lostDocument, List.mem_cons, List.not_mem_nil, or_false] at hn
    subst hn; exact ⟨_, rfl, by decide⟩
  · intro i h
    refine ⟨_, rfl, ?_⟩
    simpa [Shared, lostDocument, refs] using h
  · intro c; refine ⟨?_, by simp [lostDocument], by simp [lostDocument]⟩; intro v hv; cases hv
  · intro n hn t ht h
    simp only [lostDocument, List.mem_cons, List.not_mem_nil, or_false] at hn
    subst hn; cases ht; simp [defaultTag, strTag] at h
  · intro n hn v hv
    simp only [lostDocument, List.mem_cons, List.not_mem_nil, or_false] at hn
    subst hn; simp at hv

end Yaml.Props
