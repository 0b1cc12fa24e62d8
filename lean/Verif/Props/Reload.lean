import Verif.Lib.Reload
import Verif.Props.Reemit
import Verif.Props.DumpLoad

/-
C52: documents that were loaded can be dumped and loaded again.
-/

namespace Yaml.Props
open Yaml Yaml.Spec Yaml.Document Yaml.Emitter Yaml.EmitterObj
set_option linter.unusedVariables false
set_option linter.unusedSimpArgs false

variable {items : List SrcItem} {enc : Encoding} {F : Nat} {ds : List Document} {o : ParserObj}

theorem DocumentsOf.within {evs : List Event} (h : DocumentsOf evs ds) : ∀ d ∈ ds, ∃ p devs q, evs = p ++ devs ++ q ∧ DocumentOf devs d := by
  induction h with
  | nil => simp
  | @snoc evs devs ds d h hd ih =>
    intro d' hm
    rcases List.mem_append.1 hm with hm | hm
    · obtain ⟨p, x, q, rfl, g⟩ := ih d' hm
      exact ⟨p, x, q ++ devs, by simp, g⟩
    · simp at hm; subst hm; exact ⟨evs, devs, [], by simp, hd⟩

/-- The events of a loaded document. -/
theorem loaded_events (hF : 16 * srcSize items + 10 < F) (h : ParserObj.Loads F (ParserObj.new items enc) ds o) :
    ∃ evs, ParserObj.Parses F (ParserObj.new items enc) evs o ∧ ∀ d ∈ ds, d.nodes ≠ [] → ∃ p devs q, evs = p ++ devs ++ q ∧ DocumentOf devs d := by
  obtain ⟨evs, h1, s, body, tail, ds1, n, rfl, h2, rfl, _⟩ := C22_load_composes_events hF h
  refine ⟨_, h1, ?_⟩
  intro d hd hne
  rcases List.mem_append.1 hd with hd | hd
  · obtain ⟨p, devs, q, rfl, h3⟩ := DocumentsOf.within h2 d hd
    exact ⟨s ++ p, devs, q ++ tail, by simp, h3⟩
  · have := (List.mem_replicate.1 hd).2
    subst this
    exact absurd rfl hne

theorem tagOr_ne {tag : Option Str} {t d : Str} (h : tagOr tag d = some t) (hd : d ≠ []) (hdd : d ≠ ['!']) (ht : ∀ x, tag = some x → x ≠ []) :
    t ≠ [] ∧ t ≠ ['!'] := by
  unfold tagOr at h
  split at h
  · cases h; exact ⟨hd, hdd⟩
  · rename_i hc
    subst h
    exact ⟨ht t rfl, fun h => hc (Or.inr (by rw [h]))⟩

/-- The nodes of a document of valid events have a tag that is neither empty nor `!`. -/
theorem documentOf_tags {devs : List Event} {d : Document} (h : DocumentOf devs d) (hok : ∀ e ∈ devs, EventOk true e.data) :
    ∀ n ∈ d.nodes, ∃ t, n.tag = some t ∧ t ≠ [] ∧ t ≠ ['!'] := by
  intro n hn
  obtain ⟨t, ht⟩ := ((DocumentOf.fine h).2.2 n hn).1
  refine ⟨t, ht, ?_⟩
  obtain ⟨first, last, root, v, tags, i, j, names, rfl, hg, g1, g2, hc, _⟩ := h
  obtain ⟨e, he, hf⟩ := compose_from root hc n hn
  have hk := hok e (by simp [he])
  revert hf hk
  generalize e.data = x
  intro hf hk
  cases x <;> cases hnd : n.data <;> simp only [FromEvent, hnd] at hf
  · exact tagOr_ne (by rw [← hf.2.2, ht]) (by decide) (by decide) (fun x hx => hk.2.2 x hx (Or.inl rfl))
  · exact tagOr_ne (by rw [← hf, ht]) (by decide) (by decide) (fun x hx => hk.2 x hx (Or.inl rfl))
  · exact tagOr_ne (by rw [← hf, ht]) (by decide) (by decide) (fun x hx => hk.2 x hx (Or.inl rfl))

/-- C52, first part.  A document that was loaded, unless it is the empty document, meets all requirements of `dump` but for
shared nodes: those shared have to be the root or children of the root (see `C39_refuted`). -/
theorem C52_loaded_is_dumpable (hF : 16 * srcSize items + 10 < F) (h : ParserObj.Loads F (ParserObj.new items enc) ds o)
    {d : Document} (hd : d ∈ ds) (hne : d.nodes ≠ []) (hsh : ∀ i, Shared d.nodes i → SharedAtTop d.nodes i) : Dumpable d := by
  obtain ⟨evs, h1, h2⟩ := loaded_events hF h
  obtain ⟨p, devs, q, rfl, h3⟩ := h2 d hd hne
  have hok := C50_events_ok (by omega) h1
  obtain ⟨f1, f2, f3⟩ := DocumentOf.fine h3
  refine ⟨f1, f2, fun n hn => (f3 n hn).2, ?_, hsh, ?_⟩
  · intro n hn
    obtain ⟨t, g1, g2, _⟩ := documentOf_tags h3 (fun e he => (hok true e (by simp [he])).1) n hn
    exact ⟨t, g1, g2⟩
  · intro c
    obtain ⟨first, last, root, v, tags, i, j, names, rfl, hg, g1, g2, hc, k1, k2, k3, _⟩ := h3
    have := (hok c first (by simp)).1
    rw [g1] at this
    rw [k1, k2, k3]
    exact this

theorem place_range {n j : Nat} (h : 1 ≤ j ∧ j ≤ n) : place (List.range' 1 n) j = j := by
  have hl := List.getElem_range' (n := 1) (m := n) (step := 1) (i := j - 1) (by simp; omega)
  have hj : (List.range' 1 n)[j - 1]'(by simp; omega) = j := by rw [hl]; omega
  have hnd : (List.range' 1 n).Nodup := List.nodup_range'
  unfold place
  conv => lhs; rw [← hj]
  rw [hnd.idxOf_getElem]
  omega

theorem map_fixed {α : Type} {f : α → α} : ∀ {l : List α}, (∀ x ∈ l, f x = x) → l.map f = l
  | [], _ => rfl
  | x :: l, h => by rw [List.map_cons, h x (by simp), map_fixed fun y hy => h y (by simp [hy])]

theorem all2_range {S : Node → Node → Prop} : ∀ (pre : List Node) {l l' : List Node},
    All2 (fun j m => ∃ n, (pre ++ l)[j - 1]? = some n ∧ S n m) (List.range' (pre.length + 1) l.length) l' → All2 S l l'
  | pre, [], _, h => by cases h; exact .nil
  | pre, x :: l, _, h => by
    rw [List.length_cons, List.range'_succ] at h
    cases h with
    | cons h hs =>
      obtain ⟨n, h1, h2⟩ := h
      simp at h1
      subst h1
      refine .cons h2 (all2_range (pre ++ [x]) ?_)
      simpa using hs

/-- A copy in the order of dumping of a document that was composed is the same document. -/
theorem walked_same {devs : List Event} {d d' : Document} (h : DocumentOf devs d) (ht : ∀ n ∈ d.nodes, ∃ t, n.tag = some t ∧ t ≠ ['!'])
    (hw : Walked d d') : SameDocument d d' := by
  obtain ⟨name, t, ids, hu, h1, h2, h3, h4, h5⟩ := hw
  have hfine := DocumentOf.fine h
  refine ⟨?_, h2, h3, h4, h5⟩
  obtain ⟨first, last, root, v, tags, i, j, names, rfl, hg, g1, g2, hc, _⟩ := h
  have hids := compose_walks root (n := 0) (nodes := d.nodes) (by intro x hx; simp at hx) hg hc (by simp) hu
  rw [Nat.zero_add] at hids
  subst hids
  have := all2_range (S := CopyNode (place (List.range' 1 d.nodes.length))) [] h1
  refine this.mono fun n hn m _ hcp => ?_
  obtain ⟨t, ht1, ht2⟩ := ht n hn
  obtain ⟨c1, c2⟩ := hcp
  have hpl : ∀ r ∈ refs n.data, place (List.range' 1 d.nodes.length) r = r := fun r hr => place_range (hfine.2.1 n hn r hr)
  refine ⟨?_, ?_⟩
  · rw [c1, ht1]; unfold tagOr; rw [if_neg]; simp [ht2]
  · revert c2 hpl
    cases n.data <;> cases m.data <;> intro c2 hpl <;> try exact c2
    · simp only at c2 ⊢
      rw [c2]
      exact map_fixed hpl
    · simp only at c2 ⊢
      rw [c2]
      refine map_fixed ?_
      rintro ⟨x, y⟩ hx
      simp only
      rw [hpl x (List.mem_flatMap.2 ⟨_, hx, by simp⟩), hpl y (List.mem_flatMap.2 ⟨_, hx, by simp⟩)]

/-- C52, second part, for documents without nodes shared below the children of the root, with readable tags and folded scalars, of
which the first is not lost; missing: the others, for which it is false (`C52_refuted`, `C39_refuted`, `C34_refuted`, `C38_refuted`).

Take any documents that were loaded, in any order: dumping them to a new emitter with any configuration succeeds, and
loading what was written returns the same documents, node by node under the same numbers, but for styles and places. -/
theorem C52_load_dump_load_partial (hF : 16 * srcSize items + 10 < F) (h : ParserObj.Loads F (ParserObj.new items enc) ds o)
    (sel : List Document) (hsel : ∀ d ∈ sel, d ∈ ds ∧ d.nodes ≠ []) (enc' : Encoding) (cfg : List Setting) (w : Writer) (hw : w.Good)
    (hsh : ∀ d ∈ sel, ∀ i, Shared d.nodes i → SharedAtTop d.nodes i) (ha : ∀ d ∈ sel, AsciiTags d)
    (hr : ∀ d ∈ sel, ReadableDoc (cfgCanonical cfg) d) (hl : ∀ d, sel.head? = some d → ¬ LostDoc (cfgCanonical cfg) d) :
    ∃ o1 o2 o3 : DumperObj, DumperObj.open_ ⟨new enc' cfg w, {}⟩ = (.ok (), o1) ∧ o1.dumpAll sel = (.ok (), o2) ∧ o2.close = (.ok (), o3) ∧
      ∀ {items' : List SrcItem} {penc : Encoding} {F' : Nat}, o3.o.written = w.bytes ++ bytesOf items' →
        Delivers (if enc' = .any then .utf8 else enc') penc items' → srcSize items' < 2 ^ 31 → 16 * srcSize items' + 10 < F' →
        ∃ sel' o', ParserObj.Loads F' (ParserObj.new items' penc) (sel' ++ [emptyDocument]) o' ∧ All2 SameDocument sel sel' := by
  have hd : ∀ d ∈ sel, Dumpable d := fun d hm => C52_loaded_is_dumpable hF h (hsel d hm).1 (hsel d hm).2 (hsh d hm)
  obtain ⟨o1, o2, o3, h1, h2, h3, h4⟩ := dump_load_walked enc' cfg w sel hw hd ha hr hl
  refine ⟨o1, o2, o3, h1, h2, h3, fun {items' penc F'} a b c d => ?_⟩
  obtain ⟨sel', o', g1, g2⟩ := h4 a b c d
  refine ⟨sel', o', g1, g2.mono fun d hm d' _ hw => ?_⟩
  obtain ⟨evs, k1, k2⟩ := loaded_events hF h
  obtain ⟨p, devs, q, rfl, k3⟩ := k2 d (hsel d hm).1 (hsel d hm).2
  have hok := C50_events_ok (by omega) k1
  refine walked_same k3 (fun n hn => ?_) hw
  obtain ⟨t, t1, t2, t3⟩ := documentOf_tags k3 (fun e he => (hok true e (by simp [he])).1) n hn
  exact ⟨t, t1, t3⟩

/-- Nothing in the event that gives trouble: no anchor, alias, tag or directive, no folded scalar. -/
def Simple (e : EventData) : Prop :=
  match e with
  | .alias _ => False
  | .scalar anchor tag _ _ _ style => anchor = none ∧ tag = none ∧ style ≠ .folded
  | .sequenceStart anchor tag _ _ | .mappingStart anchor tag _ _ => anchor = none ∧ tag = none
  | .documentStart _ tags _ => tags = []
  | _ => True

/-- Events behind the end of the stream are the end of the stream. -/
theorem events_within {evs evs' : List Event} {o' : ParserObj} (hF : 4 * srcSize items + 4 < F) (h : ParserObj.Parses F (ParserObj.new items enc) evs o)
    (h' : ParserObj.Parses F (ParserObj.new items enc) evs' o') (hend : ∃ e ∈ evs, isStreamEndEvent e = true) :
    ∀ e ∈ evs', e ∈ evs ∨ e.data = .streamEnd := by
  intro e he
  rcases Parses.comparable h h' with ⟨r, rfl, h2⟩ | ⟨r, rfl, _⟩
  · rcases List.mem_append.1 he with he | he
    · exact Or.inl he
    · right
      obtain ⟨⟨x, hx, hp⟩, _⟩ := C20_end_is_sticky hF h hend
      have : ∀ {r : List Event} {o' : ParserObj}, ParserObj.Parses F o r o' → ∀ e ∈ r, e.data = .streamEnd := by
        intro r
        induction r with
        | nil => intro _ _ e he; simp at he
        | cons y r ih =>
          intro o' h2 e he
          rcases Parses.uncons h2 with ⟨h, _⟩ | ⟨x', a', p', h3, g1, g2⟩
          · simp at h
          · cases h3
            rw [hp] at g1; cases g1
            rcases List.mem_cons.1 he with rfl | he
            · simpa [isStreamEndEvent] using hx
            · exact ih g2 e he
      exact this h2 e he
  · exact Or.inl (List.mem_append_left _ he)

theorem simple_not_lost {evs p devs q : List Event} (hF : 4 * srcSize items + 4 < F) (h : ParserObj.Parses F (ParserObj.new items enc) (p ++ devs ++ q) o)
    {d : Document} (hd : DocumentOf devs d) (hs : ∀ e ∈ devs, Simple e.data) {c : Bool} : ¬ LostDoc c d := by
  rintro ⟨_, h1, h2, h3, n, style, h4, h5, h6, h7⟩
  obtain ⟨first, last, root, v, tags, i, j, names, rfl, hg, g1, g2, hc, k1, k2, k3, _⟩ := hd
  have hi : i = true := by rw [← k3, h3]
  subst hi
  cases root with
  | coll s cs t =>
    unfold Tree.compose at hc
    split at hc
    all_goals first
      | (simp only [Option.bind_eq_some_iff, Option.map_eq_some_iff] at hc
         obtain ⟨_, _, _, _, hc⟩ := hc
         simp only [Prod.mk.injEq] at hc
         rw [← hc.2.1] at h4
         simp at h4; subst h4; cases h5)
      | cases hc
  | leaf e =>
    unfold Tree.compose at hc
    split at hc
    · simp [Names.find] at hc
    · rename_i anchor tag value pi qi style' he
      have hse := hs e (by simp [Tree.events])
      rw [he] at hse
      obtain ⟨rfl, rfl, _⟩ := hse
      simp only [Names.define, Option.map_some, Option.some.injEq, Prod.mk.injEq] at hc
      rw [← hc.2.1] at h4
      simp at h4; subst h4
      simp at h5
      obtain ⟨rfl, rfl⟩ := h5
      have hok := (C50_events_ok hF h true e (by simp [Tree.events])).2
      rw [he] at hok
      have hst : style' = .plain := h6.elim id fun h => absurd h hok
      refine C50_implicit_root (pre := p) (d := first) (e := e) (post := last :: q) hF (by simpa [Tree.events] using h) ⟨_, _, g1⟩ he hst rfl
    · cases hc

theorem simple_doc {devs : List Event} {d : Document} (hd : DocumentOf devs d) (hs : ∀ e ∈ devs, Simple e.data) :
    (∀ n ∈ d.nodes, n.tag = some (defaultTag n.data) ∧ ∀ v, n.data ≠ .scalar v .folded) ∧ d.tagDirectives = [] ∧ ∀ i, ¬ Shared d.nodes i := by
  obtain ⟨first, last, root, v, tags, i, j, names, rfl, hg, g1, g2, hc, k1, k2, k3, _⟩ := hd
  refine ⟨?_, ?_, ?_⟩
  · intro n hn
    obtain ⟨e, he, hf⟩ := compose_from root hc n hn
    have hk := hs e (by simp [he])
    revert hf hk
    generalize e.data = x
    intro hf hk
    cases x <;> cases hnd : n.data <;> simp only [FromEvent, hnd] at hf
    · obtain ⟨_, rfl, hk⟩ := hk
      obtain ⟨rfl, rfl, hf⟩ := hf
      exact ⟨hf, fun v h => hk (by cases h; rfl)⟩
    · obtain ⟨_, rfl⟩ := hk
      exact ⟨hf, by simp⟩
    · obtain ⟨_, rfl⟩ := hk
      exact ⟨hf, by simp⟩
  · have := hs first (by simp)
    rw [g1] at this
    rw [k2]; exact this
  · intro k hk
    have := compose_once root hg (fun e he a ha => by have := hs e (by simp [he]); rw [ha] at this; exact this) hc k
    unfold Shared at hk
    unfold refsIn at this
    split at this <;> omega

theorem default_readable {data : NodeData} (h : data ≠ .noNode) : TagReadable [] (defaultTag data) := by
  cases data with
  | noNode => exact absurd rfl h
  | _ =>
    refine ⟨by simp [defaultTag], ?_⟩
    intro d hd sfx hs c hc
    simp [allDirectives, defaultTagDirectives] at hd
    rcases hd with rfl | rfl
    · simp [defaultTag] at hs
    · simp [defaultTag] at hs
      subst hs
      simp at hc
      rcases hc with rfl | rfl | rfl <;> simp

/-- C52 without exception for streams in which no event has an anchor, an alias, a tag, a tag directive or the folded style: all documents
were loaded; dumped in the same order and loaded again they are the same. -/
theorem C52_simple (hF : 16 * srcSize items + 10 < F) (h : ParserObj.Loads F (ParserObj.new items enc) (ds ++ [emptyDocument]) o) (hds : ∀ d ∈ ds, d.nodes ≠ [])
    {evs : List Event} {o' : ParserObj} (hp : ParserObj.Parses F (ParserObj.new items enc) evs o') (hend : ∃ e ∈ evs, isStreamEndEvent e = true)
    (hsimple : ∀ e ∈ evs, Simple e.data) (enc' : Encoding) (cfg : List Setting) (w : Writer) (hw : w.Good) :
    ∃ o1 o2 o3 : DumperObj, DumperObj.open_ ⟨new enc' cfg w, {}⟩ = (.ok (), o1) ∧ o1.dumpAll ds = (.ok (), o2) ∧ o2.close = (.ok (), o3) ∧
      ∀ {items' : List SrcItem} {penc : Encoding} {F' : Nat}, o3.o.written = w.bytes ++ bytesOf items' →
        Delivers (if enc' = .any then .utf8 else enc') penc items' → srcSize items' < 2 ^ 31 → 16 * srcSize items' + 10 < F' →
        ∃ ds' o', ParserObj.Loads F' (ParserObj.new items' penc) (ds' ++ [emptyDocument]) o' ∧ All2 SameDocument ds ds' := by
  obtain ⟨evs2, k1, k2⟩ := loaded_events hF h
  have hin := events_within (by omega) hp k1 hend
  have hs2 : ∀ e ∈ evs2, Simple e.data := fun e he => (hin e he).elim (hsimple e) (fun h => by rw [h]; trivial)
  have hdoc : ∀ d ∈ ds, ((∀ n ∈ d.nodes, n.tag = some (defaultTag n.data) ∧ ∀ v, n.data ≠ .scalar v .folded) ∧ d.tagDirectives = [] ∧ ∀ i, ¬ Shared d.nodes i) ∧
      ¬ LostDoc (cfgCanonical cfg) d := by
    intro d hm
    obtain ⟨p, devs, q, rfl, k3⟩ := k2 d (by simp [hm]) (hds d hm)
    exact ⟨simple_doc k3 fun e he => hs2 e (by simp [he]), simple_not_lost (evs := []) (by omega) k1 k3 fun e he => hs2 e (by simp [he])⟩
  refine C52_load_dump_load_partial hF h ds (fun d hm => ⟨by simp [hm], hds d hm⟩) enc' cfg w hw ?_ ?_ ?_ ?_
  · intro d hm i hi
    exact absurd hi ((hdoc d hm).1.2.2 i)
  · intro d hm n hn t ht
    rw [((hdoc d hm).1.1 n hn).1] at ht
    cases ht
    cases n.data <;> simp [defaultTag]
  · intro d hm
    refine ⟨?_, ?_, ?_⟩
    · rw [(hdoc d hm).1.2.1]; simp
    · intro n hn t ht hx
      rw [((hdoc d hm).1.1 n hn).1] at ht
      cases ht
      rw [(hdoc d hm).1.2.1]
      refine default_readable ?_
      obtain ⟨p, devs, q, rfl, k3⟩ := k2 d (by simp [hm]) (hds d hm)
      exact ((DocumentOf.fine k3).2.2 n hn).2
    · intro n hn v hv
      exact absurd hv (((hdoc d hm).1.1 n hn).2 v)
  · intro d hm
    have : d ∈ ds := List.mem_of_mem_head? hm
    exact (hdoc d this).2

/-- The documents of `sampleLoad`, one with an alias, meet the hypotheses of `C52_load_dump_load_partial`. -/
theorem C52_sample : ParserObj.Loads 500 (ParserObj.new sampleLoad) (loadN 500 2 (ParserObj.new sampleLoad)).1 (loadN 500 2 (ParserObj.new sampleLoad)).2.2 ∧
    16 * srcSize sampleLoad + 10 < 500 ∧ ((loadN 500 2 (ParserObj.new sampleLoad)).1.map fun d => d.nodes.length) = [2, 3] ∧
    ∀ d ∈ (loadN 500 2 (ParserObj.new sampleLoad)).1, d.nodes ≠ [] ∧ (∀ i, Shared d.nodes i → SharedAtTop d.nodes i) ∧ AsciiTags d ∧ ReadableDoc false d ∧ ¬ LostDoc false d := by
  refine ⟨loadN_loads _ _ (by decide +kernel), by decide +kernel, by decide +kernel, ?_⟩
  have hx : (loadN 500 2 (ParserObj.new sampleLoad)).1 =
    [⟨[⟨.sequence [2, 2] .block, some seqTag, ⟨0, 0, 0⟩, ⟨12, 2, 0⟩⟩, ⟨.scalar ['x'] .plain, some strTag, ⟨2, 0, 2⟩, ⟨6, 0, 6⟩⟩], none, [], true, true, ⟨0, 0, 0⟩, ⟨12, 2, 0⟩⟩,
     ⟨[⟨.mapping [(2, 3)] .flow, some mapTag, ⟨16, 2, 4⟩, ⟨22, 2, 10⟩⟩, ⟨.scalar ['k'] .plain, some strTag, ⟨17, 2, 5⟩, ⟨18, 2, 6⟩⟩,
       ⟨.scalar ['v'] .plain, some strTag, ⟨20, 2, 8⟩, ⟨21, 2, 9⟩⟩], none, [], false, true, ⟨12, 2, 0⟩, ⟨23, 3, 0⟩⟩] := by decide +kernel
  rw [hx]
  intro d hd
  simp only [List.mem_cons, List.not_mem_nil, or_false] at hd
  rcases hd with rfl | rfl
  · refine ⟨by simp, ?_, by unfold AsciiTags; decide, ⟨by simp, ?_, ?_⟩, ?_⟩
    · intro i h
      refine ⟨_, rfl, ?_⟩
      simpa [Shared, refs] using h
    · intro n hn t ht h
      simp only [List.mem_cons, List.not_mem_nil, or_false] at hn
      rcases hn with rfl | rfl <;> cases ht <;> simp [defaultTag, seqTag, strTag, mapTag] at h
    · intro n hn v hv
      simp only [List.mem_cons, List.not_mem_nil, or_false] at hn
      rcases hn with rfl | rfl <;> simp at hv
    · rintro ⟨_, _, _, _, n, st, h1, h2, _⟩
      simp at h1
      subst h1
      cases h2
  · refine ⟨by simp, ?_, by unfold AsciiTags; decide, ⟨by simp, ?_, ?_⟩, ?_⟩
    · intro i h
      refine ⟨_, rfl, ?_⟩
      simpa [Shared, refs] using h
    · intro n hn t ht h
      simp only [List.mem_cons, List.not_mem_nil, or_false] at hn
      rcases hn with rfl | rfl | rfl <;> cases ht <;> simp [defaultTag, seqTag, strTag, mapTag] at h
    · intro n hn v hv
      simp only [List.mem_cons, List.not_mem_nil, or_false] at hn
      rcases hn with rfl | rfl | rfl <;> simp at hv
    · rintro ⟨_, _, _, h, _⟩
      simp at h

/-- `a: [b, "", {}]\n---\nc\n` -/
def simpleInput : List SrcItem := [.data (("a: [b, \"\", {}]\n---\nc\n").toList.map fun c => UInt8.ofNat c.toNat)]

/-- A stream that meets the hypotheses of `C52_simple`. -/
theorem C52_simple_sample : ∃ (ds : List Document) (o o' : ParserObj) (evs : List Event), 16 * srcSize simpleInput + 10 < 500 ∧
    ParserObj.Loads 500 (ParserObj.new simpleInput) (ds ++ [emptyDocument]) o ∧ (∀ d ∈ ds, d.nodes ≠ []) ∧ ds.map (·.nodes.length) = [6, 1] ∧
    ParserObj.Parses 500 (ParserObj.new simpleInput) evs o' ∧ (∃ e ∈ evs, isStreamEndEvent e = true) ∧ ∀ e ∈ evs, Simple e.data := by
  have hl := loadN_loads (F := 500) 3 (ParserObj.new simpleInput) (by decide +kernel)
  rw [show (loadN 500 3 (ParserObj.new simpleInput)).1 = (loadN 500 2 (ParserObj.new simpleInput)).1 ++ [emptyDocument] by decide +kernel] at hl
  refine ⟨_, _, _, _, by decide +kernel, hl, by decide +kernel, by decide +kernel, parseN_parses 16 _ (by decide +kernel), by decide +kernel, ?_⟩
  intro e he
  have := List.mem_map_of_mem (f := (·.data)) he
  rw [show (parseN 500 16 (ParserObj.new simpleInput)).1.map (·.data) = [.streamStart .utf8, .documentStart none [] true, .mappingStart none none true .block,
    .scalar none none ['a'] true false .plain, .sequenceStart none none true .flow, .scalar none none ['b'] true false .plain, .scalar none none [] false true .doubleQuoted,
    .mappingStart none none true .flow, .mappingEnd, .sequenceEnd, .mappingEnd, .documentEnd true, .documentStart none [] false, .scalar none none ['c'] true false .plain,
    .documentEnd true, .streamEnd] by decide +kernel] at this
  simp only [List.mem_cons, List.not_mem_nil, or_false] at this
  rcases this with h | h | h | h | h | h | h | h | h | h | h | h | h | h | h | h <;> rw [h] <;> simp [Simple]

/-- C52 is false in full: the document of the input `!!str` has one node, the empty string; dumping it writes an empty line. -/
theorem C52_refuted : ∃ (d : Document) (o : ParserObj), ParserObj.Loads 99 (ParserObj.new [.data [33, 33, 115, 116, 114]]) [d] o ∧ d.nodes.length = 1 ∧
    (let o := DumperObj.dumpAll [d] (DumperObj.open_ ⟨new .any [] ⟨[], []⟩, {}⟩).2
     o.1 = .ok () ∧ o.2.close.1 = .ok () ∧ written o.2.close.2.o = [10] ∧
     (ParserObj.load 99 (ParserObj.new [.data (written o.2.close.2.o)])).1 = .ok emptyDocument) := by
  have hl := loadN_loads (F := 99) 1 (ParserObj.new [.data [33, 33, 115, 116, 114]]) (by decide +kernel)
  rw [show (loadN 99 1 (ParserObj.new [.data [33, 33, 115, 116, 114]])).1 =
    [⟨[⟨.scalar [] .plain, some strTag, ⟨0, 0, 0⟩, ⟨5, 0, 5⟩⟩], none, [], true, true, ⟨0, 0, 0⟩, ⟨5, 1, 0⟩⟩] by decide +kernel] at hl
  exact ⟨_, _, hl, rfl, by decide +kernel⟩

end Yaml.Props
