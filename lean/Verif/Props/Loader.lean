import Verif.Lib.Load2
import Verif.Props.Parser

/-
C21-C24: loading documents.

`Loads F o ds o'` (Api.lean): successive calls of `Document::load` on `o` all returned `Ok`, with the
documents `ds`, and left the parser `o'`.  No assumption is made on the input; `F` bounds the passes of
each loop and `C24_load_terminates` shows that it is never used up.
-/

namespace Yaml.Props
open Yaml Spec ParserObj

variable {enc : Encoding} {items : List SrcItem} {T : List Char} {F : Nat} {ds : List Document} {o : ParserObj}

theorem _root_.Yaml.Spec.LoadHistory.snoc {pre evs : List Event} {d : Document} (h : LoadHistory pre ds) (hb : LoadedBy pre evs d) : LoadHistory (pre ++ evs) (ds ++ [d]) := by
  obtain ⟨s, body, tail, ds1, n, he, hd, hds, ht, hs, hn⟩ := h
  have hpre : ∀ {s' : List Event}, Starts pre s' → n = 0 → (∃ e, (s ++ s').map (·.data) = [.streamStart e]) ∧ (s = [] ∨ s' = []) ∧ (s = [] → body = [] ∧ ds1 = []) := by
    intro s' hst hn0
    subst hn0
    rcases ht with ⟨_, rfl⟩ | ⟨h, _⟩
    · rcases hs with ⟨rfl, rfl⟩ | ⟨hne, e, hs⟩
      · have h1 : ds1 = [] := by
          have := hds
          simp at this
          exact this
        subst h1
        have hb : body = [] := by
          generalize hx : ([] : List Document) = l at hd
          cases hd with
          | nil => rfl
          | snoc => simp at hx
        subst hb
        rcases hst with ⟨_, e, h⟩ | ⟨h, _⟩
        · exact ⟨⟨e, by simpa using h⟩, Or.inl rfl, fun _ => ⟨rfl, rfl⟩⟩
        · exact absurd he (by simpa using h)
      · have hsn : s ≠ [] := by rintro rfl; simp at hs
        rcases hst with ⟨h, _⟩ | ⟨_, rfl⟩
        · rw [he] at h; simp at h; exact absurd h.1 hsn
        · exact ⟨⟨e, by simpa using hs⟩, Or.inr rfl, fun h => absurd h hsn⟩
    · exact absurd rfl h
  cases hb with
  | ended h1 h2 h3 =>
    subst h2 h3
    have hn0 := hn.1 h1
    refine ⟨s, body, tail, ds1, n + 1, by simpa using he, hd, by rw [hds, List.append_assoc, List.replicate_succ'], ?_, ?_, by simpa using h1⟩
    · rcases ht with ⟨h, _⟩ | ⟨_, h⟩
      · exact absurd h hn0
      · exact Or.inr ⟨by simp, h⟩
    · rcases hs with ⟨rfl, _⟩ | ⟨_, h⟩
      · exfalso
        have := congrArg List.length hds
        simp at this
        omega
      · exact Or.inr ⟨by simp, h⟩
  | @last s' e h1 h2 h3 h4 h5 =>
    have hn0 : n = 0 := by
      by_cases h : n = 0
      · exact h
      · exact absurd (hn.2 h) h1
    obtain ⟨g1, g2, g3⟩ := hpre h2 hn0
    subst hn0 h3 h5
    rcases ht with ⟨_, rfl⟩ | ⟨h, _⟩
    · refine ⟨s ++ s', body, [e], ds1, 1, ?_, hd, by rw [hds]; simp, Or.inr ⟨by simp, e, rfl, h4⟩, Or.inr ⟨by simp, g1⟩, ?_⟩
      · rcases g2 with g2 | g2
        · rw [he, (g3 g2).1, g2]; simp
        · rw [he, g2]; simp
      · simp only [ne_eq, Nat.succ_ne_self, not_false_eq_true, iff_true]
        exact ⟨e, by simp, h4⟩
    · exact absurd rfl h
  | @document s' devs first last j h1 hx h2 h3 h4 h5 h6 h7 =>
    have hn0 : n = 0 := by
      by_cases h : n = 0
      · exact h
      · exact absurd (hn.2 h) h1
    obtain ⟨g1, g2, g3⟩ := hpre h2 hn0
    subst hn0 h3
    rcases ht with ⟨_, rfl⟩ | ⟨h, _⟩
    · refine ⟨s ++ s', body ++ (first :: (devs ++ [last])), [], ds1 ++ [d], 0, ?_, .snoc hd h7, by rw [hds]; simp, Or.inl ⟨rfl, rfl⟩, Or.inr ⟨by simp, g1⟩, ?_⟩
      · rcases g2 with g2 | g2
        · rw [he, (g3 g2).1, g2]; simp
        · rw [he, g2]; simp
      · simp only [ne_eq, not_true, iff_false]
        exact hx
    · exact absurd rfl h

theorem loads_inv (hF : 16 * srcSize items + 10 < F) (h : Loads F (new items enc) ds o) :
    ∃ T ts fin evs, Future enc items T ∧ Scans F (ScannerObj.new items enc) ts fin ∧ ts.length ≤ 4 * T.length + 2 ∧ 4 * ts.length + 1 < F ∧
      ((∃ e, fin = .err e ∧ ErrMarks T e) ∨ ∃ x, fin = .panic x ∧ Bad T x) ∧ Parses F (new items enc) evs o ∧ Between F ts fin evs o ∧ LoadHistory evs ds := by
  obtain ⟨T, hT⟩ := Future.exists enc items
  obtain ⟨ts, fin, h1, h2, h3, h4⟩ := tokens_of_input hT (F := F) (by omega)
  have hl := hT.length_le
  have hb : 4 * ts.length + 1 < F := by omega
  have hfin : (∃ e, fin = .err e) ∨ ∃ x, fin = .panic x := h4.imp (fun ⟨e, h, _⟩ => ⟨e, h⟩) (fun ⟨e, h, _⟩ => ⟨e, h⟩)
  have main : ∃ evs, Parses F (new items enc) evs o ∧ Between F ts fin evs o ∧ LoadHistory evs ds := by
    induction h with
    | nil => exact ⟨[], .nil, ⟨_, _, _, _, _, _, PInv.start h1, rfl, Or.inl ⟨rfl, rfl⟩⟩, [], [], [], [], 0, rfl, .nil, rfl, Or.inl ⟨rfl, rfl⟩, Or.inl ⟨rfl, rfl⟩, by simp [AtEnd]⟩
    | @snoc ds d o1 o2 h hs ih =>
      obtain ⟨evs, g1, g2, g3⟩ := ih
      have := wpO_load hb hfin g2
      unfold wpO at this
      have e : o1.run F (Document.load F) = (.ok d, o2) := hs
      rw [e] at this
      obtain ⟨evs', k1, k2, k3⟩ := this
      exact ⟨evs ++ evs', g1.append k1, k2, g3.snoc k3⟩
  obtain ⟨evs, g1, g2, g3⟩ := main
  exact ⟨T, ts, fin, evs, hT, h1, h2, hb, h4, g1, g2, g3⟩

/-! ### A concrete case -/

/-- At most `n` calls of `load`: the documents, and the first result that is not `Ok`. -/
def loadN (F : Nat) : Nat → ParserObj → List Document × Option (Out Document) × ParserObj
  | 0, o => ([], none, o)
  | n + 1, o =>
    match o.load F with
    | (.ok d, o') =>
      let q := loadN F n o'
      (d :: q.1, q.2)
    | (r, o') => ([], some r, o')

theorem Loads.cons {d : Document} {o0 o1 : ParserObj} (hs : o0.load F = (.ok d, o1)) (h : Loads F o1 ds o) : Loads F o0 (d :: ds) o := by
  induction h with
  | nil => exact .snoc .nil hs
  | snoc h' hs' ih => exact .snoc (ds := d :: _) ih hs'

theorem loadN_loads (n : Nat) (o0 : ParserObj) : (loadN F n o0).2.1 = none → Loads F o0 (loadN F n o0).1 (loadN F n o0).2.2 := by
  induction n generalizing o0 with
  | zero => intro _; exact .nil
  | succ n ih =>
    intro h
    unfold loadN at h ⊢
    generalize hs : o0.load F = q at h
    obtain ⟨r, o1⟩ := q
    cases r with
    | ok e => exact Loads.cons hs (ih o1 h)
    | err e => simp at h
    | panic e => simp at h
    | fuel => simp at h

/-- `- &a x\n- *a\n--- {k: v}\n` -/
def sampleLoad : List SrcItem :=
  [.data [0x2D, 0x20, 0x26, 0x61, 0x20, 0x78, 0x0A, 0x2D, 0x20, 0x2A], .data [0x61, 0x0A, 0x2D, 0x2D, 0x2D, 0x20, 0x7B, 0x6B, 0x3A, 0x20, 0x76, 0x7D, 0x0A]]

/-- The hypotheses of the theorems below are met by two documents and two calls after the last. -/
theorem sample_loads : Loads 500 (new sampleLoad) (loadN 500 4 (new sampleLoad)).1 (loadN 500 4 (new sampleLoad)).2.2 ∧ 16 * srcSize sampleLoad + 10 < 500 ∧
    (loadN 500 4 (new sampleLoad)).1.map (fun d => d.nodes.map (·.data)) =
      [[.sequence [2, 2] .block, .scalar ['x'] .plain], [.mapping [(2, 3)] .flow, .scalar ['k'] .plain, .scalar ['v'] .plain], [], []] :=
  ⟨loadN_loads _ _ (by decide +kernel), by decide +kernel, by decide +kernel⟩

/-! ### C22 -/

/-- C22.  The documents returned are those of the events which `parse` returns on the same input:
`DocumentOf` (Spec/Compose.lean) numbers the nodes in document order. -/
theorem C22_load_composes_events (hF : 16 * srcSize items + 10 < F) (h : Loads F (new items enc) ds o) :
    ∃ evs, Parses F (new items enc) evs o ∧ LoadHistory evs ds := by
  obtain ⟨T, ts, fin, evs, _, _, _, _, _, h1, _, h2⟩ := loads_inv hF h
  exact ⟨evs, h1, h2⟩

/-! ### C21 -/

theorem DocumentOf.fine {evs : List Event} {d : Document} (h : DocumentOf evs d) :
    d.nodes ≠ [] ∧ WellFormed d.nodes ∧ ∀ n ∈ d.nodes, (∃ t, n.tag = some t) ∧ n.data ≠ .noNode := by
  obtain ⟨first, last, root, v, t, i, j, names, _, _, _, _, hc, _⟩ := h
  have := compose_fine root (names := []) (n := 0) (by intro x hx; simp at hx) hc
  refine ⟨?_, ?_, ?_⟩
  · intro h
    have := this.id
    rw [h] at this
    simp at this
  · have := this.refs
    simpa [RefsIn, WellFormed] using this
  · intro n hn
    exact ⟨this.tags n hn, this.data n hn⟩

theorem DocumentsOf.mem {evs : List Event} (h : DocumentsOf evs ds) : ∀ d ∈ ds, ∃ devs, DocumentOf devs d := by
  induction h with
  | nil => simp
  | snoc h hd ih =>
    intro d hm
    rcases List.mem_append.1 hm with hm | hm
    · exact ih d hm
    · simp at hm; subst hm; exact ⟨_, hd⟩

/-- C21.  Every document that `load` returns is well formed: all references (both of every pair) are ids of
existing nodes, and every node has a tag and is a scalar, sequence or mapping. -/
theorem C21_loaded_well_formed (hF : 16 * srcSize items + 10 < F) (h : Loads F (new items enc) ds o) {d : Document} (hd : d ∈ ds) :
    WellFormed d.nodes ∧ ∀ n ∈ d.nodes, (∃ t, n.tag = some t) ∧ n.data ≠ .noNode := by
  obtain ⟨evs, h1, s, body, tail, ds1, n, _, h2, rfl, _⟩ := C22_load_composes_events hF h
  rcases List.mem_append.1 hd with hd | hd
  · obtain ⟨devs, h3⟩ := DocumentsOf.mem h2 d hd
    exact (DocumentOf.fine h3).2
  · have := (List.mem_replicate.1 hd).2
    subst this
    exact ⟨by intro n hn; simp [emptyDocument] at hn, by intro n hn; simp [emptyDocument] at hn⟩

/-- C21.  A document that is not empty has its root, node 1: the node of the document's first node event. -/
theorem C21_root_is_first (hF : 16 * srcSize items + 10 < F) (h : Loads F (new items enc) ds o) {d : Document} (hd : d ∈ ds) :
    d = emptyDocument ∨ ∃ first root last n rest, DocumentOf (first :: (Tree.events root ++ [last])) d ∧ d.getRootNode = some n ∧ d.nodes = n :: rest := by
  obtain ⟨evs, h1, s, body, tail, ds1, n, _, h2, rfl, _⟩ := C22_load_composes_events hF h
  rcases List.mem_append.1 hd with hd | hd
  · obtain ⟨devs, h3⟩ := DocumentsOf.mem h2 d hd
    right
    have hf := DocumentOf.fine h3
    obtain ⟨first, last, root, v, t, i, j, names, he, g⟩ := id h3
    subst he
    cases hn : d.nodes with
    | nil => exact absurd hn hf.1
    | cons n rest => exact ⟨first, root, last, n, rest, h3, by unfold Document.getRootNode; rw [hn]; rfl, rfl⟩
  · exact Or.inl (List.mem_replicate.1 hd).2

/-! ### C23 -/

/-- C23.  In the events of every loaded document each alias has its anchor before it and no anchor is used
twice.  (Which node an alias stands for is in C22: `Tree.compose`.) -/
theorem C23_loaded_anchors (hF : 16 * srcSize items + 10 < F) (h : Loads F (new items enc) ds o) :
    ∃ evs, Parses F (new items enc) evs o ∧ LoadHistory evs ds ∧ ∀ d ∈ ds, d = emptyDocument ∨
      ∃ first devs last, DocumentOf (first :: (devs ++ [last])) d ∧ AnchorsOk devs := by
  obtain ⟨evs, h1, h2⟩ := C22_load_composes_events hF h
  refine ⟨evs, h1, h2, ?_⟩
  obtain ⟨s, body, tail, ds1, n, _, h3, rfl, _⟩ := h2
  intro d hd
  rcases List.mem_append.1 hd with hd | hd
  · obtain ⟨devs, h4⟩ := DocumentsOf.mem h3 d hd
    obtain ⟨first, last, root, v, t, i, j, names, he, hg, g1, g2, hc, g⟩ := id h4
    subst he
    refine Or.inr ⟨first, root.events, last, h4, ?_⟩
    have hl := lrun_tree root [] [] [] hg (by simp) (by intro x hx; simp [namesOf] at hx)
    have hc : root.compose (namesOf []) ([] : List Node).length = some (1, d.nodes, names) := hc
    rw [hc] at hl
    obtain ⟨al', hl, _⟩ := hl
    exact lrun_anchors hl
  · exact Or.inl (List.mem_replicate.1 hd).2

theorem Parses.uncons {F : Nat} {a : List Event} {p q : ParserObj} (h : Parses F p a q) :
    a = [] ∧ q = p ∨ ∃ x a' p', a = x :: a' ∧ p.parse F = (.ok x, p') ∧ Parses F p' a' q := by
  induction h with
  | nil => exact Or.inl ⟨rfl, rfl⟩
  | @snoc b y q1 q2 h hs ih =>
    rcases ih with ⟨rfl, rfl⟩ | ⟨x, a', p', rfl, g1, g2⟩
    · exact Or.inr ⟨y, [], q2, rfl, hs, .nil⟩
    · exact Or.inr ⟨x, a' ++ [y], p', rfl, g1, .snoc g2 hs⟩

theorem Parses.comparable {F : Nat} {o o1 o2 : ParserObj} {e1 e2 : List Event} (h1 : Parses F o e1 o1) (h2 : Parses F o e2 o2) :
    (∃ r, e2 = e1 ++ r ∧ Parses F o1 r o2) ∨ (∃ r, e1 = e2 ++ r ∧ Parses F o2 r o1) := by
  induction h2 with
  | nil => exact Or.inr ⟨e1, rfl, h1⟩
  | @snoc e2 e p1 p2 h2 hs ih =>
    rcases ih with ⟨r, rfl, h3⟩ | ⟨r, rfl, h3⟩
    · exact Or.inl ⟨r ++ [e], by simp, .snoc h3 hs⟩
    · rcases Parses.uncons h3 with ⟨rfl, rfl⟩ | ⟨x, r', p', rfl, g1, g2⟩
      · exact Or.inl ⟨[e], by simp, .snoc .nil hs⟩
      · rw [hs] at g1
        cases g1
        exact Or.inr ⟨r', by simp, g2⟩

/-- C23.  If a call of `load` (all calls before having returned `Ok`) returns an error, then `parse`, called
on the same parser instead, returns some events and then that error; or it returns the beginning of a
document whose last event is an alias without anchor, or a second definition of an anchor, in this
document, and the error is the composer's error for it. -/
theorem C23_load_errors (hF : 16 * srcSize items + 10 < F) (h : Loads F (new items enc) ds o) {e : Err} (he : (o.load F).1 = .err e) :
    (∃ evs o2, Parses F o evs o2 ∧ (o2.parse F).1 = .err e) ∨
    (∃ s first devs ev o2, Parses F o (s ++ (first :: devs) ++ [ev]) o2 ∧ (∃ v t i, first.data = .documentStart v t i) ∧
      (∀ x ∈ devs, ∀ j, x.data ≠ .documentEnd j) ∧ AnchorError devs ev e) := by
  obtain ⟨T, ts, fin, evs, _, _, _, hb, hfin, _, h2, _⟩ := loads_inv hF h
  have := wpO_load hb (hfin.imp (fun ⟨e, h, _⟩ => ⟨e, h⟩) (fun ⟨e, h, _⟩ => ⟨e, h⟩)) h2
  unfold wpO at this
  have e0 : o.run F (Document.load F) = o.load F := rfl
  rw [e0] at this
  generalize o.load F = q at this he
  obtain ⟨r, o'⟩ := q
  subst he
  cases this.1 with
  | parser hr h he => exact Or.inl ⟨_, _, h, he⟩
  | anchor h hs hf hn ha he => exact Or.inr ⟨_, _, _, _, _, h, hf, hn, he⟩

/-- The error for an event is determined by the events before it. -/
theorem AnchorError.unique {devs : List Event} {ev : Event} {e e' : Err} (ha : AnchorsOk devs) (h : AnchorError devs ev e) (h' : AnchorError devs ev e') : e = e' := by
  have first : ∀ {a : Str} {x y : Event}, x ∈ devs → y ∈ devs → anchorOf x = some a → anchorOf y = some a → x = y := by
    intro a x y hx hy h1 h2
    obtain ⟨p, q, rfl⟩ := List.append_of_mem hx
    rcases List.mem_append.1 hy with hy | hy
    · exact absurd (AnchorError.duplicate (ev := x) h1 hy h2) (ha p x q rfl _)
    · rcases List.mem_cons.1 hy with hy | hy
      · exact hy.symm
      · obtain ⟨p', q', rfl⟩ := List.append_of_mem hy
        exact absurd (AnchorError.duplicate (ev := y) (devs := p ++ x :: p') h2 (by simp) h1) (ha (p ++ x :: p') y q' (by simp) _)
  cases h with
  | undefined h1 h2 =>
    cases h' with
    | undefined g1 g2 => rfl
    | duplicate g1 g2 g3 => simp [anchorOf, h1] at g1
  | duplicate h1 h2 h3 =>
    cases h' with
    | undefined g1 g2 => simp [anchorOf, g1] at h1
    | duplicate g1 g2 g3 =>
      rw [h1] at g1
      cases g1
      rw [first h2 g2 h3 g3]

/-- C23.  Conversely, if `parse` would return the beginning of a document whose last event is the first
alias without anchor, or the first second definition of an anchor, in this document, then `load` returns
the composer's error for it.  Only events of this document count: anchors of other documents do not
help, and do not hurt. -/
theorem C23_bad_anchor_is_error (hF : 16 * srcSize items + 10 < F) (h : Loads F (new items enc) ds o) {s devs : List Event} {first ev : Event} {o2 : ParserObj} {e : Err}
    (hp : Parses F o (s ++ (first :: devs) ++ [ev]) o2) (hs : (ds = [] ∧ ∃ e, s.map (·.data) = [.streamStart e]) ∨ (ds ≠ [] ∧ s = []))
    (hf : ∃ v t i, first.data = .documentStart v t i) (hn : ∀ x ∈ devs, ∀ j, x.data ≠ .documentEnd j) (ha : AnchorsOk devs) (he : AnchorError devs ev e) :
    (o.load F).1 = .err e := by
  obtain ⟨T, ts, fin, pre, _, _, _, hb, hfin, _, h2, hh⟩ := loads_inv hF h
  have hev : ∀ j, ev.data ≠ .documentEnd j := by
    intro j hj
    cases he with
    | undefined h1 _ => rw [h1] at hj; simp at hj
    | duplicate h1 _ _ => simp [anchorOf, hj] at h1
  have hfd : ∀ j, first.data ≠ .documentEnd j := by
    obtain ⟨v, t, i, h⟩ := hf; intro j; rw [h]; simp
  have hpre : pre = [] ↔ ds = [] := by
    obtain ⟨s0, body, tail, ds1, n, rfl, hd, rfl, ht, hs0, _⟩ := hh
    constructor
    · intro h
      rcases hs0 with ⟨h', _⟩ | ⟨_, e, h'⟩
      · exact h'
      · simp at h; rw [h.1] at h'; simp at h'
    · intro h
      simp at h
      obtain ⟨rfl, rfl⟩ := h
      rcases hs0 with ⟨h', rfl⟩ | ⟨h', _⟩
      · rcases ht with ⟨_, rfl⟩ | ⟨h', _⟩
        · generalize hx : ([] : List Document) = l at hd
          cases hd with
          | nil => rfl
          | snoc => simp at hx
        · exact absurd rfl h'
      · simp at h'
  -- the same start of the stream, whatever the comparison
  have hlen : ∀ {s' : List Event}, Starts pre s' → s'.length = s.length := by
    intro s' h
    rcases h with ⟨h1, e, h⟩ | ⟨h1, rfl⟩
    · rcases hs with ⟨_, e', h'⟩ | ⟨h', _⟩
      · have := congrArg List.length h
        have := congrArg List.length h'
        simp at *; omega
      · exact absurd (hpre.1 h1) h'
    · rcases hs with ⟨h', _⟩ | ⟨_, rfl⟩
      · exact absurd (hpre.2 h') h1
      · rfl
  -- nothing that `load` reads on the way is longer
  have hread : ∀ {evs : List Event} {r : List Event}, Reading pre evs → evs = (s ++ (first :: devs) ++ [ev]) ++ r → False := by
    intro evs r hr hev'
    cases hr with
    | fresh h => simp at hev'
    | started h =>
      have := hlen h
      have := congrArg List.length hev'
      simp at this; omega
    | @inside s' devs' first' h hf' hn' ha' =>
      have hl := hlen h
      have hev' : s' ++ (first' :: devs') = s ++ (first :: (devs ++ (ev :: r))) := by rw [hev']; simp
      obtain ⟨rfl, h5⟩ := List.append_inj hev' hl
      simp at h5
      obtain ⟨rfl, rfl⟩ := h5
      exact ha' devs ev r (by simp) _ he
  have hno : ∀ {evs o3}, Reading pre evs → Parses F o evs o3 → (∀ x, (o3.parse F).1 ≠ .ok x) → False := by
    intro evs o3 hr h3 hx
    rcases Parses.comparable hp h3 with ⟨r, h4, _⟩ | ⟨r, h4, h5⟩
    · exact hread hr h4
    · rcases Parses.uncons h5 with ⟨rfl, _⟩ | ⟨x, r', p', rfl, g1, _⟩
      · exact hread (r := []) hr (by rw [h4]; simp)
      · exact hx x (by rw [g1])
  have hcmp : ∀ {s' l l' : List Event} {o3 : ParserObj}, Starts pre s' → Parses F o (s' ++ l) o3 → l' = first :: (devs ++ [ev]) → (∃ r, l = l' ++ r) ∨ (∃ r, l' = l ++ r) := by
    intro s' l l' o3 h h3 hl
    subst hl
    have h4 := hlen h
    rcases Parses.comparable hp h3 with ⟨r, h5, _⟩ | ⟨r, h5, _⟩
    · have h5 : s' ++ l = s ++ (first :: (devs ++ [ev]) ++ r) := by rw [h5]; simp
      exact Or.inl ⟨r, (List.append_inj h5 h4).2⟩
    · have h5 : s ++ (first :: (devs ++ [ev])) = s' ++ (l ++ r) := by rw [← List.append_assoc, ← h5]; simp
      exact Or.inr ⟨r, (List.append_inj h5 h4.symm).2⟩
  have hbet := h2
  have := wpO_load hb (hfin.imp (fun ⟨e, h, _⟩ => ⟨e, h⟩) (fun ⟨e, h, _⟩ => ⟨e, h⟩)) h2
  unfold wpO at this
  have e0 : o.run F (Document.load F) = o.load F := rfl
  rw [e0] at this
  generalize o.load F = q at this ⊢
  obtain ⟨r, o'⟩ := q
  cases r with
  | fuel => exact this.elim
  | panic x =>
    obtain ⟨_, evs, o3, h3, h4, h5⟩ := this
    exact (hno h3 h4 (by rw [h5]; simp)).elim
  | err e' =>
    cases this.1 with
    | parser h3 h4 h5 => exact (hno h3 h4 (by rw [h5]; simp)).elim
    | @anchor s' devs' first' ev' o3 h3 h4 h5 h6 h7 h8 =>
      rcases hcmp (l := first' :: (devs' ++ [ev'])) h4 (by simpa using h3) rfl with ⟨r, hr⟩ | ⟨r, hr⟩
      · simp at hr
        obtain ⟨rfl, hr⟩ := hr
        rcases List.eq_nil_or_concat r with rfl | ⟨r', y, rfl⟩
        · simp at hr
          obtain ⟨rfl, rfl⟩ := hr
          have hh := AnchorError.unique h7 h8 he
          rw [hh]
        · rw [List.concat_eq_append, ← List.cons_append, ← List.append_assoc] at hr
          exact absurd he (h7 devs ev r' (List.append_inj' hr rfl).1 _)
      · simp at hr
        obtain ⟨rfl, hr⟩ := hr
        rcases List.eq_nil_or_concat r with rfl | ⟨r', y, rfl⟩
        · simp at hr
          obtain ⟨rfl, rfl⟩ := hr
          have hh := AnchorError.unique h7 h8 he
          rw [hh]
        · rw [List.concat_eq_append, ← List.cons_append, ← List.append_assoc] at hr
          exact absurd h8 (ha devs' ev' r' (List.append_inj' hr rfl).1 _)
  | ok d =>
    exfalso
    obtain ⟨evs, h3, _, h5⟩ := this
    cases h5 with
    | ended h6 h7 h8 =>
      obtain ⟨G, D, c, toks, st, pk, hi, _⟩ := hbet
      have hG : G = .done := by
        by_cases hG : G = .done
        · exact hG
        · exact absurd h6 (hi.notEnd hG)
      subst hG
      have hend := PInv.ended (F := F) (hi.good.pos.done_iff.2 rfl)
      rcases Parses.uncons hp with ⟨h, _⟩ | ⟨x, r', p', hx, g1, _⟩
      · simp at h
      · rw [hend] at g1
        cases g1
        rcases hs with ⟨_, e', h'⟩ | ⟨_, rfl⟩
        · match s, h' with
          | [], h' => simp at h'
          | [a], h' =>
            simp at h' hx
            rw [hx.1] at h'; simp at h'
          | _ :: _ :: _, h' => simp at h'
        · simp at hx
          obtain ⟨v, t, i, h⟩ := hf
          rw [hx.1] at h; simp at h
    | @last s' e' h6 h7 h8 h9 h10 =>
      subst h8
      have h9 : e'.data = .streamEnd := by simpa [isStreamEndEvent] using h9
      have hfe : first = e' := by
        rcases hcmp (l := [e']) h7 h3 rfl with ⟨r, hr⟩ | ⟨r, hr⟩
        · simp at hr
        · simp at hr; exact hr.1
      obtain ⟨v, t, i, h⟩ := hf
      rw [hfe, h9] at h; simp at h
    | @document s' devs' first' last j h6 h7 h8 h9 h10 h11 h12 h13 =>
      subst h9
      rcases hcmp (l := first' :: (devs' ++ [last])) h8 h3 rfl with ⟨r, hr⟩ | ⟨r, hr⟩
      · simp at hr
        obtain ⟨rfl, hr⟩ := hr
        rcases List.eq_nil_or_concat r with rfl | ⟨r', y, rfl⟩
        · simp at hr
          obtain ⟨rfl, rfl⟩ := hr
          exact hev _ h10
        · rw [List.concat_eq_append, ← List.cons_append, ← List.append_assoc] at hr
          exact absurd he (h12 devs ev r' (List.append_inj' hr rfl).1 _)
      · simp at hr
        obtain ⟨rfl, hr⟩ := hr
        have : last ∈ devs ++ [ev] := by rw [hr]; simp
        rcases List.mem_append.1 this with h | h
        · exact hn _ h _ h10
        · simp at h; subst h; exact hev _ h10

/-- `- &a x\n--- *a\n` and `[&a x, &a y]`: the anchor of the first document is unknown in the second; an
anchor used twice. -/
example : (loadN 400 3 (new [.data [0x2D, 0x20, 0x26, 0x61, 0x20, 0x78, 0x0A, 0x2D, 0x2D, 0x2D, 0x20, 0x2A, 0x61, 0x0A]])).2.1 =
      some (.err (.composer "" Mark.zero "found undefined alias" ⟨11, 1, 4⟩)) ∧
    (loadN 400 3 (new [.data [0x5B, 0x26, 0x61, 0x20, 0x78, 0x2C, 0x20, 0x26, 0x61, 0x20, 0x79, 0x5D]])).2.1 =
      some (.err (.composer "found duplicate anchor; first occurrence" ⟨1, 0, 1⟩ "second occurrence" ⟨7, 0, 7⟩)) := by decide +kernel

/-! ### C24 -/

/-- C24.  If a call of `load` (all calls before having returned `Ok`) panics, then it is a panic of the
scanner: a scanner alone, on the same input, returns some tokens and then panics the same way. -/
theorem C24_load_panics_only_in_scanner (hF : 16 * srcSize items + 10 < F) (h : Loads F (new items enc) ds o) {x : PanicSite}
    (hx : (o.load F).1 = .panic x) :
    ∃ ts so, ScannerObj.Reads F (ScannerObj.new items enc) ts so ∧ (so.scan F).1 = .panic x := by
  obtain ⟨T, ts, fin, evs, _, h1, _, hb, hfin, _, h2, _⟩ := loads_inv hF h
  have := wpO_load hb (hfin.imp (fun ⟨e, h, _⟩ => ⟨e, h⟩) (fun ⟨e, h, _⟩ => ⟨e, h⟩)) h2
  unfold wpO at this
  have e0 : o.run F (Document.load F) = o.load F := rfl
  rw [e0] at this
  generalize o.load F = q at this hx
  obtain ⟨r, o'⟩ := q
  subst hx
  have h3 := this.1
  subst h3
  rcases h1.fails with ⟨_, h⟩ | ⟨so, h5, h6⟩
  · simp at h
  · exact ⟨ts, so, h5, h6⟩

/-- C24.  Every call of `load` returns. -/
theorem C24_load_terminates (hF : 16 * srcSize items + 10 < F) (h : Loads F (new items enc) ds o) : (o.load F).1 ≠ .fuel := by
  intro hx
  obtain ⟨T, ts, fin, evs, _, h1, _, hb, hfin, _, h2, _⟩ := loads_inv hF h
  have := wpO_load hb (hfin.imp (fun ⟨e, h, _⟩ => ⟨e, h⟩) (fun ⟨e, h, _⟩ => ⟨e, h⟩)) h2
  unfold wpO at this
  have e0 : o.run F (Document.load F) = o.load F := rfl
  rw [e0] at this
  generalize o.load F = q at this hx
  obtain ⟨r, o'⟩ := q
  subst hx
  exact this

/-- C24.  `load` returns a document without nodes exactly when the stream has ended: when `parse` would have
returned `StreamEnd`. -/
theorem C24_empty_iff_ended (hF : 16 * srcSize items + 10 < F) {d : Document} (h : Loads F (new items enc) (ds ++ [d]) o) :
    ∃ evs, Parses F (new items enc) evs o ∧ LoadHistory evs (ds ++ [d]) ∧ (d.nodes = [] ↔ d = emptyDocument) ∧ (d.nodes = [] ↔ AtEnd evs) := by
  obtain ⟨evs, h1, h2⟩ := C22_load_composes_events hF h
  refine ⟨evs, h1, h2, ?_⟩
  obtain ⟨s, body, tail, ds1, n, _, hd, hds, _, _, hn⟩ := h2
  cases n with
  | zero =>
    simp only [List.replicate_zero, List.append_nil] at hds
    obtain ⟨devs, h3⟩ := DocumentsOf.mem hd d (by rw [← hds]; simp)
    have := (DocumentOf.fine h3).1
    have hne : ¬ AtEnd evs := fun h => (hn.1 h) rfl
    refine ⟨⟨fun h => absurd h this, fun h => absurd (by rw [h]; rfl) this⟩, ⟨fun h => absurd h this, fun h => absurd h hne⟩⟩
  | succ n =>
    rw [List.replicate_succ', ← List.append_assoc] at hds
    obtain ⟨_, h4⟩ := List.append_inj' hds rfl
    cases h4
    have := hn.2 (by simp)
    exact ⟨⟨fun _ => rfl, fun _ => rfl⟩, ⟨fun _ => this, fun _ => rfl⟩⟩

end Yaml.Props
