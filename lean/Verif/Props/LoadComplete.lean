import Verif.Props.Loader

/-
C48: `Document::load` returns every document that `parse` returns and whose anchors are in order.
-/

namespace Yaml.Props
open Yaml Spec ParserObj
set_option linter.unusedVariables false

variable {enc : Encoding} {items : List SrcItem} {T : List Char} {F : Nat} {ds : List Document} {o : ParserObj}

theorem Parses.same {F : Nat} {o o1 o2 : ParserObj} {e : List Event} (h1 : Parses F o e o1) (h2 : Parses F o e o2) : o1 = o2 := by
  rcases Parses.comparable h1 h2 with ⟨r, h, h3⟩ | ⟨r, h, h3⟩
  · have : r = [] := by simpa using h
    subst this
    rcases Parses.uncons h3 with ⟨_, h⟩ | ⟨_, _, _, h, _⟩
    · exact h.symm
    · cases h
  · have : r = [] := by simpa using h
    subst this
    rcases Parses.uncons h3 with ⟨_, h⟩ | ⟨_, _, _, h, _⟩
    · exact h
    · cases h

theorem loadHistory_fresh {pre : List Event} (hh : LoadHistory pre ds) : pre = [] ↔ ds = [] := by
  obtain ⟨s0, body, tail, ds1, n, rfl, hd, rfl, ht, hs0, _⟩ := hh
  constructor
  · intro h
    rcases hs0 with ⟨h', _⟩ | ⟨_, e, h'⟩
    · exact h'
    · simp at h; rw [h.1] at h'; simp at h'
  · intro h
    simp at h
    obtain ⟨rfl, rfl⟩ := h
    rcases hs0 with ⟨h', rfl⟩ | ⟨h', _⟩
    · rcases ht with ⟨_, rfl⟩ | ⟨h', _⟩
      · generalize hx : ([] : List Document) = l at hd
        cases hd with
        | nil => rfl
        | snoc => simp at hx
      · exact absurd rfl h'
    · simp at h'

/-- C48.  If `parse` (all calls of `load` before having returned `Ok`) would return the events of a whole document
whose anchors are in order, then `load` returns the document of these events and leaves the parser behind it. -/
theorem C48_load_succeeds (hF : 16 * srcSize items + 10 < F) (h : Loads F (new items enc) ds o) {s devs : List Event} {first last : Event} {o2 : ParserObj} {j : Bool}
    (hp : Parses F o (s ++ (first :: devs) ++ [last]) o2) (hs : (ds = [] ∧ ∃ e, s.map (·.data) = [.streamStart e]) ∨ (ds ≠ [] ∧ s = []))
    (hf : ∃ v t i, first.data = .documentStart v t i) (hn : ∀ x ∈ devs, ∀ j, x.data ≠ .documentEnd j) (hlast : last.data = .documentEnd j) (ha : AnchorsOk devs) :
    ∃ d, o.load F = (.ok d, o2) ∧ DocumentOf (first :: (devs ++ [last])) d := by
  obtain ⟨T, ts, fin, pre, _, _, _, hb, hfin, _, h2, hh⟩ := loads_inv hF h
  have hfd : ∀ j, first.data ≠ .documentEnd j := by
    obtain ⟨v, t, i, h⟩ := hf; intro j; rw [h]; simp
  have hpre := loadHistory_fresh hh
  have hlen : ∀ {s' : List Event}, Starts pre s' → s'.length = s.length := by
    intro s' h
    rcases h with ⟨h1, e, h⟩ | ⟨h1, rfl⟩
    · rcases hs with ⟨_, e', h'⟩ | ⟨h', _⟩
      · have := congrArg List.length h
        have := congrArg List.length h'
        simp at *; omega
      · exact absurd (hpre.1 h1) h'
    · rcases hs with ⟨h', _⟩ | ⟨_, rfl⟩
      · exact absurd (hpre.2 h') h1
      · rfl
  have hread : ∀ {evs : List Event} {r : List Event}, Reading pre evs → evs = (s ++ (first :: devs) ++ [last]) ++ r → False := by
    intro evs r hr hev'
    cases hr with
    | fresh h => simp at hev'
    | started h =>
      have := hlen h
      have := congrArg List.length hev'
      simp at this; omega
    | @inside s' devs' first' h hf' hn' ha' =>
      have hl := hlen h
      have hev' : s' ++ (first' :: devs') = s ++ (first :: (devs ++ (last :: r))) := by rw [hev']; simp
      obtain ⟨rfl, h5⟩ := List.append_inj hev' hl
      simp at h5
      obtain ⟨rfl, rfl⟩ := h5
      exact hn' last (by simp) _ hlast
  have hno : ∀ {evs o3}, Reading pre evs → Parses F o evs o3 → (∀ x, (o3.parse F).1 ≠ .ok x) → False := by
    intro evs o3 hr h3 hx
    rcases Parses.comparable hp h3 with ⟨r, h4, _⟩ | ⟨r, h4, h5⟩
    · exact hread hr h4
    · rcases Parses.uncons h5 with ⟨rfl, _⟩ | ⟨x, r', p', rfl, g1, _⟩
      · exact hread (r := []) hr (by rw [h4]; simp)
      · exact hx x (by rw [g1])
  have hcmp : ∀ {s' l l' : List Event} {o3 : ParserObj}, Starts pre s' → Parses F o (s' ++ l) o3 → l' = first :: (devs ++ [last]) → (∃ r, l = l' ++ r) ∨ (∃ r, l' = l ++ r) := by
    intro s' l l' o3 h h3 hl
    subst hl
    have h4 := hlen h
    rcases Parses.comparable hp h3 with ⟨r, h5, _⟩ | ⟨r, h5, _⟩
    · have h5 : s' ++ l = s ++ (first :: (devs ++ [last]) ++ r) := by rw [h5]; simp
      exact Or.inl ⟨r, (List.append_inj h5 h4).2⟩
    · have h5 : s ++ (first :: (devs ++ [last])) = s' ++ (l ++ r) := by rw [← List.append_assoc, ← h5]; simp
      exact Or.inr ⟨r, (List.append_inj h5 h4.symm).2⟩
  have hbet := h2
  have := wpO_load hb (hfin.imp (fun ⟨e, h, _⟩ => ⟨e, h⟩) (fun ⟨e, h, _⟩ => ⟨e, h⟩)) h2
  unfold wpO at this
  have e0 : o.run F (Document.load F) = o.load F := rfl
  rw [e0] at this
  generalize o.load F = q at this ⊢
  obtain ⟨r, o'⟩ := q
  cases r with
  | fuel => exact this.elim
  | panic x =>
    obtain ⟨_, evs, o3, h3, h4, h5⟩ := this
    exact (hno h3 h4 (by rw [h5]; simp)).elim
  | err e' =>
    exfalso
    cases this.1 with
    | parser h3 h4 h5 => exact hno h3 h4 (by rw [h5]; simp)
    | @anchor s' devs' first' ev' o3 h3 h4 h5 h6 h7 h8 =>
      have hev : ∀ j, ev'.data ≠ .documentEnd j := by
        intro j hj
        cases h8 with
        | undefined h1 _ => rw [h1] at hj; simp at hj
        | duplicate h1 _ _ => simp [anchorOf, hj] at h1
      rcases hcmp (l := first' :: (devs' ++ [ev'])) h4 (by simpa using h3) rfl with ⟨r, hr⟩ | ⟨r, hr⟩
      · simp at hr
        obtain ⟨rfl, hr⟩ := hr
        have : last ∈ devs' ++ [ev'] := by rw [hr]; simp
        rcases List.mem_append.1 this with h | h
        · exact h6 _ h _ hlast
        · simp at h; subst h; exact hev _ hlast
      · simp at hr
        obtain ⟨rfl, hr⟩ := hr
        rcases List.eq_nil_or_concat r with rfl | ⟨r', y, rfl⟩
        · simp at hr
          obtain ⟨rfl, rfl⟩ := hr
          exact hev _ hlast
        · rw [List.concat_eq_append, ← List.cons_append, ← List.append_assoc] at hr
          exact absurd h8 (ha devs' ev' r' (List.append_inj' hr rfl).1 _)
  | ok d =>
    obtain ⟨evs, h3, _, h5⟩ := this
    cases h5 with
    | ended h6 h7 h8 =>
      exfalso
      obtain ⟨G, D, c, toks, st, pk, hi, _⟩ := hbet
      have hG : G = .done := by
        by_cases hG : G = .done
        · exact hG
        · exact absurd h6 (hi.notEnd hG)
      subst hG
      have hend := PInv.ended (F := F) (hi.good.pos.done_iff.2 rfl)
      rcases Parses.uncons hp with ⟨h, _⟩ | ⟨x, r', p', hx, g1, _⟩
      · simp at h
      · rw [hend] at g1
        cases g1
        rcases hs with ⟨_, e', h'⟩ | ⟨_, rfl⟩
        · match s, h' with
          | [], h' => simp at h'
          | [a], h' =>
            simp at h' hx
            rw [hx.1] at h'; simp at h'
          | _ :: _ :: _, h' => simp at h'
        · simp at hx
          obtain ⟨v, t, i, h⟩ := hf
          rw [hx.1] at h; simp at h
    | @last s' e' h6 h7 h8 h9 h10 =>
      exfalso
      subst h8
      have h9 : e'.data = .streamEnd := by simpa [isStreamEndEvent] using h9
      have hfe : first = e' := by
        rcases hcmp (l := [e']) h7 h3 rfl with ⟨r, hr⟩ | ⟨r, hr⟩
        · simp at hr
        · simp at hr; exact hr.1
      obtain ⟨v, t, i, h⟩ := hf
      rw [hfe, h9] at h; simp at h
    | @document s' devs' first' last' j' h6 h7 h8 h9 h10 h11 h12 h13 =>
      subst h9
      have key : first' = first ∧ devs' = devs ∧ last' = last := by
        rcases hcmp (l := first' :: (devs' ++ [last'])) h8 h3 rfl with ⟨r, hr⟩ | ⟨r, hr⟩
        · simp at hr
          obtain ⟨rfl, hr⟩ := hr
          rcases List.eq_nil_or_concat r with rfl | ⟨r', y, rfl⟩
          · simp at hr
            exact ⟨rfl, hr.1, hr.2⟩
          · rw [List.concat_eq_append, ← List.cons_append, ← List.append_assoc] at hr
            have := (List.append_inj' hr rfl).1
            exact absurd hlast (h11 last (by rw [this]; simp) j)
        · simp at hr
          obtain ⟨rfl, hr⟩ := hr
          rcases List.eq_nil_or_concat r with rfl | ⟨r', y, rfl⟩
          · simp at hr
            exact ⟨rfl, hr.1.symm, hr.2.symm⟩
          · rw [List.concat_eq_append, ← List.cons_append, ← List.append_assoc] at hr
            have := (List.append_inj' hr rfl).1
            exact absurd h10 (hn last' (by rw [this]; simp) j')
      obtain ⟨rfl, rfl, rfl⟩ := key
      have hss : s' = s := by
        have hl := hlen h8
        have : (s' ++ first' :: (devs' ++ [last'])).length = (s ++ first' :: devs' ++ [last']).length := by simp; omega
        rcases Parses.comparable hp h3 with ⟨r, h5, _⟩ | ⟨r, h5, _⟩
        · have h5 : s' ++ (first' :: (devs' ++ [last'])) = s ++ (first' :: (devs' ++ [last'])) ++ r := by rw [h5]; simp
          rw [List.append_assoc] at h5
          exact (List.append_inj h5 hl).1
        · have h5 : s ++ (first' :: (devs' ++ [last'])) = s' ++ ((first' :: (devs' ++ [last'])) ++ r) := by rw [← List.append_assoc, ← h5]; simp
          exact ((List.append_inj h5 hl.symm).1).symm
      subst hss
      refine ⟨d, ?_, h13⟩
      have := Parses.same hp (by simpa using h3)
      rw [this]

/-- C48.  If `parse` would return the end of the stream, `load` returns the empty document. -/
theorem C48_load_end (hF : 16 * srcSize items + 10 < F) (h : Loads F (new items enc) ds o) {s : List Event} {last : Event} {o2 : ParserObj}
    (hp : Parses F o (s ++ [last]) o2) (hs : (ds = [] ∧ ∃ e, s.map (·.data) = [.streamStart e]) ∨ (ds ≠ [] ∧ s = []))
    (hlast : last.data = .streamEnd) : o.load F = (.ok emptyDocument, o2) := by
  obtain ⟨T, ts, fin, pre, _, _, _, hb, hfin, _, h2, hh⟩ := loads_inv hF h
  have hpre := loadHistory_fresh hh
  have hlen : ∀ {s' : List Event}, Starts pre s' → s'.length = s.length := by
    intro s' h
    rcases h with ⟨h1, e, h⟩ | ⟨h1, rfl⟩
    · rcases hs with ⟨_, e', h'⟩ | ⟨h', _⟩
      · have := congrArg List.length h
        have := congrArg List.length h'
        simp at *; omega
      · exact absurd (hpre.1 h1) h'
    · rcases hs with ⟨h', _⟩ | ⟨_, rfl⟩
      · exact absurd (hpre.2 h') h1
      · rfl
  have hread : ∀ {evs : List Event} {r : List Event}, Reading pre evs → evs = (s ++ [last]) ++ r → False := by
    intro evs r hr hev'
    cases hr with
    | fresh h => simp at hev'
    | started h =>
      have := hlen h
      have := congrArg List.length hev'
      simp at this; omega
    | @inside s' devs' first' h hf' hn' ha' =>
      have hl := hlen h
      have hev' : s' ++ (first' :: devs') = s ++ (last :: r) := by rw [hev']; simp
      obtain ⟨rfl, h5⟩ := List.append_inj hev' hl
      simp at h5
      obtain ⟨rfl, rfl⟩ := h5
      obtain ⟨v, t, i, h⟩ := hf'
      rw [hlast] at h; cases h
  have hno : ∀ {evs o3}, Reading pre evs → Parses F o evs o3 → (∀ x, (o3.parse F).1 ≠ .ok x) → False := by
    intro evs o3 hr h3 hx
    rcases Parses.comparable hp h3 with ⟨r, h4, _⟩ | ⟨r, h4, h5⟩
    · exact hread hr h4
    · rcases Parses.uncons h5 with ⟨rfl, _⟩ | ⟨x, r', p', rfl, g1, _⟩
      · exact hread (r := []) hr (by rw [h4]; simp)
      · exact hx x (by rw [g1])
  -- the event after the start is the end
  have hfst : ∀ {s' l : List Event} {x : Event} {o3 : ParserObj}, Starts pre s' → Parses F o (s' ++ x :: l) o3 → s' = s ∧ x = last := by
    intro s' l x o3 h h3
    have h4 := hlen h
    rcases Parses.comparable hp h3 with ⟨r, h5, _⟩ | ⟨r, h5, _⟩
    · rw [List.append_assoc] at h5
      obtain ⟨h6, h7⟩ := List.append_inj h5 h4
      simp at h7
      exact ⟨h6, h7.1⟩
    · rw [List.append_assoc] at h5
      obtain ⟨h6, h7⟩ := List.append_inj h5 h4.symm
      simp at h7
      exact ⟨h6.symm, h7.1.symm⟩
  have hbet := h2
  have := wpO_load hb (hfin.imp (fun ⟨e, h, _⟩ => ⟨e, h⟩) (fun ⟨e, h, _⟩ => ⟨e, h⟩)) h2
  unfold wpO at this
  have e0 : o.run F (Document.load F) = o.load F := rfl
  rw [e0] at this
  generalize o.load F = q at this ⊢
  obtain ⟨r, o'⟩ := q
  cases r with
  | fuel => exact this.elim
  | panic x =>
    obtain ⟨_, evs, o3, h3, h4, h5⟩ := this
    exact (hno h3 h4 (by rw [h5]; simp)).elim
  | err e' =>
    exfalso
    cases this.1 with
    | parser h3 h4 h5 => exact hno h3 h4 (by rw [h5]; simp)
    | @anchor s' devs' first' ev' o3 h3 h4 h5 h6 h7 h8 =>
      obtain ⟨_, rfl⟩ := hfst (l := devs' ++ [ev']) h4 (by simpa using h3)
      obtain ⟨v, t, i, h⟩ := h5
      rw [hlast] at h; cases h
  | ok d =>
    obtain ⟨evs, h3, _, h5⟩ := this
    cases h5 with
    | ended h6 h7 h8 =>
      subst h8
      obtain ⟨G, D, c, toks, st, pk, hi, _⟩ := hbet
      have hG : G = .done := by
        by_cases hG : G = .done
        · exact hG
        · exact absurd h6 (hi.notEnd hG)
      subst hG
      have hend := PInv.ended (F := F) (hi.good.pos.done_iff.2 rfl)
      have hne : pre ≠ [] := by
        rintro rfl
        obtain ⟨e, he, _⟩ := h6
        simp at he
      rcases hs with ⟨h', _⟩ | ⟨_, rfl⟩
      · exact absurd (hpre.2 h') hne
      · rcases Parses.uncons hp with ⟨h, _⟩ | ⟨x, r', p', hx, g1, g2⟩
        · simp at h
        · rw [hend] at g1
          simp at hx
          obtain ⟨rfl, rfl⟩ := hx
          cases g1
          rcases Parses.uncons g2 with ⟨_, h⟩ | ⟨_, _, _, h, _⟩
          · subst h7
            rcases Parses.uncons h3 with ⟨_, h'⟩ | ⟨_, _, _, h', _⟩
            · rw [h, h']
            · cases h'
          · cases h
    | @last s' e' h6 h7 h8 h9 h10 =>
      subst h8 h10
      obtain ⟨rfl, rfl⟩ := hfst h7 h3
      rw [Parses.same hp h3]
    | @document s' devs' first' last' j' h6 h7 h8 h9 h10 h11 h12 h13 =>
      exfalso
      subst h9
      obtain ⟨_, rfl⟩ := hfst h8 h3
      obtain ⟨_, _, _, _, _, _, _, _, he, _, h, _⟩ := h13
      simp at he
      rw [← he.1, hlast] at h; cases h

mutual
theorem good_noEnd : ∀ (t : Tree), t.Good → ∀ x ∈ t.events, ∀ j, x.data ≠ .documentEnd j
  | .leaf e, h, x, hx, j => by
    simp [Tree.events] at hx
    subst hx
    rcases h with ⟨a, h⟩ | ⟨_, _, _, _, _, _, h⟩ <;> rw [h] <;> simp
  | .coll s cs t, h, x, hx, j => by
    obtain ⟨h1, h2⟩ := h
    simp only [Tree.events, List.mem_cons, List.mem_append, List.not_mem_nil, or_false] at hx
    rcases hx with rfl | hx | rfl
    · rcases h1 with ⟨_, _, _, _, h, _⟩ | ⟨_, _, _, _, h, _⟩ <;> rw [h] <;> simp
    · exact goodAll_noEnd cs h2 x hx j
    · rcases h1 with ⟨_, _, _, _, _, h⟩ | ⟨_, _, _, _, _, h, _⟩ <;> rw [h] <;> simp
theorem goodAll_noEnd : ∀ (ts : List Tree), GoodAll ts → ∀ x ∈ eventsAll ts, ∀ j, x.data ≠ .documentEnd j
  | [], _, x, hx, j => by simp [eventsAll] at hx
  | t :: ts, h, x, hx, j => by
    simp only [eventsAll, List.mem_append] at hx
    rcases hx with hx | hx
    · exact good_noEnd t h.1 x hx j
    · exact goodAll_noEnd ts h.2 x hx j
end

/-- The nodes of a document are determined by its events. -/
theorem DocumentOf.unique {evs : List Event} {d d' : Document} (h : DocumentOf evs d) (h' : DocumentOf evs d') : d = d' := by
  obtain ⟨f, l, r, v, t, i, j, ns, rfl, g1, g2, g3, g4, g5⟩ := h
  obtain ⟨f', l', r', v', t', i', j', ns', he, k1, k2, k3, k4, k5⟩ := h'
  simp only [List.cons.injEq] at he
  obtain ⟨rfl, he⟩ := he
  obtain ⟨hev, hl⟩ := List.append_inj' he rfl
  cases hl
  rw [g2] at k2; cases k2
  rw [g3] at k3; cases k3
  have a1 := lrun_tree r [] [] [] g1 (by simp) (by intro x hx; simp [namesOf] at hx)
  have a2 := lrun_tree r' [] [] [] k1 (by simp) (by intro x hx; simp [namesOf] at hx)
  have g4' : r.compose (namesOf []) ([] : List Node).length = some (1, d.nodes, ns) := g4
  have k4' : r'.compose (namesOf []) ([] : List Node).length = some (1, d'.nodes, ns') := k4
  rw [g4'] at a1
  rw [k4', ← hev] at a2
  obtain ⟨al, b1, _⟩ := a1
  obtain ⟨al', b2, _⟩ := a2
  rw [b1] at b2
  have hn : d.nodes = d'.nodes := by simpa [attach] using congrArg (fun q : Option LSt => (q.map (·.1)).getD []) b2
  obtain ⟨x1, x2, x3, x4, x5, x6⟩ := g5
  obtain ⟨y1, y2, y3, y4, y5, y6⟩ := k5
  cases d; cases d'
  simp_all

/-- The anchors of a document that can be composed are in order. -/
theorem DocumentOf.anchors {evs : List Event} {d : Document} (h : DocumentOf evs d) :
    ∃ first devs last j, evs = first :: (devs ++ [last]) ∧ (∃ v t i, first.data = .documentStart v t i) ∧ last.data = .documentEnd j ∧
      (∀ x ∈ devs, ∀ j, x.data ≠ .documentEnd j) ∧ AnchorsOk devs := by
  obtain ⟨first, last, root, v, t, i, j, names, he, hg, g1, g2, hc, g⟩ := h
  refine ⟨first, root.events, last, j, he, ⟨v, t, i, g1⟩, g2, good_noEnd root hg, ?_⟩
  have hl := lrun_tree root [] [] [] hg (by simp) (by intro x hx; simp [namesOf] at hx)
  have hc : root.compose (namesOf []) ([] : List Node).length = some (1, d.nodes, names) := hc
  rw [hc] at hl
  obtain ⟨al', hl, _⟩ := hl
  exact lrun_anchors hl

theorem Parses.split {F : Nat} {a b : List Event} {p q : ParserObj} (h : Parses F p (a ++ b) q) : ∃ m, Parses F p a m ∧ Parses F m b q := by
  induction a generalizing p with
  | nil => exact ⟨p, .nil, h⟩
  | cons x a ih =>
    rcases Parses.uncons h with ⟨h, _⟩ | ⟨y, r, p', h, g1, g2⟩
    · simp at h
    · simp at h
      obtain ⟨rfl, rfl⟩ := h
      obtain ⟨m, k1, k2⟩ := ih g2
      exact ⟨m, Parses.cons g1 k1, k2⟩

/-- C48.  If `parse` returns a whole stream with the documents `ds`, then calling `load` again and again returns exactly these
documents, and then the empty document. -/
theorem C48_load_all (hF : 16 * srcSize items + 10 < F) {first last : Event} {body : List Event} {e : Encoding}
    (hp : Parses F (new items enc) (first :: (body ++ [last])) o) (h1 : first.data = .streamStart e) (h2 : last.data = .streamEnd)
    (hd : DocumentsOf body ds) : Loads F (new items enc) (ds ++ [emptyDocument]) o := by
  have hp' : Parses F (new items enc) ((first :: body) ++ [last]) o := by simpa using hp
  obtain ⟨m, hm, hl⟩ := Parses.split hp'
  have key : ∀ {body ds m}, DocumentsOf body ds → Parses F (new items enc) (first :: body) m →
      ∃ m' s, Loads F (new items enc) ds m' ∧ Parses F m' s m ∧ ((ds = [] ∧ s = [first]) ∨ (ds ≠ [] ∧ s = [])) := by
    intro body ds m hd hm
    clear hl hp hp' h2
    induction hd generalizing m with
    | nil => exact ⟨_, [first], .nil, hm, Or.inl ⟨rfl, rfl⟩⟩
    | @snoc evs devs ds d hds hd ih =>
      have hm : Parses F (new items enc) ((first :: evs) ++ devs) m := by simpa using hm
      obtain ⟨k, hk1, hk2⟩ := Parses.split hm
      obtain ⟨m', s, i1, i2, i3⟩ := ih hk1
      obtain ⟨f, ds', l, j, rfl, a1, a2, a3, a4⟩ := DocumentOf.anchors hd
      obtain ⟨d', b1, b2⟩ := C48_load_succeeds hF i1 (s := s) (first := f) (devs := ds') (last := l) (o2 := m) (by simpa using i2.append hk2)
        (by rcases i3 with ⟨h, rfl⟩ | h
            · exact Or.inl ⟨h, e, by simp [h1]⟩
            · exact Or.inr h) a1 a3 a2 a4
      cases DocumentOf.unique hd b2
      exact ⟨m, [], .snoc i1 b1, .nil, Or.inr ⟨by simp, rfl⟩⟩
  obtain ⟨m', s, i1, i2, i3⟩ := key hd hm
  have := C48_load_end hF i1 (s := s) (last := last) (o2 := o) (i2.append hl)
    (by rcases i3 with ⟨h, rfl⟩ | h
        · exact Or.inl ⟨h, e, by simp [h1]⟩
        · exact Or.inr h) h2
  exact .snoc i1 this

/-- The hypotheses are met by `sampleLoad` (two documents, with an anchor, an alias and collections). -/
theorem C48_sample : ∃ first body last o ds, Parses 500 (new sampleLoad) (first :: (body ++ [last])) o ∧ first.data = .streamStart .utf8 ∧ last.data = .streamEnd ∧
    DocumentsOf body ds ∧ ds.map (fun d => d.nodes.map (·.data)) =
      [[.sequence [2, 2] .block, .scalar ['x'] .plain], [.mapping [(2, 3)] .flow, .scalar ['k'] .plain, .scalar ['v'] .plain]] := by
  obtain ⟨h1, h2, h3⟩ := sample_loads
  have h4 : (loadN 500 4 (new sampleLoad)).1 = (loadN 500 2 (new sampleLoad)).1 ++ [emptyDocument, emptyDocument] := by decide +kernel
  have h5 : (loadN 500 2 (new sampleLoad)).1.map (fun d => d.nodes.map (·.data)) =
      [[.sequence [2, 2] .block, .scalar ['x'] .plain], [.mapping [(2, 3)] .flow, .scalar ['k'] .plain, .scalar ['v'] .plain]] := by decide +kernel
  obtain ⟨evs, g1, s, body, tail, ds1, n, rfl, g2, g3, g4, g5, _⟩ := C22_load_composes_events h2 h1
  rw [h4] at g3
  generalize (loadN 500 2 (new sampleLoad)).1 = D at g3 h5
  have hn : n = 2 := by
    have hne : ∀ d ∈ ds1, d.nodes ≠ [] := fun d hd => by
      obtain ⟨devs, h⟩ := DocumentsOf.mem g2 d hd
      exact (DocumentOf.fine h).1
    have hc := congrArg (fun l : List Document => (l.filter fun d => d.nodes.isEmpty).length) g3
    have hD : ∀ d ∈ D, d.nodes ≠ [] := by
      intro d hd hx
      have : d.nodes.map (·.data) ∈ D.map (fun d => d.nodes.map (·.data)) := List.mem_map.2 ⟨d, hd, rfl⟩
      rw [h5, hx] at this
      simp at this
    have e1 : (D.filter fun d => d.nodes.isEmpty) = [] := by
      rw [List.filter_eq_nil_iff]; intro d hd; simp [hD d hd]
    have e2 : (ds1.filter fun d => d.nodes.isEmpty) = [] := by
      rw [List.filter_eq_nil_iff]; intro d hd; simp [hne d hd]
    simp only [List.filter_append, e1, e2] at hc
    have e3 : (List.replicate n emptyDocument).filter (fun d => d.nodes.isEmpty) = List.replicate n emptyDocument :=
      List.filter_eq_self.2 (by intro d hd; have := (List.mem_replicate.1 hd).2; subst this; rfl)
    rw [e3] at hc
    simp [emptyDocument] at hc
    omega
  subst hn
  have : D = ds1 := (List.append_inj' g3 (by simp)).1
  subst this
  rcases g4 with ⟨h, _⟩ | ⟨_, e, rfl, h6⟩
  · cases h
  · rcases g5 with ⟨h, _⟩ | ⟨_, e', h7⟩
    · rw [h4] at h; simp at h
    · obtain ⟨x, rfl, h8⟩ := map_single h7
      refine ⟨x, body, e, _, _, by simpa using g1, ?_, by simpa [isStreamEndEvent] using h6, g2, h5⟩
      have hx : (parseN 500 1 (new sampleLoad)).1.map (·.data) = [.streamStart .utf8] := by decide +kernel
      have hx' := parseN_parses (F := 500) 1 (new sampleLoad) (by decide +kernel)
      generalize (parseN 500 1 (new sampleLoad)).1 = l at hx hx'
      obtain ⟨y, rfl, hy⟩ := map_single hx
      rcases Parses.uncons hx' with ⟨h, _⟩ | ⟨_, _, _, ha, hb, _⟩
      · cases h
      · cases ha
        have g1 : Parses 500 (new sampleLoad) (x :: (body ++ [e])) (loadN 500 4 (new sampleLoad)).2.2 := by simpa using g1
        rcases Parses.uncons g1 with ⟨h, _⟩ | ⟨_, _, _, hc, hd, _⟩
        · cases h
        · cases hc
          rw [hb] at hd
          cases hd
          exact hy

end Yaml.Props
