import Verif.Lib.Grammar
import Verif.Lib.Aliases
import Verif.Spec.Compose

/-
The loader's stack machine as a pure function on events, and what it computes on a tree.
-/

namespace Yaml
open Spec Document
set_option linter.unusedSimpArgs false
set_option linter.unusedVariables false

/-- Add a child to a collection. -/
def addTo : NodeData → Nat → NodeData
  | .sequence items st, i => .sequence (items ++ [i]) st
  | .mapping ps st, i => .mapping (addToPairs ps i) st
  | x, _ => x

/-- Attach node `i` to the innermost open collection. -/
def attach (ns : List Node) (ctx : List Nat) (i : Nat) : List Node :=
  match ctx with
  | [] => ns
  | p :: _ => ns.modify (p - 1) fun n => { n with data := addTo n.data i }

/-- Nodes, open collections, anchors. -/
abbrev LSt := List Node × List Nat × List AliasData

/-- Register an anchor. -/
def reg (al : List AliasData) (anchor : Option Str) (i : Nat) (m : Mark) : Option (List AliasData) :=
  match anchor with
  | none => some al
  | some a => match al.find? (fun x => x.anchor == a) with
    | some _ => none
    | none => some (al ++ [⟨a, i, m⟩])

/-- A new node. -/
def lpush (st : LSt) (node : Node) (anchor : Option Str) (isOpen : Bool) : Option LSt :=
  (reg st.2.2 anchor (st.1.length + 1) node.startMark).map fun al =>
    (attach (st.1 ++ [node]) st.2.1 (st.1.length + 1), if isOpen then (st.1.length + 1) :: st.2.1 else st.2.1, al)

/-- One event inside a document. -/
def lstep (st : LSt) (e : Event) : Option LSt :=
  match e.data with
  | .alias a => (st.2.2.find? (fun x => x.anchor == a)).map fun x => (attach st.1 st.2.1 x.index, st.2.1, st.2.2)
  | .scalar anchor tag v _ _ y => lpush st ⟨.scalar v y, loadTag tag strTag, e.startMark, e.endMark⟩ anchor false
  | .sequenceStart anchor tag _ y => lpush st ⟨.sequence [] y, loadTag tag seqTag, e.startMark, e.endMark⟩ anchor true
  | .mappingStart anchor tag _ y => lpush st ⟨.mapping [] y, loadTag tag mapTag, e.startMark, e.endMark⟩ anchor true
  | .sequenceEnd | .mappingEnd =>
    match st.2.1 with
    | [] => none
    | i :: ctx => some (st.1.modify (i - 1) fun n => { n with endMark := e.endMark }, ctx, st.2.2)
  | _ => none

/-- Several events. -/
def lrun (st : LSt) : List Event → Option LSt
  | [] => some st
  | e :: es => (lstep st e).bind fun st' => lrun st' es

theorem lrun_cons (st : LSt) (e : Event) (es : List Event) : lrun st (e :: es) = (lstep st e).bind fun st' => lrun st' es := rfl

theorem lrun_append (st : LSt) (es es' : List Event) : lrun st (es ++ es') = (lrun st es).bind fun st' => lrun st' es' := by
  induction es generalizing st with
  | nil => rfl
  | cons e es ih =>
    show (lstep st e).bind _ = ((lstep st e).bind _).bind _
    rw [Option.bind_assoc]
    congr 1
    funext st'
    exact ih st'

/-! ### What it computes -/

/-- Anchors and node numbers. -/
def namesOf (al : List AliasData) : Names := al.map fun a => (a.anchor, a.index)

theorem find_names (al : List AliasData) (a : Str) :
    (namesOf al).find a = (al.find? (fun x => x.anchor == a)).map (·.index) := by
  unfold Names.find namesOf
  rw [List.find?_map, Option.map_map]
  congr 1
  congr 1
  funext x
  simp only [Function.comp]
  by_cases h : x.anchor = a <;> simp [h]

theorem any_eq_find {α : Type} (p : α → Bool) (l : List α) : l.any p = (l.find? p).isSome := by
  induction l with
  | nil => rfl
  | cons x l ih => cases h : p x <;> simp [List.any_cons, List.find?_cons, h, ih]

theorem define_names (al : List AliasData) (anchor : Option Str) (i : Nat) (m : Mark) :
    (namesOf al).define anchor i = (reg al anchor i m).map namesOf := by
  cases anchor with
  | none => rfl
  | some a =>
    unfold Names.define reg
    dsimp only
    have e : (namesOf al).any (fun x => x.1 = a) = (al.find? (fun x => x.anchor == a)).isSome := by
      rw [← any_eq_find]
      unfold namesOf
      rw [List.any_map]
      congr 1
      funext x
      simp only [Function.comp]
      by_cases h : x.anchor = a <;> simp [h]
    rw [e]
    cases al.find? (fun x => x.anchor == a) with
    | some x => simp
    | none => simp [namesOf]

theorem modify_left {α : Type} (f : α → α) : ∀ (i : Nat) (l r : List α), i < l.length → (l ++ r).modify i f = l.modify i f ++ r
  | _, [], _, h => by simp at h
  | 0, a :: l, r, _ => by simp
  | i + 1, a :: l, r, h => by
    simp only [List.cons_append, List.modify_succ_cons]
    rw [modify_left f i l r (by simpa using h)]

theorem modify_right {α : Type} (f : α → α) : ∀ (i : Nat) (l r : List α), l.length ≤ i → (l ++ r).modify i f = l ++ r.modify (i - l.length) f
  | _, [], _, _ => by simp
  | 0, a :: l, r, h => by simp at h
  | i + 1, a :: l, r, h => by
    simp only [List.cons_append, List.modify_succ_cons, List.length_cons]
    rw [modify_right f i l r (by simpa using h)]
    congr 2
    congr 1
    omega

theorem attach_append {ns new : List Node} {ctx : List Nat} {i : Nat} (h : ∀ p ∈ ctx.head?, 1 ≤ p ∧ p ≤ ns.length) :
    attach (ns ++ new) ctx i = attach ns ctx i ++ new := by
  cases ctx with
  | nil => rfl
  | cons p r =>
    have := h p (by simp)
    unfold attach
    dsimp only
    exact modify_left _ _ _ _ (by omega)

theorem attach_length (ns : List Node) (ctx : List Nat) (i : Nat) : (attach ns ctx i).length = ns.length := by
  unfold attach
  split <;> simp

/-- Attach several nodes. -/
def attachAll (ns : List Node) (ctx : List Nat) (ids : List Nat) : List Node := ids.foldl (fun ns i => attach ns ctx i) ns

theorem attachAll_append {new : List Node} {ctx : List Nat} (ids : List Nat) : ∀ {ns : List Node}, (∀ p ∈ ctx.head?, 1 ≤ p ∧ p ≤ ns.length) →
    attachAll (ns ++ new) ctx ids = attachAll ns ctx ids ++ new := by
  induction ids with
  | nil => intros; rfl
  | cons i ids ih =>
    intro ns h
    show attachAll (attach (ns ++ new) ctx i) ctx ids = attachAll (attach ns ctx i) ctx ids ++ new
    rw [attach_append h, ih (by rw [attach_length]; exact h)]

theorem attachAll_length (ctx : List Nat) (ids : List Nat) : ∀ ns, (attachAll ns ctx ids).length = ns.length := by
  induction ids with
  | nil => intros; rfl
  | cons i ids ih => intro ns; show (attachAll (attach ns ctx i) ctx ids).length = _; rw [ih, attach_length]

theorem attachAll_last (ids : List Nat) : ∀ (ns : List Node) (c : Node) (ctx : List Nat),
    attachAll (ns ++ [c]) ((ns.length + 1) :: ctx) ids = ns ++ [{ c with data := ids.foldl addTo c.data }] := by
  induction ids with
  | nil => intros; rfl
  | cons i ids ih =>
    intro ns c ctx
    show attachAll (attach (ns ++ [c]) ((ns.length + 1) :: ctx) i) ((ns.length + 1) :: ctx) ids = _
    have : attach (ns ++ [c]) ((ns.length + 1) :: ctx) i = ns ++ [{ c with data := addTo c.data i }] := by
      unfold attach
      dsimp only
      rw [modify_right _ _ _ _ (by omega)]
      simp
    rw [this, ih]; rfl

theorem foldl_addTo_seq (ids items : List Nat) (y : CollStyle) : ids.foldl addTo (.sequence items y) = .sequence (items ++ ids) y := by
  induction ids generalizing items with
  | nil => simp
  | cons i ids ih => simp [addTo, ih]

theorem addToPairs_full (ps : List (Nat × Nat)) (h : ∀ p ∈ ps, p.2 ≠ 0) (i : Nat) : addToPairs ps i = ps ++ [(i, 0)] := by
  induction ps with
  | nil => rfl
  | cons p ps ih =>
    cases ps with
    | nil =>
      have := h p (by simp)
      simp [addToPairs, this]
    | cons q r =>
      rw [addToPairs, ih (fun x hx => h x (by simp at hx ⊢; right; exact hx))]; rfl

theorem addToPairs_half (ps : List (Nat × Nat)) (k i : Nat) : addToPairs (ps ++ [(k, 0)]) i = ps ++ [(k, i)] := by
  induction ps with
  | nil => simp [addToPairs]
  | cons p ps ih =>
    cases ps with
    | nil => simp [addToPairs]
    | cons q r =>
      show p :: addToPairs ((q :: r) ++ [(k, 0)]) i = _
      rw [ih]; rfl

theorem foldl_addTo_map (y : CollStyle) : ∀ (ids : List Nat) (ps : List (Nat × Nat)), ids.length % 2 = 0 → (∀ i ∈ ids, i ≠ 0) → (∀ p ∈ ps, p.2 ≠ 0) →
    ids.foldl addTo (.mapping ps y) = .mapping (ps ++ pairUp ids) y
  | [], ps, _, _, _ => by simp [pairUp]
  | [_], _, h, _, _ => by simp at h
  | k :: v :: r, ps, h, hi, hp => by
    simp only [List.foldl_cons, addTo, pairUp]
    rw [addToPairs_full ps hp, addToPairs_half, foldl_addTo_map y r _ (by simp at h; omega) (fun i hx => hi i (by simp [hx]))]
    · simp
    · intro p hpm
      simp at hpm
      rcases hpm with h' | rfl
      · exact hp p h'
      · exact hi v (by simp)

theorem reg_length {al al' : List AliasData} {anchor : Option Str} {i : Nat} {m : Mark} (h : reg al anchor i m = some al')
    (hal : ∀ a ∈ al, 1 ≤ a.index ∧ a.index ≤ n) (hi : 1 ≤ i ∧ i ≤ n') (hn : n ≤ n') : ∀ a ∈ al', 1 ≤ a.index ∧ a.index ≤ n' := by
  unfold reg at h
  split at h
  · simp at h; subst h
    intro a ha; have := hal a ha; omega
  · split at h
    · simp at h
    · simp at h; subst h
      intro a ha
      simp at ha
      rcases ha with ha | rfl
      · have := hal a ha; omega
      · exact hi

theorem loadTag_eq (tag : Option Str) (d : Str) : loadTag tag d = tagOr tag d := by
  unfold loadTag tagOr
  cases tag with
  | none => simp
  | some t => simp

/-- Names refer to existing nodes. -/
def NamesIn (names : Names) (n : Nat) : Prop := ∀ x ∈ names, 1 ≤ x.2 ∧ x.2 ≤ n

theorem NamesIn.find {names : Names} {n i : Nat} {a : Str} (h : NamesIn names n) (hf : names.find a = some i) : 1 ≤ i ∧ i ≤ n := by
  unfold Names.find at hf
  cases hx : names.find? (fun x => x.1 = a) with
  | none => rw [hx] at hf; simp at hf
  | some x =>
    rw [hx] at hf; simp at hf
    rw [← hf]
    exact h x (List.mem_of_find?_eq_some hx)

theorem NamesIn.define {names names' : Names} {n i n' : Nat} {a : Option Str} (h : NamesIn names n) (hf : names.define a i = some names')
    (h1 : 1 ≤ i) (h2 : i ≤ n') (hn : n ≤ n') : NamesIn names' n' := by
  unfold Names.define at hf
  cases a with
  | none => simp at hf; subst hf; intro x hx; have := h x hx; omega
  | some a =>
    dsimp only at hf
    split at hf
    · simp at hf
    · simp at hf; subst hf
      intro x hx
      simp at hx
      rcases hx with hx | rfl
      · have := h x hx; omega
      · exact ⟨h1, h2⟩

/-- The nodes that a node refers to, all existing; pairs complete. -/
def RefsIn (N : Nat) (nodes : List Node) : Prop := ∀ n ∈ nodes, ∀ r ∈ refs n.data, 1 ≤ r ∧ r ≤ N

theorem RefsIn.mono {N M : Nat} {nodes : List Node} (h : RefsIn N nodes) (hl : N ≤ M) : RefsIn M nodes := by
  intro n hn r hr; have := h n hn r hr; omega

theorem refs_pairUp : ∀ (ids : List Nat), ∀ r ∈ (pairUp ids).flatMap (fun p => [p.1, p.2]), r ∈ ids
  | [] => by simp [pairUp]
  | [_] => by simp [pairUp]
  | k :: v :: r => by
    intro x hx
    simp only [pairUp, List.flatMap_cons, List.mem_append] at hx
    rcases hx with hx | hx
    · simp at hx; simp; rcases hx with h | h <;> simp [h]
    · have := refs_pairUp r x hx; simp [this]

/-- What a composed node is: a number in range, the anchors known and all references in range. -/
structure Fine (n : Nat) (id : Nat) (new : List Node) (names : Names) : Prop where
  id : 1 ≤ id ∧ id ≤ n + new.length
  names : NamesIn names (n + new.length)
  refs : RefsIn (n + new.length) new
  tags : ∀ m ∈ new, ∃ t, m.tag = some t
  data : ∀ m ∈ new, m.data ≠ .noNode

structure FineAll (n : Nat) (ids : List Nat) (new : List Node) (names : Names) : Prop where
  ids : ∀ i ∈ ids, 1 ≤ i ∧ i ≤ n + new.length
  names : NamesIn names (n + new.length)
  refs : RefsIn (n + new.length) new
  tags : ∀ m ∈ new, ∃ t, m.tag = some t
  data : ∀ m ∈ new, m.data ≠ .noNode

theorem tagOr_some (tag : Option Str) (d : Str) : ∃ t, tagOr tag d = some t := by
  unfold tagOr
  split
  · exact ⟨_, rfl⟩
  · rename_i h
    cases tag with
    | none => simp at h
    | some t => exact ⟨t, rfl⟩

theorem composeAll_length : ∀ (cs : List Tree) {names : Names} {n : Nat} {q : List Nat × List Node × Names}, composeAll names n cs = some q → q.1.length = cs.length
  | [], _, _, q, h => by simp [composeAll] at h; subst h; rfl
  | t :: ts, names, n, q, h => by
    unfold composeAll at h
    cases h1 : t.compose names n with
    | none => rw [h1] at h; simp at h
    | some q1 =>
      rw [h1] at h
      simp only [Option.bind_some] at h
      cases h2 : composeAll q1.2.2 (n + q1.2.1.length) ts with
      | none => rw [h2] at h; simp at h
      | some r =>
        rw [h2] at h; simp at h; subst h
        simp [composeAll_length ts h2]

mutual
theorem compose_fine : ∀ (t : Tree) {names names' : Names} {n id : Nat} {new : List Node}, NamesIn names n →
    t.compose names n = some (id, new, names') → Fine n id new names'
  | .leaf e, names, names', n, id, new, hn, h => by
    unfold Tree.compose at h
    split at h
    · cases hf : names.find ‹_› with
      | none => rw [hf] at h; simp at h
      | some i =>
        rw [hf] at h; simp at h
        obtain ⟨rfl, rfl, rfl⟩ := h
        exact ⟨by simpa using hn.find hf, by simpa using hn, by intro n hn; simp at hn, by simp, by simp⟩
    · rename_i anchor tag value _ _ style _
      cases hd : names.define anchor (n + 1) with
      | none => rw [hd] at h; simp at h
      | some names2 =>
        rw [hd] at h; simp at h
        obtain ⟨rfl, rfl, rfl⟩ := h
        refine ⟨by simp, by simpa using hn.define hd (by omega) (Nat.le_refl _) (by omega), ?_, ?_, by simp⟩
        · intro m hm; simp at hm; subst hm; simp [refs]
        · intro m hm; simp at hm; subst hm; exact tagOr_some _ _
    · simp at h
  | .coll s cs t, names, names', n, id, new, hn, h => by
    unfold Tree.compose at h
    split at h
    · rename_i anchor tag _ style _
      cases hd : names.define anchor (n + 1) with
      | none => rw [hd] at h; simp at h
      | some names2 =>
        rw [hd] at h; simp at h
        obtain ⟨ids, nodes, names3, h1, rfl, rfl, rfl⟩ := h
        have f := composeAll_fine cs (hn.define hd (by omega) (Nat.le_refl _) (by omega)) h1
        refine ⟨by simp, by have := f.names; simpa [Nat.add_assoc, Nat.add_comm 1] using this, ?_, ?_, ?_⟩
        · intro m hm
          simp only [List.mem_cons] at hm
          rcases hm with rfl | hm
          · intro r hr
            have := f.ids r hr
            simp; omega
          · intro r hr
            have := f.refs m hm r hr
            simp; omega
        · intro m hm
          simp only [List.mem_cons] at hm
          rcases hm with rfl | hm
          · exact tagOr_some _ _
          · exact f.tags m hm
        · intro m hm
          simp only [List.mem_cons] at hm
          rcases hm with rfl | hm
          · simp
          · exact f.data m hm
    · rename_i anchor tag _ style _
      cases hd : names.define anchor (n + 1) with
      | none => rw [hd] at h; simp at h
      | some names2 =>
        rw [hd] at h; simp at h
        obtain ⟨ids, nodes, names3, h1, rfl, rfl, rfl⟩ := h
        have f := composeAll_fine cs (hn.define hd (by omega) (Nat.le_refl _) (by omega)) h1
        refine ⟨by simp, by have := f.names; simpa [Nat.add_assoc, Nat.add_comm 1] using this, ?_, ?_, ?_⟩
        · intro m hm
          simp only [List.mem_cons] at hm
          rcases hm with rfl | hm
          · intro r hr
            have := f.ids r (refs_pairUp _ r hr)
            simp; omega
          · intro r hr
            have := f.refs m hm r hr
            simp; omega
        · intro m hm
          simp only [List.mem_cons] at hm
          rcases hm with rfl | hm
          · exact tagOr_some _ _
          · exact f.tags m hm
        · intro m hm
          simp only [List.mem_cons] at hm
          rcases hm with rfl | hm
          · simp
          · exact f.data m hm
    · simp at h

theorem composeAll_fine : ∀ (cs : List Tree) {names names' : Names} {n : Nat} {ids : List Nat} {new : List Node}, NamesIn names n →
    composeAll names n cs = some (ids, new, names') → FineAll n ids new names'
  | [], names, names', n, ids, new, hn, h => by
    simp [composeAll] at h
    obtain ⟨rfl, rfl, rfl⟩ := h
    exact ⟨by simp, by simpa using hn, by intro n hn; simp at hn, by simp, by simp⟩
  | t :: ts, names, names', n, ids, new, hn, h => by
    unfold composeAll at h
    cases h1 : t.compose names n with
    | none => rw [h1] at h; simp at h
    | some q1 =>
      obtain ⟨id1, new1, names1⟩ := q1
      rw [h1] at h
      simp only [Option.bind_some] at h
      cases h2 : composeAll names1 (n + new1.length) ts with
      | none => rw [h2] at h; simp at h
      | some r =>
        obtain ⟨ids2, new2, names2⟩ := r
        rw [h2] at h; simp at h
        obtain ⟨rfl, rfl, rfl⟩ := h
        have f1 := compose_fine t hn h1
        have f2 := composeAll_fine ts f1.names h2
        refine ⟨?_, by have := f2.names; simpa [Nat.add_assoc] using this, ?_, ?_, ?_⟩
        · intro i hi
          simp only [List.mem_cons] at hi
          rcases hi with rfl | hi
          · have := f1.id; simp; omega
          · have := f2.ids i hi; simp; omega
        · intro m hm r hr
          simp only [List.mem_append] at hm
          rcases hm with hm | hm
          · have := f1.refs m hm r hr; simp; omega
          · have := f2.refs m hm r hr; simp; omega
        · intro m hm
          simp only [List.mem_append] at hm
          exact hm.elim (f1.tags m) (f2.tags m)
        · intro m hm
          simp only [List.mem_append] at hm
          exact hm.elim (f1.data m) (f2.data m)
end


mutual
/-- The machine on the events of a tree. -/
theorem lrun_tree : ∀ (t : Tree) (ns : List Node) (ctx : List Nat) (al : List AliasData), t.Good → (∀ p ∈ ctx.head?, 1 ≤ p ∧ p ≤ ns.length) →
    NamesIn (namesOf al) ns.length →
    match t.compose (namesOf al) ns.length with
    | none => lrun (ns, ctx, al) t.events = none
    | some (id, new, names) => ∃ al', lrun (ns, ctx, al) t.events = some (attach ns ctx id ++ new, ctx, al') ∧ namesOf al' = names
  | .leaf e, ns, ctx, al, hg, hp, hn => by
    rcases hg with ⟨a, he⟩ | ⟨anchor, g, v, i, j, y, he⟩
    · simp only [Tree.compose, he, Tree.events, lrun, lstep, find_names]
      cases hf : al.find? (fun x => x.anchor == a) with
      | none => simp
      | some x => exact ⟨al, by simp [hf], rfl⟩
    · simp only [Tree.compose, he, Tree.events, lrun, lstep, lpush]
      rw [define_names al anchor _ e.startMark]
      cases hr : reg al anchor (ns.length + 1) e.startMark with
      | none => simp
      | some al' =>
        refine ⟨al', ?_, rfl⟩
        simp only [Option.map_some, Option.bind_some, attach_append hp, loadTag_eq]
        rfl
  | .coll s cs t, ns, ctx, al, hg, hp, hn => by
    obtain ⟨he, hall⟩ := hg
    rcases he with ⟨anchor, g, i, y, hs, ht⟩ | ⟨anchor, g, i, y, hs, ht, hev⟩
    · simp only [Tree.compose, hs, Tree.events]
      rw [define_names al anchor _ s.startMark]
      rw [lrun_cons]
      simp only [lstep, hs, lpush]
      cases hr : reg al anchor (ns.length + 1) s.startMark with
      | none => simp
      | some al1 =>
        simp only [Option.map_some, Option.bind_some, attach_append hp, if_true]
        have hn1 : NamesIn (namesOf al1) (ns.length + 1) := hn.define (a := anchor) (i := ns.length + 1) (by rw [define_names al anchor _ s.startMark, hr]; rfl) (by omega) (Nat.le_refl _) (by omega)
        rw [lrun_append]
        have ih := lrun_forest cs (attach ns ctx (ns.length + 1) ++ [⟨.sequence [] y, loadTag g seqTag, s.startMark, s.endMark⟩])
          ((ns.length + 1) :: ctx) al1 hall (by intro p hp; simp at hp; subst hp; simp [attach_length]) (by simpa [attach_length] using hn1)
        simp only [List.length_append, attach_length, List.length_singleton] at ih
        cases hc : composeAll (namesOf al1) (ns.length + 1) cs with
        | none => rw [hc] at ih; simp only at ih; simp [ih]
        | some q =>
          obtain ⟨ids, new, names⟩ := q
          rw [hc] at ih
          obtain ⟨al2, h1, h2⟩ := ih
          refine ⟨al2, ?_, h2⟩
          rw [h1]
          have hlast := attachAll_last ids (attach ns ctx (ns.length + 1)) ⟨.sequence [] y, loadTag g seqTag, s.startMark, s.endMark⟩ ctx
          rw [attach_length] at hlast
          rw [hlast, foldl_addTo_seq]
          simp only [Option.bind_some, lrun, lstep, ht]
          rw [List.append_assoc, modify_right _ _ _ _ (by rw [attach_length]; omega), attach_length]
          simp [loadTag_eq]
          rfl
    · simp only [Tree.compose, hs, Tree.events]
      rw [define_names al anchor _ s.startMark]
      rw [lrun_cons]
      simp only [lstep, hs, lpush]
      cases hr : reg al anchor (ns.length + 1) s.startMark with
      | none => simp
      | some al1 =>
        simp only [Option.map_some, Option.bind_some, attach_append hp, if_true]
        have hn1 : NamesIn (namesOf al1) (ns.length + 1) := hn.define (a := anchor) (i := ns.length + 1) (by rw [define_names al anchor _ s.startMark, hr]; rfl) (by omega) (Nat.le_refl _) (by omega)
        rw [lrun_append]
        have ih := lrun_forest cs (attach ns ctx (ns.length + 1) ++ [⟨.mapping [] y, loadTag g mapTag, s.startMark, s.endMark⟩])
          ((ns.length + 1) :: ctx) al1 hall (by intro p hp; simp at hp; subst hp; simp [attach_length]) (by simpa [attach_length] using hn1)
        simp only [List.length_append, attach_length, List.length_singleton] at ih
        cases hc : composeAll (namesOf al1) (ns.length + 1) cs with
        | none => rw [hc] at ih; simp only at ih; simp [ih]
        | some q =>
          obtain ⟨ids, new, names⟩ := q
          rw [hc] at ih
          obtain ⟨al2, h1, h2⟩ := ih
          refine ⟨al2, ?_, h2⟩
          rw [h1]
          have hlast := attachAll_last ids (attach ns ctx (ns.length + 1)) ⟨.mapping [] y, loadTag g mapTag, s.startMark, s.endMark⟩ ctx
          rw [attach_length] at hlast
          have hlen := composeAll_length cs hc
          have hlen : ids.length = cs.length := hlen
          have f := composeAll_fine cs hn1 hc
          rw [hlast, foldl_addTo_map y ids [] (by rw [hlen]; exact hev) (fun i hi => by have := f.ids i hi; omega) (by simp)]
          simp only [Option.bind_some, lrun, lstep, ht]
          rw [List.append_assoc, modify_right _ _ _ _ (by rw [attach_length]; omega), attach_length]
          simp [loadTag_eq]
          rfl

theorem lrun_forest : ∀ (cs : List Tree) (ns : List Node) (ctx : List Nat) (al : List AliasData), GoodAll cs → (∀ p ∈ ctx.head?, 1 ≤ p ∧ p ≤ ns.length) →
    NamesIn (namesOf al) ns.length →
    match composeAll (namesOf al) ns.length cs with
    | none => lrun (ns, ctx, al) (eventsAll cs) = none
    | some (ids, new, names) => ∃ al', lrun (ns, ctx, al) (eventsAll cs) = some (attachAll ns ctx ids ++ new, ctx, al') ∧ namesOf al' = names
  | [], ns, ctx, al, hg, hp, hn => by
    simp only [composeAll, eventsAll, lrun]
    exact ⟨al, by simp [attachAll], rfl⟩
  | t :: ts, ns, ctx, al, hg, hp, hn => by
    obtain ⟨hg1, hg2⟩ := hg
    have ih1 := lrun_tree t ns ctx al hg1 hp hn
    simp only [composeAll, eventsAll]
    rw [lrun_append]
    cases h1 : t.compose (namesOf al) ns.length with
    | none => rw [h1] at ih1; simp only at ih1; simp [ih1]
    | some q =>
      obtain ⟨id, new, names⟩ := q
      rw [h1] at ih1
      obtain ⟨al1, g1, g2⟩ := ih1
      rw [g1]
      subst g2
      have f := compose_fine t hn h1
      have ih2 := lrun_forest ts (attach ns ctx id ++ new) ctx al1 hg2 (by
        intro p hp'; have := hp p hp'; simp [attach_length]; omega) (by simpa [attach_length] using f.names)
      simp only [List.length_append, attach_length] at ih2
      simp only [Option.bind_some]
      cases h2 : composeAll (namesOf al1) (ns.length + new.length) ts with
      | none => rw [h2] at ih2; simp only at ih2; simp [ih2]
      | some r =>
        obtain ⟨ids2, new2, names2⟩ := r
        rw [h2] at ih2
        obtain ⟨al2, k1, k2⟩ := ih2
        refine ⟨al2, ?_, k2⟩
        rw [k1, attachAll_append _ (by rw [attach_length]; exact hp)]
        simp [attachAll]
end

/-! ### Events of a document as a tree -/

theorem map_single {α β : Type} {f : α → β} {l : List α} {b : β} (h : l.map f = [b]) : ∃ a, l = [a] ∧ f a = b := by
  cases l with
  | nil => simp at h
  | cons a l =>
    cases l with
    | nil => simp at h; exact ⟨a, rfl, h⟩
    | cons b l => simp at h

mutual
theorem Spec.IsNode.tree_ex : ∀ {w : List EventData}, IsNode w → ∀ {es : List Event}, es.map (·.data) = w → ∃ t : Tree, t.Good ∧ t.events = es
  | _, .alias a, es, h => by
    obtain ⟨e, rfl, he⟩ := map_single h
    exact ⟨.leaf e, Or.inl ⟨a, he⟩, rfl⟩
  | _, .scalar a g v i j y, es, h => by
    obtain ⟨e, rfl, he⟩ := map_single h
    exact ⟨.leaf e, Or.inr ⟨a, g, v, i, j, y, he⟩, rfl⟩
  | _, .sequence a g i y hn, es, h => by
    obtain ⟨s, es2, rfl, hs, h2⟩ := List.map_eq_cons_iff.1 h
    obtain ⟨es3, es4, rfl, h3, h4⟩ := List.map_eq_append_iff.1 h2
    obtain ⟨t, rfl, h5⟩ := map_single h4
    · obtain ⟨ts, hts, rfl⟩ := Spec.IsNodes.trees hn h3
      exact ⟨.coll s ts t, ⟨Or.inl ⟨a, g, i, y, hs, h5⟩, hts⟩, by simp [Tree.events]⟩
  | _, .mapping a g i y hn, es, h => by
    obtain ⟨s, es2, rfl, hs, h2⟩ := List.map_eq_cons_iff.1 h
    obtain ⟨es3, es4, rfl, h3, h4⟩ := List.map_eq_append_iff.1 h2
    obtain ⟨t, rfl, h5⟩ := map_single h4
    · obtain ⟨ts, hts, hev, rfl⟩ := Spec.IsPairs.trees hn h3
      exact ⟨.coll s ts t, ⟨Or.inr ⟨a, g, i, y, hs, h5, hev⟩, hts⟩, by simp [Tree.events]⟩
theorem Spec.IsNodes.trees : ∀ {w : List EventData}, IsNodes w → ∀ {es : List Event}, es.map (·.data) = w → ∃ ts : List Tree, GoodAll ts ∧ eventsAll ts = es
  | _, .nil, es, h => by
    simp at h; subst h; exact ⟨[], trivial, rfl⟩
  | _, .cons hn hs, es, h => by
    obtain ⟨es1, es2, rfl, h1, h2⟩ := List.map_eq_append_iff.1 h
    obtain ⟨t, ht, rfl⟩ := Spec.IsNode.tree_ex hn h1
    obtain ⟨ts, hts, rfl⟩ := Spec.IsNodes.trees hs h2
    exact ⟨t :: ts, ⟨ht, hts⟩, rfl⟩
theorem Spec.IsPairs.trees : ∀ {w : List EventData}, IsPairs w → ∀ {es : List Event}, es.map (·.data) = w →
    ∃ ts : List Tree, GoodAll ts ∧ ts.length % 2 = 0 ∧ eventsAll ts = es
  | _, .nil, es, h => by
    simp at h; subst h; exact ⟨[], trivial, rfl, rfl⟩
  | _, .cons hk hv hs, es, h => by
    obtain ⟨es1, es2, rfl, h1, h2⟩ := List.map_eq_append_iff.1 h
    obtain ⟨es3, es4, rfl, h3, h4⟩ := List.map_eq_append_iff.1 h1
    obtain ⟨t1, ht1, rfl⟩ := Spec.IsNode.tree_ex hk h3
    obtain ⟨t2, ht2, rfl⟩ := Spec.IsNode.tree_ex hv h4
    obtain ⟨ts, hts, hev, rfl⟩ := Spec.IsPairs.trees hs h2
    exact ⟨t1 :: t2 :: ts, ⟨ht1, ht2, hts⟩, by simp; omega, by simp [eventsAll]⟩
end

end Yaml
