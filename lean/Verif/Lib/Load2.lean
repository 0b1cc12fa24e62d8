import Verif.Lib.WpO
import Verif.Lib.Load

/-
`Document::load` on a parser object: the calls of `parse` it makes and what it builds from their
events.
-/

namespace Yaml
open Spec Document
set_option linter.unusedSimpArgs false
set_option linter.unusedVariables false

theorem ParserObj.Parses.cons {F : Nat} {evs : List Event} {e : Event} {o0 o1 o : ParserObj} (hs : o0.parse F = (.ok e, o1)) (h : ParserObj.Parses F o1 evs o) :
    ParserObj.Parses F o0 (e :: evs) o := by
  induction h with
  | nil => exact .snoc .nil hs
  | snoc h' hs' ih => exact .snoc (evs := e :: _) ih hs'

theorem ParserObj.Parses.append {F : Nat} {evs evs' : List Event} {o0 o1 o : ParserObj} (h : ParserObj.Parses F o0 evs o1) (h' : ParserObj.Parses F o1 evs' o) :
    ParserObj.Parses F o0 (evs ++ evs') o := by
  induction h' with
  | nil => simpa using h
  | snoc h' hs' ih => rw [← List.append_assoc]; exact .snoc ih hs'

/-! ### One event -/

/-- Kind of a node: sequence, mapping. -/
def kindOf : NodeData → Option Bool
  | .sequence _ _ => some true
  | .mapping _ _ => some false
  | _ => none

/-- Kind of the node with a number. -/
def kindAt (ns : List Node) (p : Nat) : Option Bool := if p = 0 then none else (ns[p - 1]?).bind fun n => kindOf n.data

/-- Kind of an open collection. -/
def Coll.isSeq : Coll → Bool
  | .seq => true
  | _ => false

/-- The open collections are nodes of the right kind. -/
def OkCtx (ns : List Node) : List Nat → List Coll → Prop
  | [], [] => True
  | p :: ctx, c :: f => kindAt ns p = some c.isSeq ∧ OkCtx ns ctx f
  | _, _ => False

theorem OkCtx.congr {ns ns' : List Node} (h : ∀ p b, kindAt ns p = some b → kindAt ns' p = some b) : ∀ {ctx : List Nat} {f : List Coll}, OkCtx ns ctx f → OkCtx ns' ctx f
  | [], [], _ => trivial
  | p :: ctx, c :: f, hk => ⟨h _ _ hk.1, OkCtx.congr h hk.2⟩
  | [], _ :: _, hk => hk.elim
  | _ :: _, [], hk => hk.elim

theorem kindOf_addTo (d : NodeData) (i : Nat) : kindOf (addTo d i) = kindOf d := by
  cases d <;> rfl

theorem kindAt_modify {ns : List Node} {i : Nat} {f : Node → Node} (hf : ∀ n, kindOf (f n).data = kindOf n.data) (p : Nat) :
    kindAt (ns.modify i f) p = kindAt ns p := by
  unfold kindAt
  split
  · rfl
  · rw [List.getElem?_modify]
    cases ns[p - 1]? with
    | none => rfl
    | some n =>
      by_cases h : i = p - 1
      · simp [h, hf]
      · simp [h]

theorem kindAt_attach (ns : List Node) (ctx : List Nat) (i p : Nat) : kindAt (attach ns ctx i) p = kindAt ns p := by
  unfold attach
  split
  · rfl
  · exact kindAt_modify (fun n => kindOf_addTo _ _) p

theorem kindAt_push {ns : List Node} {n : Node} {p : Nat} {b : Bool} (h : kindAt ns p = some b) : kindAt (ns ++ [n]) p = some b := by
  unfold kindAt at h ⊢
  split at h
  · simp at h
  · rename_i hp
    rw [if_neg hp]
    have hl : p - 1 < ns.length := by
      rcases Nat.lt_or_ge (p - 1) ns.length with h' | h'
      · exact h'
      · rw [List.getElem?_eq_none h'] at h; simp at h
    rw [List.getElem?_append_left hl]; exact h

theorem kindAt_new (ns : List Node) (n : Node) : kindAt (ns ++ [n]) (ns.length + 1) = kindOf n.data := by
  unfold kindAt
  simp

/-- Where the loader is. -/
def Open (ns : List Node) (ctx : List Nat) : GSt → Prop
  | .inDoc f => OkCtx ns ctx f
  | .docEnd => ctx = []
  | _ => False

theorem Open.after {ns : List Node} {ctx : List Nat} {f : List Coll} (h : OkCtx ns ctx f) : Open ns ctx (.after f) := by
  match f, h with
  | [], h =>
    cases ctx with
    | nil => rfl
    | cons => exact h.elim
  | .seq :: f, h => exact h
  | .mapK :: f, h =>
    cases ctx with
    | nil => exact h.elim
    | cons p ctx => exact h
  | .mapV :: f, h =>
    cases ctx with
    | nil => exact h.elim
    | cons p ctx => exact h

theorem lstep_open {ns ns' : List Node} {ctx ctx' : List Nat} {al al' : List AliasData} {G G' : GSt} {e : Event}
    (h : Open ns ctx G) (hg : gstep G e.data = some G') (hl : lstep (ns, ctx, al) e = some (ns', ctx', al')) : Open ns' ctx' G' := by
  have key : ∀ node : Node, ∀ p b, kindAt ns p = some b → kindAt (attach (ns ++ [node]) ctx (ns.length + 1)) p = some b := by
    intro node p b hk; rw [kindAt_attach]; exact kindAt_push hk
  cases G with
  | start => exact h.elim
  | docs => exact h.elim
  | done => exact h.elim
  | docEnd =>
    obtain ⟨ed, m1, m2⟩ := e
    cases ed <;> simp [gstep] at hg
    simp [lstep] at hl
  | inDoc f =>
    have h : OkCtx ns ctx f := h
    obtain ⟨ed, m1, m2⟩ := e
    cases ed with
    | alias a =>
      simp [gstep] at hg; subst hg
      simp [lstep] at hl
      obtain ⟨x, hx, rfl, rfl, rfl⟩ := hl
      exact Open.after (h.congr fun p b hk => by rw [kindAt_attach]; exact hk)
    | scalar a t v i j y =>
      simp [gstep] at hg; subst hg
      simp [lstep, lpush] at hl
      obtain ⟨x, hx, rfl, rfl, rfl⟩ := hl
      exact Open.after (h.congr (key _))
    | sequenceStart a t i y =>
      simp [gstep] at hg; subst hg
      simp [lstep, lpush] at hl
      obtain ⟨x, hx, rfl, rfl, rfl⟩ := hl
      exact ⟨by rw [kindAt_attach, kindAt_new]; rfl, h.congr (key _)⟩
    | mappingStart a t i y =>
      simp [gstep] at hg; subst hg
      simp [lstep, lpush] at hl
      obtain ⟨x, hx, rfl, rfl, rfl⟩ := hl
      exact ⟨by rw [kindAt_attach, kindAt_new]; rfl, h.congr (key _)⟩
    | sequenceEnd =>
      cases ctx with
      | nil => simp [lstep] at hl
      | cons p ctx =>
        match f, h with
        | c :: f, h =>
          cases c <;> simp [gstep] at hg
          subst hg
          simp [lstep] at hl
          obtain ⟨rfl, rfl, rfl⟩ := hl
          exact Open.after (h.2.congr fun p b hk => by rw [kindAt_modify (f := fun n => { n with endMark := m2 }) (fun n => rfl)]; exact hk)
    | mappingEnd =>
      cases ctx with
      | nil => simp [lstep] at hl
      | cons p ctx =>
        match f, h with
        | c :: f, h =>
          cases c <;> simp [gstep] at hg
          subst hg
          simp [lstep] at hl
          obtain ⟨rfl, rfl, rfl⟩ := hl
          exact Open.after (h.2.congr fun p b hk => by rw [kindAt_modify (f := fun n => { n with endMark := m2 }) (fun n => rfl)]; exact hk)
    | _ => simp [gstep] at hg

/-! ### Anchors -/

/-- The anchors of the events, with the positions of their nodes. -/
def marked (evs : List Event) : List (Str × Mark) := evs.filterMap fun e => (anchorOf e).map fun a => (a, e.startMark)

/-- The same, from the loader's table. -/
def marksOf (al : List AliasData) : List (Str × Mark) := al.map fun a => (a.anchor, a.mark)

theorem reg_marks {al al' : List AliasData} {anchor : Option Str} {i : Nat} {m : Mark} (h : reg al anchor i m = some al') :
    marksOf al' = marksOf al ++ (anchor.map fun a => (a, m)).toList := by
  cases anchor with
  | none => simp [reg] at h; subst h; simp
  | some a =>
    unfold reg at h
    dsimp only at h
    split at h
    · simp at h
    · simp at h; subst h; simp [marksOf]

theorem lstep_marks {st st' : LSt} {e : Event} (h : lstep st e = some st') : marksOf st'.2.2 = marksOf st.2.2 ++ marked [e] := by
  obtain ⟨ns, ctx, al⟩ := st
  obtain ⟨ed, m1, m2⟩ := e
  have hm : marked [⟨ed, m1, m2⟩] = ((anchorOf ⟨ed, m1, m2⟩).map fun a => (a, m1)).toList := by
    unfold marked
    simp only [List.filterMap_cons, List.filterMap_nil]
    cases (anchorOf ⟨ed, m1, m2⟩) <;> rfl
  rw [hm]
  cases ed with
  | alias a =>
    simp [lstep] at h
    obtain ⟨x, hx, rfl⟩ := h
    simp [anchorOf]
  | scalar a t v i j y =>
    simp [lstep, lpush] at h
    obtain ⟨x, hx, rfl⟩ := h
    exact reg_marks hx
  | sequenceStart a t i y =>
    simp [lstep, lpush] at h
    obtain ⟨x, hx, rfl⟩ := h
    exact reg_marks hx
  | mappingStart a t i y =>
    simp [lstep, lpush] at h
    obtain ⟨x, hx, rfl⟩ := h
    exact reg_marks hx
  | sequenceEnd =>
    cases ctx with
    | nil => simp [lstep] at h
    | cons p ctx => simp [lstep] at h; subst h; simp [anchorOf]
  | mappingEnd =>
    cases ctx with
    | nil => simp [lstep] at h
    | cons p ctx => simp [lstep] at h; subst h; simp [anchorOf]
  | _ => simp [lstep] at h

theorem lrun_marks : ∀ {es : List Event} {st st' : LSt}, lrun st es = some st' → marksOf st'.2.2 = marksOf st.2.2 ++ marked es
  | [], st, st', h => by simp [lrun] at h; subst h; simp [marked]
  | e :: es, st, st', h => by
    rw [lrun_cons] at h
    cases hs : lstep st e with
    | none => rw [hs] at h; simp at h
    | some s1 =>
      rw [hs] at h
      have h : lrun s1 es = some st' := h
      rw [lrun_marks h, lstep_marks hs, List.append_assoc]
      unfold marked
      rw [← List.filterMap_append]; rfl

/-! ### The composer's errors -/

theorem find_none {devs : List Event} {al : List AliasData} (hm : marksOf al = marked devs) {a : Str} (h : al.find? (fun x => x.anchor == a) = none) :
    ∀ e ∈ devs, anchorOf e ≠ some a := by
  intro e he hc
  have : (a, e.startMark) ∈ marked devs := by
    unfold marked
    rw [List.mem_filterMap]
    exact ⟨e, he, by rw [hc]; rfl⟩
  rw [← hm] at this
  unfold marksOf at this
  rw [List.mem_map] at this
  obtain ⟨x, hx, hx2⟩ := this
  simp at hx2
  rw [List.find?_eq_none] at h
  exact h x hx (by simp [hx2.1])

theorem find_some {devs : List Event} {al : List AliasData} (hm : marksOf al = marked devs) {a : Str} {x : AliasData}
    (h : al.find? (fun x => x.anchor == a) = some x) : ∃ e ∈ devs, anchorOf e = some a ∧ x.mark = e.startMark := by
  have h1 := List.mem_of_find?_eq_some h
  have h2 : x.anchor = a := by simpa using List.find?_some h
  have : (a, x.mark) ∈ marked devs := by
    rw [← hm]
    unfold marksOf
    rw [List.mem_map]
    exact ⟨x, h1, by rw [h2]⟩
  unfold marked at this
  rw [List.mem_filterMap] at this
  obtain ⟨e, he, h3⟩ := this
  cases ha : anchorOf e with
  | none => rw [ha] at h3; simp at h3
  | some b =>
    rw [ha] at h3; simp at h3
    exact ⟨e, he, by rw [h3.1] at ha; exact ha, h3.2.symm⟩

theorem Spec.AnchorsOk.nil : AnchorsOk [] := by
  intro p ev s h; simp at h

theorem Spec.AnchorsOk.snoc {devs : List Event} {ev : Event} (h : AnchorsOk devs) (hn : ∀ e, ¬ AnchorError devs ev e) : AnchorsOk (devs ++ [ev]) := by
  intro p x s hs
  rcases List.eq_nil_or_concat s with rfl | ⟨s', y, rfl⟩
  · obtain ⟨rfl, h2⟩ := List.append_inj' hs rfl
    cases h2
    exact hn
  · rw [List.concat_eq_append, ← List.cons_append, ← List.append_assoc] at hs
    obtain ⟨h1, h2⟩ := List.append_inj' hs rfl
    exact h p x s' h1

theorem lstep_anchors {st st' : LSt} {e : Event} {devs : List Event} (h : lstep st e = some st') (hm : marksOf st.2.2 = marked devs) :
    ∀ er, ¬ AnchorError devs e er := by
  intro er her
  obtain ⟨ns, ctx, al⟩ := st
  obtain ⟨ed, m1, m2⟩ := e
  have hreg : ∀ {a : Str} {f : Event} {i : Nat} {m : Mark} {x : List AliasData}, f ∈ devs → anchorOf f = some a → reg al (some a) i m = some x → False := by
    intro a f i m x h1 h2 h3
    unfold reg at h3
    dsimp only at h3
    split at h3
    · simp at h3
    · rename_i hf
      exact find_none hm hf f h1 h2
  cases her with
  | @undefined a ha hn =>
    have ha : ed = .alias a := ha
    subst ha
    simp [lstep] at h
    obtain ⟨x, hx, _⟩ := h
    obtain ⟨e, h1, h2, _⟩ := find_some hm hx
    exact hn e h1 h2
  | @duplicate a first ha hf1 hf2 =>
    cases ed with
    | scalar b t v i j y =>
      have ha : b = some a := ha
      subst ha
      simp [lstep, lpush] at h
      obtain ⟨x, hx, _⟩ := h
      exact hreg hf1 hf2 hx
    | sequenceStart b t i y =>
      have ha : b = some a := ha
      subst ha
      simp [lstep, lpush] at h
      obtain ⟨x, hx, _⟩ := h
      exact hreg hf1 hf2 hx
    | mappingStart b t i y =>
      have ha : b = some a := ha
      subst ha
      simp [lstep, lpush] at h
      obtain ⟨x, hx, _⟩ := h
      exact hreg hf1 hf2 hx
    | _ => simp [anchorOf] at ha

theorem lrun_anchors_aux : ∀ (es devs : List Event) {st st' : LSt}, lrun st es = some st' → marksOf st.2.2 = marked devs → AnchorsOk devs → AnchorsOk (devs ++ es)
  | [], devs, st, st', h, hm, ho => by simpa using ho
  | e :: es, devs, st, st', h, hm, ho => by
    rw [lrun_cons] at h
    cases hs : lstep st e with
    | none => rw [hs] at h; simp at h
    | some s1 =>
      rw [hs] at h
      have := lrun_anchors_aux es (devs ++ [e]) (st := s1) h (by rw [lstep_marks hs, hm]; unfold marked; rw [← List.filterMap_append]) (ho.snoc (lstep_anchors hs hm))
      simpa using this

theorem lrun_anchors {es : List Event} {st' : LSt} (h : lrun ([], [], []) es = some st') : AnchorsOk es := by
  simpa using lrun_anchors_aux es [] h rfl .nil

/-! ### One pass of the loader's loop -/

section
variable {F : Nat} {P : PanicSite → Prop} {E : Err → ParserObj → Prop}

theorem wpO_nodeAdd {d : Document} {ctx : List Nat} {f : List Coll} {i : Nat} {o : ParserObj} {Q : Document → ParserObj → Prop} (h : OkCtx d.nodes ctx f)
    (hQ : Q { d with nodes := attach d.nodes ctx i } o) : wpO F P E (loadNodeAdd d ctx i) Q o := by
  unfold loadNodeAdd
  cases ctx with
  | nil => exact hQ
  | cons p ctx =>
    cases f with
    | nil => exact h.elim
    | cons c f =>
      have hk := h.1
      unfold kindAt at hk
      split at hk
      · simp at hk
      · cases hn : d.nodes[p - 1]? with
        | none => rw [hn] at hk; simp at hk
        | some node =>
          rw [hn] at hk
          have hmod : ∀ dat, addTo node.data i = dat → d.modifyData p (fun _ => dat) = { d with nodes := attach d.nodes (p :: ctx) i } := by
            intro dat he
            unfold Document.modifyData attach
            congr 1
            apply List.ext_getElem?
            intro j
            rw [List.getElem?_modify, List.getElem?_modify]
            by_cases hj : p - 1 = j
            · subst hj; simp [hn, he]
            · simp [hj]
          have hk : kindOf node.data = some c.isSeq := hk
          dsimp only
          rw [hn]
          obtain ⟨dat, t, m1, m2⟩ := node
          cases dat with
          | sequence items y =>
            show wpO F P E (pure (d.modifyData p fun _ => .sequence (items ++ [i]) y)) Q o
            rw [wpO_pure, hmod (.sequence (items ++ [i]) y) rfl]; exact hQ
          | mapping ps y =>
            show wpO F P E (pure (d.modifyData p fun _ => .mapping (addToPairs ps i) y)) Q o
            rw [wpO_pure, hmod (.mapping (addToPairs ps i) y) rfl]; exact hQ
          | _ => simp [kindOf] at hk

theorem wpO_loadNode {d : Document} {ctx : List Nat} {f : List Coll} {node : Node} {anchor : Option Str} {o : ParserObj} {Q : Document × Nat → ParserObj → Prop}
    (h : OkCtx d.nodes ctx f)
    (hE : ∀ a x, anchor = some a → o.p.aliases.find? (fun x => x.anchor == a) = some x →
      E (.composer "found duplicate anchor; first occurrence" x.mark "second occurrence" node.startMark) o)
    (hQ : ∀ al', reg o.p.aliases anchor (d.nodes.length + 1) node.startMark = some al' →
      Q ({ d with nodes := attach (d.nodes ++ [node]) ctx (d.nodes.length + 1) }, d.nodes.length + 1) (o.withAliases al')) :
    wpO F P E (loadNode d ctx node anchor) Q o := by
  unfold loadNode
  rw [wpO_bind]
  have rest : ∀ o', Q ({ d with nodes := attach (d.nodes ++ [node]) ctx (d.nodes.length + 1) }, d.nodes.length + 1) o' →
      wpO F P E (do
        let d1 ← loadNodeAdd { d with nodes := d.nodes ++ [node] } ctx { d with nodes := d.nodes ++ [node] }.nodes.length
        pure (d1, { d with nodes := d.nodes ++ [node] }.nodes.length)) Q o' := by
    intro o' hq
    rw [wpO_bind]
    refine wpO_nodeAdd (f := f) (h.congr fun p b hk => kindAt_push hk) ?_
    rw [wpO_pure]
    have e1 : (d.nodes ++ [node]).length = d.nodes.length + 1 := by simp
    dsimp only
    rw [e1]
    exact hq
  unfold registerAnchor
  cases anchor with
  | none =>
    rw [wpO_pure]
    exact rest o (hQ _ rfl)
  | some a =>
    dsimp only
    have e1 : (d.nodes ++ [node])[(d.nodes ++ [node]).length - 1]? = some node := by simp
    rw [e1]
    dsimp only
    rw [wpO_bind, wpO_get]
    cases hf : o.p.aliases.find? (fun x => x.anchor == a) with
    | some x => exact hE a x rfl hf
    | none =>
      dsimp only
      rw [wpO_modify]
      have := hQ (o.p.aliases ++ [⟨a, d.nodes.length + 1, node.startMark⟩]) (by unfold reg; dsimp only; rw [hf])
      have := rest _ this
      have e1 : (d.nodes ++ [node]).length = d.nodes.length + 1 := by simp
      dsimp only at this
      rw [e1] at this ⊢
      exact this

theorem wpO_loadEnd {d : Document} {p : Nat} {ctx : List Nat} {b : Bool} {m : Mark} {o : ParserObj} {Q : Document × List Nat → ParserObj → Prop}
    (h : kindAt d.nodes p = some b)
    (hQ : Q ({ d with nodes := d.nodes.modify (p - 1) fun n => { n with endMark := m } }, ctx) o) : wpO F P E (loadEnd d (p :: ctx) b m) Q o := by
  unfold loadEnd
  unfold kindAt at h
  split at h
  · simp at h
  · cases hn : d.nodes[p - 1]? with
    | none => rw [hn] at h; simp at h
    | some node =>
      rw [hn] at h
      have h : kindOf node.data = some b := h
      simp only [hn]
      obtain ⟨dat, t, m1, m2⟩ := node
      cases dat with
      | sequence items y =>
        have h : b = true := by simp [kindOf] at h; exact h
        subst h; exact hQ
      | mapping items y =>
        have h : b = false := by simp [kindOf] at h; exact h
        subst h; exact hQ
      | _ => simp [kindOf] at h

/-- One event inside a document. -/
theorem wpO_loadStep {d : Document} {ctx : List Nat} {G G' : GSt} {e : Event} {o : ParserObj} {devs : List Event} {Q : (Document × List Nat) ⊕ Document → ParserObj → Prop}
    (h : Open d.nodes ctx G) (hg : gstep G e.data = some G') (hm : marksOf o.p.aliases = marked devs)
    (hE : ∀ er, AnchorError devs e er → E er o)
    (hend : ∀ j, e.data = .documentEnd j → Q (.inr { d with endImplicit := j, endMark := e.endMark }) o)
    (hQ : ∀ ns' ctx' al', (∀ j, e.data ≠ .documentEnd j) → lstep (d.nodes, ctx, o.p.aliases) e = some (ns', ctx', al') →
      Q (.inl ({ d with nodes := ns' }, ctx')) (o.withAliases al')) : wpO F P E (loadStep d ctx e) Q o := by
  cases G with
  | start => exact h.elim
  | docs => exact h.elim
  | done => exact h.elim
  | docEnd =>
    obtain ⟨ed, m1, m2⟩ := e
    cases ed <;> simp [gstep] at hg
    exact hend _ rfl
  | inDoc f =>
    have h : OkCtx d.nodes ctx f := h
    obtain ⟨ed, m1, m2⟩ := e
    unfold loadStep
    cases ed with
    | alias a =>
      dsimp only
      rw [wpO_bind]
      unfold loadAlias
      rw [wpO_bind, wpO_get]
      cases hf : o.p.aliases.find? (fun x => x.anchor == a) with
      | none => exact hE _ (.undefined (a := a) rfl (find_none hm hf))
      | some x =>
        refine wpO_nodeAdd h ?_
        rw [wpO_pure]
        exact hQ _ _ _ (by simp) (by simp [lstep, hf])
    | scalar a t v i j y =>
      dsimp only
      rw [wpO_bind]
      refine wpO_loadNode h ?_ ?_
      · intro b x hb hf
        obtain ⟨e1, h1, h2, h3⟩ := find_some hm hf
        rw [h3]
        exact hE _ (.duplicate (a := b) hb h1 h2)
      · intro al' hr
        rw [wpO_pure]
        exact hQ _ _ _ (by simp) (by simp [lstep, lpush, hr])
    | sequenceStart a t i y =>
      dsimp only
      rw [wpO_bind]
      refine wpO_loadNode h ?_ ?_
      · intro b x hb hf
        obtain ⟨e1, h1, h2, h3⟩ := find_some hm hf
        rw [h3]
        exact hE _ (.duplicate (a := b) hb h1 h2)
      · intro al' hr
        rw [wpO_pure]
        exact hQ _ _ _ (by simp) (by simp [lstep, lpush, hr])
    | mappingStart a t i y =>
      dsimp only
      rw [wpO_bind]
      refine wpO_loadNode h ?_ ?_
      · intro b x hb hf
        obtain ⟨e1, h1, h2, h3⟩ := find_some hm hf
        rw [h3]
        exact hE _ (.duplicate (a := b) hb h1 h2)
      · intro al' hr
        rw [wpO_pure]
        exact hQ _ _ _ (by simp) (by simp [lstep, lpush, hr])
    | sequenceEnd =>
      match f, h with
      | [], h => simp [gstep] at hg
      | c :: f, h =>
        cases c <;> simp [gstep] at hg
        match ctx, h with
        | [], h => exact h.elim
        | p :: ctx, h =>
          dsimp only
          rw [wpO_bind]
          refine wpO_loadEnd h.1 ?_
          rw [wpO_pure]
          exact hQ _ _ _ (by simp) (by simp [lstep])
    | mappingEnd =>
      match f, h with
      | [], h => simp [gstep] at hg
      | c :: f, h =>
        cases c <;> simp [gstep] at hg
        match ctx, h with
        | [], h => exact h.elim
        | p :: ctx, h =>
          dsimp only
          rw [wpO_bind]
          refine wpO_loadEnd h.1 ?_
          rw [wpO_pure]
          exact hQ _ _ _ (by simp) (by simp [lstep])
    | _ => simp [gstep] at hg

end

/-! ### Calls of `parse` inside `load` -/

/-- What a call of `parse` does, with the table of anchors in place. -/
theorem wpO_parse {F : Nat} {P : PanicSite → Prop} {E : Err → ParserObj → Prop} {ts : List Token} {fin : Out Token} {evs : List Event} {o : ParserObj} {G : GSt}
    {D : List TagDirective} {c toks : List Token} {st pk : Bool} (h : PInv F ts fin evs o G D c toks st pk) (hF : ts.length < F)
    (hfin : (∃ e, fin = .err e) ∨ ∃ x, fin = .panic x) (hne : G ≠ .done) (hal : o.p.aliases = []) {al : List AliasData} {Q : Event → ParserObj → Prop}
    (hP : ∀ x, fin = .panic x → (o.parse F).1 = .panic x → P x)
    (hE : ∀ e o', o.parse F = (.err e, o') → E e (o'.withAliases al))
    (hQ : ∀ e o' G' D' c' toks' pk', o.parse F = (.ok e, o') → o'.p.aliases = [] → gstep G e.data = some G' →
      PInv F ts fin (evs ++ [e]) o' G' D' c' toks' true pk' → Q e (o'.withAliases al)) :
    wpO F P E (Parser.parse F) Q (o.withAliases al) := by
  have h1 := h.parse hF hfin (fun hh => hne (h.good.pos.done_iff.1 hh))
  unfold wpO
  have e1 : (o.withAliases al).run F (Parser.parse F) = (o.withAliases al).parse F := rfl
  rw [e1, ParserObj.parse_aliases]
  have h2 := ParserObj.parse_aliases F o []
  have e2 : o.withAliases [] = o := by
    obtain ⟨⟨_, _, _, _, _⟩, _, _⟩ := o
    dsimp only at hal
    subst hal
    rfl
  rw [e2] at h2
  generalize hq : o.parse F = q at h1 h2 hE hP hQ
  obtain ⟨out, o'⟩ := q
  cases out with
  | ok e =>
    obtain ⟨G', D', c', toks', pk', h3⟩ := h1
    refine hQ e o' G' D' c' toks' pk' rfl ?_ ?_ h3
    · simp at h2; rw [h2]; rfl
    · have hr := h3.run
      rw [List.map_append] at hr
      obtain ⟨s1, g1, g2⟩ := hr.split
      have := g1.det h.run
      subst this
      cases g2 with
      | cons g3 g4 => cases g4; exact g3
  | err e => exact hE e o' rfl
  | panic x => exact hP x h1 rfl
  | fuel => exact h1

/-- The loop over the events of a document: `evs0` were read before (the last is the start of the
document), `devs` inside the document. -/
structure InDoc (F : Nat) (ts : List Token) (fin : Out Token) (o0 : ParserObj) (pre evs0 devs : List Event) (d0 : Document) (o2 : ParserObj) (ns : List Node)
    (ctx : List Nat) (al : List AliasData) (G : GSt) : Prop where
  parses : ParserObj.Parses F o0 (evs0 ++ devs) o2
  inv : ∃ D c toks pk, PInv F ts fin (pre ++ (evs0 ++ devs)) o2 G D c toks true pk
  plain : o2.p.aliases = []
  built : lrun ([], [], []) devs = some (ns, ctx, al)
  run : GRun (.inDoc []) (devs.map (·.data)) G
  inside : ∀ e ∈ devs, ∀ j, e.data ≠ .documentEnd j
  isOpen : Open ns ctx G

theorem InDoc.isNode {F : Nat} {ts : List Token} {fin : Out Token} {o0 : ParserObj} {pre evs0 devs : List Event} {d0 : Document} {o2 : ParserObj} {ns : List Node}
    {ctx : List Nat} {al : List AliasData} (h : InDoc F ts fin o0 pre evs0 devs d0 o2 ns ctx al .docEnd) : IsNode (devs.map (·.data)) := by
  obtain ⟨n, w', hn, hw, he⟩ : LIn [] (devs.map (·.data) ++ [EventData.documentEnd false, EventData.streamEnd]) :=
    h.run.lang (w := [.documentEnd false, .streamEnd]) ⟨false, _, rfl, [], .nil, rfl⟩
  have hr := hn.run []
  have hi : ∀ x ∈ devs.map (·.data), ∀ j, x ≠ .documentEnd j := by
    intro x hx j
    obtain ⟨e, he, rfl⟩ := List.mem_map.1 hx
    exact h.inside e he j
  have hrun := h.run
  generalize devs.map (·.data) = w at hw hi hrun
  rcases List.append_eq_append_iff.1 hw with ⟨x, rfl, hx⟩ | ⟨y, rfl, hy⟩
  · obtain ⟨s1, g1, g2⟩ := hr.split
    have := g1.det hrun
    subst this
    match x, hx with
    | [], _ => simpa using hn
    | [a], hx =>
      simp at hx
      obtain ⟨rfl, hx⟩ := hx
      cases g2 with
      | cons a b => cases b; simp [gstep, GSt.after] at a
    | [a, b], hx =>
      simp at hx
      obtain ⟨rfl, rfl, hx⟩ := hx
      cases g2 with
      | cons g3 g4 =>
        cases g4 with
        | cons g5 g6 =>
          cases g6
          simp [gstep] at g3
          subst g3
          simp [gstep, GSt.after] at g5
    | a :: b :: c :: x, hx => simp at hx
  · obtain ⟨s1, g1, g2⟩ := hrun.split
    have := g1.det hr
    subst this
    match y with
    | [] => simpa using hn
    | a :: y =>
      cases g2 with
      | cons g3 g4 =>
        exfalso
        cases a <;> simp [gstep, GSt.after] at g3
        case documentEnd b => exact hi (.documentEnd b) (by simp) b rfl

/-- Results of the loop. -/
structure Loaded (F : Nat) (ts : List Token) (fin : Out Token) (o0 : ParserObj) (pre evs0 : List Event) (d0 : Document) (d : Document) (o2 : ParserObj) : Prop where
  ex : ∃ devs last root names j D c toks pk, (∀ x ∈ devs, ∀ j, x.data ≠ .documentEnd j) ∧ AnchorsOk devs ∧ ParserObj.Parses F o0 (evs0 ++ devs ++ [last]) o2 ∧ PInv F ts fin (pre ++ (evs0 ++ devs ++ [last])) o2 .docs D c toks true pk ∧
    o2.p.aliases = [] ∧ Tree.Good root ∧ root.events = devs ∧ last.data = .documentEnd j ∧ root.compose [] 0 = some (1, d.nodes, names) ∧
    d = { d0 with nodes := d.nodes, endImplicit := j, endMark := last.endMark }

theorem compose_root {root : Tree} {id : Nat} {new : List Node} {names : Names} (h : root.compose [] 0 = some (id, new, names)) : id = 1 := by
  cases root with
  | leaf e =>
    unfold Tree.compose at h
    split at h
    · simp [Names.find] at h
    · simp only [Option.map_eq_some_iff] at h
      obtain ⟨x, hx, h⟩ := h
      cases h; rfl
    · simp at h
  | coll s cs t =>
    unfold Tree.compose at h
    split at h
    · simp only [Option.bind_eq_some_iff, Option.map_eq_some_iff] at h
      obtain ⟨x, hx, y, hy, h⟩ := h
      cases h; rfl
    · simp only [Option.bind_eq_some_iff, Option.map_eq_some_iff] at h
      obtain ⟨x, hx, y, hy, h⟩ := h
      cases h; rfl
    · simp at h

theorem wpO_loop {F : Nat} {P : PanicSite → Prop} {E : Err → ParserObj → Prop} {Q : Document → ParserObj → Prop} {ts : List Token} {fin : Out Token} {o0 : ParserObj}
    {pre evs0 : List Event} {d0 : Document} (hF : ts.length < F) (hfin : (∃ e, fin = .err e) ∨ ∃ x, fin = .panic x)
    (hP : ∀ devs o x, ParserObj.Parses F o0 (evs0 ++ devs) o → (∀ x ∈ devs, ∀ j, x.data ≠ .documentEnd j) → AnchorsOk devs → fin = .panic x → (o.parse F).1 = .panic x → P x)
    (hE1 : ∀ devs o e o' al, ParserObj.Parses F o0 (evs0 ++ devs) o → (∀ x ∈ devs, ∀ j, x.data ≠ .documentEnd j) → AnchorsOk devs → o.parse F = (.err e, o') → E e (o'.withAliases al))
    (hE2 : ∀ devs ev e o2 al, ParserObj.Parses F o0 (evs0 ++ devs ++ [ev]) o2 → (∀ x ∈ devs, ∀ j, x.data ≠ .documentEnd j) → AnchorsOk devs → AnchorError devs ev e → E e (o2.withAliases al))
    (hQ : ∀ d o2 al, Loaded F ts fin o0 pre evs0 d0 d o2 → Q d (o2.withAliases al)) :
    ∀ (n : Nat) (devs : List Event) (o2 : ParserObj) (ns : List Node) (ctx : List Nat) (al : List AliasData) (G : GSt),
      InDoc F ts fin o0 pre evs0 devs d0 o2 ns ctx al G → 4 * ts.length < n + (pre ++ (evs0 ++ devs)).length →
      wpO F P E (M.loop n (fun ((d, ctx) : Document × List Nat) => do
        let event ← Parser.parse F
        loadStep d ctx event) ({ d0 with nodes := ns }, ctx)) Q (o2.withAliases al) := by
  intro n
  induction n with
  | zero =>
    intro devs o2 ns ctx al G h hn
    obtain ⟨D, c, toks, pk, hi⟩ := h.inv
    have := hi.pot
    omega
  | succ n ih =>
    intro devs o2 ns ctx al G h hn
    obtain ⟨D, c, toks, pk, hi⟩ := h.inv
    unfold M.loop
    rw [wpO_bind]
    dsimp only
    rw [wpO_bind]
    have hG : G ≠ .done := by
      rintro rfl; exact h.isOpen
    refine wpO_parse hi hF hfin hG h.plain (fun x h1 h2 => hP _ _ x h.parses h.inside (lrun_anchors h.built) h1 h2) (fun e o' h1 => hE1 _ _ _ _ _ h.parses h.inside (lrun_anchors h.built) h1) ?_
    intro e o' G' D' c' toks' pk' hs hpl hg hi'
    have hpar := ParserObj.Parses.snoc h.parses hs
    have hmarks : marksOf (o'.withAliases al).p.aliases = marked devs := by
      have : marksOf al = marksOf [] ++ marked devs := lrun_marks h.built
      exact this
    refine wpO_loadStep (G := G) (G' := G') (devs := devs) h.isOpen hg hmarks ?_ ?_ ?_
    · intro er her
      exact hE2 devs e er o' al hpar h.inside (lrun_anchors h.built) her
    · intro j hj
      have hG : G = .docEnd := by
        cases G <;> simp [hj, gstep] at hg ⊢
      subst hG
      have hG' : G' = .docs := by simpa [hj, gstep] using hg.symm
      subst hG'
      rw [wpO_pure]
      apply hQ
      have hctx : ctx = [] := h.isOpen
      subst hctx
      obtain ⟨root, hgood, hev⟩ := Spec.IsNode.tree_ex h.isNode rfl
      have hl := lrun_tree root [] [] [] hgood (by simp) (by intro x hx; simp [namesOf] at hx)
      rw [hev, h.built] at hl
      cases hc : root.compose (namesOf []) ([] : List Node).length with
      | none => rw [hc] at hl; simp at hl
      | some q =>
        obtain ⟨id, new, names⟩ := q
        rw [hc] at hl
        obtain ⟨al', h1, h2⟩ := hl
        have h1 : ns = new := by simp [attach] at h1; exact h1.1
        subst h1
        have hc : root.compose [] 0 = some (id, ns, names) := hc
        have := compose_root hc
        subst this
        exact ⟨devs, e, root, names, j, D', c', toks', pk', h.inside, lrun_anchors h.built, hpar, by rw [← List.append_assoc pre] at hi' ⊢; simpa using hi', hpl, hgood, hev, hj, hc, rfl⟩
    · intro ns' ctx' al' hne hl
      have hl : lstep (ns, ctx, al) e = some (ns', ctx', al') := hl
      have e1 : (o'.withAliases al).withAliases al' = o'.withAliases al' := rfl
      show wpO F P E (M.loop n _ ({ d0 with nodes := ns' }, ctx')) Q ((o'.withAliases al).withAliases al')
      rw [e1]
      refine ih (devs ++ [e]) o' ns' ctx' al' G' ⟨?_, ?_, hpl, ?_, ?_, ?_, ?_⟩ ?_
      · rw [← List.append_assoc]; exact hpar
      · refine ⟨D', c', toks', pk', ?_⟩
        simpa using hi'
      · rw [lrun_append, h.built]
        simp [lrun, hl]
      · rw [List.map_append]; exact h.run.snoc hg
      · intro x hx
        rcases List.mem_append.1 hx with hx | hx
        · exact h.inside x hx
        · simp at hx; subst hx; exact hne
      · exact lstep_open h.isOpen hg hl
      · simp at hn ⊢; omega

/-! ### The whole call -/

theorem PInv.flags {F : Nat} {ts : List Token} {fin : Out Token} {evs : List Event} {o : ParserObj} {G : GSt} {D : List TagDirective} {c toks : List Token}
    {st pk : Bool} (h : PInv F ts fin evs o G D c toks st pk) : o.s.streamStartProduced = st ∧ (o.s.streamEndProduced = true ↔ G = .done) := by
  have hd := h.good.pos.done_iff
  cases h.rel with
  | fresh hb he hk hst hs =>
    refine ⟨hst.symm, ?_⟩
    rw [hs.notEnded]
    have he : (o.p.state == .end_) = false := he
    constructor
    · simp
    · intro hg; rw [hd.2 hg] at he; simp at he
  | front hb he hk hse hst hst' =>
    refine ⟨hst'.trans hst.symm, ?_⟩
    rw [hse]
    have he : (o.p.state == .end_) = false := he
    constructor
    · simp
    · intro hg; rw [hd.2 hg] at he; simp at he
  | ended hb he hk hst hs =>
    refine ⟨hst.symm, ?_⟩
    rw [hs]
    have he : (o.p.state == .end_) = true := he
    simp only [true_iff]
    exact hd.1 (by simpa using he)
  | broken hb hk => simp at hb

/-- A parser between documents (or before the first, or after the last). -/
def Between (F : Nat) (ts : List Token) (fin : Out Token) (evs : List Event) (o : ParserObj) : Prop :=
  ∃ G D c toks st pk, PInv F ts fin evs o G D c toks st pk ∧ o.p.aliases = [] ∧ ((G = .start ∧ st = false) ∨ ((G = .docs ∨ G = .done) ∧ st = true))

/-- `s` is the start of the stream, unless it came before. -/
def Starts (pre s : List Event) : Prop := (pre = [] ∧ ∃ e, s.map (·.data) = [.streamStart e]) ∨ (pre ≠ [] ∧ s = [])

/-- The events that `load` has read when it reads on, after the events `pre`. -/
inductive Reading (pre : List Event) : List Event → Prop
  | fresh (h : pre = []) : Reading pre []
  | started {s : List Event} (h : Starts pre s) : Reading pre s
  | inside {s devs : List Event} {first : Event} (h : Starts pre s) (hf : ∃ v t i, first.data = .documentStart v t i)
      (hn : ∀ x ∈ devs, ∀ j, x.data ≠ .documentEnd j) (ha : AnchorsOk devs) : Reading pre (s ++ (first :: devs))

/-- What a successful call of `load` after the events `pre` did: it read the events `evs`. -/
inductive LoadedBy (pre evs : List Event) (d : Document) : Prop
  | ended (h : AtEnd pre) (he : evs = []) (hd : d = emptyDocument)
  | last {s : List Event} {e : Event} (h : ¬ AtEnd pre) (hs : Starts pre s) (he : evs = s ++ [e]) (hl : isStreamEndEvent e = true) (hd : d = emptyDocument)
  | document {s devs : List Event} {first last : Event} {j : Bool} (h : ¬ AtEnd pre) (hx : ¬ AtEnd (pre ++ evs)) (hs : Starts pre s) (he : evs = s ++ (first :: (devs ++ [last]))) (hl : last.data = .documentEnd j)
      (hn : ∀ x ∈ devs, ∀ j, x.data ≠ .documentEnd j) (ha : AnchorsOk devs) (hd : DocumentOf (first :: (devs ++ [last])) d)

structure LoadedOk (F : Nat) (ts : List Token) (fin : Out Token) (pre : List Event) (o : ParserObj) (d : Document) (o' : ParserObj) (evs : List Event) : Prop where
  parses : ParserObj.Parses F o evs o'
  between : Between F ts fin (pre ++ evs) o'
  built : LoadedBy pre evs d

/-- What a failing call of `load` did. -/
inductive LoadFails (F : Nat) (pre : List Event) (o : ParserObj) (e : Err) : Prop
  | parser {evs : List Event} {o2 : ParserObj} (hr : Reading pre evs) (h : ParserObj.Parses F o evs o2) (he : (o2.parse F).1 = .err e)
  | anchor {s devs : List Event} {first ev : Event} {o2 : ParserObj} (h : ParserObj.Parses F o (s ++ (first :: devs) ++ [ev]) o2)
      (hs : Starts pre s) (hf : ∃ v t i, first.data = .documentStart v t i) (hn : ∀ x ∈ devs, ∀ j, x.data ≠ .documentEnd j) (ha : AnchorsOk devs) (he : AnchorError devs ev e)

/-- What a panicking call of `load` did. -/
def LoadPanics (F : Nat) (pre : List Event) (o : ParserObj) (x : PanicSite) : Prop := ∃ evs o2, Reading pre evs ∧ ParserObj.Parses F o evs o2 ∧ (o2.parse F).1 = .panic x

theorem withAliases_nil {o : ParserObj} (h : o.p.aliases = []) : o.withAliases [] = o := by
  obtain ⟨⟨_, _, _, _, _⟩, _, _⟩ := o
  dsimp only at h
  subst h
  rfl

theorem after_ne_start {f : List Coll} (h : GSt.after f = .start) : False := by
  match f, h with
  | [], h => simp [GSt.after] at h
  | .seq :: _, h => simp [GSt.after] at h
  | .mapK :: _, h => simp [GSt.after] at h
  | .mapV :: _, h => simp [GSt.after] at h

theorem GRun.not_start {s s' : GSt} {es : List EventData} (h : GRun s es s') (hs : s' = .start) : es = [] := by
  induction h with
  | nil s => rfl
  | @cons s s1 s2 e es h hr ih =>
    have := ih hs
    subst this
    cases hr
    subst hs
    unfold gstep at h
    split at h <;> simp_all
    all_goals exact after_ne_start h

theorem PInv.atEnd {F : Nat} {ts : List Token} {fin : Out Token} {evs : List Event} {o : ParserObj} {D : List TagDirective} {c toks : List Token}
    {st pk : Bool} (h : PInv F ts fin evs o .done D c toks st pk) : AtEnd evs := by
  obtain ⟨es', he⟩ := h.run.ended.2.2 rfl (by simp)
  have : EventData.streamEnd ∈ evs.map (·.data) := by rw [he]; simp
  obtain ⟨e, he, hd⟩ := List.mem_map.1 this
  exact ⟨e, he, by simp [isStreamEndEvent, hd]⟩

theorem PInv.notEnd {F : Nat} {ts : List Token} {fin : Out Token} {evs : List Event} {o : ParserObj} {G : GSt} {D : List TagDirective} {c toks : List Token}
    {st pk : Bool} (h : PInv F ts fin evs o G D c toks st pk) (hG : G ≠ .done) : ¬ AtEnd evs := by
  rintro ⟨e, he, hd⟩
  have hd : e.data = .streamEnd := by simpa [isStreamEndEvent] using hd
  exact hG (h.run.ended.1 (List.mem_map.2 ⟨e, he, hd⟩))

/-- The part of `load` after the start of the stream. -/
def loadRest (F : Nat) : Pars Document := do
  let ended ← (M.prim TokOp.streamEnded : Pars Bool)
  if ended then pure (Document.new none [] false false)
  else do
    let event ← cleaningErr (Parser.parse F)
    match event.data with
    | .streamEnd => pure (Document.new none [] false false)
    | _ => do
      let d ← cleaningErr (loadDocument F (Document.new none [] false false) event)
      deleteAliases
      pure d

theorem wpO_loadRest {F : Nat} {ts : List Token} {fin : Out Token} {pre evs0 : List Event} {o o1 : ParserObj} {G : GSt} {D : List TagDirective} {c toks : List Token} {pk : Bool}
    (hF : 4 * ts.length + 1 < F) (hfin : (∃ e, fin = .err e) ∨ ∃ x, fin = .panic x)
    (hi : PInv F ts fin (pre ++ evs0) o1 G D c toks true pk) (hal : o1.p.aliases = []) (hp : ParserObj.Parses F o evs0 o1)
    (hG : (G = .docs ∧ Starts pre evs0 ∧ ¬ AtEnd pre) ∨ (G = .done ∧ evs0 = [])) :
    wpO F (fun x => fin = .panic x ∧ LoadPanics F pre o x) (fun e o' => LoadFails F pre o e ∧ o'.p.aliases = [])
      (loadRest F) (fun d o' => ∃ evs, LoadedOk F ts fin pre o d o' evs) o1 := by
  have hfl := hi.flags
  unfold loadRest
  rw [wpO_bind, wpO_ended]
  rcases hG with ⟨rfl, hst, hne⟩ | ⟨rfl, rfl⟩
  · have he : o1.s.streamEndProduced = false := by
      cases h : o1.s.streamEndProduced with
      | false => rfl
      | true => simpa using hfl.2.1 h
    rw [he]
    rw [if_neg (by simp)]
    show wpO _ _ _ (cleaningErr (Parser.parse F) >>= _) _ _
    rw [wpO_bind, wpO_cleaningErr]
    have e1 := withAliases_nil hal
    rw [← e1]
    refine wpO_parse hi (by omega) hfin (by simp) hal (fun x h1 h2 => ⟨h1, _, _, .started hst, hp, h2⟩) ?_ ?_
    · intro e o' h1
      exact ⟨.parser (.started hst) hp (by rw [h1]), rfl⟩
    · intro e o' G' D' c' toks' pk' hs' hal' hg hi'
      have e2 := withAliases_nil hal'
      have hp' := ParserObj.Parses.snoc hp hs'
      rw [e2]
      obtain ⟨ed, m1, m2⟩ := e
      cases ed <;> simp [gstep] at hg
      · subst hg
        show wpO _ _ _ (pure _) _ _
        rw [wpO_pure]
        have hi' : PInv F ts fin (pre ++ (evs0 ++ [⟨.streamEnd, m1, m2⟩])) o' .done D' c' toks' true pk' := by rw [← List.append_assoc]; exact hi'
        exact ⟨_, hp', ⟨_, _, _, _, _, _, hi', hal', Or.inr ⟨Or.inr rfl, rfl⟩⟩, .last hne hst rfl rfl rfl⟩
      · rename_i v t i
        subst hg
        dsimp only
        rw [wpO_bind, wpO_cleaningErr]
        unfold loadDocument
        dsimp only
        unfold loadNodes
        have hloop := wpO_loop (F := F) (P := fun x => fin = .panic x ∧ LoadPanics F pre o x)
          (E := fun e (o' : ParserObj) => LoadFails F pre o e ∧ (o'.withAliases []).p.aliases = [])
          (Q := fun d o' => wpO F (fun x => fin = .panic x ∧ LoadPanics F pre o x) (fun e o' => LoadFails F pre o e ∧ o'.p.aliases = [])
            (do deleteAliases; pure d) (fun d o' => ∃ evs0, LoadedOk F ts fin pre o d o' evs0) o')
          (ts := ts) (fin := fin) (o0 := o) (pre := pre) (evs0 := evs0 ++ [⟨.documentStart v t i, m1, m2⟩])
          (d0 := { Document.new none [] false false with versionDirective := v, tagDirectives := t, startImplicit := i, startMark := m1 })
          (by omega) hfin
          (fun devs o2 x h1 h4 h5 h2 h3 => ⟨h2, _, _, .inside hst ⟨_, _, _, rfl⟩ h4 h5, by simpa using h1, h3⟩)
          (fun devs o2 e o3 al h1 h4 h5 h2 => ⟨.parser (.inside (first := ⟨.documentStart v t i, m1, m2⟩) hst ⟨_, _, _, rfl⟩ h4 h5) (by simpa using h1) (by rw [h2]), rfl⟩)
          (fun devs ev e o2 al h1 h2 h4 h3 => ⟨.anchor (s := evs0) (devs := devs) (first := ⟨.documentStart v t i, m1, m2⟩) (by simpa using h1) hst ⟨_, _, _, rfl⟩ h2 h4 h3, rfl⟩)
          ?_ F [] o' [] [] [] (.inDoc []) ?_ ?_
        · rw [e2] at hloop
          exact hloop
        · rintro d o2 al ⟨devs, last, root, names, j, D2, c2, toks2, pk2, h9, h10, h1, h2, h3, h4, h5, h6, h7, h8⟩
          unfold deleteAliases
          rw [wpO_bind, wpO_modify, wpO_pure]
          have e3 : ({ o2.withAliases al with p := { (o2.withAliases al).p with aliases := [] } } : ParserObj) = o2.withAliases [] := rfl
          rw [e3, withAliases_nil h3]
          refine ⟨evs0 ++ [⟨.documentStart v t i, m1, m2⟩] ++ devs ++ [last], h1, ⟨_, _, _, _, _, _, h2, h3, Or.inr ⟨Or.inl rfl, rfl⟩⟩,
            .document (first := ⟨.documentStart v t i, m1, m2⟩) hne (h2.notEnd (by simp)) hst (by simp) h6 h9 h10 ?_⟩
          refine ⟨⟨.documentStart v t i, m1, m2⟩, last, root, v, t, i, j, names, by rw [h5], h4, rfl, h6, h7, ?_⟩
          rw [h8]
          exact ⟨rfl, rfl, rfl, rfl, rfl, rfl⟩
        · refine ⟨by simpa using hp', ⟨D', c', toks', pk', by simpa using hi'⟩, hal', rfl, .nil _, by simp, trivial⟩
        · simp; omega
  · have he : o1.s.streamEndProduced = true := hfl.2.2 rfl
    rw [he]
    simp only [if_true]
    rw [wpO_pure]
    exact ⟨[], hp, ⟨_, _, _, _, _, _, hi, hal, Or.inr ⟨Or.inr rfl, rfl⟩⟩, .ended (by simpa using hi.atEnd) rfl rfl⟩

theorem wpO_load {F : Nat} {ts : List Token} {fin : Out Token} {pre : List Event} {o : ParserObj} (hF : 4 * ts.length + 1 < F) (hfin : (∃ e, fin = .err e) ∨ ∃ x, fin = .panic x)
    (h : Between F ts fin pre o) :
    wpO F (fun x => fin = .panic x ∧ LoadPanics F pre o x) (fun e o' => LoadFails F pre o e ∧ o'.p.aliases = [])
      (load F) (fun d o' => ∃ evs, LoadedOk F ts fin pre o d o' evs) o := by
  obtain ⟨G, D, c, toks, st, pk, hi, hal, hG⟩ := h
  have hfl := hi.flags
  have e0 : load F = (do
      let started ← (M.prim TokOp.streamStarted : Pars Bool)
      M.when (!started) (do
        let event ← cleaningErr (Parser.parse F)
        match event.data with
        | .streamStart _ => pure ()
        | _ => M.panic .loadNoStreamStart)
      loadRest F) := rfl
  rw [e0, wpO_bind, wpO_started, wpO_bind, wpO_when, hfl.1]
  rcases hG with ⟨rfl, rfl⟩ | ⟨hG, rfl⟩
  · have hpre : pre = [] := by simpa using hi.run.not_start rfl
    subst hpre
    simp only [Bool.not_false, if_true]
    rw [wpO_bind, wpO_cleaningErr]
    have e1 := withAliases_nil hal
    have : ∀ {Q : Event → ParserObj → Prop}, wpO F (fun x => fin = .panic x ∧ LoadPanics F [] o x)
      (fun e o' => LoadFails F [] o e ∧ (o'.withAliases []).p.aliases = []) (Parser.parse F) Q (o.withAliases []) → wpO F (fun x => fin = .panic x ∧ LoadPanics F [] o x)
      (fun e o' => LoadFails F [] o e ∧ (o'.withAliases []).p.aliases = []) (Parser.parse F) Q o := by
      intro Q; rw [e1]; exact id
    apply this
    refine wpO_parse hi (by omega) hfin (by simp) hal (fun x h1 h2 => ⟨h1, _, _, .fresh rfl, .nil, h2⟩) ?_ ?_
    · intro e o' h1
      exact ⟨.parser (.fresh rfl) .nil (by rw [h1]), rfl⟩
    · intro e o' G' D' c' toks' pk' hs' hal' hg hi'
      rw [withAliases_nil hal']
      obtain ⟨ed, m1, m2⟩ := e
      cases ed <;> simp [gstep] at hg
      rename_i enc
      subst hg
      show wpO _ _ _ (pure ()) _ _
      rw [wpO_pure]
      exact wpO_loadRest (pre := []) hF hfin hi' hal' (.snoc .nil hs') (Or.inl ⟨rfl, Or.inl ⟨rfl, enc, rfl⟩, by rintro ⟨e, he, _⟩; simp at he⟩)
  · rw [if_neg (by simp)]
    have hpre : pre ≠ [] := by
      rintro rfl
      have := hi.run
      cases this
      rcases hG with h | h <;> simp at h
    refine wpO_loadRest (evs0 := []) hF hfin (by simpa using hi) hal .nil ?_
    rcases hG with rfl | rfl
    · refine Or.inl ⟨rfl, Or.inr ⟨hpre, rfl⟩, ?_⟩
      rintro ⟨e, he, hd⟩
      have hd : e.data = .streamEnd := by simpa [isStreamEndEvent] using hd
      have := hi.run.ended.1 (List.mem_map.2 ⟨e, he, hd⟩)
      simp at this
    · exact Or.inr ⟨rfl, rfl⟩

end Yaml
