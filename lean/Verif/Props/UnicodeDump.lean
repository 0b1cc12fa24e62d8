import Verif.Spec.AsciiDoc
import Verif.Lib.Dump
import Verif.Props.Unicode

/-
C68 for `Document::dump`.
-/

namespace Yaml.Props
open Yaml Yaml.Spec Yaml.Emitter Yaml.EmitterObj Yaml.Document
set_option linter.unusedVariables false

/-- The same dumper but for the setting. -/
def UnlikeD (b : Bool) (o o' : DumperObj) : Prop := Unlike b o.o o'.o ∧ o'.b = o.b

/-- `m` gives the same from both. -/
def BD {α : Type} (b : Bool) (m : EmitB α) (Q : α → Prop) : Prop :=
  ∀ o o', UnlikeD b o o' → (o'.run m).1 = (o.run m).1 ∧ UnlikeD b (o.run m).2 (o'.run m).2 ∧ ∀ a, (o.run m).1 = .ok a → Q a

theorem bd_bind {α β : Type} {b : Bool} {m : EmitB α} {f : α → EmitB β} {Q : α → Prop} {R : β → Prop} (h : BD b m Q) (hf : ∀ a, Q a → BD b (f a) R) :
    BD b (m >>= f) R := by
  intro o o' ho
  obtain ⟨h1, h2, h3⟩ := h o o' ho
  rw [DumperObj.run_bind, DumperObj.run_bind]
  generalize o.run m = q at h1 h2 h3
  generalize o'.run m = q' at h1 h2
  obtain ⟨x, o1⟩ := q
  obtain ⟨x', o1'⟩ := q'
  dsimp only at h1 h2 h3
  subst h1
  cases x' with
  | ok a => exact hf a (h3 a rfl) _ _ h2
  | err e => exact ⟨rfl, h2, by intro a h; cases h⟩
  | panic e => exact ⟨rfl, h2, by intro a h; cases h⟩
  | fuel => exact ⟨rfl, h2, by intro a h; cases h⟩

theorem bd_pure {α : Type} {b : Bool} {a : α} {Q : α → Prop} (h : Q a) : BD b (pure a : EmitB α) Q :=
  fun _ _ ho => ⟨rfl, ho, by intro x hx; rw [DumperObj.run_pure] at hx; cases hx; exact h⟩
theorem bd_unit {b : Bool} : BD b (pure () : EmitB Unit) Eu.T := bd_pure trivial
theorem bd_panic {α : Type} {b : Bool} {p : PanicSite} {Q : α → Prop} : BD b (M.panic p : EmitB α) Q :=
  fun o o' ho => ⟨rfl, ho, by intro x hx; rw [DumperObj.run_panic] at hx; cases hx⟩
theorem bd_fuel {α : Type} {b : Bool} {Q : α → Prop} : BD b (M.outOfFuel : EmitB α) Q :=
  fun o o' ho => ⟨rfl, ho, by intro x hx; cases hx⟩
theorem bd_throw {α : Type} {b : Bool} {e : Err} {Q : α → Prop} : BD b (M.throw e : EmitB α) Q :=
  fun o o' ho => ⟨rfl, ho, by intro x hx; cases hx⟩
theorem bd_getBook {b : Bool} : BD b getBook Eu.T := fun o o' ho => ⟨by rw [DumperObj.run_getBook, DumperObj.run_getBook, ho.2], ho, fun _ _ => trivial⟩
theorem bd_book {b : Bool} {f : Book → Book} : BD b (modifyBook f) Eu.T :=
  fun o o' ho => ⟨rfl, ⟨ho.1, congrArg f ho.2⟩, fun _ _ => trivial⟩
theorem bd_emit {b : Bool} {ev : Event} (he : AsciiEvent ev) : BD b (lift (Emitter.emit ev)) Eu.T := by
  intro o o' ho
  rw [DumperObj.run_lift, DumperObj.run_lift]
  have h : (o'.o.emit ev).1 = (o.o.emit ev).1 ∧ Unlike b (o.o.emit ev).2 (o'.o.emit ev).2 := ho.1.emit he
  exact ⟨h.1, ⟨h.2, ho.2⟩, fun _ _ => trivial⟩
theorem bd_when {b c : Bool} {m : EmitB Unit} (h : BD b m Eu.T) : BD b (M.when c m) Eu.T := by
  cases c with
  | true => exact h
  | false => exact bd_unit

theorem run_catch {α : Type} (m : EmitB α) (o : DumperObj) :
    o.run (M.catchErr m) = match o.run m with
      | (.ok a, o') => (.ok (.ok a), o')
      | (.err e, o') => (.ok (.error e), o')
      | (.panic p, o') => (.panic p, o')
      | (.fuel, o') => (.fuel, o') := by
  unfold DumperObj.run M.catchErr
  simp only [sink_exec_bind]
  generalize Sink.exec (m (o.o.s, o.b)) o.o.k = q
  obtain ⟨⟨r, s, b⟩, k⟩ := q
  cases r <;> rfl

theorem bd_catch {α : Type} {b : Bool} {m : EmitB α} {Q : α → Prop} (h : BD b m Q) : BD b (M.catchErr m) (fun _ => True) := by
  intro o o' ho
  obtain ⟨h1, h2, h3⟩ := h o o' ho
  rw [run_catch, run_catch]
  generalize o.run m = q at h1 h2 h3
  generalize o'.run m = q' at h1 h2
  obtain ⟨x, o1⟩ := q
  obtain ⟨x', o1'⟩ := q'
  dsimp only at h1 h2 h3
  subst h1
  cases x' <;> exact ⟨rfl, h2, fun _ _ => trivial⟩

theorem plain_ascii {d : EventData} (h : ∀ a t v p q st, d ≠ .scalar a t v p q st) : AsciiEvent (Event.new d) :=
  fun a t v p q st hd => absurd hd (h a t v p q st)

theorem bd_open {b : Bool} : BD b open_ Eu.T := by
  refine bd_bind bd_getBook fun bk _ => ?_
  split
  · exact bd_panic
  · exact bd_bind (bd_emit (plain_ascii (by intros; exact EventData.noConfusion))) fun _ _ => bd_book

theorem bd_close {b : Bool} : BD b close Eu.T := by
  refine bd_bind bd_getBook fun bk _ => ?_
  split
  · exact bd_panic
  · split
    · exact bd_unit
    · exact bd_bind (bd_emit (plain_ascii (by intros; exact EventData.noConfusion))) fun _ _ => bd_book

theorem bd_anchorSub {b : Bool} {i : Nat} : BD b (anchorNodeSub i) Eu.T := by
  unfold anchorNodeSub
  split
  · exact bd_panic
  · refine bd_bind bd_getBook fun bk _ => ?_
    split
    · exact bd_panic
    · split
      · exact bd_book
      · exact bd_book

theorem bd_anchorSubs {b : Bool} {l : List Nat} : BD b (anchorSubs l) Eu.T := by
  induction l with
  | nil => exact bd_unit
  | cons i l ih => exact bd_bind bd_anchorSub fun _ _ => ih

theorem bd_anchorNode {b : Bool} {nodes : List Node} {i : Nat} : BD b (anchorNode nodes i) Eu.T := by
  refine bd_bind bd_getBook fun bk _ => ?_
  split
  · refine bd_bind bd_book fun _ _ => ?_
    split
    · exact bd_anchorSubs
    · split
      · exact bd_book
      · exact bd_unit
  · exact bd_panic

/-- The scalars of the node table are ASCII. -/
def AsciiNodes (l : List Node) : Prop := ∀ n ∈ l, ∀ value style, n.data = .scalar value style → ∀ c ∈ value, c.toNat < 128

theorem bd_items {b : Bool} {f : List Node → Nat → EmitB (List Node)} (hf : ∀ l i, AsciiNodes l → BD b (f l i) AsciiNodes) {is : List Nat} {l : List Node}
    (hl : AsciiNodes l) : BD b (dumpItems f is l) AsciiNodes := by
  induction is generalizing l with
  | nil => exact bd_pure hl
  | cons i is ih => exact bd_bind (hf l i hl) fun l' hl' => ih hl'

theorem bd_node {b : Bool} {F : Nat} {l : List Node} {i : Nat} (hl : AsciiNodes l) : BD b (dumpNode F l i) AsciiNodes := by
  induction F generalizing l i with
  | zero => exact bd_fuel
  | succ F ih =>
    unfold dumpNode
    split
    · exact bd_panic
    · refine bd_bind bd_getBook fun bk _ => ?_
      split
      · rename_i node a hn ha
        have hset : AsciiNodes (l.set (i - 1) emptyNode) := by
          intro n hm
          rcases List.mem_or_eq_of_mem_set hm with h | rfl
          · exact hl n h
          · intro v st h; cases h
        dsimp only
        split
        · split
          · exact bd_panic
          · exact bd_bind (bd_emit (plain_ascii (by intros; exact EventData.noConfusion))) fun _ _ => bd_pure hl
        · refine bd_bind bd_book fun _ _ => ?_
          split
          · rename_i v st hd
            refine bd_bind (bd_emit ?_) fun _ _ => bd_pure hset
            intro a t v' p q st' he
            cases he
            exact hl node (List.mem_of_getElem? hn) v st hd
          · exact bd_bind (bd_emit (plain_ascii (by intros; exact EventData.noConfusion))) fun _ _ =>
              bd_bind (bd_items (fun _ _ h => ih h) hset) fun _ h => bd_bind (bd_emit (plain_ascii (by intros; exact EventData.noConfusion))) fun _ _ => bd_pure h
          · exact bd_bind (bd_emit (plain_ascii (by intros; exact EventData.noConfusion))) fun _ _ =>
              bd_bind (bd_items (fun _ _ h => ih h) hset) fun _ h => bd_bind (bd_emit (plain_ascii (by intros; exact EventData.noConfusion))) fun _ _ => bd_pure h
          · exact bd_panic
      · exact bd_panic

theorem bd_dump {b : Bool} {d : Document} (hd : AsciiDocument d) : BD b (Document.dump d) Eu.T := by
  refine bd_bind bd_getBook fun bk _ => ?_
  refine bd_bind (bd_when (bd_bind (bd_catch bd_open) fun r _ => ?_)) fun _ _ => ?_
  · split
    · exact bd_unit
    · exact bd_bind bd_book fun _ _ => bd_throw
  dsimp only
  split
  · exact bd_bind bd_close fun _ _ => bd_book
  · refine bd_bind bd_getBook fun bk _ => ?_
    split
    · exact bd_bind (Q := Eu.T) bd_panic fun _ _ => bd_book
    · refine bd_bind bd_book fun _ _ => bd_bind (bd_emit (plain_ascii (by intros; exact EventData.noConfusion))) fun _ _ => bd_bind bd_anchorNode fun _ _ =>
        bd_bind (bd_node hd) fun _ _ => bd_bind (bd_emit (plain_ascii (by intros; exact EventData.noConfusion))) fun _ _ => bd_book

/-- C68 for documents: dumping documents whose scalars are ASCII gives the same results and the same bytes, whatever
`set_unicode` was set to (also for documents that cannot be dumped, and if the writer fails). -/
theorem C68_dump (enc : Encoding) (cfg : List Setting) (w : Writer) (b : Bool) (ds : List Document) (ha : ∀ d ∈ ds, AsciiDocument d) :
    (DumperObj.dumpAll ds ⟨new enc (cfg ++ [.unicode b]) w, {}⟩).1 = (DumperObj.dumpAll ds ⟨new enc cfg w, {}⟩).1 ∧
    (DumperObj.dumpAll ds ⟨new enc (cfg ++ [.unicode b]) w, {}⟩).2.o.written = (DumperObj.dumpAll ds ⟨new enc cfg w, {}⟩).2.o.written := by
  suffices hs : ∀ o o', UnlikeD b o o' → (DumperObj.dumpAll ds o').1 = (DumperObj.dumpAll ds o).1 ∧ UnlikeD b (DumperObj.dumpAll ds o).2 (DumperObj.dumpAll ds o').2 by
    obtain ⟨h1, h2⟩ := hs ⟨new enc cfg w, {}⟩ ⟨new enc (cfg ++ [.unicode b]) w, {}⟩ ⟨Unlike.new enc cfg w b, rfl⟩
    exact ⟨h1, h2.1.written⟩
  induction ds with
  | nil => exact fun o o' h => ⟨rfl, h⟩
  | cons d ds ih =>
    intro o o' h
    obtain ⟨h1, h2, _⟩ := bd_dump (ha d (List.mem_cons_self ..)) o o' h
    have h1 : (o'.dump d).1 = (o.dump d).1 := h1
    have h2 : UnlikeD b (o.dump d).2 (o'.dump d).2 := h2
    unfold DumperObj.dumpAll
    generalize o.dump d = q at h1 h2
    generalize o'.dump d = q' at h1 h2
    obtain ⟨r, o1⟩ := q
    obtain ⟨r', o1'⟩ := q'
    dsimp only at h1 h2
    subst h1
    cases r' with
    | ok a => exact ih (fun d hm => ha d (List.mem_cons_of_mem _ hm)) _ _ h2
    | err x => exact ⟨rfl, h2⟩
    | panic x => exact ⟨rfl, h2⟩
    | fuel => exact ⟨rfl, h2⟩

/-- A document with a shared node. -/
def uniDocument (v : Str) : Document :=
  ⟨[⟨.sequence [2, 2] .block, some (cs! "tag:yaml.org,2002:seq"), Mark.zero, Mark.zero⟩,
    ⟨.scalar v .any, some (cs! "tag:yaml.org,2002:str"), Mark.zero, Mark.zero⟩], none, [], true, true, Mark.zero, Mark.zero⟩

theorem C68_dump_sample : AsciiDocument (uniDocument (cs! "x")) ∧
    (DumperObj.dumpAll [uniDocument (cs! "x")] ⟨new .any [.unicode true] ⟨[], []⟩, {}⟩).1 = .ok () ∧
    (DumperObj.dumpAll [uniDocument (cs! "x")] ⟨new .any [.unicode true] ⟨[], []⟩, {}⟩).2.o.written = utf8Encode (cs! "- &id001 x\n- *id001\n") := by
  refine ⟨?_, by decide +kernel, by decide +kernel⟩
  intro n hn v st hd
  simp only [uniDocument, List.mem_cons, List.not_mem_nil, or_false] at hn
  rcases hn with rfl | rfl
  · cases hd
  · cases hd; decide

end Yaml.Props
