import Verif.Lib.EmitUni2
import Verif.Props.Settings

/-
C68: `set_unicode` is about non-ASCII scalars only.
-/

namespace Yaml.Props
open Yaml Yaml.Spec Yaml.EmitterObj

theorem sim_exec {α : Type} {b : Bool} {Q : α → Prop} {m n : Free EmitOp EmitAns (Out α × EState)} (h : Eu.Sim b Q m n) (k : Sink) :
    ∃ x s k', Sink.exec m k = ((x, s), k') ∧ Sink.exec n k = ((x, Eu.wb b s), k') ∧ Eu.J s := by
  induction h generalizing k with
  | @ret x s hs h => exact ⟨x, s, k, rfl, rfl, hs⟩
  | op o h ih => exact ih _ _

/-- The same emitter but for the setting. -/
def Unlike (b : Bool) (o o' : EmitterObj) : Prop := o' = ⟨Eu.wb b o.s, o.k⟩ ∧ Eu.J o.s

theorem Unlike.run {b : Bool} {o o' : EmitterObj} {m : Emit Unit} {Q : Unit → Prop} (h : Unlike b o o') (hm : Eu.J o.s → Eu.BF b m Q o.s) :
    (o'.run m).1 = (o.run m).1 ∧ Unlike b (o.run m).2 (o'.run m).2 := by
  obtain ⟨rfl, hj⟩ := h
  obtain ⟨x, s, k, h1, h2, h3⟩ := sim_exec (hm hj) o.k
  unfold EmitterObj.run
  dsimp only
  rw [h1, h2]
  exact ⟨rfl, rfl, h3⟩

theorem Unlike.emit {b : Bool} {o o' : EmitterObj} (h : Unlike b o o') {ev : Event} (he : AsciiEvent ev) :
    (o'.emit ev).1 = (o.emit ev).1 ∧ Unlike b (o.emit ev).2 (o'.emit ev).2 := h.run (fun hj => Eu.bf_emit he hj)

theorem Unlike.flush {b : Bool} {o o' : EmitterObj} (h : Unlike b o o') : o'.flush.1 = o.flush.1 ∧ Unlike b o.flush.2 o'.flush.2 :=
  h.run (fun hj => Eu.bf_flush hj)

theorem Unlike.written {b : Bool} {o o' : EmitterObj} (h : Unlike b o o') : o'.written = o.written := by
  obtain ⟨rfl, _⟩ := h; rfl

theorem Unlike.new (enc : Encoding) (cfg : List Setting) (w : Writer) (b : Bool) :
    Unlike b (new enc cfg w) (new enc (cfg ++ [.unicode b]) w) := by
  unfold EmitterObj.new
  simp only [List.foldl_append, List.foldl_cons, List.foldl_nil, St.fold_set]
  have e1 : (Emitter.setEncoding enc Emitter.newState).2 = { Emitter.newState with encoding := enc } := by
    unfold Emitter.setEncoding; rw [if_pos (show Emitter.newState.encoding = .any from rfl)]
  have e2 : ∀ (w : Writer) (s : EState), (Emitter.setOutput w (s, Emitter.newSink)).2 = (s, ⟨some w, [], []⟩) := fun _ _ => rfl
  simp only [e1, e2, EmitterObj.set]
  exact ⟨rfl, by intro ev h; cases h⟩

theorem feed_unlike {b : Bool} {evs : List Event} (ha : ∀ ev ∈ evs, AsciiEvent ev) {o o' : EmitterObj} (h : Unlike b o o') :
    (feed evs o').1 = (feed evs o).1 ∧ Unlike b (feed evs o).2 (feed evs o').2 := by
  induction evs generalizing o o' with
  | nil => exact ⟨rfl, h⟩
  | cons e es ih =>
    obtain ⟨h1, h2⟩ := h.emit (ha e (List.mem_cons_self ..))
    unfold feed
    generalize o.emit e = q at h1 h2
    generalize o'.emit e = q' at h1 h2
    obtain ⟨r, o1⟩ := q
    obtain ⟨r', o1'⟩ := q'
    dsimp only at h1 h2
    subst h1
    cases r' with
    | ok a => exact ih (fun ev hm => ha ev (List.mem_cons_of_mem _ hm)) h2
    | err x => exact ⟨rfl, h2⟩
    | panic x => exact ⟨rfl, h2⟩
    | fuel => exact ⟨rfl, h2⟩

/-- C68.  If the values of all scalars are ASCII, then `set_unicode` makes no difference: for the same events (also
ungrammatical ones) and the same writer (also one that fails) the result is the same, and the writer gets
the same bytes. -/
theorem C68_unicode (enc : Encoding) (cfg : List Setting) (w : Writer) (b : Bool) (evs : List Event) (ha : ∀ ev ∈ evs, AsciiEvent ev) :
    (feed evs (new enc (cfg ++ [.unicode b]) w)).1 = (feed evs (new enc cfg w)).1 ∧
    (feed evs (new enc (cfg ++ [.unicode b]) w)).2.written = (feed evs (new enc cfg w)).2.written :=
  have g := feed_unlike ha (Unlike.new enc cfg w b)
  ⟨g.1, g.2.written⟩

/-- C68, with calls of `flush` between the events; and what is still in the buffer is the same too. -/
theorem C68_histories (enc : Encoding) (cfg : List Setting) (w : Writer) (b : Bool) (evs : List Event) (ha : ∀ ev ∈ evs, AsciiEvent ev)
    (o : EmitterObj) (ho : Emits (new enc cfg w) evs o) :
    ∃ o', Emits (new enc (cfg ++ [.unicode b]) w) evs o' ∧ o'.k = o.k ∧
      (∀ ev, AsciiEvent ev → (o'.emit ev).1 = (o.emit ev).1 ∧ (o'.emit ev).2.written = (o.emit ev).2.written) ∧
      o'.flush.1 = o.flush.1 ∧ o'.flush.2.written = o.flush.2.written := by
  suffices hs : ∃ o', Emits (new enc (cfg ++ [.unicode b]) w) evs o' ∧ Unlike b o o' by
    obtain ⟨o', h1, h2⟩ := hs
    exact ⟨o', h1, by rw [h2.1], fun ev he => ⟨(h2.emit he).1, (h2.emit he).2.written⟩, h2.flush.1, h2.flush.2.written⟩
  induction ho with
  | nil => exact ⟨_, .nil, Unlike.new enc cfg w b⟩
  | @snoc evs ev o1 o2 _ hs ih =>
    obtain ⟨o', h1, h2⟩ := ih fun ev hm => ha ev (List.mem_append_left _ hm)
    have g := h2.emit (ha ev (List.mem_append_right _ (List.mem_singleton_self _)))
    rw [hs] at g
    exact ⟨(o'.emit ev).2, .snoc h1 (Prod.ext g.1 rfl), g.2⟩
  | @flush evs o1 o2 _ hs ih =>
    obtain ⟨o', h1, h2⟩ := ih ha
    have g := h2.flush
    rw [hs] at g
    exact ⟨o'.flush.2, .flush h1 (Prod.ext g.1 rfl), g.2⟩

def uniSample (v : Str) : List Event :=
  ([.streamStart .any, .documentStart none [] true, .sequenceStart none none true .block,
    .scalar none none v true true .any, .scalar none none (cs! "a\tb\x07") true true .any,
    .sequenceEnd, .documentEnd true, .streamEnd] : List EventData).map Event.new

theorem C68_sample : (∀ ev ∈ uniSample (cs! "x y"), AsciiEvent ev) ∧
    (feed (uniSample (cs! "x y")) (new .any [.unicode true] ⟨[], []⟩)).1 = .ok () ∧
    (feed (uniSample (cs! "x y")) (new .any [.unicode true] ⟨[], []⟩)).2.written = utf8Encode (cs! "- x y\n- \"a\\tb\\a\"\n") := by
  refine ⟨?_, by decide +kernel, by decide +kernel⟩
  intro ev hm a t v p q st hd
  simp only [uniSample, List.map_cons, List.map_nil, List.mem_cons, List.not_mem_nil, or_false] at hm
  rcases hm with rfl | rfl | rfl | rfl | rfl | rfl | rfl | rfl <;> cases hd
  · decide
  · decide

/-- With another character there is a difference. -/
theorem C68_difference : (feed (uniSample (cs! "é")) (new .any [] ⟨[], []⟩)).2.written = utf8Encode (cs! "- \"\\xE9\"\n- \"a\\tb\\a\"\n") ∧
    (feed (uniSample (cs! "é")) (new .any [.unicode true] ⟨[], []⟩)).2.written = utf8Encode (cs! "- é\n- \"a\\tb\\a\"\n") := by decide +kernel

end Yaml.Props
