import Verif.Lib.Round20
import Verif.Lib.EmitRun

/-
Reading back: from calls of `emit` to the events processed, each with the queue behind it.
-/

namespace Yaml.Rt
open Yaml Emitter Spec
set_option linter.unusedSimpArgs false
set_option linter.unusedVariables false

/-! ### The result does not depend on the text before -/

theorem execText_from {α : Type} (t : Free EmitOp EmitAns α) (W : Str) : execText t W = ((execText t []).1, W ++ (execText t []).2) := by
  induction t generalizing W with
  | ret a => simp [execText]
  | op o f ih =>
    simp only [execText]
    rw [ih _ (textStep o W), ih _ (textStep o [])]
    cases o <;> simp [textStep]

theorem writes_of_exec {α : Type} {m : Emit α} {s s' : EState} {a : α} {W t : Str} (h : execText (m s) W = ((.ok a, s'), t)) :
    ∃ w, Writes m s a s' w ∧ t = W ++ w := by
  refine ⟨(execText (m s) []).2, fun V => ?_, ?_⟩
  · rw [execText_from]
    rw [execText_from] at h
    have := congrArg Prod.fst h
    simp only at this
    rw [this]
  · rw [execText_from] at h
    exact (congrArg Prod.snd h).symm

theorem execText_bind {α β : Type} (t : Free EmitOp EmitAns α) (f : α → Free EmitOp EmitAns β) (W : Str) :
    execText (t.bind f) W = execText (f (execText t W).1) (execText t W).2 := by
  induction t generalizing W with
  | ret a => rfl
  | op o k ih => simp only [Free.bind, execText]; exact ih _ _

/-- Successful sequences. -/
theorem Writes.of_bind {α β : Type} {m : Emit α} {f : α → Emit β} {s s' : EState} {b : β} {w : Str} (h : Writes (m >>= f) s b s' w) :
    ∃ a s1 w1 w2, Writes m s a s1 w1 ∧ Writes (f a) s1 b s' w2 ∧ w = w1 ++ w2 := by
  have h0 := h []
  rw [show (m >>= f) s = M.bind m f s from rfl] at h0
  unfold M.bind at h0
  rw [execText_bind] at h0
  rcases hq : execText (m s) [] with ⟨⟨r, s1⟩, w1⟩
  rw [hq] at h0
  simp only at h0
  cases r with
  | ok a =>
    obtain ⟨w1', k1, rfl⟩ := writes_of_exec hq
    obtain ⟨w2, k2, k3⟩ := writes_of_exec h0
    exact ⟨a, s1, _, w2, k1, k2, by simpa using k3⟩
  | err e => simp [M.cont, execText] at h0
  | panic p => simp [M.cont, execText] at h0
  | fuel => simp [M.cont, execText] at h0

theorem Writes.of_get {β : Type} {f : EState → Emit β} {s s' : EState} {b : β} {w : Str} (h : Writes (M.get >>= f) s b s' w) : Writes (f s) s b s' w := h

theorem Writes.of_modify {β : Type} {g : EState → EState} {f : Unit → Emit β} {s s' : EState} {b : β} {w : Str} (h : Writes (M.modify g >>= f) s b s' w) :
    Writes (f ()) (g s) b s' w := h

theorem Feed.det {s s1 s2 : EState} {es : Evs} {w1 w2 : Str} (h1 : Feed s es s1 w1) (h2 : Feed s es s2 w2) : s1 = s2 ∧ w1 = w2 := by
  induction h1 generalizing s2 w2 with
  | nil => cases h2; exact ⟨rfl, rfl⟩
  | cons hw _ ih =>
    cases h2 with
    | cons hw' h' =>
      have := hw.det hw'
      obtain ⟨_, k2, k3⟩ := this
      subst k2 k3
      obtain ⟨k1, k2⟩ := ih h'
      exact ⟨k1, by rw [k2]⟩

/-- The queue at the beginning does not matter. -/
theorem Feed.queue {s s' : EState} {a : List Event} {es : Evs} {w : Str} (h : Feed { s with events := a } es s' w) :
    ∃ s'', Feed s es s'' w ∧ s' = { s'' with events := s'.events } := by
  generalize hs : ({ s with events := a } : EState) = t at h
  cases h with
  | nil => subst hs; exact ⟨s, .nil s, rfl⟩
  | cons hw h' => subst hs; exact ⟨s', .cons hw h', rfl⟩

/-! ### The invariant of the emitter -/

theorem wp_text {e : Encoding} {u : Bool} {fails : Prop} {α : Type} (t : Free EmitOp EmitAns α) {Q : α → Ob → Prop} {b : Ob}
    (h : t.wp (stepE e u fails) Q b) (W : Str) : ∃ b', Q (execText t W).1 b' := by
  induction t generalizing b W with
  | ret a => exact ⟨b, h⟩
  | op o f ih => exact ih _ (step_ideal o h) _

/-- The emitter is between events. -/
def Live (s : EState) : Prop := ∃ u G b, (G = .start → ∀ e, EInv e u G s b) ∧ (G ≠ .start → ∃ e, EInv e u G s b)

theorem gstep_not_start {G G' : GSt} {d : EventData} (h : gstep G d = some G') : G' ≠ .start := gstep_docs_ne h

theorem process_live {x : Event} {s s1 : EState} {w : Str} (h : Live s) (hw : Writes (process x) s () s1 w) : Live s1 ∧ s1.events = s.events := by
  obtain ⟨u, G, b, h1, h2⟩ := h
  have hE : ∃ e, EInv e u G s b ∧ (G = .start → ∀ enc, x.data = .streamStart enc → e = resolveEnc s.encoding enc) := by
    by_cases hG : G = .start
    · by_cases hx : ∃ enc, x.data = .streamStart enc
      · obtain ⟨enc, hx⟩ := hx
        exact ⟨_, h1 hG (resolveEnc s.encoding enc), fun _ enc' h => by rw [hx] at h; cases h; rfl⟩
      · exact ⟨_, h1 hG .utf8, fun _ enc h => absurd ⟨enc, h⟩ hx⟩
    · obtain ⟨e, h⟩ := h2 hG
      exact ⟨e, h, fun h => absurd h hG⟩
  obtain ⟨e, hI, he⟩ := hE
  have := wp_process (fails := True) (ev := x) (P := fun _ => True) (E := fun _ _ _ => True)
    (Q := fun _ s' b' => Live s' ∧ s'.events = s.events) hI he ⟨fun _ _ _ _ => trivial, fun _ _ _ _ _ => trivial⟩ (fun _ => trivial)
    (fun s' b' G' hg _ hI' hk _ _ => ⟨⟨u, G', b', fun h => absurd h (gstep_not_start hg), fun _ => ⟨e, hI'⟩⟩, hk.events⟩)
  obtain ⟨b', hb⟩ := wp_text _ this []
  rw [hw []] at hb
  exact hb

theorem Live.queue {s : EState} (h : Live s) (q : List Event) : Live { s with events := q } := by
  obtain ⟨u, G, b, h1, h2⟩ := h
  have key : ∀ {e}, EInv e u G s b → EInv e u G { s with events := q } b := fun hI =>
    ⟨hI.1, hI.2, hI.3, hI.4, hI.5, fun h => ⟨⟨(hI.6 h).1.1, (hI.6 h).1.2, (hI.6 h).1.3, (hI.6 h).1.4, (hI.6 h).1.5⟩,
            ⟨(hI.6 h).2.1, (hI.6 h).2.2, (hI.6 h).2.3⟩⟩⟩
  exact ⟨u, G, b, fun h e => key (h1 h e), fun h => (h2 h).imp fun _ => key⟩

theorem live_fresh {enc0 : Encoding} {c u : Bool} {w : Writer} {o : EmitterObj} (h : Fresh enc0 c u w o) : Live o.s := by
  refine ⟨u, .start, ⟨[], false, false⟩, fun _ e => ?_, fun h => absurd rfl h⟩
  obtain ⟨done, G, k1, k2, k3, _⟩ := (h.inv (e := e)).inv
  have hd : done = [] := by have := congrArg List.length k1; simp at this; exact List.eq_nil_of_length_eq_zero (by omega)
  subst hd
  cases k2
  exact k3

/-! ### Schedules -/

/-- The events taken from a queue, and the queue that is left. -/
inductive Drain : List Event → Evs → List Event → Prop
  | stop {q : List Event} (h : ready q = false) : Drain q [] q
  | step {e : Event} {q q' : List Event} {xs : Evs} (h : ready (e :: q) = true) (hd : Drain q xs q') : Drain (e :: q) ((e, q) :: xs) q'

/-- The events processed while the given ones are emitted, and the queue that is left. -/
inductive Sched : List Event → Evs → List Event → Prop
  | nil : Sched [] [] []
  | snoc {evs q q' : List Event} {xs ys : Evs} {ev : Event} (h : Sched evs xs q) (hd : Drain (q ++ [ev]) ys q') : Sched (evs ++ [ev]) (xs ++ ys) q'

theorem drain_of_loop : ∀ (F : Nat) {s s' : EState} {w : Str}, Live s → Writes (emitLoop F) s () s' w →
    ∃ xs, Drain s.events xs s'.events ∧ Feed s xs s' w ∧ Live s'
  | 0, s, s', w, hl, h => by have := h []; simp [emitLoop, M.outOfFuel, execText] at this
  | F + 1, s, s', w, hl, h => by
    rw [emitLoop] at h
    have h := Writes.of_get h
    have stop : ready s.events = false → Writes (pure () : Emit Unit) s () s' w → ∃ xs, Drain s.events xs s'.events ∧ Feed s xs s' w ∧ Live s' := by
      intro hr h
      obtain ⟨_, k2, k3⟩ := h.det (Writes.pure () s)
      subst k2 k3
      exact ⟨[], .stop hr, .nil _, hl⟩
    cases hq : s.events with
    | nil =>
      rw [hq] at h stop
      exact stop rfl h
    | cons e q =>
      rw [hq] at h stop
      simp only at h
      by_cases hr : ready (e :: q) = true
      · rw [if_pos hr] at h
        obtain ⟨_, s1, w1, w2, a1, a2, rfl⟩ := Writes.of_bind (Writes.of_modify h)
        obtain ⟨b1, b2⟩ := process_live (hl.queue q) a1
        obtain ⟨xs, c1, c2, c3⟩ := drain_of_loop F b1 a2
        rw [b2] at c1
        exact ⟨_, .step hr c1, .cons a1 c2, c3⟩
      · rw [if_neg hr] at h
        exact stop (by simpa using hr) h

theorem sched_of_emits {o0 o : Unbuffered} {evs : List Event} (hl : Live o0.s) (hq : o0.s.events = []) (h : Unbuffered.Emits o0 evs o) :
    ∃ xs s w, Sched evs xs o.s.events ∧ Feed o0.s xs s w ∧ o.s = { s with events := o.s.events } ∧ o.text = o0.text ++ w ∧ Live o.s := by
  induction h with
  | nil => exact ⟨[], o0.s, [], by rw [hq]; exact .nil, .nil _, rfl, by simp, hl⟩
  | @snoc evs ev o1 o2 h hs ih =>
    obtain ⟨xs, s, w, h1, h2, h3, h4, h5⟩ := ih
    unfold Unbuffered.emit at hs
    obtain ⟨s2, t2⟩ := o2
    have he : execText (Emitter.emit ev o1.s) o1.text = ((.ok (), s2), t2) := by
      generalize execText (Emitter.emit ev o1.s) o1.text = q at hs
      obtain ⟨⟨r, s'⟩, t⟩ := q
      simp only [Prod.mk.injEq, Unbuffered.mk.injEq] at hs
      obtain ⟨rfl, rfl, rfl⟩ := hs
      rfl
    obtain ⟨w2, hw, rfl⟩ := writes_of_exec he
    unfold Emitter.emit at hw
    have hw := Writes.of_get (Writes.of_modify hw)
    obtain ⟨ys, k1, k2, k3⟩ := drain_of_loop _ (h5.queue (o1.s.events ++ [ev])) hw
    obtain ⟨s3, k4, k5⟩ := k2.queue
    rw [h3] at k4
    obtain ⟨s4, k6, k7⟩ := k4.queue
    refine ⟨xs ++ ys, s4, w ++ w2, .snoc h1 k1, h2.append k6, ?_, ?_, k3⟩
    · show s2 = _
      rw [k5, k7]
    · show o1.text ++ w2 = _
      rw [h4, List.append_assoc]

/-! ### What is known about the queues -/

/-- Each event was ready, and the queue behind it holds the next events. -/
def Ahead : Evs → List Event → Prop
  | [], _ => True
  | (e, q) :: xs, r => ready (e :: q) = true ∧ q <+: (xs.map (·.1) ++ r) ∧ Ahead xs r

theorem Ahead.append {xs ys : Evs} {r : List Event} : Ahead (xs ++ ys) r ↔ Ahead xs (ys.map (·.1) ++ r) ∧ Ahead ys r := by
  induction xs with
  | nil => simp [Ahead]
  | cons x xs ih =>
    obtain ⟨e, q⟩ := x
    simp only [List.cons_append, Ahead, ih, List.map_append, List.append_assoc, and_assoc]

theorem Drain.ahead {q q' : List Event} {xs : Evs} (h : Drain q xs q') : q = xs.map (·.1) ++ q' ∧ ∀ r, Ahead xs (q' ++ r) := by
  induction h with
  | stop => exact ⟨rfl, fun _ => trivial⟩
  | @step e q q' xs h _ ih =>
    refine ⟨by rw [List.map_cons, List.cons_append]; exact congrArg (e :: ·) ih.1, fun r => ⟨h, ?_, ih.2 r⟩⟩
    rw [← List.append_assoc, ← ih.1]
    exact List.prefix_append _ _

theorem Sched.ahead {evs q : List Event} {xs : Evs} (h : Sched evs xs q) : evs = xs.map (·.1) ++ q ∧ ∀ r, Ahead xs (q ++ r) := by
  induction h with
  | nil => exact ⟨rfl, fun _ => trivial⟩
  | @snoc evs q q' xs ys ev h hd ih =>
    obtain ⟨k1, k2⟩ := hd.ahead
    refine ⟨?_, fun r => ?_⟩
    · rw [ih.1, List.append_assoc, k1, List.map_append, List.append_assoc]
    · refine Ahead.append.2 ⟨?_, k2 r⟩
      have := ih.2 (ev :: r)
      rw [show q ++ ev :: r = (q ++ [ev]) ++ r by simp, k1, List.append_assoc] at this
      exact this

end Yaml.Rt
