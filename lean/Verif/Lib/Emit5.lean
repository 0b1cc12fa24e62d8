import Verif.Lib.Emit4

/-
The queue of events, and histories of calls of `emit`.
-/

namespace Yaml.Emitter
open Yaml Spec

set_option linter.unusedSimpArgs false

variable {e : Encoding} {u : Bool} {fails : Prop} {s : EState} {b : Ob} {P : PanicSite → Prop} {E : Err → EState → Ob → Prop}
  {Q : Unit → EState → Ob → Prop} {c : Bool} {enc0 : Encoding}

theorem _root_.Yaml.GRun.not_start' {s s' : GSt} {es : List EventData} (h : GRun s es s') (hs : s' = .start) : es = [] := by
  induction h with
  | nil s => rfl
  | cons h hr ih =>
    have := ih hs
    subst this
    cases hr
    exact absurd hs (gstep_docs_ne h)

/-- Nothing is buffered if the last event ended a document or the stream. -/
def Flushed (done : List Event) (b : Ob) : Prop := ∀ x, done.getLast? = some x → EndsOutput x.data → b.pend = false

/-- The invariant after the events `evs` have been given to the emitter. -/
def HInv (e : Encoding) (u c : Bool) (enc0 : Encoding) (evs : List Event) (s : EState) (b : Ob) : Prop :=
  ∃ done G, evs = done ++ s.events ∧ GRun .start (done.map (·.data)) G ∧ EInv e u G s b ∧ s.canonical = c ∧
    (∀ x ∈ done, EventOk c x.data) ∧ Flushed done b ∧ (G = .start → s.encoding = enc0) ∧
    (∀ d ∈ s.tagDirectives, d ∈ defaultTagDirectives ++ (done.map (·.data)).flatMap declared)

/-- The encoding is the one the first event leads to. -/
def EncOf (enc0 e : Encoding) (evs : List Event) : Prop :=
  ∀ x enc, evs.head? = some x → x.data = .streamStart enc → e = resolveEnc enc0 enc

/-- Some event is not acceptable where it stands. -/
def Rejected (c : Bool) (evs : List Event) : Prop :=
  ∃ done x rest G, evs = done ++ x :: rest ∧ GRun .start (done.map (·.data)) G ∧ (∀ y ∈ done, EventOk c y.data) ∧
    ¬ ((gstep G x.data).isSome ∧ EventOk c x.data)

theorem wp_emitLoop {evs : List Event} (henc : EncOf enc0 e evs)
    (hE : ∀ k s b, b.broken = true → E (.io k) s b) (hE2 : Rejected c evs → ∀ m s b, b.broken = false → E (.emitter m) s b)
    (hP : ¬ TagsFit (evs.map (·.data)) → P .tagSlice) :
    ∀ (F : Nat) (s : EState) (b : Ob), s.events.length < F → HInv e u c enc0 evs s b →
    (∀ s' b', HInv e u c enc0 evs s' b' → ready s'.events = false → Q () s' b') →
    M.wp (stepE e u fails) P E (emitLoop F) Q s b := by
  intro F
  induction F with
  | zero => intro s b h; exact absurd h (Nat.not_lt_zero _)
  | succ F ih =>
    intro s b hF hH hQ
    obtain ⟨done, G, hevs, hrun, hI, hc, hok, hfl, hst, htd⟩ := hH
    unfold emitLoop
    rw [M.wp_bind, M.wp_get]
    have stop : ready s.events = false → Q () s b := fun h =>
      hQ s b ⟨done, G, hevs, hrun, hI, hc, hok, hfl, hst, htd⟩ h
    generalize hq : s.events = q at hF stop
    cases q with
    | nil => exact stop rfl
    | cons x es =>
      simp only
      by_cases hr : ready (x :: es) = true
      · rw [if_pos hr, M.wp_bind, M.wp_modify, M.wp_bind]
        rw [hq] at hevs
        have hI1 : EInv e u G { s with events := es } b :=
          ⟨hI.1, hI.2, hI.3, hI.4, hI.5, fun h => ⟨⟨(hI.6 h).1.1, (hI.6 h).1.2, (hI.6 h).1.3, (hI.6 h).1.4, (hI.6 h).1.5⟩,
            ⟨(hI.6 h).2.1, (hI.6 h).2.2, (hI.6 h).2.3⟩⟩⟩
        refine wp_process hI1 ?_ ⟨hE, ?_⟩ (fun h => hP fun h' => h fun t ht d hd => ?_) (fun s' b' G' hg hev hI' hk htd' hend => ?_)
        · intro hG enc hx
          have hd : done = [] := by
            have := hrun.not_start' hG
            simpa using this
          subst hd
          rw [show ({ s with events := es } : EState).encoding = enc0 from hst hG]
          exact henc x enc (by rw [hevs]; rfl) hx
        · intro h m s b
          exact hE2 ⟨done, x, es, G, hevs, hrun, hok, by rw [← hc]; exact h⟩ m s b
        · refine h' x.data (by rw [hevs]; simp) t ht d ?_
          rcases List.mem_append.1 (htd d hd) with h | h
          · exact List.mem_append_left _ h
          · rw [hevs]; simp only [List.map_append, List.flatMap_append]
            exact List.mem_append_right _ (List.mem_append_left _ h)
        · refine ih s' b' (by rw [hk.events]; simpa using hF) ⟨done ++ [x], G', ?_, ?_, hI', ?_, ?_, ?_, ?_, ?_⟩ (fun s2 b2 h1 h2 => hQ s2 b2 h1 h2)
          · rw [hk.events, hevs]; simp
          · rw [List.map_append]; exact hrun.snoc hg
          · rw [hk.canonical]; exact hc
          · intro y hy
            simp at hy
            rcases hy with hy | rfl
            · exact hok y hy
            · rw [← hc]; exact hev
          · intro y hy hye
            simp at hy
            subst hy
            exact hend hye
          · intro h; exact absurd h (gstep_docs_ne hg)
          · intro d hd
            simp only [List.map_append, List.flatMap_append]
            rcases htd' d hd with h | h | h
            · rcases List.mem_append.1 (htd d h) with h | h
              · exact List.mem_append_left _ h
              · exact List.mem_append_right _ (List.mem_append_left _ h)
            · exact List.mem_append_right _ (List.mem_append_right _ (by simpa using h))
            · exact List.mem_append_left _ h
      · rw [if_neg hr]
        exact stop (by simpa using hr)

/-- `emit`. -/
theorem wp_emit {evs : List Event} {ev : Event} (henc : EncOf enc0 e (evs ++ [ev]))
    (hE : ∀ k s b, b.broken = true → E (.io k) s b) (hE2 : Rejected c (evs ++ [ev]) → ∀ m s b, b.broken = false → E (.emitter m) s b)
    (hP : ¬ TagsFit ((evs ++ [ev]).map (·.data)) → P .tagSlice) (hH : HInv e u c enc0 evs s b)
    (hQ : ∀ s' b', HInv e u c enc0 (evs ++ [ev]) s' b' → ready s'.events = false → Q () s' b') :
    M.wp (stepE e u fails) P E (emit ev) Q s b := by
  unfold emit
  rw [M.wp_bind, M.wp_modify, M.wp_bind, M.wp_get]
  obtain ⟨done, G, hevs, hrun, hI, hc, hok, hfl, hst, htd⟩ := hH
  refine wp_emitLoop henc hE hE2 hP _ _ _ (Nat.lt_succ_self _) ?_ (fun s' b' h1 h2 => hQ s' b' h1 h2)
  refine ⟨done, G, by rw [hevs]; simp, hrun, ?_, hc, hok, hfl, hst, htd⟩
  exact ⟨hI.1, hI.2, hI.3, hI.4, hI.5, fun h => ⟨⟨(hI.6 h).1.1, (hI.6 h).1.2, (hI.6 h).1.3, (hI.6 h).1.4, (hI.6 h).1.5⟩,
            ⟨(hI.6 h).2.1, (hI.6 h).2.2, (hI.6 h).2.3⟩⟩⟩

end Yaml.Emitter
