import Verif.Lib.Emit3

/-
Streams and documents; one event; the queue.
-/

namespace Yaml.Emitter
open Yaml Spec

set_option linter.unusedSimpArgs false

variable {e : Encoding} {u : Bool} {fails : Prop} {α β : Type} {st : List EmSt} {n : Nat} {td : List TagDirective} {B : EState}
  {s : EState} {b : Ob} {P : PanicSite → Prop} {E : Err → EState → Ob → Prop} {ev : Event} {a : Analysis}
  {tags : List TagDirective} {Q : Unit → EState → Ob → Prop}

theorem wp_flush (hw : Wr e u s b) (hE : ∀ k s b, b.broken = true → E (.io k) s b)
    (hQ : Wr e u s { b with pend := false } → Q () s { b with pend := false }) :
    M.wp (stepE e u fails) P E Emitter.flush Q s b := by
  unfold Emitter.flush
  simp only [M.wp_bind, M.wp_get, M.wp_prim]
  exact ⟨hw.broken, hw.enc, M.wp_ofOut_ok.2 (hQ ⟨hw.1, hw.2, hw.3, hw.4, hw.5⟩), fun _ k => hE _ _ _ rfl⟩

theorem handleOk_of {h : Str} (h1 : h.head? = some '!') (h2 : h.getLast? = some '!')
    (h3 : ¬ (strLen h > 2 ∧ ¬ (h.drop 1).dropLast.all isAlpha = true)) : HandleOk h := by
  cases h with
  | nil => simp at h1
  | cons c r =>
    simp at h1
    subst h1
    by_cases hr : r = []
    · subst hr; exact Or.inl rfl
    · refine Or.inr ⟨r.dropLast, ?_, ?_⟩
      · have : r.getLast? = some '!' := by rw [← h2, List.getLast?_cons_of_ne_nil hr]
        rw [List.getLast?_eq_some_getLast hr] at this
        have h4 := List.dropLast_concat_getLast hr
        simp at this
        rw [this] at h4
        rw [List.cons_append, h4]
      · intro c hc
        by_cases hl : strLen ('!' :: r) > 2
        · have : (('!' :: r).drop 1).dropLast.all isAlpha = true := by
            by_cases hx : (('!' :: r).drop 1).dropLast.all isAlpha = true
            · exact hx
            · exact absurd ⟨hl, hx⟩ h3
          exact (all_isAlpha_iff _).1 this c (by simpa using hc)
        · have pos : ∀ d : Char, 1 ≤ lenUtf8 d := by
            intro d; unfold lenUtf8; repeat' split
            all_goals omega
          have l1 : lenUtf8 '!' = 1 := by decide
          cases r with
          | nil => simp at hc
          | cons x r =>
            cases r with
            | nil => simp at hc
            | cons y r =>
              exfalso
              have := pos x; have := pos y
              simp only [strLen, l1] at hl
              omega

theorem _root_.Yaml.Spec.HandleOk.checks {h : Str} (hh : HandleOk h) : h ≠ [] ∧ h.head? = some '!' ∧ h.getLast? = some '!' ∧
    (h.drop 1).dropLast.all isAlpha = true := by
  rcases hh with rfl | ⟨n, rfl, hn⟩
  · simp
  · refine ⟨by simp, by simp, ?_, ?_⟩
    · rw [List.cons_append]; simp [List.getLast?_cons]
    · simp only [List.cons_append, List.drop_succ_cons, List.drop_zero, List.dropLast_concat]
      exact (all_isAlpha_iff n).2 hn

section pure
variable {step : Step EmitOp EmitAns Ob}

theorem wp_analyzeTagDirective {t : TagDirective} (hE : ¬ DirectiveOk t → ∀ m, E (.emitter m) s b) (hQ : DirectiveOk t → Q () s b) :
    M.wp step P E (analyzeTagDirective t) Q s b := by
  unfold analyzeTagDirective
  by_cases h0 : t.handle = []
  · rw [if_pos (by simp [h0])]
    exact hE (fun h => (HandleOk.checks h.1).1 h0) _
  rw [if_neg (by simpa using h0)]
  by_cases h1 : t.handle.head? = some '!'
  · rw [if_neg (by simpa using h1)]
    by_cases h2 : t.handle.getLast? = some '!'
    · rw [if_neg (by simpa using h2)]
      by_cases h3 : (decide (strLen t.handle > 2) && !((t.handle.drop 1).dropLast.all isAlpha)) = true
      · rw [if_pos h3]
        refine hE (fun h => ?_) _
        rw [(HandleOk.checks h.1).2.2.2] at h3
        simp at h3
      · rw [if_neg h3]
        by_cases h4 : t.prefix_ = []
        · rw [if_pos (by simp [h4])]
          exact hE (fun h => h.2 h4) _
        · rw [if_neg (by simpa using h4)]
          refine hQ ⟨handleOk_of h1 h2 ?_, h4⟩
          simpa using h3
    · rw [if_pos h2]
      exact hE (fun h => h2 (HandleOk.checks h.1).2.2.1) _
  · rw [if_pos h1]
    exact hE (fun h => h1 (HandleOk.checks h.1).2.1) _

theorem wp_declareTags {ts : List TagDirective} (hE : ¬ ((∀ t ∈ ts, DirectiveOk t) ∧ ((s.tagDirectives ++ ts).map (·.handle)).Nodup) →
      ∀ m s, E (.emitter m) s b)
    (hn : (s.tagDirectives.map (·.handle)).Nodup)
    (hQ : (∀ t ∈ ts, DirectiveOk t) → ((s.tagDirectives ++ ts).map (·.handle)).Nodup →
      Q () { s with tagDirectives := s.tagDirectives ++ ts } b) :
    M.wp step P E (declareTags ts) Q s b := by
  induction ts generalizing s with
  | nil =>
    have := hQ (by simp) (by simpa using hn)
    simpa [declareTags] using this
  | cons t ts ih =>
    unfold declareTags
    rw [M.wp_bind]
    refine wp_analyzeTagDirective (fun h m => hE (fun h' => h (h'.1 t (by simp))) m s) (fun ht => ?_)
    rw [M.wp_bind]
    unfold appendTagDirective
    rw [M.wp_bind, M.wp_get]
    by_cases hany : s.tagDirectives.any (fun t' => t.handle == t'.handle) = true
    · rw [if_pos hany, if_neg (by simp)]
      refine hE (fun h => ?_) _ _
      rw [List.any_eq_true] at hany
      obtain ⟨t', ht', heq⟩ := hany
      have := h.2
      rw [List.map_append, List.nodup_append] at this
      exact this.2.2 t'.handle (List.mem_map.2 ⟨t', ht', rfl⟩) t.handle (by simp) (by simpa using (beq_iff_eq.1 heq).symm)
    · rw [if_neg hany, M.wp_modify]
      have assoc : s.tagDirectives ++ [t] ++ ts = s.tagDirectives ++ t :: ts := by simp
      refine ih (fun h m s' => hE (fun h' => h ⟨fun x hx => h'.1 x (List.mem_cons_of_mem _ hx), ?_⟩) m s') ?_ (fun h1 h2 => ?_)
      · simp only; rw [assoc]; exact h'.2
      · simp only [List.map_append, List.map_cons, List.map_nil]
        rw [List.nodup_append]
        refine ⟨hn, by simp, ?_⟩
        intro x hx y hy
        simp at hy
        subst hy
        obtain ⟨t', ht', rfl⟩ := List.mem_map.1 hx
        intro heq
        exact hany (List.any_eq_true.2 ⟨t', ht', by simp [heq]⟩)
      · simp only at h2 ⊢
        rw [assoc] at h2
        have := hQ (fun x hx => (List.mem_cons.1 hx).elim (fun h => h ▸ ht) (h1 x)) h2
        rw [assoc]
        exact this

theorem wp_declareDefaults {ts : List TagDirective} 
    (hQ : ∀ xs, (∀ x ∈ xs, x ∈ s.tagDirectives ∨ x ∈ ts) → Q () { s with tagDirectives := xs } b) :
    M.wp step P E (declareDefaults ts) Q s b := by
  induction ts generalizing s with
  | nil => exact hQ s.tagDirectives fun x hx => Or.inl hx
  | cons t ts ih =>
    unfold declareDefaults
    rw [M.wp_bind]
    unfold appendTagDirective
    rw [M.wp_bind, M.wp_get]
    split
    · rw [if_pos rfl, M.wp_pure]
      exact ih fun xs hxs => hQ xs fun x hx => (hxs x hx).imp id (List.mem_cons_of_mem _)
    · rw [M.wp_modify]
      refine ih fun xs hxs => hQ xs fun x hx => ?_
      rcases hxs x hx with h | h
      · simp at h
        rcases h with h | h
        · exact Or.inl h
        · exact Or.inr (by simp [h])
      · exact Or.inr (List.mem_cons_of_mem _ h)

theorem wp_analyzeVersionDirective {v : VersionDirective}
    (hE : ¬ (v.major = 1 ∧ (v.minor = 1 ∨ v.minor = 2)) → ∀ m, E (.emitter m) s b)
    (hQ : v.major = 1 ∧ (v.minor = 1 ∨ v.minor = 2) → Q () s b) : M.wp step P E (analyzeVersionDirective v) Q s b := by
  unfold analyzeVersionDirective
  split
  · exact hE (by omega) _
  · exact hQ (by omega)

end pure

theorem wrt_writeTagLines {ts : List TagDirective} (h : ∀ t ∈ ts, HandleOk t.handle) : Wrt e u fails (writeTagLines ts) := by
  induction ts with
  | nil => exact Wrt.pure ()
  | cons t ts ih =>
    exact (wrt_writeIndicator (outStr_ascii (by decide)) _ _ _).bind fun _ => (wrt_writeTagHandle (handle_out (h t (by simp)))).bind fun _ =>
      (wrt_writeTagContent _ _).bind fun _ => wrt_writeIndent.bind fun _ => ih fun x hx => h x (List.mem_cons_of_mem _ hx)

theorem defaults_ok : ∀ d ∈ defaultTagDirectives, HandleOk d.handle := by
  intro d hd
  simp [defaultTagDirectives] at hd
  rcases hd with rfl | rfl
  · exact Or.inl rfl
  · exact Or.inr ⟨[], rfl, by simp⟩

/-- The writing part of `emit_document_start`. -/
def docStartText (version : Option VersionDirective) (ts : List TagDirective) (imp first : Bool) (s : EState) : Emit Unit := do
  M.when ((version.isSome || !ts.isEmpty) && s.openEnded != 0) (do
    writeIndicator (cs! "...") true false false
    writeIndent)
  setOpenEnded 0
  (match version with
    | some v => do
      writeIndicator (cs! "%YAML") true false false
      if v.minor = 1 then writeIndicator (cs! "1.1") true false false
      else writeIndicator (cs! "1.2") true false false
      writeIndent
    | none => pure ())
  writeTagLines ts
  M.when (!(imp && first && !s.canonical && version.isNone && ts.isEmpty)) (do
    writeIndent
    writeIndicator (cs! "---") true false false
    M.when s.canonical writeIndent)

theorem wrt_docStartText {version : Option VersionDirective} {ts : List TagDirective} {imp first : Bool} {s0 : EState}
    (h : ∀ t ∈ ts, HandleOk t.handle) : Wrt e u fails (docStartText version ts imp first s0) := by
  have w1 : ∀ v : VersionDirective, Wrt e u fails (do
      writeIndicator (cs! "%YAML") true false false
      if v.minor = 1 then writeIndicator (cs! "1.1") true false false
      else writeIndicator (cs! "1.2") true false false
      writeIndent) := fun v =>
    (wrt_writeIndicator (outStr_ascii (by decide)) _ _ _).bind fun _ =>
      Wrt.iteb (fun _ => wrt_writeIndicator (outStr_ascii (by decide)) _ _ _)
        (fun _ => wrt_writeIndicator (outStr_ascii (by decide)) _ _ _) fun _ => wrt_writeIndent
  have w2 : Wrt e u fails (do
      writeTagLines ts
      M.when (!(imp && first && !s0.canonical && version.isNone && ts.isEmpty)) (do
        writeIndent
        writeIndicator (cs! "---") true false false
        M.when s0.canonical writeIndent)) :=
    (wrt_writeTagLines h).bind fun _ => Wrt.when fun _ => wrt_writeIndent.bind fun _ =>
      (wrt_writeIndicator (outStr_ascii (by decide)) _ _ _).bind fun _ => Wrt.when fun _ => wrt_writeIndent
  unfold docStartText
  refine (Wrt.when fun _ => (wrt_writeIndicator (outStr_ascii (by decide)) _ _ _).bind fun _ => wrt_writeIndent).bind fun _ =>
    (wrt_setOpenEnded 0).bind fun _ => ?_
  cases version with
  | none => exact (Wrt.pure ()).bind fun _ => w2
  | some v => exact (w1 v).bind fun _ => w2

/-- The event ends a document or the stream. -/
def EndsOutput : EventData → Prop
  | .documentEnd _ | .streamEnd => True
  | _ => False

/-- The document has been started: the new directives are declared. -/
theorem wp_emitDocumentStart {first : Bool} (ha : At e u [] 0 [] B s b)
    (hF : Fails .docs B ev E)
    (hQ : ∀ s' b' G' td, gstep .docs ev.data = some G' → EventOk B.canonical ev.data → (∀ d ∈ td, HandleOk d.handle ∧ (d ∈ declared ev.data ∨ d ∈ defaultTagDirectives)) →
      At e u [] 0 td B s' b' → EAt s'.state [] 0 G' → (EndsOutput ev.data → b'.pend = false) → Q () s' b') :
    M.wp (stepE e u fails) P E (emitDocumentStart ev first) Q s b := by
  obtain ⟨d, m1, m2⟩ := ev
  unfold emitDocumentStart
  simp only at *
  cases d with
  | documentStart version ts imp =>
    simp only
    have rest : (∀ v, version = some v → v.major = 1 ∧ (v.minor = 1 ∨ v.minor = 2)) → ∀ s, At e u [] 0 [] B s b →
        M.wp (stepE e u fails) P E (do
          declareTags ts
          declareDefaults defaultTagDirectives
          let s ← M.get
          docStartText version ts imp first s
          setState .documentContent
          setOpenEnded 0) Q s b := by
      intro hv s ha
      rw [M.wp_bind]
      refine wp_declareTags (fun h m s' => hF.emitter (fun h' => h ⟨h'.2.2.1, ?_⟩) m s' b ha.wr.broken) (by rw [ha.tags]; simp) (fun h1 h2 => ?_)
      · rw [ha.tags]; exact h'.2.2.2
      · have hok : EventOk B.canonical (.documentStart version ts imp) := ⟨hv, h1, by rw [ha.tags] at h2; simpa using h2⟩
        rw [M.wp_bind]
        refine wp_declareDefaults (fun xs hxs => ?_)
        have hxs' : ∀ d ∈ xs, HandleOk d.handle ∧ (d ∈ ts ∨ d ∈ defaultTagDirectives) := by
          intro d hd
          rcases hxs d hd with h | h
          · simp [ha.tags] at h
            exact ⟨(h1 d h).1, Or.inl h⟩
          · exact ⟨defaults_ok d h, Or.inr h⟩
        rw [M.wp_bind, M.wp_get, M.wp_bind]
        have ha1 : At e u [] 0 xs B { s with tagDirectives := xs } b :=
          ⟨⟨ha.1.1, ha.1.2, ha.1.3, ha.1.4, ha.1.5⟩, ha.states, ha.indents, rfl, ha.base⟩
        refine (wrt_docStartText fun t ht => (h1 t ht).1).at ha1 hF.io (fun _ s2 b2 _ ha2 => ?_)
        rw [M.wp_bind]
        refine wp_setState ha2 (fun s3 ha3 hs3 => ?_)
        refine (wrt_setOpenEnded 0).at ha3 hF.io (fun _ s4 b4 hc4 ha4 => ?_)
        refine hQ s4 b4 _ xs rfl hok hxs' ha4 ?_ (fun h => h.elim)
        have : s4.state = s3.state := by simpa [core] using congrArg EState.state hc4
        rw [this, hs3]; exact .content
    have rest' : (∀ v, version = some v → v.major = 1 ∧ (v.minor = 1 ∨ v.minor = 2)) → M.wp (stepE e u fails) P E (do
      declareTags ts
      declareDefaults defaultTagDirectives
      let s ← M.get
      M.when ((version.isSome || !ts.isEmpty) && s.openEnded != 0) (do
        writeIndicator (cs! "...") true false false
        writeIndent)
      setOpenEnded 0
      (match version with
        | some v => do
          writeIndicator (cs! "%YAML") true false false
          if v.minor = 1 then writeIndicator (cs! "1.1") true false false
          else writeIndicator (cs! "1.2") true false false
          writeIndent
        | none => pure ())
      writeTagLines ts
      let implicit := imp && first && !s.canonical && version.isNone && ts.isEmpty
      M.when (!implicit) (do
        writeIndent
        writeIndicator (cs! "---") true false false
        M.when s.canonical writeIndent)
      setState .documentContent
      setOpenEnded 0) Q s b := by
      intro hv
      have := rest hv s ha
      unfold docStartText at this
      cases version with
      | none => simpa only [M.wp_bind] using this
      | some v => simpa only [M.wp_bind] using this
    cases version with
    | none => exact rest' (by simp)
    | some v =>
      simp only
      rw [M.wp_bind]
      refine wp_analyzeVersionDirective (fun h m => hF.emitter (fun h' => h (h'.2.1 v rfl)) m s b ha.wr.broken) (fun hv => ?_)
      exact rest' (by rintro v' h; cases h; exact hv)
  | streamEnd =>
    simp only
    rw [M.wp_bind, M.wp_get, M.wp_bind]
    refine (Wrt.when fun _ => (wrt_writeIndicator (outStr_ascii (by decide)) _ _ _).bind fun _ => (wrt_setOpenEnded 0).bind fun _ =>
      wrt_writeIndent).at ha hF.io (fun _ s1 b1 _ ha1 => ?_)
    rw [M.wp_bind]
    refine wp_flush ha1.wr hF.io (fun hw => ?_)
    have ha2 : At e u [] 0 [] B s1 { b1 with pend := false } := ⟨hw, ha1.2, ha1.3, ha1.4, ha1.5⟩
    refine wp_setState ha2 (fun s2 ha2 hs2 => ?_)
    refine hQ s2 _ _ [] rfl trivial (by simp) ha2 ?_ (fun _ => rfl)
    rw [hs2]; exact .done
  | _ => exact hF.emitter (fun h => by simp [gstep] at h) _ _ _ ha.wr.broken

theorem wp_emitDocumentEnd (ha : At e u [] 0 [] B s b) (hF : Fails .docEnd B ev E)
    (hQ : ∀ s' b' G', gstep .docEnd ev.data = some G' → EventOk B.canonical ev.data →
      At e u [] 0 [] B s' b' → EAt s'.state [] 0 G' → b'.pend = false → Q () s' b') :
    M.wp (stepE e u fails) P E (emitDocumentEnd ev) Q s b := by
  obtain ⟨d, m1, m2⟩ := ev
  unfold emitDocumentEnd
  simp only at *
  cases d with
  | documentEnd imp =>
    simp only
    rw [M.wp_bind]
    refine wrt_writeIndent.at ha hF.io (fun _ s1 b1 _ ha1 => ?_)
    have rest : ∀ s2 b2, At e u [] 0 [] B s2 b2 → M.wp (stepE e u fails) P E (do
        Emitter.flush
        M.modify fun s => { s with state := .documentStart, tagDirectives := [] }) Q s2 b2 := by
      intro s2 b2 ha2
      rw [M.wp_bind]
      refine wp_flush ha2.wr hF.io (fun hw => ?_)
      rw [M.wp_modify]
      exact hQ _ _ _ rfl trivial ⟨⟨hw.1, hw.2, hw.3, hw.4, hw.5⟩, ha2.2, ha2.3, rfl, ha2.5⟩ .nextDoc rfl
    split
    · rw [M.wp_bind]
      refine (wrt_writeIndicator (outStr_ascii (by decide)) _ _ _).at ha1 hF.io (fun _ s2 b2 _ ha2 => ?_)
      rw [M.wp_bind]
      refine (wrt_setOpenEnded 0).at ha2 hF.io (fun _ s3 b3 _ ha3 => ?_)
      rw [M.wp_bind]
      exact wrt_writeIndent.at ha3 hF.io (fun _ s4 b4 _ ha4 => rest s4 b4 ha4)
    · rw [M.wp_bind, M.wp_modify]
      exact rest _ _ (ha1.of_core rfl (ha1.wr.of_core rfl))
  | _ => exact hF.emitter (fun h => by simp [gstep] at h) _ _ _ ha.wr.broken

/-- The encoding a stream gets. -/
def resolveEnc (set event : Encoding) : Encoding :=
  if set ≠ .any then set else if event ≠ .any then event else .utf8

/-- Fields the state machine never touches. -/
structure Kept (s s' : EState) : Prop where
  events : s'.events = s.events
  canonical : s'.canonical = s.canonical
  unicode : s'.unicode = s.unicode

theorem Kept.of_fixed {s s' : EState} (h : fixed s' = fixed s) : Kept s s' := by
  have h1 := congrArg EState.events h
  have h2 := congrArg EState.canonical h
  have h3 := congrArg EState.unicode h
  exact ⟨h1, h2, h3⟩

/-- The normalised settings: indentation step, line width, line break. -/
structure Settings (s : EState) : Prop where
  indent : 2 ≤ s.bestIndent ∧ s.bestIndent ≤ 9
  width : 2 * s.bestIndent < s.bestWidth
  brk : s.lineBreak ≠ .any

theorem Settings.of_fixed {s s' : EState} (h : fixed s' = fixed s) (hs : Settings s) : Settings s' := by
  have h1 := congrArg EState.bestIndent h
  have h2 := congrArg EState.bestWidth h
  have h3 := congrArg EState.lineBreak h
  simp only [fixed, core] at h1 h2 h3
  exact ⟨by rw [h1]; exact hs.1, by rw [h1, h2]; exact hs.2, by rw [h3]; exact hs.3⟩

/-- The invariant of the emitter between events. -/
structure EInv (e : Encoding) (u : Bool) (G : GSt) (s : EState) (b : Ob) : Prop where
  broken : b.broken = false
  uni : s.unicode = u
  handles : ∀ d ∈ s.tagDirectives, HandleOk d.handle
  pos : EAt s.state s.states s.indents.length G
  fresh : G = .start → b.text = [] ∧ b.pend = false
  run : G ≠ .start → Wr e u s b ∧ Settings s

theorem resolve_ne (x y : Encoding) : resolveEnc x y ≠ .any := by
  unfold resolveEnc
  cases x <;> cases y <;> simp

theorem wp_emitStreamStart (hs : s.states = [] ∧ s.indents.length = 0 ∧ s.tagDirectives = td) (hu : s.unicode = u) (hb : b.broken = false)
    (hbt : b.text = []) (he : ∀ enc, ev.data = .streamStart enc → e = resolveEnc s.encoding enc)
    (hF : Fails .start (fixed s) ev E)
    (hQ : ∀ s' b' G', gstep .start ev.data = some G' → At e u [] 0 td (fixed s') s' b' →
      EAt s'.state [] 0 G' → Kept s s' → Settings s' → Q () s' b') :
    M.wp (stepE e u fails) P E (emitStreamStart ev) Q s b := by
  obtain ⟨d, m1, m2⟩ := ev
  unfold emitStreamStart
  unfold setOpenEnded
  rw [M.wp_bind, M.wp_modify]
  simp only at *
  cases d with
  | streamStart enc =>
    have he' := he enc rfl
    simp only
    rw [M.wp_bind, M.wp_modify, M.wp_bind, M.wp_get]
    generalize hs1 : normalise enc { s with openEnded := 0 } = s1
    have f1 : s1.states = s.states ∧ s1.indents = s.indents ∧ s1.tagDirectives = s.tagDirectives ∧ Kept s s1 := by
      subst hs1; exact ⟨rfl, rfl, rfl, ⟨rfl, rfl, rfl⟩⟩
    have f2 : s1.encoding = e := by
      subst hs1
      rw [he']
      show (if (if s.encoding = .any then enc else s.encoding) = .any then Encoding.utf8 else (if s.encoding = .any then enc else s.encoding)) = _
      unfold resolveEnc
      cases s.encoding <;> cases enc <;> rfl
    have f3 : Settings s1 := by
      subst hs1
      simp only [normalise]
      refine ⟨?_, ?_, ?_⟩
      · simp only; split <;> omega
      · simp only [i32Max]
        split <;> split <;> split <;> omega
      · simp only
        cases s.lineBreak <;> simp
    have wr : ∀ b', b'.broken = false → (e = .utf8 ∨ b'.text ≠ []) → Wr e u s1 b' := fun b' h1 h2 =>
      ⟨h1, f2, f1.2.2.2.3.trans hu, h2, f3.1⟩
    have fin : ∀ b', b'.broken = false → (e = .utf8 ∨ b'.text ≠ []) → M.wp (stepE e u fails) P E (setState .firstDocumentStart) Q s1 b' := by
      intro b' h1 h2
      unfold setState
      rw [M.wp_modify]
      have hw := wr b' h1 h2
      exact hQ _ _ _ rfl ⟨⟨hw.1, hw.2, hw.3, hw.4, hw.5⟩, by rw [← hs.1]; exact f1.1, by rw [← hs.2.1, ← f1.2.1],
        f1.2.2.1.trans hs.2.2, rfl⟩ .firstDoc
        ⟨f1.2.2.2.1, f1.2.2.2.2, f1.2.2.2.3⟩ ⟨f3.1, f3.2, f3.3⟩
    rw [M.wp_bind]
    by_cases h8 : e = .utf8
    · rw [M.wp_when, if_neg (by rw [f2, h8]; decide)]
      exact fin b hb (Or.inl h8)
    · rw [M.wp_when, if_pos (by rw [f2]; simpa using h8)]
      unfold writeBom
      rw [M.wp_bind]
      unfold flushIfNeeded
      simp only [M.wp_bind, M.wp_get, M.wp_prim]
      refine ⟨hb, f2, M.wp_ofOut_ok.2 ?_, fun _ k => hF.io _ _ _ rfl⟩
      refine ⟨hb, ?_, fin _ hb (Or.inr (by simp))⟩
      unfold okAt
      rw [if_pos ⟨h8, hbt⟩]
  | _ => exact hF.emitter (fun h => by simp [gstep] at h) _ _ _ hb

theorem gstep_docs_ne {G : GSt} {d : EventData} {G' : GSt} (h : gstep G d = some G') : G' ≠ .start := by
  rintro rfl
  cases G with
  | start => cases d <;> simp [gstep] at h
  | docs => cases d <;> simp [gstep] at h
  | docEnd => cases d <;> simp [gstep] at h
  | done => cases d <;> simp [gstep] at h
  | inDoc stk =>
    have aft : ∀ r, GSt.after r ≠ .start := by
      intro r
      cases r with
      | nil => simp [GSt.after]
      | cons c r => cases c <;> simp [GSt.after]
    cases d with
    | sequenceEnd =>
      cases stk with
      | nil => simp [gstep] at h
      | cons c r => cases c <;> simp [gstep] at h; exact aft _ h
    | mappingEnd =>
      cases stk with
      | nil => simp [gstep] at h
      | cons c r => cases c <;> simp [gstep] at h; exact aft _ h
    | alias a => simp [gstep] at h; exact aft _ h
    | scalar a b c d e f => simp [gstep] at h; exact aft _ h
    | _ => simp [gstep] at h

/-- One event. -/
theorem wp_process {G : GSt} (hI : EInv e u G s b)
    (he : G = .start → ∀ enc, ev.data = .streamStart enc → e = resolveEnc s.encoding enc)
    (hF : Fails G s ev E) (hP : ¬ TagFits s.tagDirectives ev.data → P .tagSlice)
    (hQ : ∀ s' b' G', gstep G ev.data = some G' → EventOk s.canonical ev.data → EInv e u G' s' b' → Kept s s' →
      (∀ d ∈ s'.tagDirectives, d ∈ s.tagDirectives ∨ d ∈ declared ev.data ∨ d ∈ defaultTagDirectives) → (EndsOutput ev.data → b'.pend = false) → Q () s' b') :
    M.wp (stepE e u fails) P E (process ev) Q s b := by
  unfold process
  rw [M.wp_bind, M.wp_get]
  simp only
  rw [M.wp_bind, M.wp_modify, M.wp_bind]
  refine wp_analyzeEvent (fun h m => hF.emitter (fun h' => h (AnaEvent.of_ok h'.2)) m _ b hI.broken) hP (fun a hAE hA => ?_)
  rw [M.wp_bind]
  generalize hs1 : ({ s with tagDirectives := [] } : EState) = s1 at *
  have hcan : s1.canonical = s.canonical := by subst hs1; rfl
  have hev : Ev u (fixed s1) s.tagDirectives ev a :=
    ⟨hI.handles, ⟨s1, by subst hs1; exact hI.uni, hA⟩, hAE⟩
  have hfix : fixed s1 = fixed s := by subst hs1; rfl
  have hF1 : Fails G (fixed s1) ev E := ⟨hF.io, fun h => hF.emitter (by rw [hfix] at h; exact h)⟩
  have hpos : EAt s1.state s1.states s1.indents.length G := by subst hs1; exact hI.pos
  have htd : s1.tagDirectives = [] := by subst hs1; rfl
  -- the directives are put back
  have fin : ∀ (s2 : EState) (b2 : Ob) (G' : GSt) (st : List EmSt) (n : Nat) (td : List TagDirective), gstep G ev.data = some G' →
      EventOk s.canonical ev.data → At e u st n td (fixed s2) s2 b2 → EAt s2.state st n G' →
      (∀ d ∈ td, HandleOk d.handle ∧ (d ∈ declared ev.data ∨ d ∈ defaultTagDirectives)) → Kept s s2 → Settings s2 →
      (EndsOutput ev.data → b2.pend = false) →
      Q () { s2 with tagDirectives := if s2.tagDirectives.isEmpty then s.tagDirectives else s2.tagDirectives } b2 := by
    intro s2 b2 G' st n td hg hok ha hat htd hk hset hend
    refine hQ _ b2 G' hg hok ⟨ha.wr.broken, ha.wr.uni, ?_, ?_, fun h => absurd h (gstep_docs_ne hg), fun _ => ⟨?_, ?_⟩⟩ ?_ ?_ hend
    · simp only
      split
      · exact hI.handles
      · rw [ha.tags]; exact fun d hd => (htd d hd).1
    · simp only; rw [ha.states, ha.indents]; exact hat
    · exact ⟨ha.wr.1, ha.wr.2, ha.wr.3, ha.wr.4, ha.wr.5⟩
    · exact ⟨hset.1, hset.2, hset.3⟩
    · exact ⟨hk.1, hk.2, hk.3⟩
    · simp only
      split
      · exact fun d hd => Or.inl hd
      · rw [ha.tags]; exact fun d hd => Or.inr (htd d hd).2
  have fin2 : G ≠ .start → (EndsOutput ev.data → False) → Moves e u G [] (fixed s1) ev (fun x s9 b9 => M.wp (stepE e u fails) P E (M.modify fun s2 =>
      { s2 with tagDirectives := if s2.tagDirectives.isEmpty then s.tagDirectives else s2.tagDirectives }) Q s9 b9) := by
    rintro hG hne s2 b2 G' hg hok ⟨st, n, ha, hat⟩
    rw [M.wp_modify]
    have hb2 : fixed s2 = fixed s := ha.base.trans hfix
    rw [hfix] at hok
    exact fin s2 b2 G' st n [] hg hok ⟨ha.1, ha.2, ha.3, ha.4, rfl⟩ hat (by simp) (Kept.of_fixed hb2) ((hI.run hG).2.of_fixed hb2)
      (fun h => (hne h).elim)
  have hat0 : G ≠ .start → At e u s1.states s1.indents.length [] (fixed s1) s1 b := fun hG => by
    have hw := (hI.run hG).1
    subst hs1
    exact ⟨⟨hw.1, hw.2, hw.3, hw.4, hw.5⟩, rfl, rfl, rfl, rfl⟩
  unfold stateMachine
  rw [M.wp_bind, M.wp_get]
  have ends : ∀ stk, G = .inDoc stk → EndsOutput ev.data → gstep G ev.data = none := by
    rintro stk rfl h
    generalize ev.data = d at h
    cases d <;> first | rfl | exact h.elim
  have nends : ∀ stk, G = .inDoc stk → Moves e u G [] (fixed s1) ev (fun x s9 b9 => M.wp (stepE e u fails) P E (M.modify fun s2 =>
      { s2 with tagDirectives := if s2.tagDirectives.isEmpty then s.tagDirectives else s2.tagDirectives }) Q s9 b9) := by
    intro stk hG
    by_cases h : EndsOutput ev.data
    · intro s2 b2 G' hg
      rw [ends stk hG h] at hg
      cases hg
    · exact fin2 (by rw [hG]; simp) h
  generalize hst : s1.state = x at hpos
  generalize hsts : s1.states = sts at hpos hat0
  generalize hind : s1.indents.length = k at hpos hat0
  cases hpos with
  | start =>
    refine wp_emitStreamStart (td := []) ⟨hsts, hind, htd⟩ (by subst hs1; exact hI.uni) hI.broken (hI.fresh rfl).1
      (by subst hs1; exact he rfl) hF1 (fun s2 b2 G' hg ha hat hk hset => ?_)
    rw [M.wp_modify]
    have hd : ∃ enc, ev.data = .streamStart enc := by
      generalize ev.data = d at hg
      cases d <;> first | exact ⟨_, rfl⟩ | simp [gstep] at hg
    obtain ⟨enc, hd⟩ := hd
    refine fin s2 b2 G' [] 0 [] hg (by rw [hd]; trivial) ha hat (by simp) ?_ hset (by rw [hd]; exact fun h => h.elim)
    subst hs1
    exact ⟨hk.1, hk.2, hk.3⟩
  | firstDoc =>
    refine wp_emitDocumentStart (hat0 (by simp)) hF1 (fun s2 b2 G' td hg hok htd ha hat hend => ?_)
    rw [M.wp_modify]
    have hb2 : fixed s2 = fixed s := ha.base.trans hfix
    rw [hfix] at hok
    exact fin s2 b2 G' _ _ td hg hok ⟨ha.1, ha.2, ha.3, ha.4, rfl⟩ hat htd (Kept.of_fixed hb2)
      ((hI.run (by simp)).2.of_fixed hb2) hend
  | nextDoc =>
    refine wp_emitDocumentStart (hat0 (by simp)) hF1 (fun s2 b2 G' td hg hok htd ha hat hend => ?_)
    rw [M.wp_modify]
    have hb2 : fixed s2 = fixed s := ha.base.trans hfix
    rw [hfix] at hok
    exact fin s2 b2 G' _ _ td hg hok ⟨ha.1, ha.2, ha.3, ha.4, rfl⟩ hat htd (Kept.of_fixed hb2)
      ((hI.run (by simp)).2.of_fixed hb2) hend
  | content => exact wp_emitDocumentContent hev (hat0 (by simp)) hF1 (nends _ rfl)
  | docEnd =>
    refine wp_emitDocumentEnd (hat0 (by simp)) hF1 (fun s2 b2 G' hg hok ha hat hend => ?_)
    rw [M.wp_modify]
    have hb2 : fixed s2 = fixed s := ha.base.trans hfix
    rw [hfix] at hok
    exact fin s2 b2 G' _ _ [] hg hok ⟨ha.1, ha.2, ha.3, ha.4, rfl⟩ hat (by simp) (Kept.of_fixed hb2)
      ((hI.run (by simp)).2.of_fixed hb2) (fun _ => hend)
  | done => exact hF.emitter (fun h => by simp [gstep] at h) _ _ _ hI.broken
  | seqFirst hx hR =>
    rcases hx with rfl | rfl
    · exact wp_emitFlowSequenceItem (first := true) hev (hat0 (by simp)) hR hF1 (nends _ rfl)
    · exact wp_emitBlockSequenceItem (first := true) hev (hat0 (by simp)) hR hF1 (nends _ rfl)
  | mapFirst hx hR =>
    rcases hx with rfl | rfl
    · exact wp_emitFlowMappingKey (first := true) hev (hat0 (by simp)) hR hF1 (nends _ rfl)
    · exact wp_emitBlockMappingKey (first := true) hev (hat0 (by simp)) hR hF1 (nends _ rfl)
  | seq hx hR =>
    rcases hx with rfl | rfl
    · exact wp_emitFlowSequenceItem (first := false) hev (hat0 (by simp)) hR hF1 (nends _ rfl)
    · exact wp_emitBlockSequenceItem (first := false) hev (hat0 (by simp)) hR hF1 (nends _ rfl)
  | key hx hR =>
    rcases hx with rfl | rfl
    · exact wp_emitFlowMappingKey (first := false) hev (hat0 (by simp)) hR hF1 (nends _ rfl)
    · exact wp_emitBlockMappingKey (first := false) hev (hat0 (by simp)) hR hF1 (nends _ rfl)
  | value hx hR =>
    rcases hx with rfl | rfl | rfl | rfl
    · exact wp_emitFlowMappingValue hev (hat0 (by simp)) hR hF1 (nends _ rfl)
    · exact wp_emitFlowMappingValue hev (hat0 (by simp)) hR hF1 (nends _ rfl)
    · exact wp_emitBlockMappingValue hev (hat0 (by simp)) hR hF1 (nends _ rfl)
    · exact wp_emitBlockMappingValue hev (hat0 (by simp)) hR hF1 (nends _ rfl)

end Yaml.Emitter
