import Verif.EmitApi
import Verif.Lib.Emit5

/-
From the invariants of the emitter to histories of calls on an emitter object.
-/

namespace Yaml.Emitter
open Yaml Spec

set_option linter.unusedSimpArgs false

/-- The canonical flag the setters lead to. -/
def cfgCanonical (cfg : List Setting) : Bool :=
  cfg.foldl (fun a x => match x with | .canonical b => b | _ => a) false
/-- The Unicode flag the setters lead to. -/
def cfgUnicode (cfg : List Setting) : Bool :=
  cfg.foldl (fun a x => match x with | .unicode b => b | _ => a) false

/-- A freshly configured emitter. -/
structure Fresh (enc0 : Encoding) (c u : Bool) (w : Writer) (o : EmitterObj) : Prop where
  sink : o.k = ⟨some w, [], []⟩
  enc : o.s.encoding = enc0
  can : o.s.canonical = c
  uni : o.s.unicode = u
  st : o.s.state = .streamStart
  sts : o.s.states = []
  ind : o.s.indents = []
  evs : o.s.events = []
  tags : o.s.tagDirectives = []

theorem fresh_new (enc : Encoding) (cfg : List Setting) (w : Writer) :
    Fresh enc (cfgCanonical cfg) (cfgUnicode cfg) w (EmitterObj.new enc cfg w) := by
  have key : ∀ (cfg : List Setting) (o : EmitterObj) (c u : Bool), o.k = newSink → o.s.encoding = enc → o.s.canonical = c → o.s.unicode = u →
      o.s.state = .streamStart → o.s.states = [] → o.s.indents = [] → o.s.events = [] → o.s.tagDirectives = [] →
      Fresh enc (cfg.foldl (fun a x => match x with | .canonical b => b | _ => a) c)
        (cfg.foldl (fun a x => match x with | .unicode b => b | _ => a) u) w
        ⟨(Emitter.setOutput w ((cfg.foldl EmitterObj.set o).s, (cfg.foldl EmitterObj.set o).k)).2.1,
         (Emitter.setOutput w ((cfg.foldl EmitterObj.set o).s, (cfg.foldl EmitterObj.set o).k)).2.2⟩ := by
    intro cfg
    induction cfg with
    | nil =>
      intro o c u h1 h2 h3 h4 h5 h6 h7 h8 h9
      obtain ⟨s, k⟩ := o
      simp only at *
      subst h1
      exact ⟨rfl, h2, h3, h4, h5, h6, h7, h8, h9⟩
    | cons x cfg ih =>
      intro o c u h1 h2 h3 h4 h5 h6 h7 h8 h9
      simp only [List.foldl_cons]
      obtain ⟨s, k⟩ := o
      cases x <;> exact ih _ _ _ h1 h2 (by first | rfl | exact h3) (by first | rfl | exact h4) h5 h6 h7 h8 h9
  refine key cfg _ false false rfl ?_ rfl rfl rfl rfl rfl rfl rfl
  cases enc <;> rfl

/-- The encoding of the stream: the one that was set, or the one of the first event, or UTF-8. -/
def streamEnc (enc0 : Encoding) (evs : List Event) : Encoding :=
  resolveEnc enc0 (match evs with | ⟨.streamStart enc, _, _⟩ :: _ => enc | _ => .any)

theorem encOf_stream (enc0 : Encoding) (evs rest : List Event) : EncOf enc0 (streamEnc enc0 (evs ++ rest)) evs := by
  intro x enc hx hd
  cases evs with
  | nil => cases hx
  | cons y evs =>
    cases hx
    obtain ⟨d, m1, m2⟩ := x
    simp only at hd
    subst hd
    rfl

theorem streamEnc_ne (enc0 : Encoding) (evs : List Event) : streamEnc enc0 evs ≠ .any := resolve_ne _ _

theorem streamEnc_append {enc0 : Encoding} {evs : List Event} (rest : List Event) (h : evs ≠ []) :
    streamEnc enc0 (evs ++ rest) = streamEnc enc0 evs := by
  cases evs with
  | nil => exact absurd rfl h
  | cons x evs =>
    obtain ⟨d, m1, m2⟩ := x
    cases d <;> rfl

/-- The invariant of an emitter object after the events `evs`. -/
structure OInv (e : Encoding) (u c : Bool) (enc0 : Encoding) (base : List UInt8) (evs : List Event) (o : EmitterObj) (b : Ob) : Prop where
  inv : HInv e u c enc0 evs o.s b
  sink : RSink e u base b o.k
  idle : ready o.s.events = false

theorem OInv.broken {e : Encoding} {u c : Bool} {enc0 : Encoding} {base : List UInt8} {evs : List Event} {o : EmitterObj} {b : Ob}
    (h : OInv e u c enc0 base evs o b) : b.broken = false := by
  obtain ⟨done, G, _, _, hI, _⟩ := h.inv
  exact hI.broken

theorem Fresh.inv {enc0 : Encoding} {c u : Bool} {w : Writer} {o : EmitterObj} (h : Fresh enc0 c u w o) {e : Encoding} :
    OInv e u c enc0 w.bytes [] o ⟨[], false, false⟩ := by
  refine ⟨⟨[], .start, by rw [h.evs]; rfl, .nil _, ⟨rfl, h.uni, by rw [h.tags]; simp, ?_, fun _ => ⟨rfl, rfl⟩, fun h => absurd rfl h⟩, h.can,
    by simp, ?_, fun _ => h.enc, by rw [h.tags]; simp⟩, ⟨⟨w, by rw [h.sink], by rw [h.sink]⟩, by rw [h.sink], fun _ => by rw [h.sink], ?_⟩,
    by rw [h.evs]; rfl⟩
  · rw [h.st, h.sts, h.ind]; exact .start
  · intro x hx; cases hx
  · unfold OutText
    split
    · simp
    · exact Or.inl rfl

/-- The program run by `emit`, under the rules. -/
theorem emit_wp {e : Encoding} {u c : Bool} {enc0 : Encoding} {evs : List Event} {ev : Event} {s : EState} {b : Ob} {fails : Prop}
    (henc : EncOf enc0 e (evs ++ [ev])) (hH : HInv e u c enc0 evs s b) :
    M.wp (stepE e u fails) (fun p => p = .tagSlice ∧ ¬ TagsFit ((evs ++ [ev]).map (·.data)))
      (fun err _ b' => (b'.broken = true ∧ ∃ k, err = .io k) ∨ (b'.broken = false ∧ (∃ m, err = .emitter m) ∧ Rejected c (evs ++ [ev])))
      (Emitter.emit ev) (fun _ s' b' => HInv e u c enc0 (evs ++ [ev]) s' b' ∧ ready s'.events = false) s b :=
  wp_emit henc (fun k _ _ hb => Or.inl ⟨hb, k, rfl⟩) (fun h m _ _ hb => Or.inr ⟨hb, ⟨m, rfl⟩, h⟩) (fun h => ⟨rfl, h⟩) hH
    (fun _ _ h1 h2 => ⟨h1, h2⟩)

/-- All that can come of a call of `emit`. -/
theorem emit_cases {e : Encoding} {u c : Bool} {enc0 : Encoding} {base : List UInt8} {evs : List Event} {ev : Event} {o : EmitterObj} {b : Ob}
    (he : e ≠ .any) (henc : EncOf enc0 e (evs ++ [ev])) (h : OInv e u c enc0 base evs o b) :
    (∃ o' b', o.emit ev = (.ok (), o') ∧ OInv e u c enc0 base (evs ++ [ev]) o' b') ∨
    (∃ o' k, o.emit ev = (.err (.io k), o')) ∨
    (∃ o' m, o.emit ev = (.err (.emitter m), o') ∧ Rejected c (evs ++ [ev])) ∨
    (∃ o', o.emit ev = (.panic .tagSlice, o') ∧ ¬ TagsFit ((evs ++ [ev]).map (·.data))) := by
  obtain ⟨b', hQ, hS⟩ := exec_of_wp (fails := True) he _ h.broken h.sink (fun _ => trivial) (emit_wp henc h.inv)
  unfold EmitterObj.emit EmitterObj.run
  generalize Sink.exec (Emitter.emit ev o.s) o.k = q at hQ hS
  obtain ⟨⟨r, s'⟩, k'⟩ := q
  cases r with
  | ok a =>
    obtain ⟨h1, h2⟩ := hQ
    rcases hS with ⟨hb, hS, _⟩ | ⟨hb, _⟩
    · exact Or.inl ⟨_, b', rfl, ⟨h1, hS, h2⟩⟩
    · obtain ⟨done, G, _, _, hI, _⟩ := h1
      rw [hI.broken] at hb
      cases hb
  | err x =>
    rcases hQ with ⟨_, k, rfl⟩ | ⟨_, ⟨m, rfl⟩, hr⟩
    · exact Or.inr (Or.inl ⟨_, k, rfl⟩)
    · exact Or.inr (Or.inr (Or.inl ⟨_, m, rfl, hr⟩))
  | panic p =>
    obtain ⟨rfl, hr⟩ := hQ
    exact Or.inr (Or.inr (Or.inr ⟨_, rfl, hr⟩))
  | fuel => exact hQ.elim

/-- The encoding in the state is that of the stream, as far as it is known. -/
theorem OInv.encoding {e : Encoding} {u c : Bool} {enc0 : Encoding} {base : List UInt8} {evs : List Event} {o : EmitterObj} {b : Ob}
    (h : OInv e u c enc0 base evs o b) (he : enc0 ≠ .any → e = enc0) (hn : o.s.encoding ≠ .any) : o.s.encoding = e := by
  obtain ⟨done, G, _, _, hI, _, _, _, hst, _⟩ := h.inv
  by_cases hG : G = .start
  · rw [hst hG] at hn ⊢
    exact (he hn).symm
  · exact (hI.run hG).1.enc

theorem streamEnc_set {enc0 : Encoding} (evs : List Event) (h : enc0 ≠ .any) : streamEnc enc0 evs = enc0 := by
  unfold streamEnc resolveEnc
  rw [if_pos h]

theorem HInv.flushed {e : Encoding} {u c : Bool} {enc0 : Encoding} {evs : List Event} {s : EState} {b : Ob}
    (h : HInv e u c enc0 evs s b) : HInv e u c enc0 evs s { b with pend := false } := by
  obtain ⟨done, G, h1, h2, hI, h3, h4, h5, h6⟩ := h
  exact ⟨done, G, h1, h2, ⟨hI.1, hI.2, hI.3, hI.4, fun h => ⟨(hI.5 h).1, rfl⟩, fun h => ⟨⟨(hI.6 h).1.1, (hI.6 h).1.2, (hI.6 h).1.3, (hI.6 h).1.4, (hI.6 h).1.5⟩, (hI.6 h).2⟩⟩,
    h3, h4, fun _ _ _ => rfl, h6⟩

theorem flush_wp {e : Encoding} {u c : Bool} {enc0 : Encoding} {evs : List Event} {s : EState} {b : Ob} {fails : Prop}
    (hen : s.encoding = e) (hH : HInv e u c enc0 evs s b) :
    M.wp (stepE e u fails) (fun _ => False) (fun err _ b' => b'.broken = true ∧ ∃ k, err = .io k)
      Emitter.flush (fun _ s' b' => s' = s ∧ HInv e u c enc0 evs s' b' ∧ b'.pend = false) s b := by
  unfold Emitter.flush
  simp only [M.wp_bind, M.wp_get, M.wp_prim]
  have hb : b.broken = false := by
    obtain ⟨done, G, _, _, hI, _⟩ := hH
    exact hI.broken
  exact ⟨hb, hen, M.wp_ofOut_ok.2 ⟨rfl, hH.flushed, rfl⟩, fun _ k => ⟨rfl, k, rfl⟩⟩

/-- All that can come of a call of `flush`. -/
theorem flush_cases' {e : Encoding} {u c : Bool} {enc0 : Encoding} {base : List UInt8} {evs : List Event} {o : EmitterObj} {b : Ob}
    (he : e ≠ .any) (hen : o.s.encoding = e) (h : OInv e u c enc0 base evs o b) :
    (∃ o' b', o.flush = (.ok (), o') ∧ OInv e u c enc0 base evs o' b' ∧ b'.pend = false ∧ o'.s = o.s) ∨
    (∃ o' k, o.flush = (.err (.io k), o')) := by
  obtain ⟨b', hQ, hS⟩ := exec_of_wp (fails := True) he _ h.broken h.sink (fun _ => trivial) (flush_wp hen h.inv)
  unfold EmitterObj.flush EmitterObj.run
  have hidle := h.idle
  generalize Sink.exec (Emitter.flush o.s) o.k = q at hQ hS
  obtain ⟨⟨r, s'⟩, k'⟩ := q
  cases r with
  | ok a =>
    obtain ⟨h0, h1, h2⟩ := hQ
    rcases hS with ⟨hb, hS, _⟩ | ⟨hb, _⟩
    · exact Or.inl ⟨_, b', rfl, ⟨h1, hS, by rw [h0]; exact hidle⟩, h2, h0⟩
    · obtain ⟨done, G, _, _, hI, _⟩ := h1
      rw [hI.broken] at hb
      cases hb
  | err x =>
    obtain ⟨_, k, rfl⟩ := hQ
    exact Or.inr ⟨_, k, rfl⟩
  | panic p => exact hQ.elim
  | fuel => exact hQ.elim

theorem exec_flush (s : EState) (k : Sink) :
    Sink.exec (Emitter.flush s) k = (((k.flush s.encoding).1, s), (k.flush s.encoding).2) := rfl

/-- Flushing without an encoding is a panic. -/
theorem flush_any {o : EmitterObj} {w : Writer} (hk : o.k.handler = some w) (h : o.s.encoding = .any) : ∃ o', o.flush = (.panic .noEncoding, o') := by
  have hx : o.k.flush .any = (.panic .noEncoding, o.k) := by
    unfold Sink.flush
    rw [hk]
    rfl
  refine ⟨⟨o.s, o.k⟩, ?_⟩
  unfold EmitterObj.flush EmitterObj.run
  rw [exec_flush, h, hx]

/-- The invariant holds along every history. -/
theorem emits_inv {enc0 : Encoding} {c u : Bool} {w : Writer} {o o' : EmitterObj} {evs : List Event} (hF : Fresh enc0 c u w o)
    (h : EmitterObj.Emits o evs o') (rest : List Event) :
    ∃ b, OInv (streamEnc enc0 (evs ++ rest)) u c enc0 w.bytes evs o' b := by
  induction h generalizing rest with
  | nil => exact ⟨_, hF.inv⟩
  | @snoc evs ev o1 o2 h hs ih =>
    obtain ⟨b, hb⟩ := ih (ev :: rest)
    have e1 : evs ++ ev :: rest = (evs ++ [ev]) ++ rest := by simp
    rw [e1] at hb
    rcases emit_cases (streamEnc_ne _ _) (encOf_stream enc0 _ rest) hb with ⟨o', b', h1, h2⟩ | ⟨o', k, h1⟩ | ⟨o', m, h1, _⟩ | ⟨o', h1, _⟩
    · rw [hs] at h1; cases h1; exact ⟨b', h2⟩
    · rw [hs] at h1; cases h1
    · rw [hs] at h1; cases h1
    · rw [hs] at h1; cases h1
  | @flush evs o1 o2 h hs ih =>
    obtain ⟨b, hb⟩ := ih rest
    have hen : o1.s.encoding ≠ .any := by
      intro hn
      obtain ⟨w, hw, _⟩ := hb.sink.writer
      obtain ⟨o', h'⟩ := flush_any hw hn
      rw [hs] at h'; cases h'
    rcases flush_cases' (streamEnc_ne _ _) (hb.encoding (fun h => streamEnc_set _ h) hen) hb with ⟨o', b', h1, h2, _⟩ | ⟨o', k, h1⟩
    · rw [hs] at h1; cases h1; exact ⟨b', h2⟩
    · rw [hs] at h1; cases h1

/-- The same call on an emitter with a perfect writer and the same buffers. -/
theorem emit_beside {e : Encoding} {u c : Bool} {enc0 : Encoding} {base : List UInt8} {evs : List Event} {ev : Event} {o o' : EmitterObj} {b : Ob}
    (he : e ≠ .any) (henc : EncOf enc0 e (evs ++ [ev])) (hs : o'.s = o.s) (hB : Beside o.k o'.k) (h : OInv e u c enc0 base evs o' b) :
    ((o.emit ev).1 = (o'.emit ev).1 ∧ (o'.emit ev).2.s = (o.emit ev).2.s ∧ Beside (o.emit ev).2.k (o'.emit ev).2.k) ∨
    ((∃ k, (o.emit ev).1 = .err (.io k)) ∨ ((o.emit ev).1 = .panic .tagSlice ∧ ¬ TagsFit ((evs ++ [ev]).map (·.data)))) ∧
      (o.emit ev).2.written <+: (o'.emit ev).2.written := by
  have hk := exec_beside (fails := True) trivial he _ hB h.sink (emit_wp henc h.inv)
  unfold EmitterObj.emit EmitterObj.run
  rw [hs] at hk ⊢
  generalize Sink.exec (Emitter.emit ev o.s) o.k = q at hk
  generalize Sink.exec (Emitter.emit ev o.s) o'.k = q' at hk
  obtain ⟨⟨r, s1⟩, k1⟩ := q
  obtain ⟨⟨r', s1'⟩, k1'⟩ := q'
  rcases hk with ⟨h1, h2⟩ | ⟨b', hb, hQ, hp⟩
  · cases h1
    exact Or.inl ⟨rfl, rfl, h2⟩
  · refine Or.inr ⟨?_, hp⟩
    cases r with
    | ok a =>
      obtain ⟨⟨done, G, _, _, hI, _⟩, _⟩ := hQ
      rw [hI.broken] at hb; cases hb
    | err x =>
      rcases hQ with ⟨_, k, rfl⟩ | ⟨hb', _⟩
      · exact Or.inl ⟨k, rfl⟩
      · rw [hb] at hb'; cases hb'
    | panic p =>
      obtain ⟨rfl, hr⟩ := hQ
      exact Or.inr ⟨rfl, hr⟩
    | fuel => exact hQ.elim

/-- A call on an emitter with a writer that does not fail is the call on the unbuffered emitter. -/
theorem emit_unbuffered {e : Encoding} {u c : Bool} {enc0 : Encoding} {base : List UInt8} {evs : List Event} {ev : Event} {o : EmitterObj} {b : Ob}
    (he : e ≠ .any) (henc : EncOf enc0 e (evs ++ [ev])) (h : OInv e u c enc0 base evs o b) (hg : ∀ w, o.k.handler = some w → w.Good) :
    (o.emit ev).1 = (Unbuffered.emit ev ⟨o.s, b.text⟩).1 ∧ (o.emit ev).2.s = (Unbuffered.emit ev ⟨o.s, b.text⟩).2.s ∧
    (∀ w, (o.emit ev).2.k.handler = some w → w.Good) ∧
    ((∃ b', (o.emit ev).1 = .ok () ∧ OInv e u c enc0 base (evs ++ [ev]) (o.emit ev).2 b' ∧ b'.text = (Unbuffered.emit ev ⟨o.s, b.text⟩).2.text) ∨
     (∃ m, (o.emit ev).1 = .err (.emitter m) ∧ Rejected c (evs ++ [ev])) ∨
     ((o.emit ev).1 = .panic .tagSlice ∧ ¬ TagsFit ((evs ++ [ev]).map (·.data)))) := by
  have hk := exec_text (fails := True) he _ h.sink hg (emit_wp henc h.inv)
  have hb := h.broken
  unfold EmitterObj.emit EmitterObj.run Unbuffered.emit
  generalize Sink.exec (Emitter.emit ev o.s) o.k = q at hk
  simp only
  generalize execText (Emitter.emit ev o.s) b.text = q' at hk
  obtain ⟨⟨r, s1⟩, k1⟩ := q
  obtain ⟨⟨r', s1'⟩, k1'⟩ := q'
  obtain ⟨h1, b', hQ, hb', ht, hR, hg'⟩ := hk
  cases h1
  refine ⟨rfl, rfl, hg', ?_⟩
  cases r with
  | ok a => exact Or.inl ⟨b', rfl, ⟨hQ.1, hR, hQ.2⟩, ht⟩
  | err x =>
    rcases hQ with ⟨hb2, _⟩ | ⟨_, ⟨m, rfl⟩, hr⟩
    · rw [hb', hb] at hb2; cases hb2
    · exact Or.inr (Or.inl ⟨m, rfl, hr⟩)
  | panic p =>
    obtain ⟨rfl, hr⟩ := hQ
    exact Or.inr (Or.inr ⟨rfl, hr⟩)
  | fuel => exact hQ.elim

theorem flush_beside {e : Encoding} {u c : Bool} {enc0 : Encoding} {base : List UInt8} {evs : List Event} {o o' : EmitterObj} {b : Ob}
    (he : e ≠ .any) (hen : o.s.encoding = e) (hs : o'.s = o.s) (hB : Beside o.k o'.k) (h : OInv e u c enc0 base evs o' b) :
    ((o.flush).1 = (o'.flush).1 ∧ (o'.flush).2.s = (o.flush).2.s ∧ Beside (o.flush).2.k (o'.flush).2.k) ∨
    (∃ k, (o.flush).1 = .err (.io k)) ∧ (o.flush).2.written <+: (o'.flush).2.written := by
  have hk := exec_beside (fails := True) trivial he _ hB h.sink (flush_wp (by rw [hs]; exact hen) h.inv)
  unfold EmitterObj.flush EmitterObj.run
  rw [hs] at hk ⊢
  generalize Sink.exec (Emitter.flush o.s) o.k = q at hk
  generalize Sink.exec (Emitter.flush o.s) o'.k = q' at hk
  obtain ⟨⟨r, s1⟩, k1⟩ := q
  obtain ⟨⟨r', s1'⟩, k1'⟩ := q'
  rcases hk with ⟨h1, h2⟩ | ⟨b', hb, hQ, hp⟩
  · cases h1
    exact Or.inl ⟨rfl, rfl, h2⟩
  · refine Or.inr ⟨?_, hp⟩
    cases r with
    | ok a =>
      obtain ⟨_, ⟨done, G, _, _, hI, _⟩, _⟩ := hQ
      rw [hI.broken] at hb; cases hb
    | err x =>
      obtain ⟨_, k, rfl⟩ := hQ
      exact ⟨k, rfl⟩
    | panic p => exact hQ.elim
    | fuel => exact hQ.elim

theorem new_state (enc : Encoding) (cfg : List Setting) (w w' : Writer) :
    (EmitterObj.new enc cfg w).s = (EmitterObj.new enc cfg w').s := by
  unfold EmitterObj.new
  simp only [setOutput]
  split <;> rfl

/-- A history with any writer is a history with a perfect one. -/
theorem emits_beside {enc : Encoding} {cfg : List Setting} {w w' : Writer} (hw : w'.bytes = w.bytes) (hg : w'.Good)
    {evs : List Event} {o : EmitterObj} (h : EmitterObj.Emits (EmitterObj.new enc cfg w) evs o) :
    ∃ o', EmitterObj.Emits (EmitterObj.new enc cfg w') evs o' ∧ o'.s = o.s ∧ Beside o.k o'.k := by
  induction h with
  | nil =>
    refine ⟨_, .nil, new_state _ _ _ _, ?_⟩
    rw [(fresh_new enc cfg w).sink, (fresh_new enc cfg w').sink]
    exact ⟨rfl, rfl, rfl, w, w', rfl, rfl, hw, hg⟩
  | @snoc evs ev o1 o2 h hs ih =>
    obtain ⟨o1', h1, h2, h3⟩ := ih
    obtain ⟨b, hb⟩ := emits_inv (fresh_new enc cfg w') h1 [ev]
    have := encOf_stream enc (evs ++ [ev]) []
    rw [List.append_nil] at this
    rcases emit_beside (streamEnc_ne _ _) this h2 h3 hb with ⟨g1, g2, g3⟩ | ⟨g1, _⟩
    · rw [hs] at g1 g2 g3
      exact ⟨(o1'.emit ev).2, .snoc h1 (Prod.ext g1.symm rfl), g2, g3⟩
    · rw [hs] at g1
      rcases g1 with ⟨k, g1⟩ | ⟨g1, _⟩ <;> cases g1
  | @flush evs o1 o2 h hs ih =>
    obtain ⟨o1', h1, h2, h3⟩ := ih
    obtain ⟨b, hb⟩ := emits_inv (fresh_new enc cfg w') h1 []
    have hen : o1.s.encoding ≠ .any := by
      intro hn
      obtain ⟨w, _, hw, _⟩ := h3.writer
      obtain ⟨o', h'⟩ := flush_any hw hn
      rw [hs] at h'; cases h'
    have hen' := hb.encoding (fun h => streamEnc_set _ h) (by rw [h2]; exact hen)
    rcases flush_beside (streamEnc_ne _ _) (by rw [← h2]; exact hen') h2 h3 hb with ⟨g1, g2, g3⟩ | ⟨⟨k, g1⟩, _⟩
    · rw [hs] at g1 g2 g3
      exact ⟨(o1'.flush).2, .flush h1 (Prod.ext g1.symm rfl), g2, g3⟩
    · rw [hs] at g1
      cases g1

/-- Every history with a perfect writer is a history of the unbuffered emitter. -/
theorem emits_unbuffered {enc : Encoding} {cfg : List Setting} {w : Writer} (hg : w.Good)
    {evs : List Event} {o : EmitterObj} (h : EmitterObj.Emits (EmitterObj.new enc cfg w) evs o) (rest : List Event) :
    (∀ w, o.k.handler = some w → w.Good) ∧
    ∃ b, OInv (streamEnc enc (evs ++ rest)) (cfgUnicode cfg) (cfgCanonical cfg) enc w.bytes evs o b ∧
      Unbuffered.Emits ⟨(EmitterObj.new enc cfg w).s, []⟩ evs ⟨o.s, b.text⟩ := by
  induction h generalizing rest with
  | nil =>
    refine ⟨?_, _, (fresh_new enc cfg w).inv, .nil⟩
    rw [(fresh_new enc cfg w).sink]
    rintro w' h; cases h; exact hg
  | @snoc evs ev o1 o2 h hs ih =>
    obtain ⟨hg1, b, hb, hU⟩ := ih (ev :: rest)
    have e1 : evs ++ ev :: rest = (evs ++ [ev]) ++ rest := by simp
    rw [e1] at hb
    obtain ⟨g1, g2, g3, g4⟩ := emit_unbuffered (streamEnc_ne _ _) (encOf_stream enc _ rest) hb hg1
    rw [hs] at g1 g2 g3 g4
    rcases g4 with ⟨b', _, h2, h3⟩ | ⟨m, h1, _⟩ | ⟨h1, _⟩
    · refine ⟨g3, b', h2, .snoc hU ?_⟩
      generalize Unbuffered.emit ev ⟨o1.s, b.text⟩ = q at g1 g2 h3
      obtain ⟨r, s, t⟩ := q
      simp only at g1 g2 h3
      rw [← g1, g2, h3]
    · cases h1
    · cases h1
  | @flush evs o1 o2 h hs ih =>
    obtain ⟨hg1, b, hb, hU⟩ := ih rest
    have hen : o1.s.encoding ≠ .any := by
      intro hn
      obtain ⟨w, hw, _⟩ := hb.sink.writer
      obtain ⟨o', h'⟩ := flush_any hw hn
      rw [hs] at h'; cases h'
    have hen' := hb.encoding (fun h => streamEnc_set _ h) hen
    have hk := exec_text (fails := True) (streamEnc_ne _ _) _ hb.sink hg1 (flush_wp hen' hb.inv)
    have hidle := hb.idle
    unfold EmitterObj.flush EmitterObj.run at hs
    have ht : (execText (Emitter.flush o1.s) b.text).2 = b.text := rfl
    rw [ht] at hk
    generalize Sink.exec (Emitter.flush o1.s) o1.k = q at hk hs
    obtain ⟨⟨r, s1⟩, k1⟩ := q
    obtain ⟨_, b', hQ, _, ht', hR, hg'⟩ := hk
    cases hs
    obtain ⟨h0, h1, h2⟩ := hQ
    subst h0
    exact ⟨hg', b', ⟨h1, hR, hidle⟩, by rw [ht']; exact hU⟩

/-! ### The queue -/

/-- Nesting depth of a grammar state. -/
def depth : GSt → Int
  | .start => -1
  | .docs => 0
  | .inDoc stk => stk.length + 1
  | .docEnd => 1
  | .done => -1

theorem depth_after (stk : List Coll) : depth (.after stk) = stk.length + 1 := by
  match stk with
  | [] => rfl
  | .seq :: r => rfl
  | .mapK :: r => rfl
  | .mapV :: r => rfl

theorem gstep_depth {G G' : GSt} {d : EventData} (h : gstep G d = some G') : depth G' = depth G + levelDelta d := by
  unfold gstep at h
  split at h <;> first
    | cases h
    | skip
  all_goals try simp only [depth_after]
  all_goals simp [depth, levelDelta]
  all_goals omega

theorem GRun_levels {G G' : GSt} {es : List Event} (h : GRun G (es.map (·.data)) G') (l : Int) (hl : 1 ≤ l) (hd : depth G' + l ≤ depth G) :
    levelReturns l es = true := by
  induction es generalizing G l with
  | nil => cases h; omega
  | cons x es ih =>
    cases h with
    | cons hs hr =>
      have := gstep_depth hs
      simp only at this
      unfold levelReturns
      simp only
      by_cases h0 : l + levelDelta x.data = 0
      · simp [h0]
      · have hge : -1 ≤ levelDelta x.data := by unfold levelDelta; split <;> omega
        rw [if_neg (by simpa using h0)]
        exact ih hr _ (by omega) (by omega)

/-- Events that complete the stream are all processed. -/
theorem ready_of_stream {G : GSt} {es : List Event} (h : GRun G (es.map (·.data)) .done) (hr : ready es = false) : es = [] := by
  cases es with
  | nil => rfl
  | cons x es =>
    exfalso
    cases h with
    | cons hs hrun =>
      have key : levelDelta x.data = 1 → levelReturns 0 (x :: es) = true := by
        intro h1
        unfold levelReturns
        rw [h1]
        simp only
        rw [if_neg (by decide)]
        have := gstep_depth hs
        have hd : -1 ≤ depth G := by
          cases G <;> simp [depth]
          omega
        refine GRun_levels hrun _ (by omega) ?_
        simp only [h1] at this
        show -1 + (0 + 1) ≤ _
        omega
      obtain ⟨d, m1, m2⟩ := x
      unfold ready at hr
      cases d <;> simp only at hr key <;> first | cases hr | (rw [key rfl] at hr; simp at hr)

theorem GRun_levels' {G G' : GSt} {es : List Event} (h : GRun G (es.map (·.data)) G') (l : Int) (hl : 1 ≤ l) (hd : depth G' + l ≤ depth G) :
    levelReturns l es = true := GRun_levels h l hl hd

/-- An end of a document or the stream is not held back in a grammatical sequence. -/
theorem not_ready_ends {G G' : GSt} {es : List Event} {x : Event} (hend : x.data = .streamEnd ∨ ∃ i, x.data = .documentEnd i)
    (h : GRun G ((es ++ [x]).map (·.data)) G') (hr : ready (es ++ [x]) = false) : False := by
  rw [List.map_append] at h
  obtain ⟨G1, h1, h2⟩ := h.split
  have hG' : depth G' ≤ 0 ∧ (G1 = .docs ∨ G1 = .docEnd) ∧ levelDelta x.data = -1 := by
    cases h2 with
    | cons hs hn =>
      cases hn
      simp only at hs
      rcases hend with he | ⟨i, he⟩
      · rw [he] at hs ⊢
        cases G1 <;> simp [gstep] at hs
        subst hs
        exact ⟨by simp [depth], Or.inl rfl, rfl⟩
      · rw [he] at hs ⊢
        cases G1 <;> simp [gstep] at hs
        subst hs
        exact ⟨by simp [depth], Or.inr rfl, rfl⟩
  cases es with
  | nil =>
    obtain ⟨d, m1, m2⟩ := x
    rcases hend with he | ⟨i, he⟩ <;> simp only at he <;> subst he <;> simp [ready] at hr
  | cons y es =>
    rw [← List.map_append] at h
    simp only [List.map_cons, List.cons_append] at h
    cases h with
    | cons hs hrun =>
      have key : levelDelta y.data = 1 → (∀ i, y.data ≠ .documentStart none [] i) → 1 ≤ depth G → levelReturns 0 ((y :: es) ++ [x]) = true := by
        intro h1 _ hG
        rw [List.cons_append]
        unfold levelReturns
        rw [h1]
        simp only
        rw [if_neg (by decide)]
        have := gstep_depth hs
        simp only [h1] at this
        refine GRun_levels hrun _ (by omega) ?_
        omega
      have hdepth : ∀ stk, G = .inDoc stk → 1 ≤ depth G := by rintro stk rfl; simp [depth]; omega
      obtain ⟨d, m1, m2⟩ := y
      simp only at hs key
      have hin : (∃ a b c d', d = .sequenceStart a b c d' ∨ d = .mappingStart a b c d') → ∃ stk, G = .inDoc stk := by
        rintro ⟨a, b, c, d', rfl | rfl⟩ <;> cases G <;> simp [gstep] at hs <;> exact ⟨_, rfl⟩
      unfold ready at hr
      cases d with
      | documentStart v t i => simp at hr
      | sequenceStart a b c d' =>
        obtain ⟨stk, hstk⟩ := hin ⟨a, b, c, d', Or.inl rfl⟩
        simp only [List.cons_append] at hr key
        rw [key rfl (by simp) (hdepth stk hstk)] at hr
        simp at hr
      | mappingStart a b c d' =>
        obtain ⟨stk, hstk⟩ := hin ⟨a, b, c, d', Or.inr rfl⟩
        simp only [List.cons_append] at hr key
        rw [key rfl (by simp) (hdepth stk hstk)] at hr
        simp at hr
      | _ => simp at hr

theorem beside_written {o o' : EmitterObj} (h : Beside o.k o'.k) : o.written = o'.written := by
  obtain ⟨_, _, _, w, w', h1, h2, h3, _⟩ := h
  unfold EmitterObj.written
  rw [h1, h2]
  exact h3.symm

/-- What the writer had stays. -/
theorem written_extends_good {enc : Encoding} {cfg : List Setting} {w : Writer} (hg : w.Good) {evs : List Event} {o : EmitterObj}
    (h : EmitterObj.Emits (EmitterObj.new enc cfg w) evs o) : w.bytes <+: o.written := by
  induction h with
  | nil =>
    unfold EmitterObj.written
    rw [(fresh_new enc cfg w).sink]
    exact List.prefix_refl _
  | @snoc evs ev o1 o2 h hs ih =>
    obtain ⟨hg1, b, hb, _⟩ := emits_unbuffered hg h [ev]
    have henc := encOf_stream enc (evs ++ [ev]) []
    rw [List.append_nil] at henc
    have := exec_bytes (fails := True) (streamEnc_ne _ _) _ hb.sink hg1 (emit_wp henc hb.inv)
    unfold EmitterObj.emit EmitterObj.run at hs
    simp only [Prod.mk.injEq] at hs
    rw [← hs.2]
    exact ih.trans this
  | @flush evs o1 o2 h hs ih =>
    obtain ⟨hg1, b, hb, _⟩ := emits_unbuffered hg h []
    have hen : o1.s.encoding ≠ .any := by
      intro hn
      obtain ⟨w, hw, _⟩ := hb.sink.writer
      obtain ⟨o', h'⟩ := flush_any hw hn
      rw [hs] at h'; cases h'
    have hen' := hb.encoding (fun h => streamEnc_set _ h) hen
    have := exec_bytes (fails := True) (streamEnc_ne _ _) _ hb.sink hg1 (flush_wp hen' hb.inv)
    unfold EmitterObj.flush EmitterObj.run at hs
    simp only [Prod.mk.injEq] at hs
    rw [← hs.2]
    exact ih.trans this

theorem written_extends {enc : Encoding} {cfg : List Setting} {w : Writer} {evs : List Event} {o : EmitterObj}
    (h : EmitterObj.Emits (EmitterObj.new enc cfg w) evs o) : w.bytes <+: o.written := by
  obtain ⟨o', h1, h2, h3⟩ := emits_beside (w := w) (w' := ⟨w.bytes, []⟩) rfl (fun x hx => by cases hx) h
  rw [beside_written h3]
  exact written_extends_good (w := ⟨w.bytes, []⟩) (fun x hx => by cases hx) h1

theorem utf8_ascii_bytes {t : Str} (h : ∀ c ∈ t, c.toNat < 128) : ∀ x ∈ utf8Encode t, x < 128 := by
  induction t with
  | nil => intro x hx; cases hx
  | cons c t ih =>
    intro x hx
    rw [utf8Encode_cons] at hx
    rcases List.mem_append.1 hx with hx | hx
    · have hc := h c (by simp)
      unfold utf8Bytes String.utf8EncodeChar at hx
      simp only [if_pos (show c.val.toNat ≤ 127 by change c.toNat ≤ 127; omega), List.mem_cons, List.not_mem_nil, or_false] at hx
      subst hx
      have hc' : c.val.toNat < 128 := hc
      rw [UInt8.lt_iff_toNat_lt]
      simp
      omega
    · exact ih (fun d hd => h d (List.mem_cons_of_mem _ hd)) x hx

end Yaml.Emitter
