import Verif.Emitter
import Verif.Spec.Output
import Verif.Spec.Unbuffered
import Verif.Lib.Wp
import Verif.Lib.Utf

/-
The output side of the emitter: an observation of the buffers and the writer, the rules the emitter
functions are verified against, and the transfer to the real buffers.
-/

namespace Yaml
open Spec

theorem encodeText_append (e : Encoding) (s t : Str) :
    encodeText e (s ++ t) = encodeText e s ++ encodeText e t := by
  cases e <;> simp [encodeText, utf16Encode, utf8Encode]

@[simp] theorem encodeText_nil (e : Encoding) : encodeText e [] = [] := by
  cases e <;> rfl

/-- What can be seen of the output: the characters produced, whether some may still be buffered,
and whether the writer has failed. -/
structure Ob where
  text : Str
  pend : Bool
  broken : Bool

/-- May `c` follow `text`? -/
def okAt (e : Encoding) (u : Bool) (text : Str) (c : Char) : Prop :=
  if e ≠ .utf8 ∧ text = [] then c = '\uFEFF' else OutChar u c

theorem OutText.snoc {e : Encoding} {u : Bool} {t : Str} {c : Char} (h : OutText e u t) (hc : okAt e u t c) :
    OutText e u (t ++ [c]) := by
  unfold OutText at *
  unfold okAt at hc
  by_cases he : e = .utf8
  · rw [if_pos he] at *
    rw [if_neg (by simp [he])] at hc
    intro d hd
    simp at hd
    rcases hd with hd | rfl
    · exact h d hd
    · exact hc
  · rw [if_neg he] at *
    rcases h with rfl | ⟨r, rfl, hr⟩
    · rw [if_pos ⟨he, rfl⟩] at hc
      subst hc
      exact Or.inr ⟨[], rfl, by simp⟩
    · rw [if_neg (by simp)] at hc
      refine Or.inr ⟨r ++ [c], rfl, ?_⟩
      intro d hd
      simp at hd
      rcases hd with hd | rfl
      · exact hr d hd
      · exact hc

/-- The rules for the output operations.  `e` is the encoding, `u` whether Unicode is allowed,
`fails` whether the writer may fail.  Nothing may be done after a failure. -/
def stepE (e : Encoding) (u : Bool) (fails : Prop) : Step EmitOp EmitAns Ob
  | .fin enc, K, b => b.broken = false ∧ enc = e ∧ K (.ok ()) b
      ∧ (fails → ∀ k, K (.err (.io k)) { b with broken := true })
  | .room _ enc, K, b => b.broken = false ∧ enc = e ∧ K (.ok ()) b
      ∧ (fails → ∀ k, K (.err (.io k)) { b with broken := true })
  | .flush enc, K, b => b.broken = false ∧ enc = e ∧ K (.ok ()) { b with pend := false }
      ∧ (fails → ∀ k, K (.err (.io k)) { b with broken := true })
  | .push c, K, b => b.broken = false ∧ okAt e u b.text c
      ∧ K () { b with text := b.text ++ [c], pend := true }

theorem stepE_mono (e : Encoding) (u : Bool) (fails : Prop) : (stepE e u fails).Mono := by
  intro o K K' b h hs
  cases o with
  | push c => exact ⟨hs.1, hs.2.1, h _ _ hs.2.2⟩
  | fin enc => exact ⟨hs.1, hs.2.1, h _ _ hs.2.2.1, fun hf k => h _ _ (hs.2.2.2 hf k)⟩
  | room n enc => exact ⟨hs.1, hs.2.1, h _ _ hs.2.2.1, fun hf k => h _ _ (hs.2.2.2 hf k)⟩
  | flush enc => exact ⟨hs.1, hs.2.1, h _ _ hs.2.2.1, fun hf k => h _ _ (hs.2.2.2 hf k)⟩

/-- No scripted failure is left. -/
def Writer.Good (w : Writer) : Prop := ∀ x ∈ w.script, x = none

/-- The real buffers hold what the observation says. -/
structure RSink (e : Encoding) (u : Bool) (base : List UInt8) (b : Ob) (k : Sink) : Prop where
  writer : ∃ w, k.handler = some w ∧ w.bytes ++ encodeText e k.buffer = base ++ encodeText e b.text
  raw : k.raw = []
  pend : b.pend = false → k.buffer = []
  text : OutText e u b.text

/-- After a failed write: the writer has a prefix of what was to be written. -/
def Cut (e : Encoding) (base : List UInt8) (b : Ob) (k : Sink) : Prop :=
  ∃ w, k.handler = some w ∧ w.bytes <+: base ++ encodeText e b.text

theorem writeAll_cases (w : Writer) (bs : List UInt8) :
    (∃ sc, w.writeAll bs = (.ok (), ⟨w.bytes ++ bs, sc⟩) ∧ (w.Good → (Writer.mk (w.bytes ++ bs) sc).Good)) ∨
    (¬ w.Good ∧ ∃ n x sc, w.writeAll bs = (.err (.io x), ⟨w.bytes ++ bs.take n, sc⟩)) := by
  obtain ⟨bytes, script⟩ := w
  unfold Writer.writeAll
  cases script with
  | nil => exact Or.inl ⟨[], rfl, fun h => h⟩
  | cons a script =>
    cases a with
    | none => exact Or.inl ⟨script, rfl, fun h x hx => h x (List.mem_cons_of_mem _ hx)⟩
    | some p =>
      obtain ⟨n, x⟩ := p
      refine Or.inr ⟨fun h => ?_, n, x, script, rfl⟩
      have := h (some (n, x)) (by simp)
      exact absurd this (by simp)

/-- The writer behind the buffers. -/
def Sink.Writes (k : Sink) (w : Writer) : Prop := k.handler = some w

theorem flush_cases {e : Encoding} (he : e ≠ .any) {k : Sink} {w : Writer} (hw : k.handler = some w)
    (hr : k.raw = []) :
    (∃ w', k.flush e = (.ok (), ⟨some w', [], []⟩) ∧ w'.bytes = w.bytes ++ encodeText e k.buffer ∧ (w.Good → w'.Good)) ∨
    (¬ w.Good ∧ ∃ w' x n raw, k.flush e = (.err (.io x), ⟨some w', k.buffer, raw⟩) ∧
      w'.bytes = w.bytes ++ (encodeText e k.buffer).take n) := by
  obtain ⟨hd, buf, raw⟩ := k
  simp only at hw hr
  subst hw hr
  unfold Sink.flush
  simp only
  rw [if_neg he]
  by_cases hb : buf = []
  · subst hb
    exact Or.inl ⟨w, if_pos rfl, by simp, fun h => h⟩
  · rw [if_neg (by simpa using hb)]
    by_cases h8 : e = .utf8
    · rw [if_pos h8]
      subst h8
      rcases writeAll_cases w (utf8Encode buf) with ⟨sc, h, hg⟩ | ⟨hg, n, x, sc, h⟩
      · rw [h]; exact Or.inl ⟨_, rfl, rfl, hg⟩
      · rw [h]; exact Or.inr ⟨hg, _, x, n, _, rfl, rfl⟩
    · rw [if_neg h8]
      have hx : [] ++ utf16Encode (e == .utf16be) buf = encodeText e buf := by
        cases e <;> simp [encodeText] at * <;> rfl
      simp only [hx]
      rcases writeAll_cases w (encodeText e buf) with ⟨sc, h, hg⟩ | ⟨hg, n, x, sc, h⟩
      · rw [h]; exact Or.inl ⟨_, rfl, rfl, hg⟩
      · rw [h]; exact Or.inr ⟨hg, _, x, n, _, rfl, rfl⟩

/-- What one operation can do to the real buffers. -/
theorem step_cases {e : Encoding} {u : Bool} {fails : Prop} (he : e ≠ .any) {base : List UInt8} {b : Ob} {k : Sink}
    (hR : RSink e u base b k) (hf : (∃ w, k.handler = some w ∧ ¬ w.Good) → fails) (o : EmitOp)
    (K : EmitAns o → Ob → Prop) (h : stepE e u fails o K b) :
    ∃ b', K (Sink.step o k).1 b' ∧
      ((b.broken = false → b'.broken = false) ∧ RSink e u base b' (Sink.step o k).2
        ∧ ((∃ w, (Sink.step o k).2.handler = some w ∧ ¬ w.Good) → fails)
       ∨ (b'.broken = true ∧ b.broken = false ∧ Cut e base b' (Sink.step o k).2)) := by
  obtain ⟨⟨w, hw, hbytes⟩, hraw, hpend, htext⟩ := hR
  have key : ∀ pend' : Bool, (pend' = b.pend ∨ pend' = false) → ∀ K : Out Unit → Ob → Prop,
      b.broken = false → K (.ok ()) { b with pend := pend' } →
      (fails → ∀ x, K (.err (.io x)) { b with broken := true }) →
      ∃ b', K (k.flush e).1 b' ∧
      ((b.broken = false → b'.broken = false) ∧ RSink e u base b' (k.flush e).2
        ∧ ((∃ w, (k.flush e).2.handler = some w ∧ ¬ w.Good) → fails)
       ∨ (b'.broken = true ∧ b.broken = false ∧ Cut e base b' (k.flush e).2)) := by
    intro pend' hp K hbr hok herr
    rcases flush_cases he hw hraw with ⟨w', h, hb', hg⟩ | ⟨hg, w', x, n, raw, h, hb'⟩
    · rw [h]
      refine ⟨_, hok, Or.inl ⟨fun h => h, ⟨⟨w', rfl, ?_⟩, rfl, fun _ => rfl, htext⟩, ?_⟩⟩
      · simp only [encodeText_nil, List.append_nil]
        rw [hb', hbytes]
      · rintro ⟨w'', hw'', hn⟩
        simp only [Option.some.injEq] at hw''
        subst hw''
        exact hf ⟨w, hw, fun h => hn (hg h)⟩
    · rw [h]
      refine ⟨_, herr (hf ⟨w, hw, hg⟩) x, Or.inr ⟨rfl, hbr, w', rfl, ?_⟩⟩
      rw [hb', ← hbytes]
      exact (List.prefix_append_right_inj _).2 (List.take_prefix _ _)
  cases o with
  | push c =>
    refine ⟨_, h.2.2, Or.inl ⟨fun h => h, ⟨⟨w, hw, ?_⟩, hraw, fun h => by simp at h, OutText.snoc htext h.2.1⟩, hf⟩⟩
    simp only [Sink.step, encodeText_append]
    rw [← List.append_assoc, hbytes, List.append_assoc]
  | flush enc =>
    obtain ⟨h1, rfl, h2, h3⟩ := h
    exact key false (Or.inr rfl) K h1 h2 h3
  | fin enc =>
    obtain ⟨h1, rfl, h2, h3⟩ := h
    by_cases hc : strLen k.buffer < outputBufferSize - 5
    · simp only [Sink.step, Sink.flushIfNeeded, if_pos hc]
      exact ⟨b, h2, Or.inl ⟨fun h => h, ⟨⟨w, hw, hbytes⟩, hraw, hpend, htext⟩, hf⟩⟩
    · simp only [Sink.step, Sink.flushIfNeeded, if_neg hc]
      exact key b.pend (Or.inl rfl) K h1 h2 h3
  | room n enc =>
    obtain ⟨h1, rfl, h2, h3⟩ := h
    by_cases hc : strLen k.buffer + n > outputBufferSize
    · have e1 : Sink.step (.room n enc) k = k.flush enc := if_pos hc
      rw [e1]
      exact key b.pend (Or.inl rfl) K h1 h2 h3
    · have e1 : Sink.step (.room n enc) k = (.ok (), k) := if_neg hc
      rw [e1]
      exact ⟨b, h2, Or.inl ⟨fun h => h, ⟨⟨w, hw, hbytes⟩, hraw, hpend, htext⟩, hf⟩⟩

/-- After a failure nothing more happens. -/
theorem broken_ret {e : Encoding} {u : Bool} {fails : Prop} {α : Type} {t : Free EmitOp EmitAns α} {Q : α → Ob → Prop} {b : Ob}
    (hb : b.broken = true) (h : t.wp (stepE e u fails) Q b) : ∃ a, t = .ret a ∧ Q a b := by
  cases t with
  | ret a => exact ⟨a, rfl, h⟩
  | op o k =>
    exfalso
    cases o <;> · have := h.1; rw [hb] at this; exact absurd this (by simp)

/-- Running on the real buffers. -/
theorem exec_of_wp {e : Encoding} {u : Bool} {fails : Prop} (he : e ≠ .any) {base : List UInt8} {α : Type}
    (t : Free EmitOp EmitAns α) {Q : α → Ob → Prop} {b : Ob} {k : Sink}
    (hbr : b.broken = false) (hR : RSink e u base b k) (hf : (∃ w, k.handler = some w ∧ ¬ w.Good) → fails)
    (h : t.wp (stepE e u fails) Q b) :
    ∃ b', Q (Sink.exec t k).1 b' ∧
      ((b'.broken = false ∧ RSink e u base b' (Sink.exec t k).2
          ∧ ((∃ w, (Sink.exec t k).2.handler = some w ∧ ¬ w.Good) → fails)) ∨
       (b'.broken = true ∧ Cut e base b' (Sink.exec t k).2)) := by
  induction t generalizing b k with
  | ret a => exact ⟨b, h, Or.inl ⟨hbr, hR, hf⟩⟩
  | op o f ih =>
    obtain ⟨b', hK, hc⟩ := step_cases he hR hf o _ h
    rcases hc with ⟨hb, hR', hf'⟩ | ⟨hb, -, hcut⟩
    · exact ih _ (hb hbr) hR' hf' hK
    · obtain ⟨a, ha, hq⟩ := broken_ret hb hK
      refine ⟨b', ?_, Or.inr ⟨hb, ?_⟩⟩
      · simp only [Sink.exec, ha]; exact hq
      · simp only [Sink.exec, ha]; exact hcut

/-! ### The same calls without buffers -/

/-- The observation after an operation that succeeds. -/
def obStep : EmitOp → Ob → Ob
  | .push c, b => { b with text := b.text ++ [c], pend := true }
  | .flush _, b => { b with pend := false }
  | _, b => b

theorem obStep_text (o : EmitOp) (b : Ob) : (obStep o b).text = textStep o b.text := by
  cases o <;> rfl

theorem obStep_broken (o : EmitOp) (b : Ob) : (obStep o b).broken = b.broken := by
  cases o <;> rfl

theorem step_ideal {e : Encoding} {u : Bool} {fails : Prop} {b : Ob} (o : EmitOp) {K : EmitAns o → Ob → Prop}
    (h : stepE e u fails o K b) : K (idealAns o) (obStep o b) := by
  cases o with
  | push c => exact h.2.2
  | fin enc => exact h.2.2.1
  | room n enc => exact h.2.2.1
  | flush enc => exact h.2.2.1

/-- A successful operation on the real buffers. -/
theorem step_good {e : Encoding} {u : Bool} {fails : Prop} (he : e ≠ .any) {base : List UInt8} {b : Ob} {k : Sink}
    (hR : RSink e u base b k) (hf : ∀ w, k.handler = some w → w.Good) (o : EmitOp)
    (K : EmitAns o → Ob → Prop) (h : stepE e u fails o K b) :
    (Sink.step o k).1 = idealAns o ∧ RSink e u base (obStep o b) (Sink.step o k).2
      ∧ ∀ w, (Sink.step o k).2.handler = some w → w.Good := by
  obtain ⟨⟨w, hw, hbytes⟩, hraw, hpend, htext⟩ := hR
  have key : ∀ p : Bool, (k.flush e).1 = .ok () ∧ RSink e u base { b with pend := p } (k.flush e).2
      ∧ ∀ w, (k.flush e).2.handler = some w → w.Good := by
    intro p
    rcases flush_cases he hw hraw with ⟨w', h, hb', hg⟩ | ⟨hg, w', x, n, raw, h, hb'⟩
    · rw [h]
      refine ⟨rfl, ⟨⟨w', rfl, ?_⟩, rfl, fun _ => rfl, htext⟩, ?_⟩
      · simp only [encodeText_nil, List.append_nil]
        rw [hb', hbytes]
      · intro w'' hw''
        simp only [Option.some.injEq] at hw''
        subst hw''
        exact hg (hf w hw)
    · exact absurd (hf w hw) hg
  cases o with
  | push c =>
    refine ⟨rfl, ⟨⟨w, hw, ?_⟩, hraw, fun h => by simp [obStep] at h, OutText.snoc htext h.2.1⟩, hf⟩
    simp only [Sink.step, obStep, encodeText_append]
    rw [← List.append_assoc, hbytes, List.append_assoc]
  | flush enc =>
    obtain ⟨h1, rfl, h2, h3⟩ := h
    exact key false
  | fin enc =>
    obtain ⟨h1, rfl, h2, h3⟩ := h
    by_cases hc : strLen k.buffer < outputBufferSize - 5
    · simp only [Sink.step, Sink.flushIfNeeded, if_pos hc]
      exact ⟨rfl, ⟨⟨w, hw, hbytes⟩, hraw, hpend, htext⟩, hf⟩
    · simp only [Sink.step, Sink.flushIfNeeded, if_neg hc]
      exact key b.pend
  | room n enc =>
    obtain ⟨h1, rfl, h2, h3⟩ := h
    by_cases hc : strLen k.buffer + n > outputBufferSize
    · have e1 : Sink.step (.room n enc) k = k.flush enc := if_pos hc
      rw [e1]
      exact key b.pend
    · have e1 : Sink.step (.room n enc) k = (.ok (), k) := if_neg hc
      rw [e1]
      exact ⟨rfl, ⟨⟨w, hw, hbytes⟩, hraw, hpend, htext⟩, hf⟩

/-- With a writer that does not fail, the result is the same and so is the text. -/
theorem exec_text {e : Encoding} {u : Bool} {fails : Prop} (he : e ≠ .any) {base : List UInt8} {α : Type}
    (t : Free EmitOp EmitAns α) {Q : α → Ob → Prop} {b : Ob} {k : Sink}
    (hR : RSink e u base b k) (hf : ∀ w, k.handler = some w → w.Good)
    (h : t.wp (stepE e u fails) Q b) :
    (Sink.exec t k).1 = (execText t b.text).1 ∧
      ∃ b', Q (Sink.exec t k).1 b' ∧ b'.broken = b.broken ∧ b'.text = (execText t b.text).2
        ∧ RSink e u base b' (Sink.exec t k).2 ∧ ∀ w, (Sink.exec t k).2.handler = some w → w.Good := by
  induction t generalizing b k with
  | ret a => exact ⟨rfl, b, h, rfl, rfl, hR, hf⟩
  | op o f ih =>
    obtain ⟨ha, hR', hg⟩ := step_good he hR hf o _ h
    have hK := step_ideal o h
    have := ih _ hR' hg hK
    simp only [Sink.exec, execText, ha]
    rw [← obStep_text]
    obtain ⟨h1, b', h2, h3, h4⟩ := this
    exact ⟨h1, b', h2, by rw [h3, obStep_broken], h4⟩

/-! ### A failing writer beside a perfect one -/

/-- The bytes a writer has accepted. -/
def Sink.bytes (k : Sink) : List UInt8 := (k.handler.map (·.bytes)).getD []

theorem exec_bytes {e : Encoding} {u : Bool} {fails : Prop} (he : e ≠ .any) {base : List UInt8} {α : Type}
    (t : Free EmitOp EmitAns α) {Q : α → Ob → Prop} {b : Ob} {k : Sink}
    (hR : RSink e u base b k) (hf : ∀ w, k.handler = some w → w.Good)
    (h : t.wp (stepE e u fails) Q b) : k.bytes <+: (Sink.exec t k).2.bytes := by
  induction t generalizing b k with
  | ret a => exact List.prefix_refl _
  | op o f ih =>
    obtain ⟨ha, hR', hg⟩ := step_good he hR hf o _ h
    have hK := step_ideal o h
    simp only [Sink.exec]
    refine List.IsPrefix.trans ?_ (ih _ hR' hg (by rw [ha]; exact hK))
    obtain ⟨⟨w, hw, hbytes⟩, hraw, hpend, htext⟩ := hR
    have key : k.bytes <+: (k.flush e).2.bytes := by
      rcases flush_cases he hw hraw with ⟨w', h, hb', hg⟩ | ⟨hg, w', x, n, raw, h, hb'⟩
      · rw [h]; simp [Sink.bytes, hw, hb']
      · exact absurd (hf w hw) hg
    cases o with
    | push c => exact List.prefix_refl _
    | flush enc => obtain ⟨h1, rfl, h2, h3⟩ := h; exact key
    | fin enc =>
      obtain ⟨h1, rfl, h2, h3⟩ := h
      by_cases hc : strLen k.buffer < outputBufferSize - 5
      · simp only [Sink.step, Sink.flushIfNeeded, if_pos hc]; exact List.prefix_refl _
      · simp only [Sink.step, Sink.flushIfNeeded, if_neg hc]; exact key
    | room n enc =>
      obtain ⟨h1, rfl, h2, h3⟩ := h
      by_cases hc : strLen k.buffer + n > outputBufferSize
      · have e1 : Sink.step (.room n enc) k = k.flush enc := if_pos hc
        rw [e1]; exact key
      · have e1 : Sink.step (.room n enc) k = (.ok (), k) := if_neg hc
        rw [e1]; exact List.prefix_refl _

/-- The same buffers over two writers, the second of which does not fail. -/
structure Beside (k k' : Sink) : Prop where
  buffer : k'.buffer = k.buffer
  raw : k.raw = []
  raw' : k'.raw = []
  writer : ∃ w w', k.handler = some w ∧ k'.handler = some w' ∧ w'.bytes = w.bytes ∧ w'.Good

/-- Running beside a perfect writer: the same, or an I/O error and a prefix. -/
theorem exec_beside {e : Encoding} {u : Bool} {fails : Prop} (hf : fails) (he : e ≠ .any) {base : List UInt8} {α : Type}
    (t : Free EmitOp EmitAns α) {Q : α → Ob → Prop} {b : Ob} {k k' : Sink}
    (hB : Beside k k') (hR : RSink e u base b k') (h : t.wp (stepE e u fails) Q b) :
    ((Sink.exec t k).1 = (Sink.exec t k').1 ∧ Beside (Sink.exec t k).2 (Sink.exec t k').2) ∨
    (∃ b', b'.broken = true ∧ Q (Sink.exec t k).1 b' ∧ (Sink.exec t k).2.bytes <+: (Sink.exec t k').2.bytes) := by
  induction t generalizing b k k' with
  | ret a => exact Or.inl ⟨rfl, hB⟩
  | op o f ih =>
    have hgood : ∀ w, k'.handler = some w → w.Good := by
      obtain ⟨_, _, _, w, w', hw, hw', hbytes, hg⟩ := hB
      intro w2 hw2
      rw [hw'] at hw2; cases hw2; exact hg
    obtain ⟨ha, hR', hg'⟩ := step_good he hR hgood o _ h
    have hK := step_ideal o h
    -- what the two steps do
    have key : ∀ (pend' : Bool),
        ((k.flush e).1 = .ok () ∧ Beside (k.flush e).2 (k'.flush e).2) ∨
        (∃ x, (k.flush e).1 = .err (.io x) ∧ (k.flush e).2.bytes <+: (k'.flush e).2.bytes) := by
      intro _
      obtain ⟨hbuf, hr1, hr2, w, w', hw, hw', hbytes, hg⟩ := hB
      rcases flush_cases he hw' hr2 with ⟨w1, h1, hb1, hg1⟩ | ⟨hng, -⟩
      · rcases flush_cases he hw hr1 with ⟨w2, h2, hb2, hg2⟩ | ⟨hng, w2, x, n, raw, h2, hb2⟩
        · refine Or.inl ⟨by rw [h2], ?_⟩
          rw [h1, h2]
          exact ⟨rfl, rfl, rfl, w2, w1, rfl, rfl, by rw [hb1, hb2, hbytes, hbuf], hg1 hg⟩
        · refine Or.inr ⟨x, by rw [h2], ?_⟩
          rw [h1, h2]
          simp only [Sink.bytes, Option.map_some, Option.getD_some]
          rw [hb1, hb2, hbytes, hbuf]
          exact (List.prefix_append_right_inj _).2 (List.take_prefix _ _)
      · exact absurd hg hng
    have fin : ∀ (st : EmitAns o) (k1 k1' : Sink), Sink.step o k = (st, k1) → Sink.step o k' = (idealAns o, k1') →
        (st = idealAns o ∧ Beside k1 k1' ∨ (∃ b1, b1.broken = true ∧ (f st).wp (stepE e u fails) Q b1) ∧ k1.bytes <+: k1'.bytes) →
        ((Sink.exec (.op o f) k).1 = (Sink.exec (.op o f) k').1 ∧ Beside (Sink.exec (.op o f) k).2 (Sink.exec (.op o f) k').2) ∨
        (∃ b', b'.broken = true ∧ Q (Sink.exec (.op o f) k).1 b' ∧ (Sink.exec (.op o f) k).2.bytes <+: (Sink.exec (.op o f) k').2.bytes) := by
      intro st k1 k1' h1 h2 hc
      have hR1 : RSink e u base (obStep o b) k1' := by rw [h2] at hR'; exact hR'
      have hg1 : ∀ w, k1'.handler = some w → w.Good := by rw [h2] at hg'; exact hg'
      simp only [Sink.exec, h1, h2]
      rcases hc with ⟨rfl, hB1⟩ | ⟨⟨b1, hb1, hw1⟩, hp⟩
      · exact ih _ hB1 hR1 hK
      · obtain ⟨a, hfa, hq⟩ := broken_ret hb1 hw1
        refine Or.inr ⟨b1, hb1, ?_, ?_⟩
        · rw [hfa]; exact hq
        · rw [hfa]; exact List.IsPrefix.trans hp (exec_bytes he _ hR1 hg1 hK)
    cases o with
    | push c =>
      refine fin () _ _ rfl rfl (Or.inl ⟨rfl, ?_⟩)
      obtain ⟨hbuf, hr1, hr2, hx⟩ := hB
      exact ⟨by simp [hbuf], hr1, hr2, hx⟩
    | flush enc =>
      obtain ⟨h1, rfl, h2, h3⟩ := h
      refine fin (k.flush enc).1 (k.flush enc).2 (k'.flush enc).2 rfl (Prod.ext ha rfl) ?_
      rcases key false with ⟨hx, hy⟩ | ⟨x, hx, hy⟩
      · exact Or.inl ⟨hx, hy⟩
      · exact Or.inr ⟨⟨_, rfl, by rw [hx]; exact h3 hf x⟩, hy⟩
    | fin enc =>
      obtain ⟨h1, rfl, h2, h3⟩ := h
      have hbuf := hB.buffer
      by_cases hc : strLen k.buffer < outputBufferSize - 5
      · refine fin (.ok ()) k k' ?_ ?_ (Or.inl ⟨rfl, hB⟩)
        · exact if_pos hc
        · exact if_pos (by rw [hbuf]; exact hc)
      · have e1 : Sink.step (.fin enc) k = k.flush enc := if_neg hc
        have e2 : Sink.step (.fin enc) k' = k'.flush enc := if_neg (by rw [hbuf]; exact hc)
        refine fin (k.flush enc).1 (k.flush enc).2 (k'.flush enc).2 e1 (by rw [e2] at ha ⊢; exact Prod.ext ha rfl) ?_
        rcases key false with ⟨hx, hy⟩ | ⟨x, hx, hy⟩
        · exact Or.inl ⟨hx, hy⟩
        · exact Or.inr ⟨⟨_, rfl, by rw [hx]; exact h3 hf x⟩, hy⟩
    | room n enc =>
      obtain ⟨h1, rfl, h2, h3⟩ := h
      have hbuf := hB.buffer
      by_cases hc : strLen k.buffer + n > outputBufferSize
      · have e1 : Sink.step (.room n enc) k = k.flush enc := if_pos hc
        have e2 : Sink.step (.room n enc) k' = k'.flush enc := if_pos (by rw [hbuf]; exact hc)
        refine fin (k.flush enc).1 (k.flush enc).2 (k'.flush enc).2 e1 (by rw [e2] at ha ⊢; exact Prod.ext ha rfl) ?_
        rcases key false with ⟨hx, hy⟩ | ⟨x, hx, hy⟩
        · exact Or.inl ⟨hx, hy⟩
        · exact Or.inr ⟨⟨_, rfl, by rw [hx]; exact h3 hf x⟩, hy⟩
      · refine fin (.ok ()) k k' ?_ ?_ (Or.inl ⟨rfl, hB⟩)
        · exact if_neg hc
        · exact if_neg (by rw [hbuf]; exact hc)

end Yaml
