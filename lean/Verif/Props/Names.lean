import Verif.Lib.Tags
import Verif.Spec.Content
import Verif.Props.Plain
import Verif.Props.Emitter

/-
C38, C40: tags, anchors and aliases written and read back.  What the text of a tag denotes is specified in
Spec/Tags.lean.
-/

namespace Yaml.Props
open Yaml Yaml.Spec Yaml.EmitterObj
set_option linter.unusedSimpArgs false
set_option linter.unusedVariables false

/-- The name of the alias or the anchor of the node. -/
def nameOf : EventData → Option Str
  | .alias n => some n
  | .scalar a _ _ _ _ _ => a
  | .sequenceStart a _ _ _ => a
  | .mappingStart a _ _ _ => a
  | _ => none

theorem EventOk_name {canonical : Bool} {d : EventData} (h : EventOk canonical d) : ∀ n, nameOf d = some n → NameOk n := by
  intro n hn
  cases d with
  | alias => cases hn; exact h
  | scalar => exact h.1 n hn
  | sequenceStart => exact h.1 n hn
  | mappingStart => exact h.1 n hn
  | _ => cases hn

/-- C40: every anchor and alias in a stream that emit accepted completely is a nonempty string of ASCII letters,
digits, `_` and `-`. -/
theorem C40_accepted_names (enc : Encoding) (cfg : List Setting) (w : Writer) (evs : List Event) (o : EmitterObj)
    (h : Emits (EmitterObj.new enc cfg w) evs o) (hs : IsStream (evs.map (·.data))) : ∀ x ∈ evs, ∀ n, nameOf x.data = some n → NameOk n :=
  fun x hx => EventOk_name ((C26_complete enc cfg w evs o h hs).2.2 x hx)

/-- C40: an event with another anchor or alias is rejected at once or, while it is held back, by the third call
after it at the latest. -/
theorem C40_bad_name_rejected (enc : Encoding) (cfg : List Setting) (w : Writer) (done : List Event) (x : Event) (rest : List Event)
    (o : EmitterObj) (n : Str) (hn : nameOf x.data = some n) (hbad : ¬ NameOk n)
    (h : Emits (EmitterObj.new enc cfg w) (done ++ x :: rest) o) : rest.length ≤ 2 :=
  C26_bad_event_not_accepted enc cfg w done x rest o (fun h => hbad (EventOk_name h.2 n hn)) h

/-- C40: a valid anchor or alias, as it is written in any emitter state, is scanned back as the same anchor or
alias wherever a blank, a line break, the end or an indicator follows; exactly its text is consumed. -/
theorem C40_name_round_trip (n : Str) (al : Bool) (s : EState) (hn : NameOk n) :
    ∃ w s', (∀ W, execText (Emitter.processAnchor (some ⟨n, al⟩) s) W = ((.ok (), s'), W ++ (if s.whitespace then [] else [' ']) ++ w)) ∧
      ∀ (rest : Str) (sc : SState) (e : Encoding) (F : Nat), EndsName rest → w.length + 1 < F →
        (∀ m : Mark, let t := w ++ rest; Scanner.dispatch F m sc.flowLevel t[0]? t[1]? t[2]? t[3]? = Scanner.fetchAnchor F al) ∧
        ∃ m, runT (Scanner.scanAnchor F al) sc ⟨w ++ rest, e⟩ =
          ((.ok ⟨if al then .alias n else .anchor n, sc.mark, m⟩, { sc with mark := advance sc.mark w }), ⟨rest, e⟩) := by
  obtain ⟨s', h1, h2, h3, h4⟩ := Emitter.writes_processAnchor n al s hn
  refine ⟨(if al then '*' else '&') :: n, s', fun W => ?_, fun rest sc e F hr hF => ⟨fun m => ?_, ?_⟩⟩
  · rw [h1 W, List.append_assoc]; rfl
  · cases al <;> simp [Scanner.dispatch]
  · have h5 := wpT_scanAnchor (P := fun _ => False) (E := fun _ _ _ => False) (e := e) (s := sc) (alias := al)
      (Q := fun tok s' b => ∃ m, tok = ⟨if al then .alias n else .anchor n, sc.mark, m⟩ ∧ Mv sc (((if al then '*' else '&') :: n) ++ rest) s' rest ∧ b = ⟨rest, e⟩)
      hn hr (F := F) (by simp at hF; omega) (fun s' m hs' => ⟨m, rfl, hs', rfl⟩)
    have h6 := (wp_stepT _ _ _).1 h5
    unfold runT
    rw [List.cons_append]
    generalize execT (Scanner.scanAnchor F al sc) ⟨(if al then '*' else '&') :: (n ++ rest), e⟩ = q at h6
    obtain ⟨⟨o, s'⟩, b⟩ := q
    cases o with
    | ok tok =>
      obtain ⟨m, rfl, hs, rfl⟩ := h6
      refine ⟨m, ?_⟩
      have := hs.2.pre
      rw [← this, ← hs.1]
    | err e => exact h6.elim
    | panic p => exact h6.elim
    | fuel => exact h6.elim

example : NameOk (cs! "a-1_Z") := ⟨by decide, by intro c hc; simp at hc; rcases hc with rfl | rfl | rfl | rfl | rfl <;> unfold NameChar <;> decide⟩

example : (runT (Scanner.scanAnchor 100 false) scanner1 ⟨cs! "&a-1_Z : x", .utf8⟩).1.1 = .ok ⟨.anchor (cs! "a-1_Z"), ⟨7, 1, 3⟩, ⟨13, 1, 9⟩⟩ ∧
    (execText (Emitter.processAnchor (some ⟨cs! "a-1_Z", false⟩) emitter0) []).2 = cs! " &a-1_Z" := by
  decide +kernel

/-- A text that starts with a tag is scanned as a tag token with its handle and suffix, wherever a blank, a line
break or the end follows; exactly its text is consumed. -/
theorem C38_tag_scanned (w h sfx rest : Str) (sc : SState) (e : Encoding) (F : Nat) (ht : TagText w h sfx) (hr : EndsTag rest) (hF : w.length < F) :
    ∃ m, runT (Scanner.scanTag F) sc ⟨w ++ rest, e⟩ = ((.ok ⟨.tag h sfx, sc.mark, m⟩, { sc with mark := advance sc.mark w }), ⟨rest, e⟩) := by
  have h5 := wpT_scanTag (P := fun _ => False) (E := fun _ _ _ => False) (e := e) (s := sc)
    (Q := fun tok s' b => ∃ m, tok = ⟨.tag h sfx, sc.mark, m⟩ ∧ Mv sc (w ++ rest) s' rest ∧ b = ⟨rest, e⟩)
    ht hr hF (fun s' m hs' => ⟨m, rfl, hs', rfl⟩)
  have h6 := (wp_stepT _ _ _).1 h5
  unfold runT
  generalize execT (Scanner.scanTag F sc) ⟨w ++ rest, e⟩ = q at h6
  obtain ⟨⟨o, s'⟩, b⟩ := q
  cases o with
  | ok tok =>
    obtain ⟨m, rfl, hs, rfl⟩ := h6
    refine ⟨m, ?_⟩
    have := hs.2.pre
    rw [← this, ← hs.1]
  | err e => exact h6.elim
  | panic p => exact h6.elim
  | fuel => exact h6.elim

/-- The directives the emitter uses in a document with the `%TAG` directives `D`. -/
def emitterDirectives (D : List TagDirective) : List TagDirective :=
  D ++ defaultTagDirectives.filter fun d => !D.any fun x => x.handle == d.handle

/-- They agree with the specification of handle resolution. -/
theorem emitterDirectives_resolve (D : List TagDirective) (hD : (D.map (·.handle)).Nodup) :
    ∀ d ∈ emitterDirectives D, prefixOf D d.handle = some d.prefix_ := by
  intro d hd
  have hfind : ∀ (L : List TagDirective), d ∈ L → (L.map (·.handle)).Nodup → L.find? (fun x => x.handle = d.handle) = some d := by
    intro L
    induction L with
    | nil => intro h; cases h
    | cons x L ih =>
      intro h hn
      simp only [List.map_cons, List.nodup_cons] at hn
      by_cases hx : x.handle = d.handle
      · rw [List.find?_cons_of_pos (by simpa using hx)]
        rcases List.mem_cons.1 h with rfl | h
        · rfl
        · exact absurd (List.mem_map_of_mem h) (hx ▸ hn.1)
      · rw [List.find?_cons_of_neg (by simpa using hx)]
        rcases List.mem_cons.1 h with rfl | h
        · exact absurd rfl hx
        · exact ih h hn.2
  unfold prefixOf
  simp only [List.find?_append]
  unfold emitterDirectives at hd
  rcases List.mem_append.1 hd with hd | hd
  · rw [hfind D hd hD]; rfl
  · rw [List.mem_filter] at hd
    obtain ⟨hd, hn⟩ := hd
    have : D.find? (fun x => x.handle = d.handle) = none := by
      rw [List.find?_eq_none]
      intro x hx hxe
      simp only [Bool.not_eq_true', List.any_eq_false, beq_iff_eq] at hn
      exact hn x hx (by simpa using hxe)
    rw [this]
    have := hfind defaultTagDirectives hd (by decide)
    simp only [Option.none_or]
    unfold defaultTagDirectives at this
    rw [this]; rfl

/-- C38, for ASCII tags without `,`, `[` and `]` behind a declared prefix; missing: the others, some of which are
read back wrongly or not at all (`C38_refuted`).  For every such tag and all `%TAG` directives of the
document, in every emitter state: the text written for the tag (shorthand or verbatim, with
percent-escapes), followed by a blank, a line break or the end, is scanned as a tag token that resolves
under the directives of the document to exactly this tag. -/
theorem C38_tag_round_trip_partial (tag : Str) (D : List TagDirective) (s : EState) (hne : tag ≠ []) (hD : (D.map (·.handle)).Nodup)
    (hDok : ∀ d ∈ D, DirectiveOk d) (ha : ∀ c ∈ tag, c.toNat < 128)
    (hf : ∀ d ∈ emitterDirectives D, ∀ sfx, tag = d.prefix_ ++ sfx → ∀ c ∈ sfx, c ∉ (cs! ",[]")) :
    ∃ t w s', (∀ W, execText (Emitter.analyzeTag tag (emitterDirectives D) s) W = ((.ok t, s), W)) ∧
      (∀ W, execText (Emitter.processTag (some t) s) W = ((.ok (), s'), W ++ (if s.whitespace then [] else [' ']) ++ w)) ∧
      ∃ handle suffix, TagText w handle suffix ∧ TagIs D [(handle, suffix)] (some tag) ∧
      ∀ (rest : Str) (sc : SState) (e : Encoding) (F : Nat), EndsTag rest → w.length < F →
        ∃ m, runT (Scanner.scanTag F) sc ⟨w ++ rest, e⟩ =
          ((.ok ⟨.tag handle suffix, sc.mark, m⟩, { sc with mark := advance sc.mark w }), ⟨rest, e⟩) := by
  obtain ⟨t, h1, h2, h3⟩ := Emitter.writes_analyzeTag tag (emitterDirectives D) s hne ha
  have hh : t.handle = [] ∨ HandleOk t.handle := by
    rcases h3 with ⟨h, _⟩ | ⟨d, hd, h, _⟩
    · exact Or.inl h
    · right
      rw [h]
      unfold emitterDirectives at hd
      rcases List.mem_append.1 hd with hd | hd
      · exact (hDok d hd).1
      · rw [List.mem_filter] at hd
        have := hd.1
        simp [defaultTagDirectives] at this
        rcases this with rfl | rfl
        · exact Or.inl rfl
        · exact Or.inr ⟨[], rfl, by simp⟩
  have hok : Emitter.TagOk t := by
    refine ⟨h2, ?_, ?_⟩
    · rcases h3 with ⟨_, h⟩ | ⟨d, hd, _, h⟩
      · rw [h]; exact ha
      · exact fun c hc => ha c (by rw [h]; exact List.mem_append_right _ hc)
    · rcases h3 with ⟨h, _⟩ | ⟨d, hd, h, h'⟩
      · exact Or.inl h
      · rcases hh with hh | hh
        · exact Or.inl hh
        · exact Or.inr ⟨hh, hf d hd _ h'⟩
  obtain ⟨s', g1, g2, g3, g4⟩ := Emitter.writes_processTag t s (fun _ => h2) hh
  refine ⟨t, Emitter.tagText t, s', fun W => ?_, fun W => ?_, t.handle, t.suffix, Emitter.tagText_denotes hok, ?_,
    fun rest sc e F hr hF => C38_tag_scanned _ _ _ rest sc e F (Emitter.tagText_denotes hok) hr hF⟩
  · rw [h1 W, List.append_nil]
  · rw [g1 W, List.append_assoc]; rfl
  · show if t.handle = [] then some tag = some t.suffix else ∃ pre, prefixOf D t.handle = some pre ∧ some tag = some (pre ++ t.suffix)
    rcases h3 with ⟨h, h'⟩ | ⟨d, hd, h, h'⟩
    · rw [if_pos h, h']
    · have h0 : t.handle ≠ [] := by
        intro h0
        rw [h] at h0
        unfold emitterDirectives at hd
        rcases List.mem_append.1 hd with hd | hd
        · rcases (hDok d hd).1 with h | ⟨n, h, _⟩ <;> rw [h0] at h <;> cases h
        · rw [List.mem_filter] at hd
          have := hd.1
          simp [defaultTagDirectives] at this
          rcases this with rfl | rfl <;> cases h0
      rw [if_neg h0]
      exact ⟨d.prefix_, h ▸ emitterDirectives_resolve D hD d hd, by rw [← h']⟩

/-- C38 is false of the code for other tags.  The tag `!é` is written `!%C3%A9` and read back as `!Ã©`: every octet
becomes a character of its own.  The tag `!a,b` is written `!a,b`, which the scanner does not accept. -/
theorem C38_refuted :
    (execText (Emitter.analyzeTag (cs! "!\u00e9") defaultTagDirectives emitter0) []).1.1 = .ok ⟨cs! "!", cs! "\u00e9"⟩ ∧
    (execText (Emitter.processTag (some ⟨cs! "!", cs! "\u00e9"⟩) emitter0) []).2 = cs! " !%C3%A9" ∧
    (runT (Scanner.scanTag 100) scanner1 ⟨cs! "!%C3%A9 ", .utf8⟩).1.1 = .ok ⟨.tag (cs! "!") (cs! "\u00c3\u00a9"), ⟨7, 1, 3⟩, ⟨14, 1, 10⟩⟩ ∧
    (execText (Emitter.analyzeTag (cs! "!a,b") defaultTagDirectives emitter0) []).1.1 = .ok ⟨cs! "!", cs! "a,b"⟩ ∧
    (execText (Emitter.processTag (some ⟨cs! "!", cs! "a,b"⟩) emitter0) []).2 = cs! " !a,b" ∧
    ∃ e, (runT (Scanner.scanTag 100) scanner1 ⟨cs! "!a,b ", .utf8⟩).1.1 = .err e := by
  refine ⟨by decide +kernel, by decide +kernel, by decide +kernel, by decide +kernel, by decide +kernel, ?_⟩
  exact ⟨_, rfl⟩

/-- A tag with a declared prefix, and one that is written verbatim. -/
example : (execText (Emitter.analyzeTag (cs! "tag:e.org,1:a b") (emitterDirectives [⟨cs! "!e!", cs! "tag:e.org,1:"⟩]) emitter0) []).1.1 = .ok ⟨cs! "!e!", cs! "a b"⟩ ∧
    (execText (Emitter.processTag (some ⟨cs! "!e!", cs! "a b"⟩) emitter0) []).2 = cs! " !e!a%20b" ∧
    (runT (Scanner.scanTag 100) scanner1 ⟨cs! "!e!a%20b ", .utf8⟩).1.1 = .ok ⟨.tag (cs! "!e!") (cs! "a b"), ⟨7, 1, 3⟩, ⟨15, 1, 11⟩⟩ ∧
    (execText (Emitter.processTag (some ⟨[], cs! "x[1]"⟩) emitter0) []).2 = cs! " !<x[1]>" ∧
    (runT (Scanner.scanTag 100) scanner1 ⟨cs! "!<x[1]> ", .utf8⟩).1.1 = .ok ⟨.tag [] (cs! "x[1]"), ⟨7, 1, 3⟩, ⟨14, 1, 10⟩⟩ := by
  decide +kernel

end Yaml.Props
