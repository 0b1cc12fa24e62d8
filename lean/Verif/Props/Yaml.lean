import Verif.Lib.YamlDocs
import Verif.Props.Json
import Verif.Props.ParserSound

/-
C57: YAML texts are parsed as what they denote.
-/

namespace Yaml.Props
open Yaml Yaml.Spec Yaml.ParserObj
set_option linter.unusedSimpArgs false
set_option linter.unusedVariables false

/-- How a text gets to the parser.  `enc` is what `set_encoding` said (`any`: nothing), `e` the encoding in which the text is
sent: UTF-8 in any pieces, with a byte order mark only if `set_encoding` was not called, and then without one only if
the text does not start with one of the characters U+F000 to U+FFFF (see `C05_refuted`); UTF-16 byte by byte (see `C06_refuted`),
with a byte order mark iff `set_encoding` was not called. -/
inductive TextSent (items : List SrcItem) (T : Str) : Encoding → Encoding → Prop
  | utf8 (hq : Quiet items) (hb : bytesOf items = utf8Encode T) : TextSent items T .utf8 .utf8
  | detected (hq : Quiet items) (hp : Prompt items) (hb : bytesOf items = utf8Encode T) (hne : T ≠ [])
      (hc : ∀ c, T.head? = some c → ¬ (0xF000 ≤ c.toNat ∧ c.toNat ≤ 0xFFFF)) : TextSent items T .any .utf8
  | marked (hq : Quiet items) (hp : Prompt items) (hb : bytesOf items = bom8 ++ utf8Encode T) : TextSent items T .any .utf8
  | utf16 (be : Bool) (hq : Quiet items) (ho : OneByte items) (hb : bytesOf items = utf16Encode be T) :
      TextSent items T (if be then .utf16be else .utf16le) (if be then .utf16be else .utf16le)
  | marked16 (be : Bool) (hq : Quiet items) (hp : Prompt items) (ho : OneByte items) (hb : bytesOf items = bom16 be ++ utf16Encode be T) :
      TextSent items T .any (if be then .utf16be else .utf16le)

theorem TextSent.clean {items : List SrcItem} {T : Str} {enc e : Encoding} (h : TextSent items T enc e) (ha : ∀ c ∈ T, Allowed c) :
    Clean enc items e T ∧ T.length ≤ (bytesOf items).length := by
  have hal : ∀ c ∈ T, isAllowed c = true := fun c hc => allowed_iff.2 (ha c hc)
  cases h with
  | utf8 hq hb => exact ⟨clean_utf8 hq hb hal, by rw [hb]; exact utf8_len T⟩
  | detected hq hp hb hne hc =>
    have hl : T.length ≤ (bytesOf items).length := by rw [hb]; exact utf8_len T
    obtain ⟨e, h1, _, h3⟩ := clean_any hq hp hal (Or.inl ⟨hb, hc⟩)
    have hn : bytesOf items ≠ [] := by
      intro h0; rw [h0] at hl
      simp at hl
      exact hne hl
    rw [h3 hn] at h1
    exact ⟨h1, hl⟩
  | marked hq hp hb =>
    obtain ⟨e, h1, _, h3⟩ := clean_any hq hp hal (Or.inr hb)
    have hn : bytesOf items ≠ [] := by rw [hb]; simp [bom8]
    rw [h3 hn] at h1
    exact ⟨h1, by rw [hb, List.length_append]; have := utf8_len T; omega⟩
  | utf16 be hq ho hb => exact ⟨clean_utf16 hq ho hb hal, by rw [hb]; exact utf16_len be T⟩
  | marked16 be hq hp ho hb => exact ⟨clean_bom16 hq hp ho hb hal, by rw [hb, List.length_append]; have := utf16_len be T; omega⟩

/-- C57.  A text of allowed characters that denotes the events `es` is parsed without error, in the encodings and pieces of `TextSent`, into
these events. -/
theorem C57_yaml {T : Str} {es : List EventData} (h : YamlText T es) (ha : ∀ c ∈ T, Allowed c) {enc e : Encoding} {items : List SrcItem}
    (hd : TextSent items T enc e) (hsz : srcSize items < 2 ^ 31) {F : Nat} (hF : 4 * srcSize items + 8 < F) :
    ∃ evs o', Parses F (new items enc) evs o' ∧ evs.map (·.data) = yamlStream e es := by
  obtain ⟨hc, hlen⟩ := hd.clean ha
  obtain ⟨toks, h1, h2⟩ := Lx.runs_yaml (F := F) h e
  have hb := bytesOf_length items
  have hsz' : 4 * srcSize items < Reader.maxInput := by
    have : 4 * 2 ^ 31 < Reader.maxInput := by decide
    omega
  have hi : Scanner.i32Max = 2 ^ 31 - 1 := rfl
  exact Lx.parses_of_runs hc hsz' (by omega) hF h1 h2

/-! ### A text denotes one stream only -/

theorem yaml_noEnd {T : Str} {es : List EventData} (h : YamlText T es) : .streamEnd ∉ es := by
  obtain ⟨toks, _, h2⟩ := Lx.runs_yaml (F := 0) h .utf8
  obtain ⟨fs, h3, h4⟩ := stream_events h2
  have : yamlStream .utf8 es = (.streamStart .utf8 :: es) ++ [.streamEnd] := rfl
  rw [this] at h3
  have := (List.append_inj' h3 rfl).1
  intro hm
  exact h4 (by rw [← this]; exact List.mem_cons_of_mem _ hm)

/-- C57.  A text of allowed characters denotes at most one stream of events. -/
theorem C57_unambiguous {T : Str} {es fs : List EventData} (h : YamlText T es) (h' : YamlText T fs) (ha : ∀ c ∈ T, Allowed c)
    (hl : (utf8Encode T).length < 2 ^ 30) : es = fs := by
  have hsz : srcSize [.data (utf8Encode T)] < 2 ^ 31 := by simp [srcSize]; omega
  have hd : TextSent [.data (utf8Encode T)] T .utf8 .utf8 := .utf8 (by simp [Quiet]) (by simp [bytesOf])
  obtain ⟨xs, o1, h1, h2⟩ := C57_yaml h ha hd hsz (Nat.lt_succ_self _)
  obtain ⟨ys, o2, h3, h4⟩ := C57_yaml h' ha hd hsz (Nat.lt_succ_self _)
  have key : ∀ {xs ys r : List Event} {es fs : List EventData}, .streamEnd ∉ fs → xs.map (·.data) = yamlStream .utf8 es → ys.map (·.data) = yamlStream .utf8 fs →
      ys = xs ++ r → es = fs := by
    rintro xs ys r es fs hf h1 h2 rfl
    rw [List.map_append, h1] at h2
    simp [yamlStream] at h2
    cases hr : r.map (·.data) with
    | nil =>
      rw [hr] at h2
      exact (List.append_inj' (show es ++ [.streamEnd] = fs ++ [.streamEnd] by simpa using h2) rfl).1
    | cons x r' =>
      exfalso
      rw [hr] at h2
      obtain ⟨r0, y, hry⟩ : ∃ r0 y, x :: r' = r0 ++ [y] := ⟨_, _, (List.dropLast_concat_getLast (List.cons_ne_nil x r')).symm⟩
      rw [hry] at h2
      have h3 : (es ++ .streamEnd :: r0) ++ [y] = fs ++ [.streamEnd] := by simpa using h2
      have := (List.append_inj' h3 rfl).1
      exact hf (by rw [← this]; simp)
  rcases Parses.comparable h1 h3 with ⟨r, hr, _⟩ | ⟨r, hr, _⟩
  · exact key (yaml_noEnd h') h2 h4 hr
  · exact (key (yaml_noEnd h) h4 h2 hr).symm

/-! ### Loading -/

/-- The anchor an event defines. -/
def anchorIn : EventData → Option Str
  | .scalar a _ _ _ _ _ => a
  | .sequenceStart a _ _ _ => a
  | .mappingStart a _ _ _ => a
  | _ => none

/-- In every document, every alias has its anchor before it and no anchor is defined twice. -/
def AnchorsFit (es : List EventData) : Prop :=
  ∀ v tags i j a devs b, es = a ++ .documentStart v tags i :: (devs ++ .documentEnd j :: b) → (∀ j, .documentEnd j ∉ devs) →
    ∀ p d s, devs = p ++ d :: s → (∀ n, d = .alias n → ∃ x ∈ p, anchorIn x = some n) ∧ (∀ n, anchorIn d = some n → ∀ x ∈ p, anchorIn x ≠ some n)

theorem anchorIn_eq (e : Event) : anchorIn e.data = anchorOf e := by
  unfold anchorIn anchorOf
  cases e.data <;> rfl

theorem anchorsOk_of {devs : List Event}
    (h : ∀ p d s, devs.map (·.data) = p ++ d :: s → (∀ n, d = .alias n → ∃ x ∈ p, anchorIn x = some n) ∧ (∀ n, anchorIn d = some n → ∀ x ∈ p, anchorIn x ≠ some n)) :
    AnchorsOk devs := by
  rintro p ev s rfl e he
  obtain ⟨h1, h2⟩ := h (p.map (·.data)) ev.data (s.map (·.data)) (by simp)
  cases he with
  | undefined ha hn =>
    obtain ⟨x, hx, hxa⟩ := h1 _ ha
    obtain ⟨y, hy, rfl⟩ := List.mem_map.1 hx
    exact hn y hy (by rw [← anchorIn_eq]; exact hxa)
  | duplicate ha hm hf => exact h2 _ (by rw [anchorIn_eq]; exact ha) _ (List.mem_map_of_mem hm) (by rw [anchorIn_eq]; exact hf)

mutual
theorem isNode_noEnd : ∀ {ds : List EventData}, IsNode ds → ∀ j, .documentEnd j ∉ ds
  | _, .alias .., j => by simp
  | _, .scalar .., j => by simp
  | _, .sequence an tg im sty hn, j => by simpa using isNodes_noEnd hn j
  | _, .mapping an tg im sty hn, j => by simpa using isPairs_noEnd hn j
theorem isNodes_noEnd : ∀ {ds : List EventData}, IsNodes ds → ∀ j, .documentEnd j ∉ ds
  | _, .nil, j => by simp
  | _, .cons h hs, j => by
    intro hd
    rcases List.mem_append.1 hd with hd | hd
    · exact isNode_noEnd h j hd
    · exact isNodes_noEnd hs j hd
theorem isPairs_noEnd : ∀ {ds : List EventData}, IsPairs ds → ∀ j, .documentEnd j ∉ ds
  | _, .nil, j => by simp
  | _, .cons h hv hs, j => by
    intro hd
    rcases List.mem_append.1 hd with hd | hd
    · rcases List.mem_append.1 hd with hd | hd
      · exact isNode_noEnd h j hd
      · exact isNode_noEnd hv j hd
    · exact isPairs_noEnd hs j hd
end

/-- Documents whose anchors fit are loaded, one after the other. -/
theorem loads_of_parses {items : List SrcItem} {enc e : Encoding} {F : Nat} (hF : 16 * srcSize items + 10 < F) {first last : Event} {body : List Event} {o : ParserObj}
    (hp : Parses F (new items enc) (first :: (body ++ [last])) o) (h1 : first.data = .streamStart e) (h2 : last.data = .streamEnd)
    (hd : IsDocuments (body.map (·.data))) (ha : AnchorsFit (body.map (·.data))) :
    ∃ ds, Loads F (new items enc) (ds ++ [emptyDocument]) o ∧ DocumentsOf body ds := by
  have key : ∀ {es : List EventData}, IsDocuments es → ∀ (pre b : List Event) (ds : List Document) (m : ParserObj) (s : List Event), b.map (·.data) = es →
      body = pre ++ b → Loads F (new items enc) ds m → DocumentsOf pre ds → Parses F m (s ++ (b ++ [last])) o →
      ((ds = [] ∧ ∃ e, s.map (·.data) = [.streamStart e]) ∨ (ds ≠ [] ∧ s = [])) →
      ∃ ds', Loads F (new items enc) (ds' ++ [emptyDocument]) o ∧ DocumentsOf (pre ++ b) ds' := by
    intro es hes
    induction hes with
    | nil =>
      intro pre b ds m s hb _ hl hdo hp hs
      have : b = [] := by simpa using hb
      subst this
      have := C48_load_end hF hl (s := s) (by simpa using hp) hs h2
      exact ⟨ds, .snoc hl this, by simpa using hdo⟩
    | @cons v tags i j n ds0 hn hs0 ih =>
      intro pre b ds m s hb hbody hl hdo hp hs
      rw [List.cons_append] at hb
      obtain ⟨x, b1, rfl, hx, hb⟩ := List.map_eq_cons_iff.1 hb
      obtain ⟨devs, b2, rfl, hdv, hb⟩ := List.map_eq_append_iff.1 hb
      obtain ⟨y, b3, rfl, hy, hb⟩ := List.map_eq_cons_iff.1 hb
      have hp' : Parses F m ((s ++ (x :: devs) ++ [y]) ++ (b3 ++ [last])) o := by simpa using hp
      obtain ⟨m', hm, hr⟩ := Parses.split hp'
      have hne : ∀ z ∈ devs, ∀ j, z.data ≠ .documentEnd j := fun z hz j h => isNode_noEnd hn j (by rw [← hdv, ← h]; exact List.mem_map_of_mem hz)
      have hok : AnchorsOk devs := anchorsOk_of (ha v tags i j (pre.map (·.data)) (devs.map (·.data)) (b3.map (·.data))
        (by rw [hbody]; simp [hx, hy]) (by rw [hdv]; exact isNode_noEnd hn))
      obtain ⟨d, g1, g2⟩ := C48_load_succeeds hF hl hm hs ⟨_, _, _, hx⟩ hne hy hok
      obtain ⟨ds', k1, k2⟩ := ih (pre ++ (x :: (devs ++ [y]))) b3 (ds ++ [d]) m' [] hb (by rw [hbody]; simp) (.snoc hl g1) (.snoc hdo g2) (by simpa using hr)
        (Or.inr ⟨by simp, rfl⟩)
      exact ⟨ds', k1, by simpa using k2⟩
  have := key hd [] body [] (new items enc) [first] rfl rfl .nil .nil (by simpa using hp) (Or.inl ⟨rfl, e, by simp [h1]⟩)
  simpa using this

/-- C57.  If the anchors of such a text fit, `load` returns its documents, each the document of its events, and then the empty
document that stands for the end of the stream. -/
theorem C57_load {T : Str} {es : List EventData} (h : YamlText T es) (hanc : AnchorsFit es) (ha : ∀ c ∈ T, Allowed c) {enc e : Encoding} {items : List SrcItem}
    (hd : TextSent items T enc e) (hsz : srcSize items < 2 ^ 31) {F : Nat} (hF : 16 * srcSize items + 10 < F) :
    ∃ evs ds o', Loads F (new items enc) (ds ++ [emptyDocument]) o' ∧ evs.map (·.data) = es ∧ DocumentsOf evs ds := by
  obtain ⟨evs, o', hp, he⟩ := C57_yaml h ha hd hsz (F := F) (by omega)
  have hend : EventsEndOnce evs ∧ ∃ x ∈ evs, isStreamEndEvent x = true := by
    have hno := yaml_noEnd h
    obtain ⟨xs, y, rfl⟩ : ∃ xs y, evs = xs ++ [y] := by
      rcases List.eq_nil_or_concat evs with rfl | ⟨xs, y, rfl⟩
      · simp [yamlStream] at he
      · exact ⟨xs, y, by simp⟩
    have he' : xs.map (·.data) ++ [y.data] = (.streamStart e :: es) ++ [.streamEnd] := by simpa [yamlStream] using he
    obtain ⟨e1, e2⟩ := List.append_inj' he' rfl
    refine ⟨?_, y, by simp, by simp at e2; simp [isStreamEndEvent, e2]⟩
    intro z hz
    simp at hz
    have hz' : z.data ∈ EventData.streamStart e :: es := by rw [← e1]; exact List.mem_map_of_mem hz
    have hzn : z.data ≠ .streamEnd := by
      intro h0; rw [h0] at hz'
      rcases List.mem_cons.1 hz' with h | h
      · cases h
      · exact hno h
    unfold isStreamEndEvent
    cases hz0 : z.data <;> simp_all
  have hst := C16_events_complete (by omega) hp hend.1 hend.2
  unfold yamlStream at he
  obtain ⟨x, r, rfl, hx, he⟩ := List.map_eq_cons_iff.1 he
  obtain ⟨body, r', rfl, hb, he⟩ := List.map_eq_append_iff.1 he
  obtain ⟨y, r'', rfl, hy, he⟩ := List.map_eq_cons_iff.1 he
  have : r'' = [] := by simpa using he
  subst this
  have hdocs : IsDocuments (body.map (·.data)) := by
    generalize hw : (x :: (body ++ [y])).map (·.data) = w at hst
    cases hst with
    | @mk e' ds hds =>
      simp at hw
      rw [hw.2.1]; exact hds
  obtain ⟨ds, g1, g2⟩ := loads_of_parses hF hp hx hy hdocs (by rw [hb]; exact hanc)
  exact ⟨body, ds, o', g1, hb, g2⟩

/-! ### A sample -/

theorem alnum_char {fl : Bool} {c : Char} (hc : c.isAlphanum = true) (t : Str) : PlainChar fl c t := by
  have h : ∀ x : Char, x.isAlphanum = false → c ≠ x := by rintro x hx rfl; rw [hx] at hc; cases hc
  refine ⟨⟨?_, ?_⟩, ?_, fun _ h' => absurd h' (h ':' (by decide))⟩
  · rintro (h' | h')
    · exact h ' ' (by decide) h'
    · exact h '\t' (by decide) h'
  · cases hb : isLineBreak c with
    | false => rfl
    | true =>
      exfalso
      unfold isLineBreak at hb
      simp at hb
      rcases hb with (((h' | h') | h') | h') | h'
      all_goals exact h _ (by decide) h'
  · rintro (h' | ⟨r, h', _⟩ | ⟨_, x, r, h', hx⟩)
    · cases h'
    · simp at h'; exact h ':' (by decide) h'.1
    · simp at h'
      rw [← h'.1] at hx
      rcases hx with h' | h' | h' | h' | h' <;> exact h _ (by decide) h'

theorem alnum_word {fl : Bool} {n : Int} {c : Char} {w : Str} (hw : (c :: w).all Char.isAlphanum = true) (t : Str) : PlainWord fl n (c :: w) (c :: w) t := by
  simp only [List.all_cons, Bool.and_eq_true] at hw
  have h : ∀ x : Char, x.isAlphanum = false → c ≠ x := by rintro x hx rfl; rw [hx] at hw; cases hw.1
  have hb : ∀ {w : Str}, w.all Char.isAlphanum = true → PlainBody fl n (w ++ t) w t := by
    intro w hw
    induction w with
    | nil => exact .done t
    | cons x w ih =>
      simp only [List.all_cons, Bool.and_eq_true] at hw
      exact .char (alnum_char hw.1 _) (ih hw.2)
  refine ⟨c, w, w, rfl, rfl, ⟨c, _, rfl, Or.inl ?_⟩, alnum_char hw.1 _, h _ (by decide), ?_, hb hw.2⟩
  · intro hm
    simp only [List.mem_cons, List.not_mem_nil, or_false] at hm
    rcases hm with h' | h' | h' | h' | h' | h' | h' | h' | h' | h' | h' | h' | h' | h' | h' | h' | h' | h' | h'
    all_goals exact h _ (by decide) h'
  · rintro ⟨r, h' | h', _⟩
    · simp at h'; exact h '-' (by decide) h'.1
    · simp at h'; exact h '.' (by decide) h'.1

theorem solid_of {c : Char} {t : Str} (h : (!(c == ' ') && !(c == '\t') && !isLineBreak c) = true) : Solid (c :: t) := by
  intro x r hx
  cases hx
  simp at h
  exact ⟨by rintro (h' | h'); exact h.1.1 h'; exact h.1.2 h', h.2⟩

theorem lf_at (t : Str) : BreakAt ('\n' :: t) '\n' t := .one '\n' t (by decide) (by simp)

/-- A plain scalar ends at the end of the line: the next line is not indented. -/
theorem line_end {n : Int} {t : Str} (hs : Solid t) (hn : 0 < n) : PlainEnd false n ('\n' :: t) true t :=
  PlainEnd.gap (b := []) (bs := ['\n']) (by simp) (.brk (lf_at t) (.stop _ hs)) (by intro h; exact absurd (congrArg List.length h) (by simp))
    (Or.inr (Or.inr (Or.inl ⟨by simp, rfl, [], '\n', 0, rfl, by decide, hn⟩)))

theorem tag_end {c : Char} {t : Str} (h : (c == ' ' || c == '\n') = true) : EndsTag (c :: t) := by
  intro x r hx
  cases hx
  simp at h
  rcases h with rfl | rfl
  · exact Or.inl (Or.inl rfl)
  · exact Or.inr (by decide)

theorem name_end {c : Char} {t : Str} (h : (c == ' ' || c == '\n') = true) : EndsName (c :: t) := fun x r hx => (tag_end h x r hx).imp id Or.inl

/-- A sample text. -/
def sampleYaml : Str := cs! "%TAG !e! tag:e,\n--- # c\nk: &a v w\n\"s\":\n- 1\n- > # z\n \n  x\n  y\n? [b, !e!t c, 'd': {}]\n: *a\n...\n"

/-- Its events. -/
def sampleYamlEvents : List EventData :=
  [.documentStart none [⟨cs! "!e!", cs! "tag:e,"⟩] false,
   .mappingStart none none true .block,
   .scalar none none (cs! "k") true false .plain, .scalar (some (cs! "a")) none (cs! "v w") true false .plain,
   .scalar none none (cs! "s") false true .doubleQuoted,
   .sequenceStart none none true .block, .scalar none none (cs! "1") true false .plain, .scalar none none (cs! "\nx y\n") false true .folded, .sequenceEnd,
   .sequenceStart none none true .flow, .scalar none none (cs! "b") true false .plain, .scalar none (some (cs! "tag:e,t")) (cs! "c") false false .plain,
   .mappingStart none none true .flow, .scalar none none (cs! "d") false true .singleQuoted, .mappingStart none none true .flow, .mappingEnd, .mappingEnd, .sequenceEnd,
   .alias (cs! "a"), .mappingEnd, .documentEnd false]

theorem sp_space {fl tabs : Bool} : Space fl tabs [' '] := .space .nil
theorem lf_space {fl tabs : Bool} : Space fl tabs ['\n'] := .brk (by decide) .nil

/-- A word of letters and digits as a flow scalar before a flow indicator. -/
theorem alnum_flow {n : Int} {c d : Char} {w t : Str} (hw : (c :: w).all Char.isAlphanum = true) (hd : isFlowIndicator d) :
    ScalarText true n (c :: w) (c :: w) .plain (d :: t) :=
  .plain (alnum_word hw _) (.here (Or.inr (Or.inr ⟨rfl, d, t, rfl, hd⟩)))

/-- A word of letters and digits on a line before a line that is not indented. -/
theorem alnum_line {n : Int} {c : Char} {w t : Str} (hw : (c :: w).all Char.isAlphanum = true) (hs : Solid t) (hn : 0 ≤ n) :
    ScalarText false n (c :: w) (c :: w) .plain ('\n' :: t) :=
  .plain (alnum_word hw _) (line_end hs (by omega))

/-- A word of letters and digits as a key. -/
theorem alnum_key {D : List TagDirective} {c d : Char} {t : Str} (hw : c.isAlphanum = true) (hd : (d == ' ' || d == '\n') = true) (hi : (position [c]).index ≤ 1024) :
    Key D false [c] [] (d :: t) [.scalar none none [c] true false .plain] := by
  have he : ∀ x r, d :: t = x :: r → IsBlank x ∨ isLineBreak x = true := tag_end hd
  have hl : isLineBreak c = false := (alnum_char (fl := false) hw []).solid.2
  refine ⟨.plain (alnum_word (w := []) (by simpa using hw) _) (Or.inr (Or.inl ⟨_, rfl, he⟩)), by simpa [OneLine] using hl, by simp [AllBlank], hi⟩

/-- A letter or digit in quotes. -/
theorem quoted_one {single : Bool} {c : Char} {t : Str} (hw : c.isAlphanum = true) (ht : single = true → t.head? ≠ some '\'') : QuotedWord single [quote single, c, quote single] [c] t := by
  have h : ∀ x : Char, x.isAlphanum = false → c ≠ x := by rintro x hx rfl; rw [hx] at hw; cases hw
  have hp := (alnum_char (fl := false) hw []).solid
  have hq : c ≠ quote single := by cases single <;> exact h _ (by decide)
  exact ⟨[c], rfl, _, rfl, .char c hp.1 hp.2 hq (fun _ => h _ (by decide)) (.done _), ht⟩

theorem quoted_key {D : List TagDirective} {fl single : Bool} {c : Char} {t : Str} (hw : c.isAlphanum = true)
    (hi : (position [quote single, c, quote single]).index ≤ 1024) :
    Key D fl [quote single, c, quote single] [] t [.scalar none none [c] false true (if single then .singleQuoted else .doubleQuoted)] := by
  have hp := (alnum_char (fl := false) hw []).solid
  have hk : KeyText D fl [] t [quote single, c, quote single] [scalarEvent none none [c] (if single then .singleQuoted else .doubleQuoted)] := .quoted (quoted_one hw (by simp))
  refine ⟨by cases single <;> simpa [scalarEvent] using hk, ?_, by simp [AllBlank], hi⟩
  · intro x hx
    simp at hx
    rcases hx with rfl | rfl | rfl
    · cases single <;> decide
    · exact hp.2
    · cases single <;> decide

/-- The directive of the sample. -/
def sampleTags : List TagDirective := [⟨cs! "!e!", cs! "tag:e,"⟩]

/-- The flow sequence of the sample. -/
theorem sample_flow (t : Str) : FlowContent sampleTags false 0 (cs! "[b, !e!t c, 'd': {}]") none none
    [.sequenceStart none none true .flow, .scalar none none (cs! "b") true false .plain, .scalar none (some (cs! "tag:e,t")) (cs! "c") false false .plain,
     .mappingStart none none true .flow, .scalar none none (cs! "d") false true .singleQuoted, .mappingStart none none true .flow, .mappingEnd, .mappingEnd, .sequenceEnd] t := by
  have hb : FlowItem sampleTags ['b'] [scalarEvent none none ['b'] .plain] (cs! ", !e!t c, 'd': {}]" ++ t) :=
    .node (.content (.scalar (alnum_flow (w := []) (by decide) (Or.inl rfl))))
  have hp : PropsText sampleTags (cs! "!e!t") none (some (cs! "tag:e,t")) (cs! " c, 'd': {}]" ++ t) := by
    refine .tag (h := cs! "!e!") (s := ['t']) (.named (n := ['e']) ?_ (.char (Or.inl (Or.inl (by decide))) .nil) (by simp)) ?_ (tag_end rfl)
    · intro c hc; simp at hc; subst hc; exact Or.inl (by decide)
    · exact ⟨cs! "tag:e,", by decide, rfl⟩
  have hc : FlowItem sampleTags (cs! "!e!t c") [scalarEvent none (some (cs! "tag:e,t")) ['c'] .plain] (cs! ", 'd': {}]" ++ t) :=
    .node (.props (p := cs! "!e!t") (g := [' ']) (w := ['c']) hp sp_space (.scalar (alnum_flow (w := []) (by decide) (Or.inl rfl))))
  have hd : FlowItem sampleTags (cs! "'d': {}")
      [.mappingStart none none true .flow, .scalar none none (cs! "d") false true .singleQuoted, .mappingStart none none true .flow, .mappingEnd, .mappingEnd] (cs! "]" ++ t) :=
    .pair (k := cs! "'d'") (b := []) (v := cs! " {}") (quoted_key (single := true) (by decide) (by decide))
      (.node (g := [' ']) (w := cs! "{}") sp_space (.content (.map (w := []) (.none .nil))))
  exact .seq (w := cs! "b, !e!t c, 'd': {}") (.more (g := []) (w := ['b']) (g' := []) .nil hb .nil
    (.more (g := [' ']) (w := cs! "!e!t c") (g' := []) sp_space hc .nil (.last (g := [' ']) (w := cs! "'d': {}") (g' := []) sp_space hd .nil)))

theorem over_marker {n : Nat} {p : Place} {t : Str} (he : EndsTag t) : Over n p ('\n' :: '.' :: '.' :: '.' :: t) :=
  Or.inr ⟨['\n'], '.', '.' :: '.' :: t, rfl, lf_space, by simp [IsBlank], by decide, by decide, by decide, Or.inr ⟨rfl, t, Or.inr rfl, he⟩⟩

theorem sample_block (t : Str) : BlockScalar true 0 (cs! "> # z\n \n  x\n  y\n? " ++ t) (cs! "\nx y\n") (cs! "? " ++ t) := by
  have hx : ∀ c : Char, c.isAlphanum = true → ∀ z ∈ [c], isLineBreak z = false := by
    intro c hc z hz; simp at hz; subst hz; exact (alnum_char (fl := false) hc []).solid.2
  refine ⟨[], .clip, 0, cs! " # z", cs! "\n \n  x\n  y\n? " ++ t, '\n', cs! " \n  x\n  y\n? " ++ t, 2, ['\n'], cs! "  x\n  y\n? " ++ t, [⟨['x'], '\n', []⟩, ⟨['y'], '\n', []⟩], cs! "? " ++ t, 0, .none, rfl,
    .comment (sp := [' ']) (com := cs! " z") (by simp [IsBlank]) (by decide), lf_at _,
    by simp, fun _ => ⟨by decide, by decide, by rintro x ls' h; cases h; decide, by simp⟩, .line (k := 1) (by decide) (lf_at _) (.stop _),
    .line (l := ['x']) (t := cs! "\n  y\n? " ++ t) (by simp) (hx _ (by decide)) (lf_at _) (.stop _)
      (.line (l := ['y']) (t := cs! "\n? " ++ t) (by simp) (hx _ (by decide)) (lf_at _) (.stop _) (.done _)), rfl, by decide, solid_of (by decide), by decide⟩

theorem sample_items (t : Str) : BlockItems sampleTags 0 (cs! "- 1\n- > # z\n \n  x\n  y\n") [.scalar none none (cs! "1") true false .plain, .scalar none none (cs! "\nx y\n") false true .folded]
    (some 0) (cs! "? " ++ t) := by
  have h1 : BlockNode sampleTags false 0 (some 1) (cs! " 1") [scalarEvent none none ['1'] .plain] none (cs! "\n- > # z\n \n  x\n  y\n? " ++ t) :=
    .flow (l := [' ']) (w := ['1']) (.space sp_space) (by rintro k hk; cases hk; decide) (.scalar (alnum_line (w := []) (by decide) (solid_of (by decide)) (by decide)))
  have h2 : BlockNode sampleTags false 0 (some 1) (cs! " > # z\n \n  x\n  y\n") [scalarEvent none none (cs! "\nx y\n") .folded] (some 0) (cs! "? " ++ t) :=
    .block (l := [' ']) (w := cs! "> # z\n \n  x\n  y") (c := '\n') (folded := true) (j := 0) (.space sp_space) (by rintro k hk; cases hk; decide) (sample_block t) (by decide) rfl
  exact .more (w := cs! " 1") (g := ['\n']) (r := cs! "- > # z\n \n  x\n  y\n") (tag_end rfl) h1 lf_space rfl (.one (tag_end rfl) h2)

theorem name_one {c : Char} (hc : c.isAlphanum = true) : NameOk [c] := by
  refine ⟨by simp, ?_⟩
  intro x hx; simp at hx; subst hx; exact Or.inl hc

theorem sample_entries : BlockEntries sampleTags 0 (cs! "k: &a v w\n\"s\":\n- 1\n- > # z\n \n  x\n  y\n? [b, !e!t c, 'd': {}]\n: *a") ((sampleYamlEvents.drop 2).dropLast.dropLast) none (cs! "\n...\n") := by
  have v1 : BlockNode sampleTags true 0 none (cs! " &a v w") [scalarEvent (some (cs! "a")) none (cs! "v w") .plain] none (cs! "\n\"s\":\n- 1\n- > # z\n \n  x\n  y\n? [b, !e!t c, 'd': {}]\n: *a\n...\n") := by
    refine .flow (l := cs! " &a ") (w := cs! "v w") (.props (g := [' ']) (w := cs! "&a") (g' := [' ']) sp_space (by intro k hk; cases hk) (.anchor (name_one (by decide)) (name_end rfl)) sp_space)
      (by intro k hk; cases hk) (.scalar (.plain ?_ (line_end (solid_of (by decide)) (by decide))))
    refine ⟨'v', cs! " w", cs! " w", rfl, rfl, ?_, alnum_char (by decide) _, by decide, ?_, .blanks (b := [' ']) (by simp) (by simp [IsBlank]) (alnum_char (by decide) _) (by decide) (.done _)⟩
    · exact ⟨'v', _, rfl, Or.inl (by decide)⟩
    · rintro ⟨r, h | h, _⟩ <;> cases h
  have v2 : BlockNode sampleTags true (0 : Nat) none (cs! "\n- 1\n- > # z\n \n  x\n  y\n") (.sequenceStart none none true .block :: ([.scalar none none (cs! "1") true false .plain, .scalar none none (cs! "\nx y\n") false true .folded] ++ [.sequenceEnd]))
      (some 0) (cs! "? [b, !e!t c, 'd': {}]\n: *a\n...\n") :=
    .indentless (l := ['\n']) (w := cs! "- 1\n- > # z\n \n  x\n  y\n") (.space lf_space) (sample_items _)
  have v3 : BlockNode sampleTags true 0 (some 1) (cs! " [b, !e!t c, 'd': {}]") _ none (cs! "\n: *a\n...\n") :=
    .flow (l := [' ']) (w := cs! "[b, !e!t c, 'd': {}]") (.space sp_space) (by rintro k hk; cases hk; decide) (sample_flow _)
  have v4 : BlockNode sampleTags true 0 (some 1) (cs! " *a") [.alias (cs! "a")] none (cs! "\n...\n") :=
    .alias (g := [' ']) sp_space (by rintro k hk; cases hk; decide) (name_one (by decide)) (name_end rfl)
  have e1 := BlockEntry.simple (c := 0) (k := cs! "k") (b := []) (v := cs! " &a v w") (alnum_key (by decide) rfl (by decide)) (tag_end rfl) v1
  have e2 := BlockEntry.simple (c := 0) (k := cs! "\"s\"") (b := []) (v := cs! "\n- 1\n- > # z\n \n  x\n  y\n") (quoted_key (single := false) (by decide) (by decide)) (tag_end rfl) v2
  have e3 := BlockEntry.pair (c := 0) (k := cs! " [b, !e!t c, 'd': {}]") (g := ['\n']) (v := cs! " *a") (tag_end rfl) v3 lf_space rfl (tag_end rfl) v4
  exact .more (w := cs! "k: &a v w") (g := ['\n']) (r := cs! "\"s\":\n- 1\n- > # z\n \n  x\n  y\n? [b, !e!t c, 'd': {}]\n: *a") e1 lf_space rfl
    (.more (w := cs! "\"s\":\n- 1\n- > # z\n \n  x\n  y\n") (g := []) (r := cs! "? [b, !e!t c, 'd': {}]\n: *a") e2 .nil rfl (.one e3))

theorem sampleYaml_text : YamlText sampleYaml sampleYamlEvents := by
  refine .explicit ?_
  refine YamlDocs.doc (p := some 0) (g := []) (d := cs! "%TAG !e! tag:e,\n") (w := cs! " # c\nk: &a v w\n\"s\":\n- 1\n- > # z\n \n  x\n  y\n? [b, !e!t c, 'd': {}]\n: *a")
    (r := cs! "\n...\n") (ds := [.tagDirective (cs! "!e!") (cs! "tag:e,")]) (p' := none) (es := (sampleYamlEvents.drop 1).dropLast) (fs := []) (explicit := true) .nil rfl ?dir
    (.tag .none ⟨_, _⟩ (by simp)) (by simp) (tag_end rfl) ?node ?fin
  case dir =>
    refine DirText.line (w := cs! "TAG !e! tag:e,") (l := []) (b := ['\n']) (g := []) (r := []) ?_ (.blanks (by simp)) (lf_at _) .nil rfl .none
    refine .tag (sp := [' ']) (sp' := [' ']) (h := cs! "!e!") (u := cs! "tag:e,") ?_ ?_ (Or.inr ⟨['e'], rfl, ?_⟩) ?_ (by simp)
    · simp [IsBlank]
    · simp [IsBlank]
    · intro c hc; simp at hc; subst hc; exact Or.inl (by decide)
    · have hl : ∀ c : Char, c.isAlphanum = true → UriChar true c := fun c hc => Or.inl (Or.inl hc)
      exact .char (hl _ (by decide)) (.char (hl _ (by decide)) (.char (hl _ (by decide)) (.char (Or.inr (Or.inl (by decide)))
        (.char (hl _ (by decide)) (.char (Or.inr (Or.inr ⟨rfl, by decide⟩)) .nil)))))
  case fin =>
    exact .explicit (g := ['\n']) (r := ['\n']) lf_space rfl (tag_end rfl) (.docs (.none ⟨['\n'], [], rfl, lf_space, Or.inl rfl⟩))
  case node =>
    have hl : ∀ t, Lead sampleTags (-1) none (cs! " # c\n") none none (some 0) t := fun t => .space (p := none) (.space (.comment (com := cs! " c") (c := '\n') (by intro x hx; simp at hx; rcases hx with rfl | rfl <;> decide) (by decide) .nil))
    exact .map (c := 0) (l := cs! " # c\n") (hl _) (by decide) sample_entries (over_marker (tag_end rfl))

/-- Whether the anchors fit after the events `seen` (in reverse order). -/
def anchorsB : List EventData → List EventData → Bool
  | _, [] => true
  | seen, d :: ds =>
    (match d with
      | .alias n => seen.any (fun x => anchorIn x == some n)
      | _ => true) &&
    (match anchorIn d with
      | some n => seen.all (fun x => !(anchorIn x == some n))
      | none => true) && anchorsB (d :: seen) ds

theorem anchorsB_split : ∀ (ds seen p : List EventData) (d : EventData) (s : List EventData), anchorsB seen ds = true → ds = p ++ d :: s →
    (∀ n, d = .alias n → ∃ x ∈ p.reverse ++ seen, anchorIn x = some n) ∧ (∀ n, anchorIn d = some n → ∀ x ∈ p.reverse ++ seen, anchorIn x ≠ some n)
  | [], _, p, _, _, _, h => by simp at h
  | e :: ds, seen, [], d, s, hb, h => by
    simp at h
    obtain ⟨rfl, rfl⟩ := h
    simp only [anchorsB, Bool.and_eq_true] at hb
    refine ⟨?_, ?_⟩
    · rintro n rfl
      simpa using hb.1.1
    · intro n hn
      have := hb.1.2
      rw [hn] at this
      simpa using this
  | e :: ds, seen, q :: p, d, s, hb, h => by
    simp at h
    obtain ⟨rfl, h⟩ := h
    simp only [anchorsB, Bool.and_eq_true] at hb
    have := anchorsB_split ds (e :: seen) p d s hb.2 h
    simpa using this

/-- A single document whose anchors fit. -/
theorem anchorsFit_one {v : Option VersionDirective} {tags : List TagDirective} {i j : Bool} {devs : List EventData} (hd : devs.all (fun d => match d with | .documentStart .. | .documentEnd _ => false | _ => true) = true)
    (hb : anchorsB [] devs = true) : AnchorsFit (.documentStart v tags i :: (devs ++ [.documentEnd j])) := by
  intro v' tags' i' j' a ds b he hn
  have hs : ∀ v tags i, .documentStart v tags i ∉ devs := fun v tags i h => by have := List.all_eq_true.1 hd _ h; cases this
  have hds : ds = devs := by
    cases a with
    | cons x a =>
      exfalso
      simp at he
      have hm : EventData.documentStart v' tags' i' ∈ devs ++ [.documentEnd j] := by rw [he.2]; simp
      rcases List.mem_append.1 hm with h | h
      · exact hs _ _ _ h
      · simp at h
    | nil =>
      simp at he
      replace he := he.2
      clear hb hs
      induction devs generalizing ds with
      | nil => cases ds with
        | nil => rfl
        | cons x ds => simp at he
      | cons x devs ih =>
        simp only [List.all_cons, Bool.and_eq_true] at hd
        cases ds with
        | nil => simp at he; rw [he.1] at hd; simp at hd
        | cons y ds =>
          simp at he
          rw [he.1, ih hd.2 ds (fun j h => hn j (by simp [h])) he.2]
  subst hds
  intro p d s hpd
  have := anchorsB_split ds [] p d s hb hpd
  simpa using this

/-- The hypotheses of `C57_yaml` and `C57_load` are met: a text with a directive, a comment, properties, block and flow collections and four
styles of scalars, sent in two pieces after a byte order mark. -/
theorem C57_sample : YamlText sampleYaml sampleYamlEvents ∧ (∀ c ∈ sampleYaml, Allowed c) ∧ AnchorsFit sampleYamlEvents ∧
    ∃ a b, TextSent [.data (bom8 ++ a), .data b] sampleYaml .any .utf8 ∧ srcSize [.data (bom8 ++ a), .data b] < 2 ^ 31 := by
  refine ⟨sampleYaml_text, fun c hc => ?_, ?_, (utf8Encode sampleYaml).take 20, (utf8Encode sampleYaml).drop 20, .marked (by simp [Quiet]) (by simp [Prompt, bom8]) (by decide +kernel), by decide +kernel⟩
  · have h : (sampleYaml.all isAllowed) = true := by decide +kernel
    exact allowed_iff.1 (List.all_eq_true.1 h c hc)
  · exact anchorsFit_one (devs := (sampleYamlEvents.drop 1).dropLast) (by decide +kernel) (by decide +kernel)

end Yaml.Props
