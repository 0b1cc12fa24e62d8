import Verif.Lib.JsonRead2
import Verif.Lib.JsonLoad
import Verif.Props.Parser
import Verif.Props.RoundTrip
import Verif.Props.LoadComplete

/-
C56: JSON texts are parsed as what they denote.
-/

namespace Yaml.Props
open Yaml Yaml.Spec Yaml.ParserObj
set_option linter.unusedSimpArgs false

/-- How a text gets to the parser as UTF-8: in any pieces; with or without `set_encoding(Utf8)`, without it
also with a byte order mark. -/
def DeliversUtf8 (enc : Encoding) (items : List SrcItem) (T : Str) : Prop :=
  Quiet items ∧
    ((enc = .utf8 ∧ bytesOf items = utf8Encode T) ∨
     (enc = .any ∧ Prompt items ∧ (bytesOf items = utf8Encode T ∨ bytesOf items = bom8 ++ utf8Encode T)))

theorem json_head {T : Str} {v : Json} (h : JsonText T v) : ∃ c r, T = c :: r ∧ c.toNat < 0x80 := by
  obtain ⟨g, w, g', rfl, hv, hg, _, _, _⟩ := h
  cases g with
  | cons c g => exact ⟨c, _, rfl, by rcases hg c (by simp) with rfl | rfl | rfl | rfl <;> decide⟩
  | nil =>
    have word : Lx.WordText w → ∃ c r, [] ++ (w ++ g') = c :: r ∧ c.toNat < 0x80 := by
      intro hw
      obtain ⟨c, r, rfl⟩ := hw.cons
      refine ⟨c, _, rfl, ?_⟩
      rcases hw.chars c (by simp) with h | h | h | rfl | rfl | rfl
      · have := Lx.le_nat.1 h.2; have e : '9'.toNat = 57 := rfl; omega
      · have := Lx.le_nat.1 h.2; have e : 'z'.toNat = 122 := rfl; omega
      · have := Lx.le_nat.1 h.2; have e : 'Z'.toNat = 90 := rfl; omega
      · decide
      · decide
      · decide
    cases hv with
    | literal h => exact word (Lx.literal_word h)
    | number h => exact word (Lx.number_word h)
    | string h => obtain ⟨t, rfl, _⟩ := h; exact ⟨_, _, rfl, by decide⟩
    | _ => exact ⟨_, _, rfl, by decide⟩

theorem json_clean {T : Str} {v : Json} (h : JsonText T v) (ha : ∀ c ∈ T, Allowed c) {enc : Encoding} {items : List SrcItem} (hd : DeliversUtf8 enc items T) :
    Clean enc items .utf8 T ∧ T.length ≤ (bytesOf items).length := by
  obtain ⟨c, r, hT, hc⟩ := json_head h
  obtain ⟨hq, hd⟩ := hd
  have hal : ∀ c ∈ T, isAllowed c = true := fun c hc => allowed_iff.2 (ha c hc)
  have hl := utf8_len T
  have hne : T.length ≠ 0 := by rw [hT]; simp
  rcases hd with ⟨rfl, hb⟩ | ⟨rfl, hp, hb⟩
  · exact ⟨clean_utf8 hq hb hal, by rw [hb]; exact hl⟩
  · have hlen : T.length ≤ (bytesOf items).length := by
      rcases hb with hb | hb
      · rw [hb]; exact hl
      · rw [hb, List.length_append]; omega
    obtain ⟨e, h1, _, h3⟩ := clean_any hq hp hal (hb.imp (fun hb => ⟨hb, fun x hx hf => by
      rw [hT] at hx; cases hx; omega⟩) id)
    have := h3 (by intro h0; rw [h0] at hlen; simp at hlen; exact hne (by simp [hlen]))
    subst this
    exact ⟨h1, hlen⟩

/-- C56.  A JSON text of allowed characters, read as UTF-8, is parsed without error into the events of its value.
The limits that YAML sets are in the definition of `JsonText`; `C56_limits` shows that each is needed. -/
theorem C56_json {T : Str} {v : Json} (h : JsonText T v) (ha : ∀ c ∈ T, Allowed c) {enc : Encoding} {items : List SrcItem} (hd : DeliversUtf8 enc items T)
    (hsz : srcSize items < 2 ^ 31) {F : Nat} (hF : 4 * srcSize items + 8 < F) :
    ∃ evs o', Parses F (new items enc) evs o' ∧ evs.map (·.data) = jsonStream .utf8 v := by
  obtain ⟨hc, hlen⟩ := json_clean h ha hd
  obtain ⟨toks, h1, h2⟩ := Lx.runs_json (F := F) h .utf8
  have hb := bytesOf_length items
  have hsz' : 4 * srcSize items < Reader.maxInput := by
    have : 4 * 2 ^ 31 < Reader.maxInput := by decide
    omega
  have hi : Scanner.i32Max = 2 ^ 31 - 1 := rfl
  exact Lx.parses_of_runs hc hsz' (by omega) hF h1 h2

/-- Without anchors and ends of documents. -/
def Unnamed (d : EventData) : Prop := (∀ a, d ≠ .alias a) ∧ (∀ j, d ≠ .documentEnd j) ∧ ∀ e : Event, e.data = d → anchorOf e = none

mutual
theorem events_simple : ∀ (v : Json), ∀ d ∈ v.events, Unnamed d
  | .word w, d, h => by
    simp [Json.events] at h; subst h
    exact ⟨by simp, by simp, fun e he => by simp [anchorOf, he]⟩
  | .str w, d, h => by
    simp [Json.events] at h; subst h
    exact ⟨by simp, by simp, fun e he => by simp [anchorOf, he]⟩
  | .arr vs, d, h => by
    simp [Json.events] at h
    rcases h with rfl | h | rfl
    · exact ⟨by simp, by simp, fun e he => by simp [anchorOf, he]⟩
    · exact items_simple vs d h
    · exact ⟨by simp, by simp, fun e he => by simp [anchorOf, he]⟩
  | .obj vs, d, h => by
    simp [Json.events] at h
    rcases h with rfl | h | rfl
    · exact ⟨by simp, by simp, fun e he => by simp [anchorOf, he]⟩
    · exact members_simple vs d h
    · exact ⟨by simp, by simp, fun e he => by simp [anchorOf, he]⟩
theorem items_simple : ∀ (v : List Json), ∀ d ∈ itemEvents v, Unnamed d
  | [], d, h => by simp [itemEvents] at h
  | v :: vs, d, h => by
    simp [itemEvents] at h
    exact h.elim (events_simple v d) (items_simple vs d)
theorem members_simple : ∀ (v : List (Str × Json)), ∀ d ∈ memberEvents v, Unnamed d
  | [], d, h => by simp [memberEvents] at h
  | (n, v) :: vs, d, h => by
    simp [memberEvents] at h
    rcases h with rfl | h | h
    · exact ⟨by simp, by simp, fun e he => by simp [anchorOf, he]⟩
    · exact events_simple v d h
    · exact members_simple vs d h
end

/-- C56.  `load` returns one document, whose root (node 1) represents the value, and then the empty document that stands for the end
of the stream. -/
theorem C56_load {T : Str} {v : Json} (h : JsonText T v) (ha : ∀ c ∈ T, Allowed c) {enc : Encoding} {items : List SrcItem} (hd : DeliversUtf8 enc items T)
    (hsz : srcSize items < 2 ^ 31) {F : Nat} (hF : 16 * srcSize items + 10 < F) :
    ∃ d o', Loads F (new items enc) [d, emptyDocument] o' ∧ JsonNode d.nodes 1 v ∧
      d.versionDirective = none ∧ d.tagDirectives = [] ∧ d.startImplicit = true ∧ d.endImplicit = true := by
  obtain ⟨evs, o', hp, he⟩ := C56_json h ha hd hsz (F := F) (by omega)
  unfold jsonStream at he
  obtain ⟨e0, r0, rfl, h0, he⟩ := List.map_eq_cons_iff.1 he
  obtain ⟨e1, r1, rfl, h1, he⟩ := List.map_eq_cons_iff.1 he
  obtain ⟨devs, r2, rfl, hdv, he⟩ := List.map_eq_append_iff.1 he
  obtain ⟨e2, r3, rfl, h2, he⟩ := List.map_eq_cons_iff.1 he
  obtain ⟨e3, r4, rfl, h3, he⟩ := List.map_eq_cons_iff.1 he
  have : r4 = [] := by simpa using he
  subst this
  have hsim : ∀ e ∈ devs, Unnamed e.data := fun e he => events_simple v _ (by rw [← hdv]; exact List.mem_map_of_mem he)
  have hp' : Parses F (new items enc) (([e0] ++ (e1 :: devs) ++ [e2]) ++ [e3]) o' := by simpa using hp
  obtain ⟨m, hm, hl⟩ := Parses.split hp'
  obtain ⟨d, g1, g2⟩ := C48_load_succeeds hF .nil hm (Or.inl ⟨rfl, _, by simp [h0]; rfl⟩) ⟨_, _, _, h1⟩
    (fun x hx => (hsim x hx).2.1) h2 (by
      rintro p ev s rfl e (⟨ha, _⟩ | ⟨ha, _, _⟩)
      · exact (hsim ev (by simp)).1 _ ha
      · rw [(hsim ev (by simp)).2.2 ev rfl] at ha; cases ha)
  have l1 : Loads F (new items enc) ([] ++ [d]) m := .snoc .nil g1
  have l2 := C48_load_end hF l1 (s := []) (last := e3) (o2 := o') (by simpa using hl) (Or.inr ⟨by simp, rfl⟩) h3
  refine ⟨d, o', .snoc l1 l2, ?_⟩
  obtain ⟨first, last, root, ver, tags, i, j, names, k1, k2, k3, k4, k5, k6, k7, k8, k9, _⟩ := g2
  simp at k1
  obtain ⟨rfl, k1⟩ := k1
  obtain ⟨rfl, rfl⟩ := k1
  rw [h1] at k3
  rw [h2] at k4
  cases k3
  cases k4
  obtain ⟨_, b⟩ := json_tree (v := v) k2 (r := []) (r' := []) (by simpa using hdv)
  obtain ⟨_, b⟩ := b (pre := []) (post := []) k5
  exact ⟨by simpa using b, k6, k7, k8, k9⟩

/-- The characters are JSON's, but for the limit: an error is reported, or the events are others. -/
def Rejected (T : Str) : Prop := ∃ n o' evs r, Parses 9000 (new [.data (utf8Encode T)]) evs o' ∧ o'.parse 9000 = (r, n) ∧ ∃ e, r = .err e

theorem rejected_of {T : Str} (n : Nat) (h : (match (parseN 9000 n (new [.data (utf8Encode T)])).2.1 with | some (.err _) => true | _ => false) = true) : Rejected T := by
  have key : ∀ (n : Nat) (o : ParserObj), (match (parseN 9000 n o).2.1 with | some (.err _) => true | _ => false) = true →
      ∃ k o' evs r, Parses 9000 o evs o' ∧ o'.parse 9000 = (r, k) ∧ ∃ e, r = .err e := by
    intro n
    induction n with
    | zero => intro o h; simp [parseN] at h
    | succ n ih =>
      intro o h
      unfold parseN at h
      generalize hs : o.parse 9000 = q at h
      obtain ⟨r, o1⟩ := q
      cases r with
      | ok e =>
        obtain ⟨k, o', evs, r, h1, h2, h3⟩ := ih o1 (by simpa using h)
        exact ⟨k, o', _, r, Parses.cons hs h1, h2, h3⟩
      | err e => exact ⟨o1, o, [], .err e, .nil, hs, e, rfl⟩
      | panic p => simp at h
      | fuel => simp at h
  obtain ⟨k, o', evs, r, h1, h2, h3⟩ := key n _ h
  exact ⟨k, o', evs, r, h1, h2, h3⟩

/-- The limits marked (Y) are needed: a tab before or (after a line break) behind the value, a colon on another line than its name,
a name of more than 1024 bytes, an escaped surrogate pair, a character that YAML does not allow; and
a line break U+0085 in a string is read as a space. -/
theorem C56_limits :
    Rejected (cs! "\t[]") ∧ Rejected (cs! "[]\n\t") ∧ Rejected (cs! "{\"a\"\n:1}") ∧
    Rejected (('{' :: '"' :: List.replicate 1024 'a') ++ (cs! "\":1}")) ∧ Rejected (cs! "\"\\ud83d\\ude00\"") ∧ Rejected (cs! "\"\x7f\"") ∧
    (parseN 900 5 (new [.data (utf8Encode (cs! "\"a\u0085b\""))])).1.map (·.data) = jsonStream .utf8 (.str (cs! "a b")) := by
  refine ⟨rejected_of 9 ?_, rejected_of 9 ?_, rejected_of 9 ?_, rejected_of 9 ?_, rejected_of 9 ?_, rejected_of 9 ?_, ?_⟩
  case refine_7 =>
    simp only [jsonStream, Json.events, List.cons_append, List.nil_append]
    decide +kernel
  all_goals decide +kernel

/-- A sample text. -/
def sampleJson : Str := cs! "\n{\"a\" : [1, -2.5e+3,\ttrue],\r\n\t\"b\\u00e9\\n/\": {}, \"\":\"é#: \\\"\" }\n"

/-- Its value. -/
def sampleValue : Json :=
  .obj [(cs! "a", .arr [.word (cs! "1"), .word (cs! "-2.5e+3"), .word (cs! "true")]), (cs! "bé\n/", .obj []), ([], .str (cs! "é#: \""))]

theorem sample_text : JsonText sampleJson sampleValue := by
  have ws : ∀ {g : Str}, (g.all fun c => c == ' ' || c == '\t' || c == '\n' || c == '\r') = true → JsonWs g := by
    intro g h c hc
    have := List.all_eq_true.1 h c hc
    simp at this
    rcases this with ((h | h) | h) | h <;> simp [h]
  have raw : ∀ {c : Char} {t v : Str}, (decide (0x20 ≤ c.toNat) && c != '"' && c != '\\' && !isLineBreak c) = true → JsonChars t v → JsonChars (c :: t) (c :: v) := by
    intro c t v h ht
    simp at h
    exact .raw ⟨h.1.1.1, h.1.1.2, h.1.2⟩ h.2 ht
  have fits : ∀ {k g : Str}, ((g.all fun c => !isLineBreak c) && decide ((position (k ++ g)).index ≤ 1024)) = true → KeyFits k g := by
    intro k g h
    simp at h
    exact ⟨fun c hc => h.1 c hc, h.2⟩
  have dig : ∀ {w : Str}, (!w.isEmpty && w.all fun c => decide ('0'.toNat ≤ c.toNat ∧ c.toNat ≤ '9'.toNat)) = true → Digits w := by
    intro w h
    simp at h
    exact ⟨h.1, fun c hc => h.2 c hc⟩
  refine ⟨cs! "\n", cs! "{\"a\" : [1, -2.5e+3,\ttrue],\r\n\t\"b\\u00e9\\n/\": {}, \"\":\"é#: \\\"\" }", cs! "\n", rfl, ?_, ws rfl, ws rfl, by decide, by decide⟩
  refine .object (w := cs! "\"a\" : [1, -2.5e+3,\ttrue],\r\n\t\"b\\u00e9\\n/\": {}, \"\":\"é#: \\\"\" ") ?_
  refine .more (a := []) (k := cs! "\"a\"") (b := [' ']) (c := [' ']) (w := cs! "[1, -2.5e+3,\ttrue]") (d := []) (ws rfl) ⟨['a'], rfl, raw rfl .nil⟩ (ws rfl) (fits rfl) (ws rfl) ?_ (ws rfl) ?_
  · refine .array (w := cs! "1, -2.5e+3,\ttrue") ?_
    refine .more (g := []) (w := ['1']) (g' := []) (ws rfl) (.number ⟨[], ['1'], [], [], rfl, Or.inl rfl, dig rfl, by simp, Or.inl rfl, Or.inl rfl⟩) (ws rfl) ?_
    refine .more (g := [' ']) (w := cs! "-2.5e+3") (g' := []) (ws rfl) (.number ⟨['-'], ['2'], ['.', '5'], ['e', '+', '3'], rfl, Or.inr rfl, dig rfl, by simp,
      Or.inr ⟨['5'], rfl, dig rfl⟩, Or.inr ⟨'e', ['+'], ['3'], rfl, Or.inl rfl, Or.inr (Or.inl rfl), dig rfl⟩⟩) (ws rfl) ?_
    exact .one (g := ['\t']) (w := cs! "true") (g' := []) (ws rfl) (.literal (Or.inl rfl)) (ws rfl)
  refine .more (a := cs! "\r\n\t") (k := cs! "\"b\\u00e9\\n/\"") (b := []) (c := [' ']) (w := cs! "{}") (d := []) (ws rfl) ⟨cs! "b\\u00e9\\n/", rfl, ?_⟩ (ws rfl) (fits rfl) (ws rfl)
    (.noMembers (g := []) (ws rfl)) (ws rfl) ?_
  · refine raw rfl (.code (ds := cs! "00e9") (n := 0xe9) rfl ?_ ?_ (.escape (n := 0x0A) (by decide) (raw rfl .nil)))
    · exact .snoc (ds := cs! "00e") (k := 14) (n := 9) (.snoc (ds := cs! "00") (k := 0) (n := 14) (.snoc (ds := ['0']) (k := 0) (n := 0) (.snoc (ds := []) (k := 0) (n := 0) .nil
        (Or.inl (by decide))) (Or.inl (by decide))) (Or.inr (by decide))) (Or.inl (by decide))
    · exact Or.inl (by decide)
  exact .one (a := [' ']) (k := cs! "\"\"") (b := []) (c := []) (w := cs! "\"é#: \\\"\"") (d := [' ']) (ws rfl) ⟨[], rfl, .nil⟩ (ws rfl) (fits rfl) (ws rfl)
    (.string ⟨cs! "é#: \\\"", rfl, raw rfl (raw rfl (raw rfl (raw rfl (.escape (n := 0x22) (by decide) .nil))))⟩) (ws rfl)

/-- The hypotheses of `C56_json` and `C56_load` are met: the sample text, in two pieces, with a byte order mark. -/
theorem C56_sample : JsonText sampleJson sampleValue ∧ (∀ c ∈ sampleJson, Allowed c) ∧
    ∃ a b, DeliversUtf8 .any [.data (bom8 ++ a), .data b] sampleJson ∧ srcSize [.data (bom8 ++ a), .data b] < 2 ^ 31 := by
  refine ⟨sample_text, fun c hc => ?_, (utf8Encode sampleJson).take 20, (utf8Encode sampleJson).drop 20, ⟨?_, Or.inr ⟨rfl, ?_, Or.inr ?_⟩⟩, ?_⟩
  · have h : (sampleJson.all isAllowed) = true := by decide +kernel
    exact allowed_iff.1 (List.all_eq_true.1 h c hc)
  · simp [Quiet]
  · simp [Prompt, bom8]
  · decide +kernel
  · decide +kernel

end Yaml.Props
