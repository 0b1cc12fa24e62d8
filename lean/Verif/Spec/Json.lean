import Verif.Spec.Scalars
import Verif.Spec.Directives
import Verif.Spec.TokenGrammar
import Verif.Spec.Compose

/-
JSON texts (RFC 8259) and what they denote, independent of the scanner and parser models.

The limits that YAML 1.1 and this library put on JSON texts are part of the definitions and marked (Y).
-/

namespace Yaml.Spec

/-- A JSON value; numbers and the literals `true`, `false`, `null` are kept as they are written. -/
inductive Json where
  | word (text : Str)
  | str (value : Str)
  | arr (items : List Json)
  | obj (members : List (Str × Json))

/-- White space. -/
def JsonWs (g : Str) : Prop := ∀ c ∈ g, c = ' ' ∨ c = '\t' ∨ c = '\n' ∨ c = '\r'

/-- Digits, at least one. -/
def Digits (w : Str) : Prop := w ≠ [] ∧ ∀ c ∈ w, IsDigit c

/-- Numbers: an optional minus sign, an integer part without superfluous zeros, an optional fraction and an
optional exponent. -/
def JsonNumber (w : Str) : Prop :=
  ∃ sign int frac exp : Str, w = sign ++ (int ++ (frac ++ exp)) ∧ (sign = [] ∨ sign = ['-']) ∧
    Digits int ∧ (int.head? = some '0' → int = ['0']) ∧
    (frac = [] ∨ ∃ ds, frac = '.' :: ds ∧ Digits ds) ∧
    (exp = [] ∨ ∃ e s ds, exp = e :: (s ++ ds) ∧ (e = 'e' ∨ e = 'E') ∧ (s = [] ∨ s = ['+'] ∨ s = ['-']) ∧ Digits ds)

/-- The single-character escapes and the code points they denote. -/
def jsonEscapes : List (Char × Nat) :=
  [('"', 0x22), ('\\', 0x5C), ('/', 0x2F), ('b', 0x08), ('f', 0x0C), ('n', 0x0A), ('r', 0x0D), ('t', 0x09)]

/-- `JsonChars t v`: between quotes `t` denotes `v`.  (Y) No line breaks other than CR and LF (which JSON does not
allow either) stand for themselves: not U+0085, U+2028, U+2029.  (Y) No surrogates are escaped. -/
inductive JsonChars : Str → Str → Prop
  | nil : JsonChars [] []
  | raw {c : Char} {t v : Str} (h : 0x20 ≤ c.toNat ∧ c ≠ '"' ∧ c ≠ '\\') (hb : isLineBreak c = false) (ht : JsonChars t v) : JsonChars (c :: t) (c :: v)
  | escape {e : Char} {n : Nat} {t v : Str} (h : (e, n) ∈ jsonEscapes) (ht : JsonChars t v) : JsonChars ('\\' :: e :: t) (Char.ofNat n :: v)
  | code {ds t v : Str} {n : Nat} (hl : ds.length = 4) (hn : HexNum ds n) (hs : IsScalar n) (ht : JsonChars t v) :
      JsonChars ('\\' :: 'u' :: (ds ++ t)) (Char.ofNat n :: v)

/-- Strings. -/
def JsonString (w v : Str) : Prop := ∃ t, w = '"' :: (t ++ ['"']) ∧ JsonChars t v

/-- (Y) The key `k` and the white space `g` before the colon are on one line, of at most 1024 bytes. -/
def KeyFits (k g : Str) : Prop := (∀ c ∈ g, isLineBreak c = false) ∧ (position (k ++ g)).index ≤ 1024

mutual
/-- `JsonValue w v`: the text `w` denotes `v`. -/
inductive JsonValue : Str → Json → Prop
  | literal {w : Str} (h : w = cs! "true" ∨ w = cs! "false" ∨ w = cs! "null") : JsonValue w (.word w)
  | number {w : Str} (h : JsonNumber w) : JsonValue w (.word w)
  | string {w v : Str} (h : JsonString w v) : JsonValue w (.str v)
  | noItems {g : Str} (hg : JsonWs g) : JsonValue ('[' :: (g ++ [']'])) (.arr [])
  | array {w : Str} {vs : List Json} (h : JsonItems w vs) : JsonValue ('[' :: (w ++ [']'])) (.arr vs)
  | noMembers {g : Str} (hg : JsonWs g) : JsonValue ('{' :: (g ++ ['}'])) (.obj [])
  | object {w : Str} {ms : List (Str × Json)} (h : JsonMembers w ms) : JsonValue ('{' :: (w ++ ['}'])) (.obj ms)
/-- The items of an array, with the white space around them. -/
inductive JsonItems : Str → List Json → Prop
  | one {g w g' : Str} {v : Json} (hg : JsonWs g) (h : JsonValue w v) (hg' : JsonWs g') : JsonItems (g ++ (w ++ g')) [v]
  | more {g w g' r : Str} {v : Json} {vs : List Json} (hg : JsonWs g) (h : JsonValue w v) (hg' : JsonWs g') (hr : JsonItems r vs) :
      JsonItems (g ++ (w ++ (g' ++ ',' :: r))) (v :: vs)
/-- The members of an object, with the white space around them. -/
inductive JsonMembers : Str → List (Str × Json) → Prop
  | one {a k b c w d n : Str} {v : Json} (ha : JsonWs a) (hk : JsonString k n) (hb : JsonWs b) (hf : KeyFits k b) (hc : JsonWs c)
      (h : JsonValue w v) (hd : JsonWs d) : JsonMembers (a ++ (k ++ (b ++ ':' :: (c ++ (w ++ d))))) [(n, v)]
  | more {a k b c w d n r : Str} {v : Json} {ms : List (Str × Json)} (ha : JsonWs a) (hk : JsonString k n) (hb : JsonWs b) (hf : KeyFits k b)
      (hc : JsonWs c) (h : JsonValue w v) (hd : JsonWs d) (hr : JsonMembers r ms) :
      JsonMembers (a ++ (k ++ (b ++ ':' :: (c ++ (w ++ (d ++ ',' :: r)))))) ((n, v) :: ms)
end

/-- `JsonText T v`: a whole text.  (Y) No tabs around the value. -/
def JsonText (T : Str) (v : Json) : Prop :=
  ∃ g w g', T = g ++ (w ++ g') ∧ JsonValue w v ∧ JsonWs g ∧ JsonWs g' ∧ '\t' ∉ g ∧ '\t' ∉ g'

mutual
/-- The events of a value: words are plain scalars, strings are double-quoted scalars, arrays and objects are
flow collections. -/
def Json.events : Json → List EventData
  | .word w => [.scalar none none w true false .plain]
  | .str s => [.scalar none none s false true .doubleQuoted]
  | .arr vs => .sequenceStart none none true .flow :: (itemEvents vs ++ [.sequenceEnd])
  | .obj ms => .mappingStart none none true .flow :: (memberEvents ms ++ [.mappingEnd])
/-- ... of the items of an array. -/
def itemEvents : List Json → List EventData
  | [] => []
  | v :: vs => v.events ++ itemEvents vs
/-- ... of the members of an object. -/
def memberEvents : List (Str × Json) → List EventData
  | [] => []
  | (n, v) :: ms => .scalar none none n false true .doubleQuoted :: (v.events ++ memberEvents ms)
end

/-- The events of a text: one document, started and ended implicitly. -/
def jsonStream (e : Encoding) (v : Json) : List EventData :=
  .streamStart e :: .documentStart none [] true :: (v.events ++ [.documentEnd true, .streamEnd])

/-- Node `i` of a document. -/
def NodeIs (nodes : List Node) (i : Nat) (data : NodeData) (tag : Str) : Prop :=
  ∃ k n, i = k + 1 ∧ nodes[k]? = some n ∧ n.data = data ∧ n.tag = some tag

mutual
/-- `JsonNode nodes i v`: node `i` of a document represents the value `v`. -/
inductive JsonNode (nodes : List Node) : Nat → Json → Prop
  | word {i : Nat} {w : Str} (h : NodeIs nodes i (.scalar w .plain) (cs! "tag:yaml.org,2002:str")) : JsonNode nodes i (.word w)
  | str {i : Nat} {s : Str} (h : NodeIs nodes i (.scalar s .doubleQuoted) (cs! "tag:yaml.org,2002:str")) : JsonNode nodes i (.str s)
  | arr {i : Nat} {is : List Nat} {vs : List Json} (h : NodeIs nodes i (.sequence is .flow) (cs! "tag:yaml.org,2002:seq"))
      (hi : JsonNodes nodes is vs) : JsonNode nodes i (.arr vs)
  | obj {i : Nat} {ps : List (Nat × Nat)} {ms : List (Str × Json)} (h : NodeIs nodes i (.mapping ps .flow) (cs! "tag:yaml.org,2002:map"))
      (hi : JsonPairs nodes ps ms) : JsonNode nodes i (.obj ms)
/-- The items of an array, in order. -/
inductive JsonNodes (nodes : List Node) : List Nat → List Json → Prop
  | nil : JsonNodes nodes [] []
  | cons {i : Nat} {v : Json} {is : List Nat} {vs : List Json} (h : JsonNode nodes i v) (hs : JsonNodes nodes is vs) : JsonNodes nodes (i :: is) (v :: vs)
/-- The members of an object, in order. -/
inductive JsonPairs (nodes : List Node) : List (Nat × Nat) → List (Str × Json) → Prop
  | nil : JsonPairs nodes [] []
  | cons {i j : Nat} {n : Str} {v : Json} {ps : List (Nat × Nat)} {ms : List (Str × Json)}
      (hk : NodeIs nodes i (.scalar n .doubleQuoted) (cs! "tag:yaml.org,2002:str")) (h : JsonNode nodes j v) (hs : JsonPairs nodes ps ms) :
      JsonPairs nodes ((i, j) :: ps) ((n, v) :: ms)
end

end Yaml.Spec
