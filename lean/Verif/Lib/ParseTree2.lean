import Verif.Lib.ParseTree

/-
Tokens that derive from the grammar are parsed to the events they stand for: nodes.
-/

namespace Yaml
open Spec Parser
set_option linter.unusedSimpArgs false
set_option linter.unusedVariables false

variable {fin : Out Token} {F : Nat} {D : List TagDirective}

/-- A node is parsed. -/
def NodeClaim (F : Nat) (fin : Out Token) (D : List TagDirective) (b i : Bool) (ts : List TokenData) (es : List EventData) : Prop :=
  (∃ t ts', ts = t :: ts' ∧ (starts t = true ∨ i = true ∧ t = .blockEntry)) ∧
  ∀ x r l t rest, x ≠ .end_ → l.map (·.data) = ts → follows i t.data = true →
    Begins F fin (parseNode b i) (x :: r) (withDefaults D) (l ++ t :: rest) es x r (withDefaults D) (t :: rest)

/-- A node or nothing is parsed. -/
def OptClaim (F : Nat) (fin : Out Token) (D : List TagDirective) (b i : Bool) (ts : List TokenData) (es : List EventData) : Prop :=
  (ts = [] ∧ es = [emptyNode]) ∨ NodeClaim F fin D b i ts es

/-- What is proved of each phrase. -/
def Claim (F : Nat) (fin : Out Token) (D : List TagDirective) : Phrase → List TokenData → List EventData → Prop
  | .node b i, ts, es => NodeClaim F fin D b i ts es
  | .opt b i, ts, es => OptClaim F fin D b i ts es
  | .items, ts, es => (∀ t ts', ts = t :: ts' → t = .blockEntry) ∧
    (∀ x r l t rest, x ≠ .end_ → l.map (·.data) = ts → t.data = .blockEnd →
      Begins F fin (parseBlockSequenceEntry false) (x :: r) (withDefaults D) (l ++ t :: rest) (es ++ [.sequenceEnd]) x r (withDefaults D) rest) ∧
    (∀ x r l t rest, x ≠ .end_ → l.map (·.data) = ts → isKV t.data →
      Begins F fin parseIndentlessSequenceEntry (x :: r) (withDefaults D) (l ++ t :: rest) (es ++ [.sequenceEnd]) x r (withDefaults D) (t :: rest))
  | .entries, ts, es => (∀ t ts', ts = t :: ts' → t = .key) ∧
    (∀ x r l t rest, x ≠ .end_ → l.map (·.data) = ts → t.data = .blockEnd →
      Begins F fin (parseBlockMappingKey false) (x :: r) (withDefaults D) (l ++ t :: rest) (es ++ [.mappingEnd]) x r (withDefaults D) rest)
  | .flowItem, ts, es => ∀ first r t0 l t rest, isBefore .flowSequenceStart first t0.data → l.map (·.data) = ts →
      (t.data = .flowEntry ∨ t.data = .flowSequenceEnd) →
      Begins F fin (parseFlowSequenceEntry first) r (withDefaults D) (t0 :: (l ++ t :: rest)) es .flowSequenceEntry r (withDefaults D) (t :: rest)
  | .flowItems, ts, es => ∀ first x r t0 l t rest, x ≠ .end_ → isBefore .flowSequenceStart first t0.data → l.map (·.data) = ts → t.data = .flowSequenceEnd →
      Begins F fin (parseFlowSequenceEntry first) (x :: r) (withDefaults D) (t0 :: (l ++ t :: rest)) (es ++ [.sequenceEnd]) x r (withDefaults D) rest
  | .flowEntry, ts, es => ∀ first r t0 l t rest, isBefore .flowMappingStart first t0.data → l.map (·.data) = ts →
      (t.data = .flowEntry ∨ t.data = .flowMappingEnd) →
      Begins F fin (parseFlowMappingKey first) r (withDefaults D) (t0 :: (l ++ t :: rest)) es .flowMappingKey r (withDefaults D) (t :: rest)
  | .flowEntries, ts, es => ∀ first x r t0 l t rest, x ≠ .end_ → isBefore .flowMappingStart first t0.data → l.map (·.data) = ts → t.data = .flowMappingEnd →
      Begins F fin (parseFlowMappingKey first) (x :: r) (withDefaults D) (t0 :: (l ++ t :: rest)) (es ++ [.mappingEnd]) x r (withDefaults D) rest

section
variable {ts : List TokenData} {es : List EventData} {b i : Bool}

/-- The first token of a node, within the tokens. -/
theorem NodeClaim.head (h : NodeClaim F fin D b i ts es) {l : List Token} (hl : l.map (·.data) = ts) :
    ∃ t l', l = t :: l' ∧ (starts t.data = true ∨ i = true ∧ t.data = .blockEntry) := by
  obtain ⟨⟨t, ts', rfl, ht⟩, _⟩ := h
  obtain ⟨t1, l', rfl, h1, h2⟩ := List.map_eq_cons_iff.1 hl
  exact ⟨t1, l', rfl, by rw [h1]; exact ht⟩

theorem starts_not {d : TokenData} (h : starts d = true) : d ≠ .blockEntry ∧ d ≠ .key ∧ d ≠ .value ∧ d ≠ .blockEnd ∧ d ≠ .flowEntry ∧
    d ≠ .flowSequenceEnd ∧ d ≠ .flowMappingEnd ∧ endsDocumentContent d = false ∧ startsExplicitDocument d = false := by
  cases d <;> simp_all [starts, endsDocumentContent, startsExplicitDocument]

theorem OptClaim.item (h : OptClaim F fin D true false ts es) {l : List Token} (hl : l.map (·.data) = ts) {te t : Token} {r : List PSt} {rest : List Token}
    (he : te.data = .blockEntry) (ht : t.data = .blockEntry ∨ t.data = .blockEnd) :
    Begins F fin (parseBlockSequenceEntry false) r (withDefaults D) (te :: (l ++ t :: rest)) es .blockSequenceEntry r (withDefaults D) (t :: rest) := by
  rcases h with ⟨rfl, rfl⟩ | h
  · have : l = [] := List.map_eq_nil_iff.1 hl
    subst this
    exact (does_itemEmpty he ht).begins
  · obtain ⟨t1, l', rfl, h1⟩ := h.head hl
    have h1 : starts t1.data = true := by simpa using h1
    have h2 := starts_not h1
    exact (h.2 .blockSequenceEntry r _ t rest (by simp) hl (by rcases ht with ht | ht <;> rw [ht] <;> rfl)).via
      fun _ _ _ _ _ hd => does_item he ⟨h2.1, h2.2.2.2.1⟩ hd

theorem OptClaim.ind (h : OptClaim F fin D true false ts es) {l : List Token} (hl : l.map (·.data) = ts) {te t : Token} {r : List PSt} {rest : List Token}
    (he : te.data = .blockEntry) (ht : t.data = .blockEntry ∨ isKV t.data) :
    Begins F fin parseIndentlessSequenceEntry r (withDefaults D) (te :: (l ++ t :: rest)) es .indentlessSequenceEntry r (withDefaults D) (t :: rest) := by
  rcases h with ⟨rfl, rfl⟩ | h
  · have : l = [] := List.map_eq_nil_iff.1 hl
    subst this
    exact (does_indItemEmpty he ht).begins
  · obtain ⟨t1, l', rfl, h1⟩ := h.head hl
    have h1 : starts t1.data = true := by simpa using h1
    have h2 := starts_not h1
    exact (h.2 .indentlessSequenceEntry r _ t rest (by simp) hl (by rcases ht with ht | ht | ht | ht <;> rw [ht] <;> rfl)).via
      fun _ _ _ _ _ hd => does_indItem he ⟨h2.1, h2.2.1, h2.2.2.1, h2.2.2.2.1⟩ hd

theorem OptClaim.key (h : OptClaim F fin D true true ts es) {l : List Token} (hl : l.map (·.data) = ts) {te t : Token} {r : List PSt} {rest : List Token}
    (he : te.data = .key) (ht : isKV t.data) :
    Begins F fin (parseBlockMappingKey false) r (withDefaults D) (te :: (l ++ t :: rest)) es .blockMappingValue r (withDefaults D) (t :: rest) := by
  rcases h with ⟨rfl, rfl⟩ | h
  · have : l = [] := List.map_eq_nil_iff.1 hl
    subst this
    exact (does_keyEmpty he ht).begins
  · obtain ⟨t1, l', rfl, h1⟩ := h.head hl
    have h2 : ¬ isKV t1.data := by
      rcases h1 with h1 | ⟨_, h1⟩
      · have := starts_not h1
        unfold isKV; simp [this]
      · rw [h1]; unfold isKV; simp
    exact (h.2 .blockMappingValue r _ t rest (by simp) hl (by rcases ht with ht | ht | ht <;> rw [ht] <;> rfl)).via
      fun _ _ _ _ _ hd => does_key he h2 hd

theorem OptClaim.value (h : OptClaim F fin D true true ts es) {l : List Token} (hl : l.map (·.data) = ts) {te t : Token} {r : List PSt} {rest : List Token}
    (he : te.data = .value) (ht : isKV t.data) :
    Begins F fin parseBlockMappingValue r (withDefaults D) (te :: (l ++ t :: rest)) es .blockMappingKey r (withDefaults D) (t :: rest) := by
  rcases h with ⟨rfl, rfl⟩ | h
  · have : l = [] := List.map_eq_nil_iff.1 hl
    subst this
    exact (does_valueEmpty he ht).begins
  · obtain ⟨t1, l', rfl, h1⟩ := h.head hl
    have h2 : ¬ isKV t1.data := by
      rcases h1 with h1 | ⟨_, h1⟩
      · have := starts_not h1
        unfold isKV; simp [this]
      · rw [h1]; unfold isKV; simp
    exact (h.2 .blockMappingKey r _ t rest (by simp) hl (by rcases ht with ht | ht | ht <;> rw [ht] <;> rfl)).via
      fun _ _ _ _ _ hd => does_value he h2 hd

theorem OptClaim.pairValue (h : OptClaim F fin D false false ts es) {l : List Token} (hl : l.map (·.data) = ts) {te t : Token} {r : List PSt} {rest : List Token}
    (he : te.data = .value) (ht : t.data = .flowEntry ∨ t.data = .flowSequenceEnd) :
    Begins F fin parseFlowSequenceEntryMappingValue r (withDefaults D) (te :: (l ++ t :: rest)) es .flowSequenceEntryMappingEnd r (withDefaults D) (t :: rest) := by
  rcases h with ⟨rfl, rfl⟩ | h
  · have : l = [] := List.map_eq_nil_iff.1 hl
    subst this
    exact (pair_valueEmpty he ht).begins
  · obtain ⟨t1, l', rfl, h1⟩ := h.head hl
    have h1 : starts t1.data = true := by simpa using h1
    have h2 := starts_not h1
    exact (h.2 .flowSequenceEntryMappingEnd r _ t rest (by simp) hl (by rcases ht with ht | ht <;> rw [ht] <;> rfl)).via
      fun _ _ _ _ _ hd => pair_value he ⟨h2.2.2.2.2.1, h2.2.2.2.2.2.1⟩ hd

theorem OptClaim.flowKey (h : OptClaim F fin D false false ts es) {l : List Token} (hl : l.map (·.data) = ts) {t0 te t : Token} {r : List PSt} {rest : List Token}
    {first : Bool} (h0 : isBefore .flowMappingStart first t0.data) (he : te.data = .key) (ht : isFKV t.data) :
    Begins F fin (parseFlowMappingKey first) r (withDefaults D) (t0 :: te :: (l ++ t :: rest)) es .flowMappingValue r (withDefaults D) (t :: rest) := by
  rcases h with ⟨rfl, rfl⟩ | h
  · have : l = [] := List.map_eq_nil_iff.1 hl
    subst this
    exact (flowMap_keyEmpty h0 he ht).begins
  · obtain ⟨t1, l', rfl, h1⟩ := h.head hl
    have h1 : starts t1.data = true := by simpa using h1
    have h2 := starts_not h1
    exact (h.2 .flowMappingValue r _ t rest (by simp) hl (by rcases ht with ht | ht | ht <;> rw [ht] <;> rfl)).via
      fun _ _ _ _ _ hd => flowMap_key h0 he (by unfold isFKV; simp [h2]) hd

theorem OptClaim.flowValue (h : OptClaim F fin D false false ts es) {l : List Token} (hl : l.map (·.data) = ts) {te t : Token} {r : List PSt} {rest : List Token}
    (he : te.data = .value) (ht : t.data = .flowEntry ∨ t.data = .flowMappingEnd) :
    Begins F fin (parseFlowMappingValue false) r (withDefaults D) (te :: (l ++ t :: rest)) es .flowMappingKey r (withDefaults D) (t :: rest) := by
  rcases h with ⟨rfl, rfl⟩ | h
  · have : l = [] := List.map_eq_nil_iff.1 hl
    subst this
    exact (flowMap_valueEmpty he ht).begins
  · obtain ⟨t1, l', rfl, h1⟩ := h.head hl
    have h1 : starts t1.data = true := by simpa using h1
    have h2 := starts_not h1
    exact (h.2 .flowMappingKey r _ t rest (by simp) hl (by rcases ht with ht | ht <;> rw [ht] <;> rfl)).via
      fun _ _ _ _ _ hd => flowMap_value he ⟨h2.2.2.2.2.1, h2.2.2.2.2.2.2.1⟩ hd

end

/-- The first token of a list of items followed by something. -/
theorem head_append {P : TokenData → Prop} {ts : List TokenData} {l : List Token} {t : Token} {rest : List Token} (hl : l.map (·.data) = ts)
    (h1 : ∀ d ts', ts = d :: ts' → P d) (h2 : P t.data) : ∃ t1 l1, l ++ t :: rest = t1 :: l1 ∧ P t1.data := by
  cases l with
  | nil => exact ⟨t, rest, rfl, h2⟩
  | cons a l => exact ⟨a, l ++ t :: rest, rfl, h1 _ _ hl.symm⟩

theorem props_start {D : List TagDirective} {ps : List TokenData} {anchor tag : Option Str} (hp : IsProps D ps anchor tag) {i : Bool} (d : TokenData) (ts : List TokenData)
    (hd : starts d = true ∨ i = true ∧ d = .blockEntry) :
    ∃ t ts', ps ++ d :: ts = t :: ts' ∧ (starts t = true ∨ i = true ∧ t = .blockEntry) := by
  cases hp with
  | none => exact ⟨d, ts, rfl, hd⟩
  | _ => exact ⟨_, _, rfl, Or.inl rfl⟩

/-- Every phrase is parsed to its events. -/
theorem derives_claim {lax : Bool} {ph : Phrase} {ts : List TokenData} {es : List EventData} (h : Derives lax D ph ts es) : Claim F fin D ph ts es := by
  induction h with
  | alias name =>
    refine ⟨⟨_, _, rfl, Or.inl rfl⟩, ?_⟩
    intro x r l t rest hx hl ht
    obtain ⟨t1, rfl, h1⟩ := List.map_eq_singleton_iff.1 hl
    exact (does_alias h1 hx).begins
  | scalar hp value style =>
    refine ⟨props_start hp _ _ (Or.inl rfl), ?_⟩
    intro x r l t rest hx hl ht
    obtain ⟨lp, l2, rfl, h1, h2⟩ := List.map_eq_append_iff.1 hl
    obtain ⟨t1, rfl, h1'⟩ := List.map_eq_singleton_iff.1 h2
    rw [List.append_assoc]
    exact (does_scalar hp h1 h1' hx).begins
  | bare hp hne =>
    refine ⟨?_, ?_⟩
    · cases hp with
      | none => exact absurd rfl hne
      | _ => exact ⟨_, _, rfl, Or.inl rfl⟩
    intro x r l t rest hx hl ht
    exact (does_bare hp hl hne ht hx).begins
  | blockSeq hp h ih =>
    refine ⟨props_start hp _ _ (Or.inl rfl), ?_⟩
    intro x r l t rest hx hl ht
    obtain ⟨lp, l2, rfl, h1, h2⟩ := List.map_eq_append_iff.1 hl
    obtain ⟨ts, l3, rfl, hs, h3⟩ := List.map_eq_cons_iff.1 h2
    obtain ⟨li, l4, rfl, h4, h5⟩ := List.map_eq_append_iff.1 h3
    obtain ⟨te, rfl, he⟩ := List.map_eq_singleton_iff.1 h5
    have e : lp ++ ts :: (li ++ [te]) ++ t :: rest = lp ++ ts :: (li ++ te :: (t :: rest)) := by simp
    rw [e]
    refine ⟨_, _, _, _, _, _, rfl, does_blockSeq hp h1 hs, Begins.calls ?_ (by simp)⟩
    exact (ih.2.1 x r li te (t :: rest) hx h4 he).via fun _ _ _ _ _ hd => enter_blockSeq hd (by rw [hs]; simp)
  | indentless hp h hne ih =>
    rename_i ps ts anchor tag es
    have hcons : ∃ d ts', ts = d :: ts' ∧ d = .blockEntry := by
      cases ts with
      | nil => exact absurd rfl hne
      | cons d ts' => exact ⟨d, ts', rfl, ih.1 _ _ rfl⟩
    obtain ⟨d, ts', rfl, rfl⟩ := hcons
    refine ⟨props_start hp _ _ (Or.inr ⟨rfl, rfl⟩), ?_⟩
    intro x r l t rest hx hl ht
    obtain ⟨lp, l2, rfl, h1, h2⟩ := List.map_eq_append_iff.1 hl
    obtain ⟨t1, l3, rfl, hs, h3⟩ := List.map_eq_cons_iff.1 h2
    rw [List.append_assoc]
    refine ⟨_, _, _, _, _, _, rfl, does_indentless hp h1 hs, Begins.calls ?_ (by simp)⟩
    refine ih.2.2 x r (t1 :: l3) t rest hx h2 ?_
    generalize t.data = d at ht
    unfold isKV
    cases d <;> simp_all [follows]
  | blockMap hp h ih =>
    refine ⟨props_start hp _ _ (Or.inl rfl), ?_⟩
    intro x r l t rest hx hl ht
    obtain ⟨lp, l2, rfl, h1, h2⟩ := List.map_eq_append_iff.1 hl
    obtain ⟨ts, l3, rfl, hs, h3⟩ := List.map_eq_cons_iff.1 h2
    obtain ⟨li, l4, rfl, h4, h5⟩ := List.map_eq_append_iff.1 h3
    obtain ⟨te, rfl, he⟩ := List.map_eq_singleton_iff.1 h5
    have e : lp ++ ts :: (li ++ [te]) ++ t :: rest = lp ++ ts :: (li ++ te :: (t :: rest)) := by simp
    rw [e]
    refine ⟨_, _, _, _, _, _, rfl, does_blockMap hp h1 hs, Begins.calls ?_ (by simp)⟩
    exact (ih.2 x r li te (t :: rest) hx h4 he).via fun _ _ _ _ _ hd => enter_blockMap hd (by rw [hs]; simp)
  | flowSeq hp h ih =>
    refine ⟨props_start hp _ _ (Or.inl rfl), ?_⟩
    intro x r l t rest hx hl ht
    obtain ⟨lp, l2, rfl, h1, h2⟩ := List.map_eq_append_iff.1 hl
    obtain ⟨ts, l3, rfl, hs, h3⟩ := List.map_eq_cons_iff.1 h2
    obtain ⟨li, l4, rfl, h4, h5⟩ := List.map_eq_append_iff.1 h3
    obtain ⟨te, rfl, he⟩ := List.map_eq_singleton_iff.1 h5
    have e : lp ++ ts :: (li ++ [te]) ++ t :: rest = lp ++ ts :: (li ++ te :: (t :: rest)) := by simp
    rw [e]
    refine ⟨_, _, _, _, _, _, rfl, does_flowSeq hp h1 hs, Begins.calls ?_ (by simp)⟩
    exact ih true x r ts li te (t :: rest) hx hs h4 he
  | flowMap hp h ih =>
    refine ⟨props_start hp _ _ (Or.inl rfl), ?_⟩
    intro x r l t rest hx hl ht
    obtain ⟨lp, l2, rfl, h1, h2⟩ := List.map_eq_append_iff.1 hl
    obtain ⟨ts, l3, rfl, hs, h3⟩ := List.map_eq_cons_iff.1 h2
    obtain ⟨li, l4, rfl, h4, h5⟩ := List.map_eq_append_iff.1 h3
    obtain ⟨te, rfl, he⟩ := List.map_eq_singleton_iff.1 h5
    have e : lp ++ ts :: (li ++ [te]) ++ t :: rest = lp ++ ts :: (li ++ te :: (t :: rest)) := by simp
    rw [e]
    refine ⟨_, _, _, _, _, _, rfl, does_flowMap hp h1 hs, Begins.calls ?_ (by simp)⟩
    exact ih true x r ts li te (t :: rest) hx hs h4 he
  | nothing => exact Or.inl ⟨rfl, rfl⟩
  | some h ih => exact Or.inr ih
  | noItems =>
    refine ⟨by simp, ?_, ?_⟩
    · intro x r l t rest hx hl ht
      have : l = [] := List.map_eq_nil_iff.1 hl
      subst this
      exact (does_seqEnd ht hx).begins
    · intro x r l t rest hx hl ht
      have : l = [] := List.map_eq_nil_iff.1 hl
      subst this
      exact (does_indEnd (by rcases ht with ht | ht | ht <;> rw [ht] <;> simp) hx).begins
  | item h hs ih ihs =>
    refine ⟨by intro t ts' h; cases h; rfl, ?_, ?_⟩
    · intro x r l t rest hx hl ht
      obtain ⟨t1, l2, rfl, h1, h2⟩ := List.map_eq_cons_iff.1 hl
      obtain ⟨ln, li, rfl, h3, h4⟩ := List.map_eq_append_iff.1 h2
      obtain ⟨t2, l5, e, h5⟩ := head_append (P := fun d => d = .blockEntry ∨ d = .blockEnd) (t := t) (rest := rest) h4 (fun d ts' h => Or.inl (ihs.1 d ts' h)) (Or.inr ht)
      have e' : t1 :: (ln ++ li) ++ t :: rest = t1 :: (ln ++ t2 :: l5) := by simp [← e]
      rw [e', List.append_assoc]
      refine (ih.item h3 h1 h5).then ?_
      rw [← e]
      exact (ihs.2.1 x r li t rest hx h4 ht).calls (by simp)
    · intro x r l t rest hx hl ht
      obtain ⟨t1, l2, rfl, h1, h2⟩ := List.map_eq_cons_iff.1 hl
      obtain ⟨ln, li, rfl, h3, h4⟩ := List.map_eq_append_iff.1 h2
      obtain ⟨t2, l5, e, h5⟩ := head_append (P := fun d => d = .blockEntry ∨ isKV d) (t := t) (rest := rest) h4 (fun d ts' h => Or.inl (ihs.1 d ts' h)) (Or.inr ht)
      have e' : t1 :: (ln ++ li) ++ t :: rest = t1 :: (ln ++ t2 :: l5) := by simp [← e]
      rw [e', List.append_assoc]
      refine (ih.ind h3 h1 h5).then ?_
      rw [← e]
      exact (ihs.2.2 x r li t rest hx h4 ht).calls (by simp)
  | noEntries =>
    refine ⟨by simp, ?_⟩
    intro x r l t rest hx hl ht
    have : l = [] := List.map_eq_nil_iff.1 hl
    subst this
    exact (does_mapEnd ht hx).begins
  | keyOnly h hs ih ihs =>
    refine ⟨by intro t ts' h; cases h; rfl, ?_⟩
    intro x r l t rest hx hl ht
    obtain ⟨t1, l2, rfl, h1, h2⟩ := List.map_eq_cons_iff.1 hl
    obtain ⟨ln, li, rfl, h3, h4⟩ := List.map_eq_append_iff.1 h2
    obtain ⟨t2, l5, e, h5⟩ := head_append (P := fun d => d = .key ∨ d = .blockEnd) (t := t) (rest := rest) h4 (fun d ts' h => Or.inl (ihs.1 d ts' h)) (Or.inr ht)
    have e' : t1 :: (ln ++ li) ++ t :: rest = t1 :: (ln ++ t2 :: l5) := by simp [← e]
    rw [e', List.append_assoc]
    refine (ih.key h3 h1 (by unfold isKV; rcases h5 with h5 | h5 <;> simp [h5])).then ?_
    refine .cons (by simp) (does_noValue (by rcases h5 with h5 | h5 <;> simp [h5])) ?_
    rw [← e]
    exact (ihs.2 x r li t rest hx h4 ht).calls (by simp)
  | keyValue h hv hs ih ihv ihs =>
    refine ⟨by intro t ts' h; cases h; rfl, ?_⟩
    intro x r l t rest hx hl ht
    obtain ⟨t1, l2, rfl, h1, h2⟩ := List.map_eq_cons_iff.1 hl
    obtain ⟨ln, l3, rfl, h3, h4⟩ := List.map_eq_append_iff.1 h2
    obtain ⟨tv, l4, rfl, hv, h4⟩ := List.map_eq_cons_iff.1 h4
    obtain ⟨lv, li, rfl, h6, h4⟩ := List.map_eq_append_iff.1 h4
    obtain ⟨t2, l5, e, h5⟩ := head_append (P := fun d => d = .key ∨ d = .blockEnd) (t := t) (rest := rest) h4 (fun d ts' h => Or.inl (ihs.1 d ts' h)) (Or.inr ht)
    have e' : t1 :: (ln ++ tv :: (lv ++ li)) ++ t :: rest = t1 :: (ln ++ tv :: (lv ++ t2 :: l5)) := by simp [← e]
    rw [e', List.append_assoc, List.append_assoc]
    refine (ih.key h3 h1 (by unfold isKV; simp [hv])).then ?_
    refine Calls.trans ((ihv.value h6 hv (by unfold isKV; rcases h5 with h5 | h5 <;> simp [h5])).calls (by simp)) ?_
    rw [← e]
    exact (ihs.2 x r li t rest hx h4 ht).calls (by simp)
  | itemNode h ih =>
    intro first r t0 l t rest h0 hl ht
    obtain ⟨t1, l', rfl, h1⟩ := ih.head hl
    have h2 := starts_not (show starts t1.data = true by simpa using h1)
    exact (ih.2 .flowSequenceEntry r _ t rest (by simp) hl (by rcases ht with ht | ht <;> rw [ht] <;> rfl)).via
      fun _ _ _ _ _ hd => flowSeq_node h0 ⟨h2.2.1, h2.2.2.2.2.2.1⟩ hd
  | itemKey h ih =>
    intro first r t0 l t rest h0 hl ht
    obtain ⟨tk, l2, rfl, hk, h2⟩ := List.map_eq_cons_iff.1 hl
    obtain ⟨t1, l', rfl, h1⟩ := ih.head h2
    have h3 := starts_not (show starts t1.data = true by simpa using h1)
    refine ⟨_, _, _, _, _, _, rfl, flowSeq_pair h0 hk, ?_⟩
    refine Calls.trans (Begins.calls (x := .flowSequenceEntryMappingKey) ?_ (by simp)) (.cons (x := .flowSequenceEntryMappingValue) (by simp) (pair_noValue ?_) (.cons (x := .flowSequenceEntryMappingEnd) (by simp) pair_end .nil))
    · exact (ih.2 .flowSequenceEntryMappingValue r _ t rest (by simp) h2 (by rcases ht with ht | ht <;> rw [ht] <;> rfl)).via
        fun _ _ _ _ _ hd => pair_key ⟨h3.2.2.1, h3.2.2.2.2.1, h3.2.2.2.2.2.1⟩ hd
    · rcases ht with ht | ht <;> rw [ht] <;> simp
  | itemPair h hv ih ihv =>
    intro first r t0 l t rest h0 hl ht
    obtain ⟨tk, l2, rfl, hk, h2⟩ := List.map_eq_cons_iff.1 hl
    obtain ⟨lk, l3, rfl, h2', h4⟩ := List.map_eq_append_iff.1 h2
    obtain ⟨tv, lv, rfl, hv, h4⟩ := List.map_eq_cons_iff.1 h4
    obtain ⟨t1, l', e, h1⟩ := ih.head h2'
    have h3 := starts_not (show starts t1.data = true by simpa using h1)
    refine ⟨_, _, _, _, _, _, rfl, flowSeq_pair h0 hk, ?_⟩
    have e' : (lk ++ tv :: lv) ++ t :: rest = lk ++ tv :: (lv ++ t :: rest) := by simp
    have e'' : lk ++ tv :: (lv ++ t :: rest) = t1 :: (l' ++ tv :: (lv ++ t :: rest)) := by simp [e]
    show Calls F fin _ r (withDefaults D) ((lk ++ tv :: lv) ++ t :: rest) _ _ r (withDefaults D) (t :: rest)
    rw [e']
    refine Calls.trans (Begins.calls (x := .flowSequenceEntryMappingKey) ?_ (by simp)) (Calls.trans (Begins.calls (x := .flowSequenceEntryMappingValue) (ihv.pairValue h4 hv ht) (by simp)) (.cons (x := .flowSequenceEntryMappingEnd) (by simp) pair_end .nil))
    refine (ih.2 .flowSequenceEntryMappingValue r _ tv (lv ++ t :: rest) (by simp) h2' (by rw [hv]; rfl)).via fun _ _ _ _ _ hd => ?_
    rw [e''] at hd ⊢
    exact pair_key ⟨h3.2.2.1, h3.2.2.2.2.1, h3.2.2.2.2.2.1⟩ hd
  | itemLax _ hd =>
    intro first r t0 l t rest h0 hl ht
    obtain ⟨tk, l2, rfl, hk, h2⟩ := List.map_eq_cons_iff.1 hl
    obtain ⟨t1, rfl, h1⟩ := List.map_eq_singleton_iff.1 h2
    refine ⟨_, _, _, _, _, _, rfl, flowSeq_pair h0 hk, ?_⟩
    refine .cons (x := .flowSequenceEntryMappingKey) (by simp) (pair_lax (by rw [h1]; exact hd)) (.cons (x := .flowSequenceEntryMappingValue) (by simp) (pair_noValue ?_) (.cons (x := .flowSequenceEntryMappingEnd) (by simp) pair_end .nil))
    rcases ht with ht | ht <;> rw [ht] <;> simp
  | itemLaxValue _ hd hv ihv =>
    intro first r t0 l t rest h0 hl ht
    obtain ⟨tk, l2, rfl, hk, h2⟩ := List.map_eq_cons_iff.1 hl
    obtain ⟨t1, l3, rfl, h1, h3⟩ := List.map_eq_cons_iff.1 h2
    obtain ⟨tv, lv, rfl, hv, h4⟩ := List.map_eq_cons_iff.1 h3
    refine ⟨_, _, _, _, _, _, rfl, flowSeq_pair h0 hk, ?_⟩
    exact .cons (x := .flowSequenceEntryMappingKey) (by simp) (pair_lax (by rw [h1]; exact hd)) (Calls.trans (Begins.calls (x := .flowSequenceEntryMappingValue) (ihv.pairValue h4 hv ht) (by simp)) (.cons (x := .flowSequenceEntryMappingEnd) (by simp) pair_end .nil))
  | noFlowItems =>
    intro first x r t0 l t rest hx h0 hl ht
    have : l = [] := List.map_eq_nil_iff.1 hl
    subst this
    exact (flowSeq_close h0 ht hx).begins
  | lastItem h ih =>
    intro first x r t0 l t rest hx h0 hl ht
    exact (ih first (x :: r) t0 l t rest h0 hl (Or.inr ht)).then (.cons (by simp) (flowSeq_end ht hx) .nil)
  | moreItems h hs ih ihs =>
    intro first x r t0 l t rest hx h0 hl ht
    obtain ⟨ln, l2, rfl, h1, h2⟩ := List.map_eq_append_iff.1 hl
    obtain ⟨tc, li, rfl, hc, h3⟩ := List.map_eq_cons_iff.1 h2
    rw [List.append_assoc, List.append_assoc]
    exact (ih first (x :: r) t0 ln tc (li ++ t :: rest) h0 h1 (Or.inl hc)).then ((ihs false x r tc li t rest hx hc h3 ht).calls (by simp))
  | entryNode h ih =>
    intro first r t0 l t rest h0 hl ht
    obtain ⟨t1, l', rfl, h1⟩ := ih.head hl
    have h2 := starts_not (show starts t1.data = true by simpa using h1)
    refine Begins.then ((ih.2 .flowMappingEmptyValue r _ t rest (by simp) hl (by rcases ht with ht | ht <;> rw [ht] <;> rfl)).via
      fun _ _ _ _ _ hd => flowMap_node h0 ⟨h2.2.1, h2.2.2.2.2.2.2.1⟩ hd) (.cons (by simp) flowMap_emptyValue .nil)
  | entryKey h ih =>
    intro first r t0 l t rest h0 hl ht
    obtain ⟨tk, l2, rfl, hk, h2⟩ := List.map_eq_cons_iff.1 hl
    refine (ih.flowKey h2 h0 hk (by unfold isFKV; rcases ht with ht | ht <;> simp [ht])).then (.cons (by simp) (flowMap_noValue ?_) .nil)
    rcases ht with ht | ht <;> rw [ht] <;> simp
  | entryPair h hv ih ihv =>
    intro first r t0 l t rest h0 hl ht
    obtain ⟨tk, l2, rfl, hk, h2⟩ := List.map_eq_cons_iff.1 hl
    obtain ⟨lk, l3, rfl, h2', h4⟩ := List.map_eq_append_iff.1 h2
    obtain ⟨tv, lv, rfl, hv, h4⟩ := List.map_eq_cons_iff.1 h4
    have e' : tk :: (lk ++ tv :: lv) ++ t :: rest = tk :: (lk ++ tv :: (lv ++ t :: rest)) := by simp
    rw [e']
    exact (ih.flowKey h2' h0 hk (by unfold isFKV; simp [hv])).then ((ihv.flowValue h4 hv ht).calls (by simp))
  | noFlowEntries =>
    intro first x r t0 l t rest hx h0 hl ht
    have : l = [] := List.map_eq_nil_iff.1 hl
    subst this
    exact (flowMap_close h0 ht hx).begins
  | lastEntry h ih =>
    intro first x r t0 l t rest hx h0 hl ht
    exact (ih first (x :: r) t0 l t rest h0 hl (Or.inr ht)).then (.cons (by simp) (flowMap_end ht hx) .nil)
  | moreEntries h hs ih ihs =>
    intro first x r t0 l t rest hx h0 hl ht
    obtain ⟨ln, l2, rfl, h1, h2⟩ := List.map_eq_append_iff.1 hl
    obtain ⟨tc, li, rfl, hc, h3⟩ := List.map_eq_cons_iff.1 h2
    rw [List.append_assoc, List.append_assoc]
    exact (ih first (x :: r) t0 ln tc (li ++ t :: rest) h0 h1 (Or.inl hc)).then ((ihs false x r tc li t rest hx hc h3 ht).calls (by simp))

end Yaml
