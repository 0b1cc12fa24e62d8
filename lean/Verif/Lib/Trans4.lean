import Verif.Lib.Trans3

/-
Accepting runs of the table of transitions derive their events from their tokens.
-/

namespace Yaml
open Spec Parser
set_option linter.unusedSimpArgs false
set_option linter.unusedVariables false

/-- A run to the end of the stream. -/
inductive Acc : List TagDirective → PSt → List PSt → List TokenData → List EventData → Prop
  | done {D : List TagDirective} {r : List PSt} {l : List TokenData} : Acc D .end_ r l []
  | step {D : List TagDirective} {x x' : PSt} {r r' : List PSt} {l l' : List TokenData} {ev : EventData} {es : List EventData}
      (h : Tr D x r l ev x' r' l') (hs : Acc (dirsAfter D ev) x' r' l' es) : Acc D x r l (ev :: es)

theorem Acc.inv {D : List TagDirective} {x : PSt} {r : List PSt} {l : List TokenData} {es : List EventData} (h : Acc D x r l es) (hx : x ≠ .end_) :
    ∃ ev es' x' r' l', es = ev :: es' ∧ Tr D x r l ev x' r' l' ∧ Acc (dirsAfter D ev) x' r' l' es' := by
  cases h with
  | done => exact absurd rfl hx
  | step h hs => exact ⟨_, _, _, _, _, rfl, h, hs⟩

theorem NTr.keeps {D : List TagDirective} {b i : Bool} {r r' : List PSt} {l l' : List TokenData} {ev : EventData} {x' : PSt}
    (h : NTr D b i r l ev x' r' l') (E : List TagDirective) : dirsAfter E ev = E := by
  cases h <;> first | rfl | (unfold scalarEvent; rfl)

theorem FSTr.keeps {D : List TagDirective} {r r' : List PSt} {l l' : List TokenData} {ev : EventData} {x' : PSt}
    (h : FSTr D r l ev x' r' l') (E : List TagDirective) : dirsAfter E ev = E := by
  cases h with
  | node h => exact h.keeps E
  | _ => rfl

theorem FMTr.keeps {D : List TagDirective} {r r' : List PSt} {l l' : List TokenData} {ev : EventData} {x' : PSt}
    (h : FMTr D r l ev x' r' l') (E : List TagDirective) : dirsAfter E ev = E := by
  cases h with
  | node h => exact h.keeps E
  | key h => exact h.keeps E
  | _ => rfl

/-- The tokens `l` begin with a phrase; after it the run goes on in `x` with `r`. -/
def Reads (D : List TagDirective) (ph : Phrase) (close : List TokenData) (fin : List EventData) (x : PSt) (r : List PSt) (l : List TokenData)
    (es : List EventData) : Prop :=
  ∃ ts l' fs es', l = ts ++ (close ++ l') ∧ es = fs ++ (fin ++ es') ∧ Derives true D ph ts fs ∧ Acc D x r l' es' ∧ es'.length < es.length

theorem Tr.inv_seq {D : List TagDirective} {r r' : List PSt} {l0 l' : List TokenData} {ev : EventData} {x' : PSt}
    (h : Tr D .blockSequenceFirstEntry r l0 ev x' r' l') : ∃ l, l0 = .blockSequenceStart :: l ∧ Tr D .blockSequenceEntry r l ev x' r' l' := by
  cases h with
  | docStart hx => simp at hx
  | streamEnd hx => simp at hx
  | enterSeq h => exact ⟨_, rfl, h⟩

theorem Tr.inv_map {D : List TagDirective} {r r' : List PSt} {l0 l' : List TokenData} {ev : EventData} {x' : PSt}
    (h : Tr D .blockMappingFirstKey r l0 ev x' r' l') : ∃ l, l0 = .blockMappingStart :: l ∧ Tr D .blockMappingKey r l ev x' r' l' := by
  cases h with
  | docStart hx => simp at hx
  | streamEnd hx => simp at hx
  | enterMap h => exact ⟨_, rfl, h⟩

theorem Tr.inv_flowSeq {D : List TagDirective} {r r' : List PSt} {l0 l' : List TokenData} {ev : EventData} {x' : PSt}
    (h : Tr D .flowSequenceFirstEntry r l0 ev x' r' l') : ∃ l, l0 = .flowSequenceStart :: l ∧ FSTr D r l ev x' r' l' := by
  cases h with
  | docStart hx => simp at hx
  | streamEnd hx => simp at hx
  | enterFlowSeq h => exact ⟨_, rfl, h⟩

theorem Tr.inv_flowMap {D : List TagDirective} {r r' : List PSt} {l0 l' : List TokenData} {ev : EventData} {x' : PSt}
    (h : Tr D .flowMappingFirstKey r l0 ev x' r' l') : ∃ l, l0 = .flowMappingStart :: l ∧ FMTr D r l ev x' r' l' := by
  cases h with
  | docStart hx => simp at hx
  | streamEnd hx => simp at hx
  | enterFlowMap h => exact ⟨_, rfl, h⟩

theorem Tr.inv_ind {D : List TagDirective} {r r' : List PSt} {l0 l' : List TokenData} {ev : EventData} {x' : PSt}
    (h : Tr D .indentlessSequenceEntry r l0 ev x' r' l') :
    (∃ l, l0 = .blockEntry :: l ∧ (ev = emptyNode ∧ x' = .indentlessSequenceEntry ∧ r' = r ∧ l' = l ∨ NTr D true false (.indentlessSequenceEntry :: r) l ev x' r' l')) ∨
    l0.head? ≠ some .blockEntry ∧ r = x' :: r' ∧ ev = .sequenceEnd ∧ l' = l0 := by
  cases h with
  | docStart hx => simp at hx
  | streamEnd hx => simp at hx
  | indEmpty => exact .inl ⟨_, rfl, .inl ⟨rfl, rfl, rfl, rfl⟩⟩
  | ind h => exact .inl ⟨_, rfl, .inr h⟩
  | indEnd h => exact .inr ⟨h, rfl, rfl, rfl⟩

/-- All claims, for runs with `n` events. -/
structure Sound (n : Nat) : Prop where
  node : ∀ {D b i x r l ev x' r' l' es}, (i = true → b = true) → NTr D b i (x :: r) l ev x' r' l' → Acc D x' r' l' es → (ev :: es).length = n →
    Reads D (.node b i) [] [] x r l (ev :: es)
  items : ∀ {D x r l es}, Acc D .blockSequenceEntry (x :: r) l es → es.length = n → Reads D .items [.blockEnd] [.sequenceEnd] x r l es
  indentless : ∀ {D x r l es}, Acc D .indentlessSequenceEntry (x :: r) l es → es.length = n → Reads D .items [] [.sequenceEnd] x r l es
  entries : ∀ {D x r l es}, Acc D .blockMappingKey (x :: r) l es → es.length = n → Reads D .entries [.blockEnd] [.mappingEnd] x r l es
  flowItems : ∀ {D x r l ev x' r' l' es}, FSTr D (x :: r) l ev x' r' l' → Acc D x' r' l' es → (ev :: es).length = n →
    Reads D .flowItems [.flowSequenceEnd] [.sequenceEnd] x r l (ev :: es)
  flowEntries : ∀ {D x r l ev x' r' l' es}, FMTr D (x :: r) l ev x' r' l' → Acc D x' r' l' es → (ev :: es).length = n →
    Reads D .flowEntries [.flowMappingEnd] [.mappingEnd] x r l (ev :: es)

theorem sound_node {n : Nat} (ih : ∀ m < n, Sound m) {D b i x r l ev x' r' l' es} (hbi : i = true → b = true) (h : NTr D b i (x :: r) l ev x' r' l')
    (ha : Acc D x' r' l' es) (hn : (ev :: es).length = n) : Reads D (.node b i) [] [] x r l (ev :: es) := by
  simp only [List.length_cons] at hn
  cases h with
  | alias name => exact ⟨[.alias name], _, [.alias name], _, rfl, rfl, .alias name, ha, by simp⟩
  | scalar hp v s => exact ⟨_, _, [scalarEvent _ _ v s], _, by simp, rfl, .scalar hp v s, ha, by simp⟩
  | bare hp hne => exact ⟨_, _, [.scalar _ _ [] (untagged _) false .plain], _, by simp, rfl, .bare hp hne, ha, by simp⟩
  | blockSeq hp hb =>
    subst hb
    obtain ⟨ev1, es1, x1, r1, l1, rfl, h1, ha1⟩ := ha.inv (by simp)
    obtain ⟨l, e, h1⟩ := h1.inv_seq
    cases e
    obtain ⟨ts, l2, fs, es2, rfl, he, hd, ha2, hl⟩ := (ih _ (by omega)).items (.step h1 ha1) rfl
    exact ⟨_, l2, _, es2, by simp, by rw [he]; simp, .blockSeq hp hd, ha2, by simp at hl ⊢; omega⟩
  | blockMap hp hb =>
    subst hb
    obtain ⟨ev1, es1, x1, r1, l1, rfl, h1, ha1⟩ := ha.inv (by simp)
    obtain ⟨l, e, h1⟩ := h1.inv_map
    cases e
    obtain ⟨ts, l2, fs, es2, rfl, he, hd, ha2, hl⟩ := (ih _ (by omega)).entries (.step h1 ha1) rfl
    exact ⟨_, l2, _, es2, by simp, by rw [he]; simp, .blockMap hp hd, ha2, by simp at hl ⊢; omega⟩
  | flowSeq hp =>
    obtain ⟨ev1, es1, x1, r1, l1, rfl, h1, ha1⟩ := ha.inv (by simp)
    obtain ⟨l, e, h1⟩ := h1.inv_flowSeq
    cases e
    rw [h1.keeps] at ha1
    obtain ⟨ts, l2, fs, es2, rfl, he, hd, ha2, hl⟩ := (ih _ (by omega)).flowItems h1 ha1 rfl
    exact ⟨_, l2, _, es2, by simp, by rw [he]; simp, .flowSeq hp hd, ha2, by simp at hl ⊢; omega⟩
  | flowMap hp =>
    obtain ⟨ev1, es1, x1, r1, l1, rfl, h1, ha1⟩ := ha.inv (by simp)
    obtain ⟨l, e, h1⟩ := h1.inv_flowMap
    cases e
    rw [h1.keeps] at ha1
    obtain ⟨ts, l2, fs, es2, rfl, he, hd, ha2, hl⟩ := (ih _ (by omega)).flowEntries h1 ha1 rfl
    exact ⟨_, l2, _, es2, by simp, by rw [he]; simp, .flowMap hp hd, ha2, by simp at hl ⊢; omega⟩
  | @indentless r ps l a t hp hi =>
    subst hi
    cases hbi rfl
    obtain ⟨ev1, es1, x1, r1, l1, rfl, h1, ha1⟩ := id (ha.inv (by simp))
    have key : ∃ ts l' fs es', .blockEntry :: l = ts ++ l' ∧ ev1 :: es1 = fs ++ .sequenceEnd :: es' ∧ Derives true D .items ts fs ∧ Acc D x r l' es' ∧
        es'.length < (ev1 :: es1).length ∧ ts ≠ [] := by
      rcases h1.inv_ind with ⟨l0, e, h2⟩ | ⟨h, _⟩
      · cases e
        rcases h2 with ⟨rfl, rfl, rfl, rfl⟩ | h2
        · obtain ⟨ts, l2, fs, es2, rfl, he, hd, ha2, hl⟩ := (ih es1.length (by simp at hn; omega)).indentless ha1 rfl
          exact ⟨_, l2, _, es2, rfl, by rw [he]; rfl, .item .nothing hd, ha2, by simp at hl ⊢; omega, by simp⟩
        · rw [h2.keeps] at ha1
          obtain ⟨ts, l2, fs, es2, rfl, he, hd, ha2, hl⟩ := (ih _ (by omega)).node (by simp) h2 ha1 rfl
          obtain ⟨ts3, l3, fs3, es3, rfl, rfl, hd3, ha3, hl3⟩ := (ih es2.length (by simp at hl hn; omega)).indentless ha2 rfl
          exact ⟨_, l3, _, es3, by simp, by rw [he]; simp, .item (.some hd) hd3, ha3, by simp at hl hl3 ⊢; omega, by simp⟩
      · exact absurd rfl h
    obtain ⟨ts, l2, fs, es2, e, he, hd, ha2, hl, hts⟩ := key
    exact ⟨_, l2, _, es2, by rw [e]; simp, by rw [he]; simp, .indentless hp hd hts, ha2, by simp at hl ⊢; omega⟩

/-- The node claim at `n`. -/
abbrev NodeAt (n : Nat) : Prop := ∀ {D b i x r l ev x' r' l' es}, (i = true → b = true) → NTr D b i (x :: r) l ev x' r' l' → Acc D x' r' l' es →
  (ev :: es).length = n → Reads D (.node b i) [] [] x r l (ev :: es)

theorem sound_items {n : Nat} (ih : ∀ m < n, Sound m) (nd : NodeAt n) {D x r l es} (ha : Acc D .blockSequenceEntry (x :: r) l es) (hn : es.length = n) :
    Reads D .items [.blockEnd] [.sequenceEnd] x r l es := by
  obtain ⟨ev, es1, x1, r1, l1, rfl, h1, ha1⟩ := ha.inv (by simp)
  cases h1 with
  | docStart hx => simp at hx
  | streamEnd hx => simp at hx
  | seqEnd => exact ⟨[], _, [], _, rfl, rfl, .noItems, ha1, by simp⟩
  | itemEmpty =>
    obtain ⟨ts, l2, fs, es2, rfl, rfl, hd, ha2, hl⟩ := (ih es1.length (by simp at hn; omega)).items ha1 rfl
    exact ⟨_, l2, _, es2, rfl, by simp, .item .nothing hd, ha2, by simp at hl ⊢; omega⟩
  | item h2 =>
    rw [h2.keeps] at ha1
    obtain ⟨ts, l2, fs, es2, rfl, he, hd, ha2, hl⟩ := nd (by simp) h2 ha1 hn
    obtain ⟨ts3, l3, fs3, es3, rfl, rfl, hd3, ha3, hl3⟩ := (ih es2.length (by simp at hl hn; omega)).items ha2 rfl
    exact ⟨_, l3, _, es3, by simp, by rw [he]; simp, .item (.some hd) hd3, ha3, by simp at hl hl3 ⊢; omega⟩

theorem sound_indentless {n : Nat} (ih : ∀ m < n, Sound m) (nd : NodeAt n) {D x r l es} (ha : Acc D .indentlessSequenceEntry (x :: r) l es) (hn : es.length = n) :
    Reads D .items [] [.sequenceEnd] x r l es := by
  obtain ⟨ev, es1, x1, r1, l1, rfl, h1, ha1⟩ := ha.inv (by simp)
  cases h1 with
  | docStart hx => simp at hx
  | streamEnd hx => simp at hx
  | indEnd => exact ⟨[], _, [], _, rfl, rfl, .noItems, ha1, by simp⟩
  | indEmpty =>
    obtain ⟨ts, l2, fs, es2, rfl, rfl, hd, ha2, hl⟩ := (ih es1.length (by simp at hn; omega)).indentless ha1 rfl
    exact ⟨_, l2, _, es2, rfl, by simp, .item .nothing hd, ha2, by simp at hl ⊢; omega⟩
  | ind h2 =>
    rw [h2.keeps] at ha1
    obtain ⟨ts, l2, fs, es2, rfl, he, hd, ha2, hl⟩ := nd (by simp) h2 ha1 hn
    obtain ⟨ts3, l3, fs3, es3, rfl, rfl, hd3, ha3, hl3⟩ := (ih es2.length (by simp at hl hn; omega)).indentless ha2 rfl
    exact ⟨_, l3, _, es3, by simp, by rw [he]; simp, .item (.some hd) hd3, ha3, by simp at hl hl3 ⊢; omega⟩

/-- After the key of a block mapping. -/
theorem sound_value {n : Nat} (ih : ∀ m < n, Sound m) {D x r l es} (ha : Acc D .blockMappingValue (x :: r) l es) (hn : es.length < n) :
    ∃ ts l' fs es', l = ts ++ .blockEnd :: l' ∧ es = fs ++ .mappingEnd :: es' ∧ Acc D x r l' es' ∧ es'.length < es.length ∧
      ∀ k ks, Derives true D (.opt true true) k ks → Derives true D .entries (.key :: (k ++ ts)) (ks ++ fs) := by
  obtain ⟨ev, es1, x1, r1, l1, rfl, h1, ha1⟩ := ha.inv (by simp)
  cases h1 with
  | docStart hx => simp at hx
  | streamEnd hx => simp at hx
  | noValue =>
    obtain ⟨ts, l2, fs, es2, rfl, rfl, hd, ha2, hl⟩ := (ih es1.length (by simp at hn; omega)).entries ha1 rfl
    exact ⟨_, l2, emptyNode :: fs, es2, rfl, by simp, ha2, by simp at hl ⊢; omega, fun k ks hk => .keyOnly hk hd⟩
  | valueEmpty =>
    obtain ⟨ts, l2, fs, es2, rfl, rfl, hd, ha2, hl⟩ := (ih es1.length (by simp at hn; omega)).entries ha1 rfl
    exact ⟨.value :: ts, l2, emptyNode :: fs, es2, rfl, by simp, ha2, by simp at hl ⊢; omega, fun k ks hk => .keyValue hk .nothing hd⟩
  | value h2 =>
    rw [h2.keeps] at ha1
    obtain ⟨ts, l2, fs, es2, rfl, he, hd, ha2, hl⟩ := (ih _ hn).node (by simp) h2 ha1 rfl
    obtain ⟨ts3, l3, fs3, es3, rfl, rfl, hd3, ha3, hl3⟩ := (ih es2.length (by simp at hl hn; omega)).entries ha2 rfl
    exact ⟨.value :: (ts ++ ts3), l3, fs ++ fs3, es3, by simp, by rw [he]; simp, ha3, by simp at hl hl3 ⊢; omega,
      fun k ks hk => .keyValue hk (.some hd) hd3⟩

theorem sound_entries {n : Nat} (ih : ∀ m < n, Sound m) (nd : NodeAt n) {D x r l es} (ha : Acc D .blockMappingKey (x :: r) l es) (hn : es.length = n) :
    Reads D .entries [.blockEnd] [.mappingEnd] x r l es := by
  obtain ⟨ev, es1, x1, r1, l1, rfl, h1, ha1⟩ := ha.inv (by simp)
  cases h1 with
  | docStart hx => simp at hx
  | streamEnd hx => simp at hx
  | mapEnd => exact ⟨[], _, [], _, rfl, rfl, .noEntries, ha1, by simp⟩
  | keyEmpty =>
    obtain ⟨ts, l2, fs, es2, rfl, rfl, ha2, hl, hd⟩ := sound_value ih ha1 (by simp at hn; omega)
    exact ⟨_, l2, _, es2, by simp, by simp, hd [] [emptyNode] .nothing, ha2, by simp at hl ⊢; omega⟩
  | key h2 =>
    rw [h2.keeps] at ha1
    obtain ⟨ts, l2, fs, es2, rfl, he, hd, ha2, hl⟩ := nd (by simp) h2 ha1 hn
    obtain ⟨ts3, l3, fs3, es3, rfl, rfl, ha3, hl3, hd3⟩ := sound_value ih ha2 (by simp at hl hn; omega)
    exact ⟨_, l3, _, es3, by simp, by rw [he]; simp, hd3 _ _ (.some hd), ha3, by simp at hl hl3 ⊢; omega⟩

/-- After an item of a flow sequence. -/
theorem sound_flowMore {n : Nat} (ih : ∀ m < n, Sound m) {D x r l es} (ha : Acc D .flowSequenceEntry (x :: r) l es) (hn : es.length < n) :
    ∃ ts l' fs es', l = ts ++ .flowSequenceEnd :: l' ∧ es = fs ++ .sequenceEnd :: es' ∧ Acc D x r l' es' ∧ es'.length < es.length ∧
      ∀ k ks, Derives true D .flowItem k ks → Derives true D .flowItems (k ++ ts) (ks ++ fs) := by
  obtain ⟨ev, es1, x1, r1, l1, rfl, h1, ha1⟩ := ha.inv (by simp)
  cases h1 with
  | docStart hx => simp at hx
  | streamEnd hx => simp at hx
  | flowSeqEnd => exact ⟨[], _, [], _, rfl, rfl, ha1, by simp, fun k ks hk => by simpa using Derives.lastItem hk⟩
  | flowSeqMore h2 =>
    rw [h2.keeps] at ha1
    obtain ⟨ts, l2, fs, es2, rfl, he, hd, ha2, hl⟩ := (ih _ hn).flowItems h2 ha1 rfl
    exact ⟨.flowEntry :: ts, l2, fs, es2, by simp, by rw [he]; simp, ha2, hl, fun k ks hk => .moreItems hk hd⟩

/-- After the pair in a flow sequence. -/
theorem sound_pairEnd {n : Nat} (ih : ∀ m < n, Sound m) {D x r l es} (ha : Acc D .flowSequenceEntryMappingEnd (x :: r) l es) (hn : es.length < n) :
    ∃ ts l' fs es', l = ts ++ .flowSequenceEnd :: l' ∧ es = .mappingEnd :: (fs ++ .sequenceEnd :: es') ∧ Acc D x r l' es' ∧ es'.length < es.length ∧
      ∀ k ks, Derives true D .flowItem k ks → Derives true D .flowItems (k ++ ts) (ks ++ fs) := by
  obtain ⟨ev, es1, x1, r1, l1, rfl, h1, ha1⟩ := ha.inv (by simp)
  cases h1 with
  | docStart hx => simp at hx
  | streamEnd hx => simp at hx
  | pairEnd =>
    obtain ⟨ts, l2, fs, es2, rfl, rfl, ha2, hl, hd⟩ := sound_flowMore ih ha1 (by simp at hn; omega)
    exact ⟨ts, l2, fs, es2, rfl, rfl, ha2, by simp at hl ⊢; omega, hd⟩

/-- After the key of the pair: the rest of the pair and the rest of the sequence. -/
theorem sound_pairValue {n : Nat} (ih : ∀ m < n, Sound m) {D x r l es} (ha : Acc D .flowSequenceEntryMappingValue (x :: r) l es) (hn : es.length < n) :
    ∃ v ts l' ds fs es', l = v ++ (ts ++ .flowSequenceEnd :: l') ∧ es = ds ++ .mappingEnd :: (fs ++ .sequenceEnd :: es') ∧ Acc D x r l' es' ∧ es'.length < es.length ∧
      (∀ k ks, Derives true D .flowItem k ks → Derives true D .flowItems (k ++ ts) (ks ++ fs)) ∧
      (v = [] ∧ ds = [emptyNode] ∨ ∃ v', v = .value :: v' ∧ Derives true D (.opt false false) v' ds) := by
  obtain ⟨ev, es1, x1, r1, l1, rfl, h1, ha1⟩ := ha.inv (by simp)
  cases h1 with
  | docStart hx => simp at hx
  | streamEnd hx => simp at hx
  | pairNoValue =>
    obtain ⟨ts, l2, fs, es2, rfl, rfl, ha2, hl, hd⟩ := sound_pairEnd ih ha1 (by simp at hn; omega)
    exact ⟨[], ts, l2, [emptyNode], fs, es2, rfl, rfl, ha2, by simp at hl ⊢; omega, hd, .inl ⟨rfl, rfl⟩⟩
  | pairValueEmpty =>
    obtain ⟨ts, l2, fs, es2, rfl, rfl, ha2, hl, hd⟩ := sound_pairEnd ih ha1 (by simp at hn; omega)
    exact ⟨[.value], ts, l2, [emptyNode], fs, es2, rfl, rfl, ha2, by simp at hl ⊢; omega, hd, .inr ⟨[], rfl, .nothing⟩⟩
  | pairValue h2 =>
    rw [h2.keeps] at ha1
    obtain ⟨v, l2, ds, es2, rfl, he, hv, ha2, hl⟩ := (ih _ hn).node (by simp) h2 ha1 rfl
    obtain ⟨ts, l3, fs, es3, rfl, rfl, ha3, hl3, hd⟩ := sound_pairEnd ih ha2 (by simp at hl hn; omega)
    exact ⟨.value :: v, ts, l3, ds, fs, es3, by simp, by rw [he]; simp, ha3, by simp at hl hl3 ⊢; omega, hd, .inr ⟨v, rfl, .some hv⟩⟩

theorem sound_flowItems {n : Nat} (ih : ∀ m < n, Sound m) (nd : NodeAt n) {D x r l ev x' r' l' es} (h : FSTr D (x :: r) l ev x' r' l') (ha : Acc D x' r' l' es)
    (hn : (ev :: es).length = n) : Reads D .flowItems [.flowSequenceEnd] [.sequenceEnd] x r l (ev :: es) := by
  cases h with
  | close => exact ⟨[], _, [], _, rfl, rfl, .noFlowItems, ha, by simp⟩
  | node h2 =>
    obtain ⟨ts, l2, fs, es2, rfl, he, hd, ha2, hl⟩ := nd (by simp) h2 ha hn
    obtain ⟨ts3, l3, fs3, es3, rfl, rfl, ha3, hl3, hd3⟩ := sound_flowMore ih ha2 (by simp at hl hn; omega)
    exact ⟨_, l3, _, es3, by simp, by rw [he]; simp, hd3 _ _ (.itemNode hd), ha3, by simp at hl hl3 ⊢; omega⟩
  | pair =>
    obtain ⟨ev, es1, x1, r1, l1, rfl, h1, ha1⟩ := ha.inv (by simp)
    cases h1 with
    | docStart hx => simp at hx
    | streamEnd hx => simp at hx
    | @pairLax _ _ d hd =>
      obtain ⟨v, ts, l2, ds, fs, es2, rfl, rfl, ha2, hl, hf, hv⟩ := sound_pairValue ih ha1 (by simp at hn; omega)
      rcases hv with ⟨rfl, rfl⟩ | ⟨v', rfl, hv⟩
      · exact ⟨_, l2, _, es2, by simp, by simp, hf _ _ (.itemLax rfl hd), ha2, by simp at hl ⊢; omega⟩
      · exact ⟨_, l2, _, es2, by simp, by simp, hf _ _ (.itemLaxValue rfl hd hv), ha2, by simp at hl ⊢; omega⟩
    | pairKey h2 =>
      rw [h2.keeps] at ha1
      obtain ⟨k, l2, ks, es2, rfl, he, hk, ha2, hl⟩ := (ih (es1.length + 1) (by simp at hn; omega)).node (by simp) h2 ha1 rfl
      obtain ⟨v, ts, l3, ds, fs, es3, rfl, rfl, ha3, hl3, hf, hv⟩ := sound_pairValue ih ha2 (by simp at hn hl; omega)
      rcases hv with ⟨rfl, rfl⟩ | ⟨v', rfl, hv⟩
      · exact ⟨_, l3, _, es3, by simp, by rw [he]; simp, hf _ _ (.itemKey hk), ha3, by simp at hl hl3 ⊢; omega⟩
      · exact ⟨_, l3, _, es3, by simp, by rw [he]; simp, hf _ _ (.itemPair hk hv), ha3, by simp at hl hl3 ⊢; omega⟩

/-- After an entry of a flow mapping. -/
theorem sound_entryMore {n : Nat} (ih : ∀ m < n, Sound m) {D x r l es} (ha : Acc D .flowMappingKey (x :: r) l es) (hn : es.length < n) :
    ∃ ts l' fs es', l = ts ++ .flowMappingEnd :: l' ∧ es = fs ++ .mappingEnd :: es' ∧ Acc D x r l' es' ∧ es'.length < es.length ∧
      ∀ k ks, Derives true D .flowEntry k ks → Derives true D .flowEntries (k ++ ts) (ks ++ fs) := by
  obtain ⟨ev, es1, x1, r1, l1, rfl, h1, ha1⟩ := ha.inv (by simp)
  cases h1 with
  | docStart hx => simp at hx
  | streamEnd hx => simp at hx
  | flowMapEnd => exact ⟨[], _, [], _, rfl, rfl, ha1, by simp, fun k ks hk => by simpa using Derives.lastEntry hk⟩
  | flowMapMore h2 =>
    rw [h2.keeps] at ha1
    obtain ⟨ts, l2, fs, es2, rfl, he, hd, ha2, hl⟩ := (ih _ hn).flowEntries h2 ha1 rfl
    exact ⟨.flowEntry :: ts, l2, fs, es2, by simp, by rw [he]; simp, ha2, hl, fun k ks hk => .moreEntries hk hd⟩

/-- After the key of an entry: the value and the rest of the mapping. -/
theorem sound_flowValue {n : Nat} (ih : ∀ m < n, Sound m) {D x r l es} (ha : Acc D .flowMappingValue (x :: r) l es) (hn : es.length < n) :
    ∃ ts l' fs es', l = ts ++ .flowMappingEnd :: l' ∧ es = fs ++ .mappingEnd :: es' ∧ Acc D x r l' es' ∧ es'.length < es.length ∧
      ∀ k ks, Derives true D (.opt false false) k ks → Derives true D .flowEntries (.key :: (k ++ ts)) (ks ++ fs) := by
  obtain ⟨ev, es1, x1, r1, l1, rfl, h1, ha1⟩ := ha.inv (by simp)
  cases h1 with
  | docStart hx => simp at hx
  | streamEnd hx => simp at hx
  | flowNoValue =>
    obtain ⟨ts, l2, fs, es2, rfl, rfl, ha2, hl, hd⟩ := sound_entryMore ih ha1 (by simp at hn; omega)
    exact ⟨ts, l2, emptyNode :: fs, es2, rfl, rfl, ha2, by simp at hl ⊢; omega, fun k ks hk => by have := hd _ _ (.entryKey hk); rw [show dirsAfter D emptyNode = D from rfl] at this; simpa using this⟩
  | flowValueEmpty =>
    obtain ⟨ts, l2, fs, es2, rfl, rfl, ha2, hl, hd⟩ := sound_entryMore ih ha1 (by simp at hn; omega)
    exact ⟨.value :: ts, l2, emptyNode :: fs, es2, rfl, rfl, ha2, by simp at hl ⊢; omega, fun k ks hk => by have := hd _ _ (.entryPair hk .nothing); rw [show dirsAfter D emptyNode = D from rfl] at this; simpa using this⟩
  | flowValue h2 =>
    rw [h2.keeps] at ha1
    obtain ⟨v, l2, ds, es2, rfl, he, hv, ha2, hl⟩ := (ih _ hn).node (by simp) h2 ha1 rfl
    obtain ⟨ts, l3, fs, es3, rfl, rfl, ha3, hl3, hd⟩ := sound_entryMore ih ha2 (by simp at hl hn; omega)
    exact ⟨.value :: (v ++ ts), l3, ds ++ fs, es3, by simp, by rw [he]; simp, ha3, by simp at hl hl3 ⊢; omega,
      fun k ks hk => by simpa using hd _ _ (.entryPair hk (.some hv))⟩

theorem sound_flowEntries {n : Nat} (ih : ∀ m < n, Sound m) (nd : NodeAt n) {D x r l ev x' r' l' es} (h : FMTr D (x :: r) l ev x' r' l') (ha : Acc D x' r' l' es)
    (hn : (ev :: es).length = n) : Reads D .flowEntries [.flowMappingEnd] [.mappingEnd] x r l (ev :: es) := by
  cases h with
  | close => exact ⟨[], _, [], _, rfl, rfl, .noFlowEntries, ha, by simp⟩
  | keyEmpty =>
    obtain ⟨ts, l2, fs, es2, rfl, rfl, ha2, hl, hd⟩ := sound_flowValue ih ha (by simp at hn; omega)
    exact ⟨_, l2, _, es2, by simp, by simp, hd [] [emptyNode] .nothing, ha2, by simp at hl ⊢; omega⟩
  | key h2 =>
    obtain ⟨k, l2, ks, es2, rfl, he, hk, ha2, hl⟩ := nd (by simp) h2 ha hn
    obtain ⟨ts, l3, fs, es3, rfl, rfl, ha3, hl3, hd⟩ := sound_flowValue ih ha2 (by simp at hn hl; omega)
    exact ⟨_, l3, _, es3, by simp, by rw [he]; simp, hd _ _ (.some hk), ha3, by simp at hl hl3 ⊢; omega⟩
  | node h2 =>
    obtain ⟨k, l2, ks, es2, rfl, he, hk, ha2, hl⟩ := nd (by simp) h2 ha hn
    obtain ⟨ev, es1, x1, r1, l1, rfl, h1, ha1⟩ := ha2.inv (by simp)
    cases h1 with
    | docStart hx => simp at hx
    | streamEnd hx => simp at hx
    | flowEmptyValue =>
      obtain ⟨ts, l3, fs, es3, rfl, rfl, ha3, hl3, hd⟩ := sound_entryMore ih ha1 (by simp at hn hl; omega)
      exact ⟨_, l3, _, es3, by simp, by rw [he]; simp, hd _ _ (.entryNode hk), ha3, by simp at hl hl3 ⊢; omega⟩

theorem sound (n : Nat) : Sound n := by
  induction n using Nat.strongRecOn with
  | ind n ih =>
    have nd : NodeAt n := fun hbi h ha hn => sound_node ih hbi h ha hn
    exact ⟨nd, sound_items ih nd, sound_indentless ih nd, sound_entries ih nd, sound_flowItems ih nd, sound_flowEntries ih nd⟩

/-! ### Documents -/

theorem docs_stray {c ts : List TokenData} {es : List EventData} (hc : ∀ d ∈ c, d = .documentEnd) (h : DerivesDocs true ts es) : DerivesDocs true (c ++ ts) es := by
  induction c with
  | nil => exact h
  | cons d c ih =>
    have := hc d (by simp)
    subst this
    exact .stray (ih fun d hd => hc d (by simp [hd]))

/-- After a document's content. -/
theorem sound_docEnd {D : List TagDirective} {l : List TokenData} {es : List EventData} (ha : Acc D .documentEnd [] l es)
    (ih : ∀ l' es', es'.length < es.length → Acc [] .documentStart [] l' es' →
      ∃ ts l2 fs, l' = ts ++ .streamEnd :: l2 ∧ es' = fs ++ [.streamEnd] ∧ DerivesDocs true ts fs) :
    ∃ explicit ts l2 fs, l = docEnd explicit ++ (ts ++ .streamEnd :: l2) ∧ es = .documentEnd (!explicit) :: (fs ++ [.streamEnd]) ∧ DerivesDocs true ts fs ∧
      (explicit = false → ts.head? ≠ some .documentEnd) := by
  obtain ⟨ev, es1, x1, r1, l1, rfl, h1, ha1⟩ := ha.inv (by simp)
  cases h1 with
  | docStart hx => simp at hx
  | streamEnd hx => simp at hx
  | docEnd h =>
    obtain ⟨ts, l2, fs, rfl, rfl, hd⟩ := ih _ _ (by simp) ha1
    refine ⟨false, ts, l2, fs, rfl, rfl, hd, fun _ he => h ?_⟩
    cases ts with
    | nil => simp at he
    | cons d ts => simpa using he
  | docEndX =>
    obtain ⟨ts, l2, fs, rfl, rfl, hd⟩ := ih _ _ (by simp) ha1
    exact ⟨true, ts, l2, fs, rfl, rfl, hd, by simp⟩

/-- A document with `---`, and what follows. -/
theorem sound_doc {ds l : List TokenData} {es : List EventData} {v : Option VersionDirective} {tags : List TagDirective} (hd : IsDirectives ds v tags)
    (ha : Acc tags .documentContent [.documentEnd] l es)
    (ih : ∀ l' es', es'.length < es.length → Acc [] .documentStart [] l' es' →
      ∃ ts l2 fs, l' = ts ++ .streamEnd :: l2 ∧ es' = fs ++ [.streamEnd] ∧ DerivesDocs true ts fs) :
    ∃ ts l2 fs, ds ++ .documentStart :: l = ts ++ .streamEnd :: l2 ∧ .documentStart v tags false :: es = fs ++ [.streamEnd] ∧ DerivesDocs true ts fs ∧
      ts.head? ≠ some .documentEnd := by
  have hh : ∀ us : List TokenData, (ds ++ TokenData.documentStart :: us).head? ≠ some .documentEnd := by
    intro us
    cases hd <;> simp
  obtain ⟨ev, es1, x1, r1, l1, rfl, h1, ha1⟩ := ha.inv (by simp)
  cases h1 with
  | docStart hx => simp at hx
  | streamEnd hx => simp at hx
  | contentEmpty =>
    obtain ⟨explicit, ts, l2, fs, rfl, rfl, hs, hne⟩ := sound_docEnd ha1 fun l' es' hl => ih l' es' (by simp at hl ⊢; omega)
    exact ⟨_, l2, _, by simp, by simp, .doc hd .nothing explicit hs hne, hh _⟩
  | content h2 =>
    rw [h2.keeps] at ha1
    obtain ⟨n, l2, ns, es2, rfl, he, hn, ha2, hl⟩ := (sound _).node (by simp) h2 ha1 rfl
    obtain ⟨explicit, ts, l3, fs, rfl, rfl, hs, hne⟩ := sound_docEnd ha2 fun l' es' hl' => ih l' es' (by omega)
    exact ⟨_, l3, _, by simp, by rw [he]; simp, .doc hd (.some hn) explicit hs hne, hh _⟩

theorem sound_docs (n : Nat) : ∀ {l : List TokenData} {es : List EventData}, es.length = n → Acc [] .documentStart [] l es →
    ∃ ts l2 fs, l = ts ++ .streamEnd :: l2 ∧ es = fs ++ [.streamEnd] ∧ DerivesDocs true ts fs := by
  induction n using Nat.strongRecOn with
  | ind n ih =>
    intro l es hn ha
    obtain ⟨ev, es1, x1, r1, l1, rfl, h1, ha1⟩ := ha.inv (by simp)
    cases h1 with
    | streamEnd hx hc =>
      cases ha1 with
      | done => exact ⟨_, _, [], rfl, rfl, by simpa using docs_stray hc .none⟩
      | step h _ => cases h <;> simp_all
    | docStart hx hc hd =>
      obtain ⟨ts, l2, fs, e, he, hs, _⟩ := sound_doc hd ha1 fun l' es' hl h => ih _ (by simp at hn; omega) rfl h
      exact ⟨_, l2, fs, by rw [e, ← List.append_assoc], he, docs_stray hc hs⟩

/-- An accepting run derives the stream. -/
theorem sound_stream {l : List TokenData} {es : List EventData} (ha : Acc [] .streamStart [] l es) :
    ∃ ts l2, l = ts ++ l2 ∧ DerivesStream true ts es := by
  obtain ⟨ev, es1, x1, r1, l1, rfl, h1, ha1⟩ := ha.inv (by simp)
  cases h1 with
  | streamEnd hx hc => simp at hx
  | docStart hx hc hd => simp at hx
  | streamStart e =>
    obtain ⟨ev, es2, x2, r2, l2, rfl, h2, ha2⟩ := ha1.inv (by simp)
    cases h2 with
    | streamEnd hx hc =>
      rcases hx with ⟨_, rfl⟩ | hx
      · cases ha2 with
        | done => exact ⟨[.streamStart e, .streamEnd], _, rfl, .explicit e .none (by simp)⟩
        | step h _ => cases h <;> simp_all
      · simp at hx
    | docStart hx hc hd =>
      rcases hx with ⟨_, rfl⟩ | hx
      · obtain ⟨ts, l3, fs, e1, he, hs, hh⟩ := sound_doc hd ha2 fun l' es' hl h => sound_docs _ rfl h
        refine ⟨.streamStart e :: (ts ++ [.streamEnd]), l3, by rw [List.nil_append, e1]; simp, ?_⟩
        rw [he]
        exact .explicit e hs hh
      · simp at hx
    | docImplicit =>
      obtain ⟨ev, es3, x3, r3, l3, rfl, h3, ha3⟩ := ha2.inv (by simp)
      cases h3 with
      | streamEnd hx hc => simp at hx
      | docStart hx hc hd => simp at hx
      | blockNode h3 =>
        rw [h3.keeps] at ha3
        obtain ⟨n, l4, ns, es4, rfl, he, hn, ha4, hl⟩ := (sound _).node (by simp) h3 ha3 rfl
        obtain ⟨explicit, ts, l5, fs, rfl, rfl, hs, hne⟩ := sound_docEnd ha4 fun l' es' hl' h => sound_docs _ rfl h
        refine ⟨.streamStart e :: (n ++ (docEnd explicit ++ (ts ++ [.streamEnd]))), l5, by simp, ?_⟩
        rw [he]
        exact .implicit e hn explicit hs hne

end Yaml
