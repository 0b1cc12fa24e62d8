import Verif.Lib.Scan
import Verif.Spec.Tokens

/-
Invariants of the whole token stream: the tokens already taken followed by those in the queue.
-/

namespace Yaml
open Scanner Spec
set_option linter.unusedSimpArgs false
set_option linter.unusedVariables false

/-- What holds of the token stream `L` so far (taken and queued), for the text `T`. -/
structure Hist (T : List Char) (L : List Token) (s : SState) : Prop where
  marks : ∀ t ∈ L, IsMark T t.startMark ∧ IsMark T t.endMark ∧ Spec.le t.startMark t.endMark ∧
    Spec.le t.startMark s.mark
  sorted : L.Pairwise (fun a b => Spec.le a.startMark b.startMark)
  keyMark : ∀ k ∈ s.simpleKeys, k.possible = true → IsPosition T k.mark ∧ Spec.le k.mark s.mark ∧ 1 ≤ k.tokenNumber
  keySplit : ∀ k ∈ s.simpleKeys, k.possible = true → ∀ i t, L[i]? = some t →
    (i < k.tokenNumber → Spec.le t.startMark k.mark) ∧ (k.tokenNumber ≤ i → Spec.le k.mark t.startMark)
  keyOrd : s.simpleKeys.Pairwise (fun a b => a.possible = true → b.possible = true →
    b.tokenNumber ≤ a.tokenNumber ∧ Spec.le b.mark a.mark)
  bal : L.countP isBlockStart = L.countP isBlockEnd + s.indents.length
  balPre : BlocksNest L
  flow : flowDepth L = s.flowLevel
  first : StartsOnce L
  impl : ImplicitKeysOk L
  wide : ∀ t ∈ L, IsPosition T t.endMark ∨ t.startMark = t.endMark

namespace Hist
variable {T : List Char} {L : List Token} {s s' : SState}

/-- Only the listed fields matter. -/
theorem congr (h : Hist T L s) (hm : Spec.le s.mark s'.mark) (hk : KeySub s'.simpleKeys s.simpleKeys)
    (hi : s'.indents.length = s.indents.length) (hf : s'.flowLevel = s.flowLevel) : Hist T L s' where
  marks := fun t ht => ⟨(h.marks t ht).1, (h.marks t ht).2.1, (h.marks t ht).2.2.1,
    Spec.le_trans (h.marks t ht).2.2.2 hm⟩
  sorted := h.sorted
  keyMark := fun k hk' hp => by
    have := h.keyMark k (hk.mem hk' hp) hp
    exact ⟨this.1, Spec.le_trans this.2.1 hm, this.2.2⟩
  keySplit := fun k hk' hp => h.keySplit k (hk.mem hk' hp) hp
  keyOrd := by
    have := h.keyOrd
    revert this
    generalize s'.simpleKeys = a at hk
    generalize s.simpleKeys = b at hk
    induction hk with
    | nil => intro h; exact h
    | keep k hab ih =>
      intro h
      rw [List.pairwise_cons] at h ⊢
      exact ⟨fun x hx hp hp' => h.1 x (hab.mem hx hp') hp hp', ih h.2⟩
    | drop k hab ih =>
      intro h
      rw [List.pairwise_cons] at h ⊢
      exact ⟨fun x hx hp => by simp at hp, ih h.2⟩
  bal := by rw [hi]; exact h.bal
  balPre := h.balPre
  flow := by rw [hf]; exact h.flow
  first := h.first
  impl := h.impl
  wide := h.wide

theorem flowDepth_append (L : List Token) (t : Token) :
    flowDepth (L ++ [t]) = if isFlowStart t then flowDepth L + 1 else if isFlowEnd t then flowDepth L - 1 else flowDepth L := by
  simp [flowDepth]

theorem split_snoc {α : Type} {L pre post : List α} {t : α} (h : L ++ [t] = pre ++ post) :
    (post = [] ∧ pre = L ++ [t]) ∨ ∃ post', post = post' ++ [t] ∧ L = pre ++ post' := by
  rcases List.eq_nil_or_concat post with rfl | ⟨post', x, rfl⟩
  · exact Or.inl ⟨rfl, by simpa using h.symm⟩
  · rw [List.concat_eq_append, ← List.append_assoc] at h
    obtain ⟨h1, h2⟩ := List.append_inj' h rfl
    simp at h2; subst h2
    exact Or.inr ⟨post', by simp, h1⟩

/-- Appending a token that starts at the current position.  `n` is the change of the block
nesting, which must be matched by the indentation stack of `s'`. -/
theorem push (h : Hist T L s) {t : Token} (hL : L ≠ []) (hst : t.startMark = s.mark) (hm : IsMark T t.startMark) (hm' : IsMark T t.endMark)
    (hle : Spec.le t.startMark t.endMark) (hss : isStreamStart t = false)
    (hk : ¬ (t.data = .key ∧ t.startMark = t.endMark))
    (hkn : ∀ k ∈ s.simpleKeys, k.possible = true → k.tokenNumber ≤ L.length)
    (hmark : s'.mark = s.mark) (hkeys : s'.simpleKeys = s.simpleKeys)
    (hb : (isBlockStart t = true ∧ s'.indents.length = s.indents.length + 1) ∨
      (isBlockEnd t = true ∧ s.indents.length = s'.indents.length + 1) ∨
      (isBlockStart t = false ∧ isBlockEnd t = false ∧ s'.indents.length = s.indents.length))
    (hf : s'.flowLevel = if isFlowStart t then s.flowLevel + 1 else if isFlowEnd t then s.flowLevel - 1 else s.flowLevel)
    (hw : IsPosition T t.endMark ∨ t.startMark = t.endMark) : Hist T (L ++ [t]) s' where
  wide := by
    intro t' ht'
    rcases List.mem_append.1 ht' with h' | h'
    · exact h.wide t' h'
    · simp at h'; subst h'
      exact hw
  marks := by
    intro t' ht'
    rw [hmark]
    rcases List.mem_append.1 ht' with h' | h'
    · exact h.marks t' h'
    · simp at h'; subst h'
      exact ⟨hm, hm', hle, hst ▸ Spec.le_refl _⟩
  sorted := by
    rw [List.pairwise_append]
    refine ⟨h.sorted, by simp, ?_⟩
    intro a ha b hb
    simp at hb; subst hb
    rw [hst]; exact (h.marks a ha).2.2.2
  keyMark := by rw [hmark, hkeys]; exact h.keyMark
  keySplit := by
    rw [hkeys]
    intro k hk' hp i t' ht'
    rw [List.getElem?_append] at ht'
    split at ht'
    · exact h.keySplit k hk' hp i t' ht'
    · rename_i hi
      have hi0 : i - L.length = 0 := by
        rcases Nat.eq_zero_or_pos (i - L.length) with h0 | h0
        · exact h0
        · rw [List.getElem?_eq_none (by simp; omega)] at ht'; simp at ht'
      rw [hi0] at ht'
      simp at ht'; subst ht'
      have := hkn k hk' hp
      refine ⟨fun h' => by omega, fun _ => ?_⟩
      rw [hst]; exact (h.keyMark k hk' hp).2.1
  keyOrd := by rw [hkeys]; exact h.keyOrd
  bal := by
    have := h.bal
    simp only [List.countP_append, List.countP_singleton]
    rcases hb with ⟨h1, h2⟩ | ⟨h1, h2⟩ | ⟨h1, h2, h3⟩
    · have : isBlockEnd t = false := by
        unfold isBlockStart at h1; unfold isBlockEnd
        simp only [Bool.or_eq_true, decide_eq_true_eq] at h1
        rcases h1 with h1 | h1 <;> simp [h1]
      simp [h1, this]; omega
    · have : isBlockStart t = false := by
        unfold isBlockEnd at h1; unfold isBlockStart
        simp only [decide_eq_true_eq] at h1
        simp [h1]
      simp [h1, this]; omega
    · simp [h1, h2]; omega
  balPre := by
    intro pre post hpp
    rcases split_snoc hpp with ⟨_, rfl⟩ | ⟨post', _, hL'⟩
    · have hb1 := h.bal
      simp only [List.countP_append, List.countP_singleton]
      rcases hb with ⟨h1, h2⟩ | ⟨h1, h2⟩ | ⟨h1, h2, h3⟩
      · have : isBlockEnd t = false := by
          unfold isBlockStart at h1; unfold isBlockEnd
          simp only [Bool.or_eq_true, decide_eq_true_eq] at h1
          rcases h1 with h1 | h1 <;> simp [h1]
        simp [h1, this]; omega
      · simp [h1]; omega
      · simp [h1, h2]; omega
    · exact h.balPre pre post' hL'
  flow := by rw [flowDepth_append, h.flow, hf]
  first := by
    intro pre t' post hpp
    rcases split_snoc hpp with ⟨hp, _⟩ | ⟨post', hp, hL'⟩
    · simp at hp
    · cases post' with
      | nil =>
        simp at hp
        obtain ⟨rfl, rfl⟩ := hp
        rw [hss]
        simp at hL'; subst hL'
        simp [hL]
      | cons x xs =>
        simp at hp
        obtain ⟨rfl, rfl⟩ := hp
        exact h.first pre t' xs hL'
  impl := by
    intro pre k post hpp hkd hkm
    rcases split_snoc hpp with ⟨hp, _⟩ | ⟨post', hp, hL'⟩
    · simp at hp
    · cases post' with
      | nil =>
        simp at hp
        obtain ⟨rfl, rfl⟩ := hp
        exact absurd ⟨hkd, hkm⟩ hk
      | cons x xs =>
        simp at hp
        obtain ⟨rfl, rfl⟩ := hp
        obtain ⟨v, hv, h'⟩ := h.impl pre k xs hL' hkd hkm
        exact ⟨v, by simp [hv], h'⟩

/-- `save_simple_key`. -/
theorem save (h : Hist T L s) (hL : L ≠ []) (hlen : s.tokensParsed + s.tokens.length = L.length)
    (hpos : IsPosition T s.mark)
    (hkn : ∀ k ∈ s.simpleKeys, k.possible = true → k.tokenNumber ≤ L.length) : Hist T L (saveS s) := by
  unfold saveS
  split
  · refine { h with keyMark := ?_, keySplit := ?_, keyOrd := ?_ }
    · intro k hk hp
      rcases List.mem_cons.1 hk with rfl | hk
      · refine ⟨hpos, Spec.le_refl _, ?_⟩
        show 1 ≤ s.tokensParsed + s.tokens.length
        rw [hlen]
        exact List.length_pos_iff.2 hL
      · exact h.keyMark k (List.mem_of_mem_tail hk) hp
    · intro k hk hp
      rcases List.mem_cons.1 hk with rfl | hk
      · intro i t ht
        obtain ⟨hi, rfl⟩ := List.getElem?_eq_some_iff.1 ht
        refine ⟨fun _ => (h.marks _ (List.getElem_mem hi)).2.2.2, fun h' => ?_⟩
        have h' : s.tokensParsed + s.tokens.length ≤ i := h'
        omega
      · exact h.keySplit k (List.mem_of_mem_tail hk) hp
    · show List.Pairwise _ (newKey s :: s.simpleKeys.tail)
      rw [List.pairwise_cons]
      refine ⟨fun k hk _ hp => ⟨?_, (h.keyMark k (List.mem_of_mem_tail hk) hp).2.1⟩, ?_⟩
      · show _ ≤ s.tokensParsed + s.tokens.length
        rw [hlen]; exact hkn k (List.mem_of_mem_tail hk) hp
      · cases hks : s.simpleKeys with
        | nil => simp
        | cons a as => have := h.keyOrd; rw [hks] at this; exact (List.pairwise_cons.1 this).2
  · exact h

theorem foldl_depth (A B : List Token) (x : Token) (h1 : isFlowStart x = false) (h2 : isFlowEnd x = false) :
    flowDepth (A ++ x :: B) = flowDepth (A ++ B) := by
  simp [flowDepth, h1, h2]

/-- Inserting a token before the one a key points to.  The key is the top one and is given up. -/
theorem insert {A B : List Token} (h : Hist T (A ++ B) s) {k : SimpleKey} {ks : List SimpleKey}
    (hk : s.simpleKeys = k :: ks) (hp : k.possible = true ∨ True) {x : Token}
    (hkm : IsPosition T k.mark) (hkle : Spec.le k.mark s.mark) (hk1 : 1 ≤ k.tokenNumber)
    (hsplit : ∀ i t, (A ++ B)[i]? = some t →
      (i < k.tokenNumber → Spec.le t.startMark k.mark) ∧ (k.tokenNumber ≤ i → Spec.le k.mark t.startMark))
    (hord : ∀ k' ∈ ks, k'.possible = true → k'.tokenNumber ≤ k.tokenNumber ∧ Spec.le k'.mark k.mark)
    (hA : A.length = k.tokenNumber) (hx : x.startMark = k.mark) (hx' : x.endMark = k.mark)
    (hss : isStreamStart x = false) (hfs : isFlowStart x = false) (hfe : isFlowEnd x = false)
    (hbe : isBlockEnd x = false)
    (hmark : s'.mark = s.mark) (hkeys : s'.simpleKeys = { k with possible := false } :: ks)
    (hind : s'.indents.length = s.indents.length + (if isBlockStart x then 1 else 0))
    (hfl : s'.flowLevel = s.flowLevel)
    (himpl : x.data = .key → ∃ v ∈ B, v.data = .value ∧ v.startMark.line = k.mark.line ∧
      v.startMark.index ≤ k.mark.index + 1024) :
    Hist T (A ++ x :: B) s' := by
  have hAm : ∀ t ∈ A, Spec.le t.startMark k.mark := by
    intro t ht
    obtain ⟨i, hi, rfl⟩ := List.mem_iff_getElem.1 ht
    refine (hsplit i A[i] ?_).1 (by omega)
    rw [List.getElem?_append_left hi]; simp
  have hBm : ∀ t ∈ B, Spec.le k.mark t.startMark := by
    intro t ht
    obtain ⟨i, hi, rfl⟩ := List.mem_iff_getElem.1 ht
    refine (hsplit (A.length + i) B[i] ?_).2 (by omega)
    rw [List.getElem?_append_right (by omega)]; simp [hi]
  have hAne : A ≠ [] := by intro h0; rw [h0] at hA; simp at hA; omega
  constructor
  · intro t ht
    rw [hmark]
    rcases List.mem_append.1 ht with h' | h'
    · exact h.marks t (by simp [h'])
    · rcases List.mem_cons.1 h' with rfl | h'
      · rw [hx, hx']
        exact ⟨Or.inl hkm, Or.inl hkm, Spec.le_refl _, hkle⟩
      · exact h.marks t (by simp [h'])
  · have := h.sorted
    rw [List.pairwise_append] at this ⊢
    obtain ⟨h1, h2, h3⟩ := this
    refine ⟨h1, List.pairwise_cons.2 ⟨fun t ht => by rw [hx]; exact hBm t ht, h2⟩, ?_⟩
    intro a ha b hb
    rcases List.mem_cons.1 hb with rfl | hb
    · rw [hx]; exact hAm a ha
    · exact h3 a ha b hb
  · intro k' hk' hp'
    rw [hkeys] at hk'
    rw [hmark]
    rcases List.mem_cons.1 hk' with rfl | hk'
    · simp at hp'
    · exact h.keyMark k' (by rw [hk]; exact List.mem_cons_of_mem _ hk') hp'
  · intro k' hk' hp'
    rw [hkeys] at hk'
    rcases List.mem_cons.1 hk' with rfl | hk'
    · simp at hp'
    · have hks := h.keySplit k' (by rw [hk]; exact List.mem_cons_of_mem _ hk') hp'
      obtain ⟨ho, hom⟩ := hord k' hk' hp'
      intro i t ht
      rcases Nat.lt_trichotomy i A.length with hi | hi | hi
      · rw [List.getElem?_append_left hi] at ht
        exact hks i t (by rw [List.getElem?_append_left hi]; exact ht)
      · rw [List.getElem?_append_right (by omega), hi] at ht
        simp at ht; subst ht
        exact ⟨fun h' => by omega, fun _ => by rw [hx]; exact hom⟩
      · rw [List.getElem?_append_right (by omega)] at ht
        have e : i - A.length = (i - 1 - A.length) + 1 := by omega
        rw [e, List.getElem?_cons_succ] at ht
        have := hks (i - 1) t (by rw [List.getElem?_append_right (by omega)]; exact ht)
        exact ⟨fun h' => by omega, fun _ => this.2 (by omega)⟩
  · rw [hkeys, List.pairwise_cons]
    have := h.keyOrd
    rw [hk, List.pairwise_cons] at this
    exact ⟨fun _ _ hp => by simp at hp, this.2⟩
  · have := h.bal
    simp only [List.countP_append, List.countP_cons] at this ⊢
    rw [hind, hbe]
    split <;> simp <;> omega
  · intro pre post hpp
    rcases List.append_eq_append_iff.1 hpp with ⟨C, rfl, hC⟩ | ⟨C, rfl, hC⟩
    · -- pre = A ++ C
      cases C with
      | nil => simpa using h.balPre A B rfl
      | cons c C =>
        simp at hC
        obtain ⟨rfl, rfl⟩ := hC
        have := h.balPre (A ++ C) post (by simp)
        simp only [List.countP_append, List.countP_cons] at this ⊢
        rw [hbe]; simp; omega
    · exact h.balPre pre (C ++ B) (by simp)
  · rw [foldl_depth A B x hfs hfe, h.flow, hfl]
  · intro pre t post hpp
    rcases List.append_eq_append_iff.1 hpp with ⟨C, rfl, hC⟩ | ⟨C, rfl, hC⟩
    · cases C with
      | nil =>
        simp at hC
        obtain ⟨rfl, rfl⟩ := hC
        simp [hss, hAne]
      | cons c C =>
        simp at hC
        obtain ⟨rfl, rfl⟩ := hC
        rw [h.first (A ++ C) t post (by simp)]
        simp [hAne]
    · cases C with
      | nil =>
        simp at hC
        obtain ⟨rfl, rfl⟩ := hC
        simp at hAne
        simp [hss, hAne]
      | cons c C =>
        simp at hC
        obtain ⟨rfl, rfl⟩ := hC
        exact h.first pre t (C ++ B) (by simp)
  · intro pre kk post hpp hkd hkmm
    rcases List.append_eq_append_iff.1 hpp with ⟨C, rfl, hC⟩ | ⟨C, rfl, hC⟩
    · cases C with
      | nil =>
        simp at hC
        obtain ⟨rfl, rfl⟩ := hC
        rw [hx]
        exact himpl hkd
      | cons c C =>
        simp at hC
        obtain ⟨rfl, rfl⟩ := hC
        exact h.impl (A ++ C) kk post (by simp) hkd hkmm
    · cases C with
      | nil =>
        simp at hC
        obtain ⟨rfl, rfl⟩ := hC
        rw [hx]
        exact himpl hkd
      | cons c C =>
        simp at hC
        obtain ⟨rfl, rfl⟩ := hC
        obtain ⟨v, hv, h'⟩ := h.impl pre kk (C ++ B) (by simp) hkd hkmm
        exact ⟨v, by simp at hv ⊢; rcases hv with hv | hv <;> simp [hv], h'⟩
  · intro t ht
    rcases List.mem_append.1 ht with h' | h'
    · exact h.wide t (by simp [h'])
    · rcases List.mem_cons.1 h' with rfl | h'
      · exact Or.inr (by rw [hx, hx'])
      · exact h.wide t (by simp [h'])

end Hist
end Yaml
