import Verif.Lib.Run
import Verif.Lib.Read8

/-
Scanners over inputs that deliver the same text, and scanners after errors.
-/

namespace Yaml
open Reader Scanner
set_option linter.unusedSimpArgs false
set_option linter.unusedVariables false

/-! ### Taking all characters successfully means that the source is clean -/

theorem updateLoop_back {length : Nat} : ∀ (fuel : Nat) {r r' : Rd} {e : Encoding} {t' : List Char}, r.encoding ≠ .any →
    (r.eof = true → r.items = []) →
    updateLoop length fuel r = (none, r') → Clean r'.encoding r'.items e t' →
    ∃ t, Clean r.encoding r.items e t ∧ r.buffer ++ t = r'.buffer ++ t' ∧ (r'.eof = true → r'.items = []) ∧ r'.encoding = r.encoding := by
  intro fuel
  induction fuel with
  | zero =>
    intro r r' e t' he heof h hc
    unfold updateLoop at h
    split at h
    · split at h
      · simp at h; subst h; exact ⟨t', hc, rfl, heof, rfl⟩
      · simp at h
    · split at h
      · simp at h
      · simp at h; subst h; exact ⟨t', hc, rfl, heof, rfl⟩
  | succ fuel ih =>
    intro r r' e t' he heof h hc
    unfold updateLoop at h
    split at h
    · split at h
      · simp at h; subst h; exact ⟨t', hc, rfl, heof, rfl⟩
      · have hs := readChunk_same r he
        have hp := readChunk_progress r.encoding r.items
        generalize hc0 : readChunk (bare r.encoding r.items) = c0 at hs hp
        generalize hcc : readChunk r = c at hs h
        obtain ⟨c1, r1⟩ := c
        obtain ⟨c01, r0⟩ := c0
        obtain ⟨hrd, hres⟩ := hs
        dsimp only at hrd hres
        have hb1 : r1.buffer = r.buffer ++ r0.buffer := by rw [hrd]
        have hi1 : r1.items = r0.items := by rw [hrd]
        have he1 : r1.encoding = r.encoding := by rw [hrd]
        have hf1 : r1.eof = r.eof := by rw [hrd]
        cases c1 with
        | error x => simp at h
        | ok y =>
          rcases hres with ⟨bb, hb, hbb⟩ | ⟨_, _, h0, _⟩
          · simp at hb; subst hb
            subst hbb
            cases y with
            | false =>
              simp at h
              subst h
              obtain ⟨hp1, hp2⟩ := hp
              have hc : Clean r1.encoding r1.items e t' := hc
              rw [hi1, hp2, he1] at hc
              have := hc.future.nil
              have h2 := hc.enc he
              subst h2
              refine ⟨[], .eof he (by rw [hc0]), ?_, ?_, he1⟩
              · show _ = r1.buffer ++ t'
                rw [hb1, hp1, this]; simp
              · intro _; show r1.items = []; rw [hi1, hp2]
            | true =>
              obtain ⟨t, k1, k2, k3, k4⟩ := ih (r := r1) (by rw [he1]; exact he) (by rw [hf1]; intro hx; rename_i hr _; exact absurd hx (by assumption)) h hc
              rw [he1, hi1] at k1
              refine ⟨r0.buffer ++ t, .more he hc0 k1, ?_, k3, by rw [k4, he1]⟩
              rw [← k2, hb1]; simp
          · simp at h0
    · split at h
      · simp at h
      · simp at h; subst h; exact ⟨t', hc, rfl, heof, rfl⟩

theorem clean_any_nil {e : Encoding} {t : List Char} (h : Clean .any [] e t) : e = .any := by
  cases h with
  | eof hne => exact absurd rfl hne
  | more hne => exact absurd rfl hne
  | empty => rfl
  | determined hne hd' => simp [determineEncoding, fillBuf] at hd'

theorem cache_back {n : Nat} {r r' : Rd} {e : Encoding} {t' : List Char} (heof : r.eof = true → r.items = [])
    (h : Reader.cache n r = (none, r')) (hc : Clean r'.encoding r'.items e t') :
    ∃ t, Clean r.encoding r.items e t ∧ r.buffer ++ t = r'.buffer ++ t' ∧ (r'.eof = true → r'.items = []) := by
  unfold Reader.cache at h
  split at h
  · simp at h; subst h; exact ⟨t', hc, rfl, heof⟩
  · unfold updateBuffer at h
    split at h
    · simp at h; subst h; exact ⟨t', hc, rfl, heof⟩
    · split at h
      · rename_i he
        split at h
        · simp at h
        · rename_i items hd
          simp at h; subst h
          have hi := determineEncoding_none hd
          subst hi
          have hc : Clean r.encoding [] e t' := hc
          rw [he] at hc
          have h1 := hc.future.nil
          subst h1
          have h2 : e = .any := clean_any_nil hc
          subst h2
          exact ⟨[], by rw [he]; exact .empty hd, rfl, fun _ => rfl⟩
        · rename_i e1 items hd
          have hne := determineEncoding_some hd
          have hx : r.eof = true → items = [] := by
            intro hr
            have := heof hr
            rw [this] at hd
            simp [determineEncoding, fillBuf] at hd
          obtain ⟨t, k1, k2, k3, k4⟩ := updateLoop_back (r := { r with items := items, encoding := e1 }) _ hne hx h hc
          exact ⟨t, by rw [he]; exact .determined hne hd k1, k2, k3⟩
      · rename_i he
        obtain ⟨t, k1, k2, k3, k4⟩ := updateLoop_back _ he heof h hc
        exact ⟨t, k1, k2, k3⟩

theorem updateLoop_short {length : Nat} : ∀ (fuel : Nat) {r r' : Rd}, updateLoop length fuel r = (none, r') →
    length ≤ r'.buffer.length ∨ r'.eof = true := by
  intro fuel
  induction fuel with
  | zero =>
    intro r r' h
    unfold updateLoop at h
    split at h
    · split at h
      · simp at h; subst h; right; assumption
      · simp at h
    · split at h
      · simp at h
      · simp at h; subst h; left; omega
  | succ fuel ih =>
    intro r r' h
    unfold updateLoop at h
    split at h
    · split at h
      · simp at h; subst h; right; assumption
      · generalize readChunk r = c at h
        obtain ⟨c1, c2⟩ := c
        match c1, h with
        | .error _, h => simp at h
        | .ok false, h => simp at h; subst h; exact Or.inr rfl
        | .ok true, h => exact ih h
    · split at h
      · simp at h
      · simp at h; subst h; left; omega

theorem cache_short {n : Nat} {r r' : Rd} (h : Reader.cache n r = (none, r')) : n ≤ r'.buffer.length ∨ r'.eof = true := by
  unfold Reader.cache at h
  split at h
  · simp at h; subst h; left; omega
  · unfold updateBuffer at h
    split at h
    · simp at h; subst h; left; omega
    · split at h
      · split at h
        · simp at h
        · simp at h; subst h; exact Or.inr rfl
        · exact updateLoop_short _ h
      · exact updateLoop_short _ h


theorem updateLoop_eof {length : Nat} : ∀ (fuel : Nat) {r r' : Rd}, r.encoding ≠ .any → (r.eof = true → r.items = []) →
    updateLoop length fuel r = (none, r') → r'.eof = true → r'.items = [] := by
  intro fuel
  induction fuel with
  | zero =>
    intro r r' he heof h
    unfold updateLoop at h
    split at h
    · split at h
      · simp at h; subst h; exact heof
      · simp at h
    · split at h
      · simp at h
      · simp at h; subst h; exact heof
  | succ fuel ih =>
    intro r r' he heof h
    unfold updateLoop at h
    split at h
    · split at h
      · simp at h; subst h; exact heof
      · rename_i hr
        have hs := readChunk_same r he
        have hp := readChunk_progress r.encoding r.items
        generalize hc0 : readChunk (bare r.encoding r.items) = c0 at hs hp
        generalize hcc : readChunk r = c at hs h
        obtain ⟨c1, r1⟩ := c
        obtain ⟨c01, r0⟩ := c0
        obtain ⟨hrd, hres⟩ := hs
        dsimp only at hrd hres
        have hi1 : r1.items = r0.items := by rw [hrd]
        have he1 : r1.encoding = r.encoding := by rw [hrd]
        have hf1 : r1.eof = r.eof := by rw [hrd]
        cases c1 with
        | error x => simp at h
        | ok y =>
          rcases hres with ⟨bb, hb, hbb⟩ | ⟨_, _, h0, _⟩
          · simp at hb; subst hb
            subst hbb
            cases y with
            | false =>
              simp at h
              subst h
              intro _; show r1.items = []; rw [hi1, hp.2]
            | true => exact ih (r := r1) (by rw [he1]; exact he) (by rw [hf1]; intro hx; exact absurd hx hr) h
          · simp at h0
    · split at h
      · simp at h
      · simp at h; subst h; exact heof

theorem cache_eof {n : Nat} {r r' : Rd} (heof : r.eof = true → r.items = []) (h : Reader.cache n r = (none, r')) :
    r'.eof = true → r'.items = [] := by
  unfold Reader.cache at h
  split at h
  · simp at h; subst h; exact heof
  · unfold updateBuffer at h
    split at h
    · simp at h; subst h; exact heof
    · split at h
      · split at h
        · simp at h
        · rename_i items hd
          simp at h; subst h
          intro _; exact determineEncoding_none hd
        · rename_i e1 items hd
          refine updateLoop_eof _ (r := { r with items := items, encoding := e1 }) (determineEncoding_some hd) ?_ h
          intro hr
          have := heof hr
          rw [this] at hd
          simp [determineEncoding, fillBuf] at hd
      · rename_i he
        exact updateLoop_eof _ he heof h

theorem cache_nil (n : Nat) {r : Rd} (he : r.eof = true) (hi : r.items = []) : Reader.cache n r = (none, r) := by
  have hl : ∀ n, r.buffer.length < n → updateLoop n n r = (none, r) := by
    intro n hlt
    cases n <;> (unfold updateLoop; rw [if_pos hlt, if_pos he])
  unfold Reader.cache
  split
  · rfl
  · rename_i hn
    unfold updateBuffer
    rw [if_neg hn]
    split
    · rw [hi]
      simp only [determineEncoding, fillBuf]
      obtain ⟨_, _, _, _, _⟩ := r
      simp_all
    · exact hl n (by omega)

theorem pull_nil : ∀ (ns : List Nat) {r r' : Rd} {out : List Char}, r.eof = true → r.items = [] → r.buffer = [] →
    pull ns r = (.ok out, r') → out = [] ∧ r'.encoding = r.encoding := by
  intro ns
  induction ns with
  | nil => intro r r' out _ _ _ h; simp [pull] at h; obtain ⟨rfl, rfl⟩ := h; exact ⟨rfl, rfl⟩
  | cons n ns ih =>
    intro r r' out h1 h2 h3 h
    unfold pull at h
    rw [cache_nil n h1 h2] at h
    dsimp only at h
    generalize hq : pull ns { r with buffer := r.buffer.drop n } = q at h
    obtain ⟨q1, q2⟩ := q
    cases q1 with
    | error e => simp [Except.map] at h
    | ok new' =>
      simp [Except.map] at h
      obtain ⟨k1, k2⟩ := ih (r := { r with buffer := r.buffer.drop n }) h1 h2 (by simp [h3]) hq
      rw [← h.1, ← h.2, k1, k2, h3]
      simp

/-- If taking characters succeeded up to the end of the input, the input is clean. -/
theorem pull_back : ∀ (ns : List Nat) {r r' : Rd} {out : List Char}, (r.eof = true → r.items = []) →
    pull ns r = (.ok out, r') → out.length < ns.sum → ∃ t, Clean r.encoding r.items r'.encoding t ∧ r.buffer ++ t = out := by
  intro ns
  induction ns with
  | nil => intro r r' out _ _ h; simp at h
  | cons n ns ih =>
    intro r r' out heof h hlt
    unfold pull at h
    split at h
    · simp at h
    · rename_i r1 hc
      generalize hq : pull ns { r1 with buffer := r1.buffer.drop n } = q at h
      obtain ⟨q1, q2⟩ := q
      cases q1 with
      | error x => simp [Except.map] at h
      | ok o1 =>
        simp [Except.map] at h
        obtain ⟨h1, rfl⟩ := h
        have heof1 := cache_eof heof hc
        by_cases hl : o1.length < ns.sum
        · obtain ⟨t, k1, k2⟩ := ih (r := { r1 with buffer := r1.buffer.drop n }) heof1 hq hl
          obtain ⟨t2, m1, m2, m3⟩ := cache_back heof hc k1
          refine ⟨t2, m1, ?_⟩
          rw [m2, ← h1, ← k2, ← List.append_assoc, List.take_append_drop]
        · have hlen : r1.buffer.length < n := by
            rw [← h1] at hlt
            simp at hlt
            omega
          have he : r1.eof = true := (cache_short hc).resolve_left (by omega)
          have hi := heof1 he
          obtain ⟨k1, k2⟩ := pull_nil ns (r := { r1 with buffer := r1.buffer.drop n }) he hi (List.drop_eq_nil_of_le (by omega)) hq
          have k2 : q2.encoding = r1.encoding := k2
          obtain ⟨t2, m1, m2, m3⟩ := cache_back (e := q2.encoding) (t' := []) heof hc (by rw [hi, k2]; exact clean_nil)
          refine ⟨t2, m1, ?_⟩
          rw [m2, ← h1, k1, List.take_of_length_le (by omega)]

/-! ### Scanners over the same text -/

/-- The results of `n` successive calls of `scan`, `Ok` or `Err`; a panic ends the list. -/
def ScannerObj.scans (F : Nat) : Nat → ScannerObj → List (Out Token)
  | 0, _ => []
  | n + 1, o =>
    match o.scan F with
    | (.ok t, o') => .ok t :: scans F n o'
    | (.err e, o') => .err e :: scans F n o'
    | (r, _) => [r]

theorem MoreErr.idle {s s' : SState} {b : Inp} {e : Err} (h : MoreErr s b e s') : Idle s' := by
  rcases h with ⟨_, h, _⟩ | ⟨h, _, _, _, rfl⟩
  · rcases h with h | h
    · exact Or.inl h
    · exact Or.inr (Or.inl h)
  · rcases h with h | h
    · exact Or.inr (Or.inl h.stale)
    · exact Or.inr (Or.inr h.stale)

theorem wpB_scan_idle {F : Nat} {s : SState} {b : Inp} (hs : Idle s) (hF : b.text.length + 2 < F) :
    M.wp stepB (fun _ => True) (fun _ s' _ => Idle s' ∨ SDone s') (Scanner.scan F) (fun _ s' _ => Idle s' ∨ SDone s') s b := by
  refine wpB_scan (F := F) (s := s) (fun _ _ => True) hs trivial hF ⟨fun _ => trivial, fun _ => trivial, fun _ _ => trivial⟩
    (Or.inr ⟨trivial, trivial⟩) (fun _ _ _ _ _ _ _ => trivial) (fun _ _ _ _ _ => trivial) ?_ ?_
  · intro s1 b1 e s' b' _ h; exact Or.inl h.idle
  · intro t ts s' b' _ _ _ ha ht
    have := ha.take (t := t) (ts := ts) ht
    rcases this with h | h
    · exact Or.inl h.2
    · exact Or.inr h.2

/-- Two scanners that have seen different buffers of the same text. -/
structure Twins (enc : Encoding) (o1 o2 : ScannerObj) (n : Nat) : Prop where
  s : o1.s = o2.s
  r : ∃ b1 b2, RC enc b1 o1.r ∧ RC enc b2 o2.r ∧ b1.text = b2.text ∧ b1.text.length ≤ n
  st : Idle o1.s ∨ SDone o1.s

theorem Twins.scan {enc : Encoding} {o1 o2 : ScannerObj} {n F : Nat} (h : Twins enc o1 o2 n) (hF : n + 2 < F) :
    (o1.scan F).1 = (o2.scan F).1 ∧ ((∃ t, (o1.scan F).1 = .ok t) ∨ (∃ e, (o1.scan F).1 = .err e) → Twins enc (o1.scan F).2 (o2.scan F).2 n) := by
  obtain ⟨hs, ⟨b1, b2, hr1, hr2, ht, hl⟩, hst⟩ := h
  rcases hst with hi | hd
  · have w1 := wpB_scan_idle (F := F) hi (b := b1) (by omega)
    have w2 := wpB_scan_idle (F := F) (hs ▸ hi) (b := b2) (by rw [← ht]; omega)
    obtain ⟨x1, c1, y1, z1, q1⟩ := exec_clean _ w1 hr1
    obtain ⟨x2, c2, y2, z2, q2⟩ := exec_clean _ w2 hr2
    have e : execT (Scanner.scan F o1.s) ⟨b1.text, enc⟩ = execT (Scanner.scan F o2.s) ⟨b2.text, enc⟩ := by rw [hs, ht]
    have e1 : (execA (Scanner.scan F o1.s) o1.r).1 = (execA (Scanner.scan F o2.s) o2.r).1 := by rw [x1, x2, e]
    have hlen := (execT_text (Scanner.scan F o1.s) ⟨b1.text, enc⟩).2
    obtain ⟨p, hp⟩ := hlen
    have hp : b1.text = p ++ _ := hp
    refine ⟨by simp only [ScannerObj.scan, runA, e1], ?_⟩
    intro hok
    refine ⟨by simp only [ScannerObj.scan, runA, e1], ⟨c1, c2, y1, y2, by rw [z1, z2, e], ?_⟩, ?_⟩
    · rw [z1]
      rw [hp] at hl
      simp at hl
      omega
    · unfold ScannerObj.scan runA at hok ⊢
      revert q1 hok
      generalize execA (Scanner.scan F o1.s) o1.r = q
      obtain ⟨⟨out, s'⟩, r'⟩ := q
      intro q1 hok
      cases out with
      | ok t => exact q1
      | err e => exact q1
      | panic p => simp at hok
      | fuel => simp at hok
  · have h1 := (hd.scan F).1
    have h2 := (SDone.scan (o := o2) (hs ▸ hd) F).1
    rw [h1, h2]
    exact ⟨rfl, fun _ => ⟨hs, ⟨b1, b2, hr1, hr2, ht, hl⟩, Or.inr hd⟩⟩

theorem Twins.scans {enc : Encoding} {n F : Nat} (hF : n + 2 < F) : ∀ (k : Nat) {o1 o2 : ScannerObj}, Twins enc o1 o2 n →
    o1.scans F k = o2.scans F k := by
  intro k
  induction k with
  | zero => intros; rfl
  | succ k ih =>
    intro o1 o2 h
    obtain ⟨h1, h2⟩ := h.scan hF
    unfold ScannerObj.scans
    generalize o1.scan F = q1 at h1 h2
    generalize o2.scan F = q2 at h1 h2
    obtain ⟨r1, p1⟩ := q1
    obtain ⟨r2, p2⟩ := q2
    dsimp only at h1 h2
    subst h1
    cases r1 with
    | ok t => dsimp only; rw [ih (h2 (Or.inl ⟨t, rfl⟩))]
    | err e => dsimp only; rw [ih (h2 (Or.inr ⟨e, rfl⟩))]
    | panic p => rfl
    | fuel => rfl

theorem Twins.start {enc1 enc2 e : Encoding} {items1 items2 : List SrcItem} {T : List Char} (h1 : Clean enc1 items1 e T)
    (h2 : Clean enc2 items2 e T) (hs1 : 4 * srcSize items1 < maxInput) (hs2 : 4 * srcSize items2 < maxInput) :
    Twins e (ScannerObj.new items1 enc1) (ScannerObj.new items2 enc2) T.length :=
  ⟨rfl, ⟨_, _, RC.start h1 hs1, RC.start h2 hs2, rfl, Nat.le_refl _⟩, Or.inl (Or.inl rfl)⟩

end Yaml
