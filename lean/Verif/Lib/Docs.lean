import Verif.Lib.Tile5
import Verif.Lib.Twin6

/-
The scanner after a document end marker.
-/

namespace Yaml
open Scanner Spec
set_option linter.unusedSimpArgs false
set_option linter.unusedVariables false

namespace Dx

/-- The scanner right behind the document end marker `d`. -/
structure After (d : Token) (s : SState) : Prop where
  keys : ∀ k ∈ s.simpleKeys, k.possible = false
  mark : s.mark = d.endMark
  ind : s.flowLevel = 0 → s.indents = [] ∧ s.indent = -1
  ska : s.simpleKeyAllowed = false

/-- No token is fetched behind a document end marker before that has been taken. -/
def DInv (hist : List Token) (s : SState) : Prop :=
  (∀ pre d post, s.tokens = pre ++ d :: post → d.data = .documentEnd → post = []) ∧
  (∀ L d, hist ++ s.tokens = L ++ [d] → d.data = .documentEnd → After d s)

theorem ind_base {i : Int} {is : List Int} (h : IndOk i is) : -1 ≤ i := by
  induction is generalizing i with
  | nil => have h : i = -1 := h; omega
  | cons j js ih => have := ih h.2; have := h.1; omega

theorem ind_top {i : Int} {is : List Int} (h : IndOk i is) (hi : i ≤ -1) : is = [] ∧ i = -1 := by
  cases is with
  | nil => exact ⟨rfl, h⟩
  | cons j js => have := ind_base h.2; have := h.1; omega

theorem mem_insert {A : Type} {a b : A} : ∀ {n : Nat} {l : List A}, a ∈ l.insertIdx n b → a = b ∨ a ∈ l
  | 0, l, h => List.mem_cons.1 h
  | n + 1, [], h => by simp at h
  | n + 1, c :: l, h => by
    rw [List.insertIdx_succ_cons] at h
    rcases List.mem_cons.1 h with h | h
    · exact .inr (by simp [h])
    · exact (mem_insert h).imp id (List.mem_cons_of_mem _)

/-- No document end marker in the queue. -/
def NoDoc (s : SState) : Prop := ∀ t ∈ s.tokens, t.data ≠ .documentEnd

theorem NoDoc.unroll {s s1 : SState} {col : Int} (h : NoDoc s) (hu : Unroll col s s1) : NoDoc s1 := by
  obtain ⟨n, i, is, rfl, _⟩ := hu
  intro t ht
  rcases List.mem_append.1 ht with ht | ht
  · exact h t ht
  · rw [List.eq_of_mem_replicate ht]; simp

theorem NoDoc.roll {s : SState} {col : Nat} {num : Option Nat} {d : TokenData} {m : Mark} (h : NoDoc s) (hd : d ≠ .documentEnd) : NoDoc (rollS col num d m s) := by
  unfold rollS
  split
  · cases num with
    | none =>
      intro t ht
      rcases List.mem_append.1 ht with ht | ht
      · exact h t ht
      · simp at ht; rw [ht]; exact hd
    | some n =>
      intro t ht
      rcases mem_insert ht with rfl | ht
      · exact hd
      · exact h t ht
  · exact h

theorem NoDoc.prep {s s1 : SState} {D : TokenData → Prop} (h : NoDoc s) (hp : Prep s D s1) : NoDoc s1 := by
  have hsave : NoDoc (saveS s) := by unfold saveS; split <;> exact h
  cases hp with
  | doc hu hr => have := h.unroll hu; exact this
  | flowStart hr => exact hsave
  | flowEnd hr => split <;> exact h
  | flowEntry hr => exact h
  | blockEntry hs hr => subst hs; exact h.roll (by simp)
  | key hs hr x => subst hs; exact h.roll (by simp)
  | valueKey hk hp =>
    refine NoDoc.roll (s := { s with tokens := _, simpleKeys := _ }) ?_ (by simp)
    intro t ht
    rcases mem_insert ht with rfl | ht
    · simp
    · exact h t ht
  | value hk hp x => exact h.roll (by simp)
  | node hr => exact hsave
  | blockScalar hr => exact h

theorem last_only {s' : SState} {X : List Token} {tok : Token} (h : s'.tokens = X ++ [tok]) (hX : ∀ t ∈ X, t.data ≠ .documentEnd) :
    ∀ pre d post, s'.tokens = pre ++ d :: post → d.data = .documentEnd → post = [] := by
  intro pre d post he hd
  rw [h] at he
  rcases List.eq_nil_or_concat post with rfl | ⟨post', x, rfl⟩
  · rfl
  · have he : X ++ [tok] = (pre ++ d :: post') ++ [x] := by rw [he]; simp
    obtain ⟨rfl, _⟩ := List.append_inj' he rfl
    exact absurd hd (hX d (by simp))

theorem DInv.fetch {hist : List Token} {s s' : SState} {b b' : Inp} (h : DInv hist s) (hr : s.tokens = [] ∨ keyPending s = true)
    (hf : Fetched s b s' b') : DInv hist s' := by
  cases hf with
  | start hs e hb =>
    refine ⟨last_only (X := []) (tok := ⟨.streamStart e, Mark.zero, Mark.zero⟩) rfl (by simp), ?_⟩
    intro L d he hd
    have he : hist ++ [⟨.streamStart e, Mark.zero, Mark.zero⟩] = L ++ [d] := he
    have := (List.append_inj' he rfl).2
    simp at this
    rw [← this] at hd; simp at hd
  | @next s1 s3 _ b1 _ hs hg hst hu hd hsep =>
    have hno : NoDoc s := by
      intro t ht hd
      obtain ⟨pre, post, he⟩ := List.append_of_mem ht
      have := h.1 pre t post he hd
      subst this
      have ha := h.2 (hist ++ pre) t (by rw [he, List.append_assoc]) hd
      rcases hr with hr | hr
      · rw [hr] at ht; simp at ht
      · unfold keyPending at hr
        obtain ⟨k, hk, hkp⟩ := List.any_eq_true.1 hr
        rw [ha.keys k hk] at hkp; simp at hkp
    have hno1 : NoDoc (staleS s1) := by
      intro t ht
      have ht : t ∈ s1.tokens := ht
      rw [hg.1.tokens] at ht
      exact hno t ht
    have hno3 := hno1.unroll hu
    cases hd with
    | streamEnd hb hb' hu2 hr2 =>
      have hno4 : NoDoc _ := NoDoc.unroll (s := { s3 with mark := endMarkOf s3.mark }) hno3 hu2
      refine ⟨last_only (X := _) rfl hno4, ?_⟩
      intro L d he hd
      have he : hist ++ (_ ++ [_]) = L ++ [d] := he
      rw [← List.append_assoc] at he
      have := (List.append_inj' he rfl).2
      simp at this
      rw [← this] at hd; simp at hd
    | @token D s4 s5 tok _ hp ht hd hsp =>
      have hno4 := hno3.prep hp
      have hno5 : NoDoc s5 := by intro t h; rw [ht.go.1.tokens] at h; exact hno4 t h
      refine ⟨last_only (X := s5.tokens) rfl hno5, ?_⟩
      intro L d he hdd
      have he : hist ++ (s5.tokens ++ [tok]) = L ++ [d] := he
      rw [← List.append_assoc] at he
      have := (List.append_inj' he rfl).2
      simp at this
      subst this
      have hcol : s1.mark.column = 0 := by
        obtain ⟨hst, w, r, _, _, _, _, hsp, _⟩ := hsp
        unfold Spells at hsp
        rw [hdd] at hsp
        have := hsp.1
        rw [hst, hu.mark] at this
        exact this
      have hmark : s5.mark = tok.endMark := (ht.wide (by rw [hdd]; rfl)).1.symm
      cases hp with
      | @doc u hu2 hr2 =>
        have hk5 : s5.simpleKeys = (clearS u).simpleKeys := by rw [ht.go.1]
        have hf5 : s5.flowLevel = u.flowLevel := by rw [ht.go.1]; rfl
        have hi5 : s5.indents = u.indents ∧ s5.indent = u.indent := by rw [ht.go.1]; exact ⟨rfl, rfl⟩
        refine ⟨?_, hmark, ?_, by show s5.simpleKeyAllowed = false; exact (ht.wide (by rw [hdd]; rfl)).2⟩
        · intro k hk
          have hk : k ∈ s5.simpleKeys := hk
          rw [hk5] at hk
          have hku : u.simpleKeys = (staleS s1).simpleKeys := by rw [hu2.keys, hu.keys]
          unfold clearS at hk
          dsimp only at hk
          rw [hku] at hk
          have hopen : SOpen (staleS s1) := (hs.frame hg.1 (Adv.le hg.2)).stale
          cases hks : (staleS s1).simpleKeys with
          | nil => rw [hks] at hk; simp at hk
          | cons k0 ks =>
            rw [hks] at hk
            rcases List.mem_cons.1 hk with rfl | hk
            · rfl
            · cases hpk : k.possible with
              | false => rfl
              | true =>
                have h1 := hopen.keyRest k (by rw [hks]; exact hk) hpk
                have h2 := staleErr_none hst k (by rw [hks]; exact List.mem_cons_of_mem _ hk) hpk
                unfold lcLt at h1
                have e : (staleS s1).mark = s1.mark := rfl
                rw [e, hcol] at h1
                omega
        · intro hfl
          have hfl : s5.flowLevel = 0 := hfl
          rw [hf5, hu2.flow] at hfl
          obtain ⟨n, i, is, hu', h1, h2, h3, _⟩ := hu2
          have := ind_top h1 (h3 hfl)
          show s5.indents = [] ∧ s5.indent = -1
          rw [hi5.1, hi5.2, hu']
          exact this
      | flowStart => rw [hdd] at hd; simp at hd
      | flowEnd => rw [hdd] at hd; simp at hd
      | flowEntry => rw [hdd] at hd; simp at hd
      | blockEntry => rw [hdd] at hd; simp at hd
      | key => rw [hdd] at hd; simp at hd
      | valueKey => rw [hdd] at hd; simp at hd
      | value => rw [hdd] at hd; simp at hd
      | node => rw [hdd] at hd; simp [lexData] at hd
      | blockScalar => rw [hdd] at hd; simp [lexData] at hd

theorem DInv.stale {hist : List Token} {s : SState} (h : DInv hist s) : DInv hist (staleS s) := by
  refine ⟨h.1, fun L d he hd => ?_⟩
  have ha := h.2 L d he hd
  refine ⟨?_, ha.mark, ha.ind, ha.ska⟩
  intro k hk
  cases hp : k.possible with
  | false => rfl
  | true =>
    have := ha.keys k ((staleS_sub s).mem hk hp)
    rw [hp] at this; exact this

theorem DInv.take {hist : List Token} {s : SState} {t : Token} {ts : List Token} (h : DInv hist s) (ht : s.tokens = t :: ts) :
    DInv (hist ++ [t]) (takeS t ts s) ∧ (t.data = .documentEnd → ts = []) := by
  refine ⟨⟨?_, ?_⟩, fun hd => h.1 [] t ts ht hd⟩
  · intro pre d post he hd
    exact h.1 (t :: pre) d post (by rw [ht]; show t :: ts = t :: (pre ++ d :: post); rw [show ts = pre ++ d :: post from he]) hd
  · intro L d he hd
    have ha := h.2 L d (by rw [ht, ← he]; show hist ++ t :: ts = hist ++ [t] ++ ts; simp) hd
    exact ⟨ha.keys, ha.mark, ha.ind, ha.ska⟩

/-! ### Runs -/

/-- The invariant of a scanner that has delivered `hist` of the text `T`, over a clean input. -/
def RunD (T : List Char) (e : Encoding) (hist : List Token) (o : ScannerObj) : Prop :=
  ∃ b, RC e b o.r ∧ HInv T hist o.s b ∧ Count T hist o.s b ∧ (NoEnd hist ∧ Fit (hist ++ o.s.tokens)) ∧ DInv hist o.s ∧ Idle o.s ∧ ∃ p, T = p ++ b.text

theorem RunD.start {items : List SrcItem} {enc e : Encoding} {T : List Char} (h : Clean enc items e T) (hs : 4 * srcSize items < Reader.maxInput) :
    RunD T e [] (ScannerObj.new items enc) := by
  refine ⟨_, RC.start h hs, Or.inl ⟨rfl, rfl, rfl⟩, ?_, ⟨by intro t ht; simp at ht, by intro t ht; simp [ScannerObj.new, SState.new] at ht⟩, ⟨?_, ?_⟩, Or.inl rfl, [], rfl⟩
  · simp [Count, ScannerObj.new, SState.new]
  · intro pre d post he; simp [ScannerObj.new, SState.new] at he
  · intro L d he; simp [ScannerObj.new, SState.new] at he

theorem RunD.scan {T : List Char} {e : Encoding} {hist : List Token} {o o' : ScannerObj} {t : Token} {F : Nat} (h : RunD T e hist o) (hF : T.length + 2 < F)
    (hs : o.scan F = (.ok t, o')) (hne : t.data ≠ .streamEnd) : RunD T e (hist ++ [t]) o' ∧ (t.data = .documentEnd → o'.s.tokens = []) := by
  obtain ⟨b, hR, hI, hc, ⟨hn, hcon⟩, hD, hid, p, hp⟩ := h
  have hlen : b.text.length ≤ T.length := by rw [hp]; simp
  have hw := wpB_scan' (F := F) (s := o.s) (b := b) (P := fun _ => True) (E := fun _ _ _ => True)
    (Q := fun t s' b' => t.data ≠ .streamEnd → (HInv T (hist ++ [t]) s' b' ∧ Count T (hist ++ [t]) s' b' ∧
        (NoEnd (hist ++ [t]) ∧ Fit (hist ++ [t] ++ s'.tokens)) ∧ DInv (hist ++ [t]) s' ∧ Idle s' ∧ ∃ p, T = p ++ b'.text) ∧ (t.data = .documentEnd → s'.tokens = []))
    (fun s b => ((HInv T hist s b ∧ DInv hist s) ∧ Fit (hist ++ s.tokens)) ∧ Count T hist s b) hid ⟨⟨⟨hI, hD⟩, hcon⟩, hc⟩ (by omega)
      ⟨fun _ => trivial, fun _ => trivial, fun _ _ => trivial⟩ (Or.inr ⟨trivial, trivial⟩)
      (fun s b s' b' h _ hr hf => ⟨⟨⟨h.1.1.1.fetch hf, h.1.1.2.fetch hr hf⟩, Fit.append.2 ⟨(Fit.append.1 h.1.2).1, (Fit.append.1 h.1.2).2.fetch hf⟩⟩, h.2.fetch hf⟩)
      (fun s b h _ _ => ⟨⟨⟨h.1.1.1.stale, h.1.1.2.stale⟩, h.1.2⟩, h.2.stale⟩)
      (fun s1 b1 e s' b' h he => trivial)
      (by
        intro t ts s' b' hI' ⟨q, hq⟩ hf ha ht hne
        have := (hI'.1.1.1.avail true).take (t := t) (ts := ts) (hI'.2.avail true) hn hI'.1.2 ha ht
        have e : takeS t ts { s' with tokenAvailable := true } = takeS t ts s' := rfl
        rw [e] at this
        have hdi := hI'.1.1.2.take ht
        rcases this with ⟨g1, g2, g3, g4, g5⟩ | g
        · refine ⟨⟨g3, g4, ⟨g5, by have h := hI'.1.2; have ht : s'.tokens = t :: ts := ht; rw [ht] at h; rw [List.append_assoc]; exact h⟩, hdi.1, g2, ?_⟩, hdi.2⟩
          exact ⟨p ++ q, by rw [hp, hq, List.append_assoc]⟩
        · exact absurd g.1 hne)
  obtain ⟨x1, b', hR', _, hpost⟩ := exec_clean _ hw hR
  unfold ScannerObj.scan runA at hs
  revert hpost hR' hs
  generalize execA (Scanner.scan F o.s) o.r = q
  obtain ⟨⟨out, s'⟩, r'⟩ := q
  intro hs hR' hpost
  obtain ⟨rfl, rfl⟩ := Prod.mk.inj hs
  obtain ⟨⟨g1, g2, g3, g4, g5, g6⟩, g7⟩ := hpost hne
  exact ⟨⟨b', hR', g1, g2, g3, g4, g5, g6⟩, g7⟩

/-- The scanner after it delivered a document end marker. -/
structure Stop (T : List Char) (e : Encoding) (d : Token) (n : Nat) (o : ScannerObj) (b : Inp) : Prop where
  rc : RC e b o.r
  s : SOpen o.s
  after : After d o.s
  empty : o.s.tokens = []
  adv : Adv Mark.zero T d.endMark b.text
  flow : n = o.s.flowLevel
  parsed : 1 ≤ o.s.tokensParsed

theorem reads_run {items : List SrcItem} {enc e : Encoding} {T : List Char} (hc : Clean enc items e T) (hs : 4 * srcSize items < Reader.maxInput) {F : Nat}
    (hF : T.length + 2 < F) {ts : List Token} {o : ScannerObj} (h : ScannerObj.Reads F (ScannerObj.new items enc) ts o) (hn : ∀ t ∈ ts, t.data ≠ .streamEnd) :
    RunD T e ts o ∧ ∀ L d, ts = L ++ [d] → d.data = .documentEnd → o.s.tokens = [] := by
  induction h with
  | nil => exact ⟨RunD.start hc hs, fun L d he => by simp at he⟩
  | @snoc ts t o1 o2 h hsc ih =>
    have ih := (ih fun t ht => hn t (by simp [ht])).1
    obtain ⟨g1, g2⟩ := ih.scan hF hsc (hn t (by simp))
    refine ⟨g1, fun L d he hd => ?_⟩
    have := (List.append_inj' he rfl).2
    simp at this
    subst this
    exact g2 hd

theorem reads_stop {items : List SrcItem} {enc e : Encoding} {T : List Char} (hc : Clean enc items e T) (hs : 4 * srcSize items < Reader.maxInput) {F : Nat}
    (hF : T.length + 2 < F) {ts : List Token} {d : Token} {o : ScannerObj} (h : ScannerObj.Reads F (ScannerObj.new items enc) (ts ++ [d]) o)
    (hd : d.data = .documentEnd) (hn : ∀ t ∈ ts, t.data ≠ .streamEnd) : ∃ b, Stop T e d (flowDepth (ts ++ [d])) o b := by
  obtain ⟨⟨b, hR, hI, hc, ⟨hn, hcon⟩, hD, hid, p, hp⟩, hem⟩ := reads_run hc hs hF h (by
    intro t ht
    rcases List.mem_append.1 ht with ht | ht
    · exact hn t ht
    · simp at ht; rw [ht, hd]; simp)
  have hem := hem ts d rfl hd
  have ha := hD.2 ts d (by rw [hem]; simp) hd
  refine ⟨b, ?_⟩
  rcases hI with ⟨_, h0, _⟩ | ⟨h1, h2, h3, h4⟩
  · simp at h0
  · rcases h4 with ⟨h4, h5⟩ | ⟨h4, _⟩
    · have hav : o.s.tokenAvailable = false := by
        rcases hid with h | h | h
        · rw [h]; rfl
        · exact h.notAvail
        · exact h.notAvail
      have e : ({ o.s with tokenAvailable := false } : SState) = o.s := by rw [← hav]
      rw [e] at h4
      refine ⟨hR, h4, ha, hem, ha.mark ▸ h5, ?_, by rw [← h1]; simp⟩
      have := h3.flow
      rw [hem, List.append_nil] at this
      exact this
    · obtain ⟨us, u, hq, _⟩ := h4.queue
      have hq : o.s.tokens = us ++ [u] := hq
      rw [hem] at hq; simp at hq

end Dx
end Yaml
