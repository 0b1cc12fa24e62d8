import Verif.Lib.Sink

/-
What the writing functions of the emitter do, coarsely: they only move the position and add
acceptable characters.
-/

namespace Yaml.Emitter
open Yaml Spec

set_option linter.unusedSimpArgs false

/-! ### Characters -/

theorem char_le {a c : Char} : a ≤ c ↔ a.toNat ≤ c.toNat := by
  rw [Char.le_def, UInt32.le_iff_toNat_le]; exact Iff.rfl

theorem outChar_printable {u : Bool} {c : Char} (h : isPrintable c = true) (ha : u = true ∨ isAscii c = true) : OutChar u c := by
  have hb : c ≠ '\uFEFF' := by
    rintro rfl
    exact absurd h (by decide)
  refine ⟨?_, hb, fun hu => ?_⟩
  · simp [isPrintable, isAllowed] at *
    omega
  · rcases ha with ha | ha
    · rw [hu] at ha; cases ha
    · exact ha

theorem outChar_ascii {u : Bool} {c : Char} (h1 : 0x20 ≤ c.toNat) (h2 : c.toNat ≤ 0x7E) : OutChar u c := by
  refine outChar_printable ?_ (Or.inr ?_)
  · simp [isPrintable]; omega
  · simp [isAscii]; omega

theorem outChar_alpha {u : Bool} {c : Char} (h : isAlpha c = true) : OutChar u c := by
  simp only [isAlpha, Bool.or_eq_true, Bool.and_eq_true, decide_eq_true_eq, beq_iff_eq] at h
  simp only [char_le] at h
  rcases h with (((h | h) | h) | rfl) | rfl
  · exact outChar_ascii (Nat.le_trans (by decide) h.1) (Nat.le_trans h.2 (by decide))
  · exact outChar_ascii (Nat.le_trans (by decide) h.1) (Nat.le_trans h.2 (by decide))
  · exact outChar_ascii (Nat.le_trans (by decide) h.1) (Nat.le_trans h.2 (by decide))
  · exact outChar_ascii (by decide) (by decide)
  · exact outChar_ascii (by decide) (by decide)

theorem outChar_space {u : Bool} : OutChar u ' ' := outChar_ascii (by decide) (by decide)

theorem outChar_hex {u : Bool} {n : Nat} (h : n < 16) : OutChar u (hexUpper n) := by
  have : ∀ n < 16, 0x20 ≤ (hexUpper n).toNat ∧ (hexUpper n).toNat ≤ 0x7E := by decide
  exact outChar_ascii (this n h).1 (this n h).2

theorem outChar_tagPunct {u : Bool} {c : Char} (h : isTagPunct c = true) : OutChar u c := by
  have : ∀ c ∈ (cs! ";/?:@&=+$,_.~*'()[]"), 0x20 ≤ c.toNat ∧ c.toNat ≤ 0x7E := by decide
  have := this c (by simpa [isTagPunct] using h)
  exact outChar_ascii this.1 this.2

/-- Every character is acceptable output. -/
def OutStr (u : Bool) (t : Str) : Prop := ∀ c ∈ t, OutChar u c

theorem OutStr.cons {u : Bool} {c : Char} {t : Str} (hc : OutChar u c) (ht : OutStr u t) : OutStr u (c :: t) := by
  intro d hd
  rcases List.mem_cons.1 hd with rfl | hd
  · exact hc
  · exact ht d hd

theorem OutStr.head {u : Bool} {c : Char} {t : Str} (h : OutStr u (c :: t)) : OutChar u c := h c (by simp)
theorem OutStr.tail {u : Bool} {c : Char} {t : Str} (h : OutStr u (c :: t)) : OutStr u t :=
  fun d hd => h d (List.mem_cons_of_mem _ hd)
theorem OutStr.nil {u : Bool} : OutStr u [] := fun d hd => by simp at hd
theorem OutStr.append {u : Bool} {s t : Str} (hs : OutStr u s) (ht : OutStr u t) : OutStr u (s ++ t) := by
  intro d hd
  rcases List.mem_append.1 hd with hd | hd
  · exact hs d hd
  · exact ht d hd

theorem outStr_ascii {u : Bool} {t : Str} (h : ∀ c ∈ t, 0x20 ≤ c.toNat ∧ c.toNat ≤ 0x7E) : OutStr u t :=
  fun c hc => outChar_ascii (h c hc).1 (h c hc).2

theorem outStr_alpha {u : Bool} {t : Str} (h : t.all isAlpha = true) : OutStr u t :=
  fun c hc => outChar_alpha (by simpa using List.all_eq_true.1 h c hc)

theorem outStr_break {u : Bool} (b : Break) : OutStr u (breakChars b) := by
  intro c hc
  have : c = '\r' ∨ c = '\n' := by
    cases b <;> simp [breakChars] at hc <;> simp [hc]
  rcases this with rfl | rfl
  · exact ⟨by decide, by decide, fun _ => by decide⟩
  · exact ⟨by decide, by decide, fun _ => by decide⟩

theorem outStr_hexDigits {u : Bool} (k n : Nat) : OutStr u (hexDigits k n) := by
  induction k with
  | zero => exact OutStr.nil
  | succ k ih => exact OutStr.cons (outChar_hex (Nat.mod_lt _ (by decide))) ih

theorem outStr_uri {u : Bool} (b : UInt8) : OutStr u (uriEscape b) := by
  have := b.toNat_lt
  refine OutStr.cons (outChar_ascii (by decide) (by decide)) (OutStr.cons (outChar_hex ?_) (OutStr.cons (outChar_hex ?_) OutStr.nil))
  · omega
  · omega

theorem outStr_escape {u : Bool} (c : Char) : OutStr u (escapeText c) := by
  have one : ∀ d : Char, 0x20 ≤ d.toNat → d.toNat ≤ 0x7E → OutStr u [d] :=
    fun d h1 h2 => OutStr.cons (outChar_ascii h1 h2) OutStr.nil
  have two : ∀ (p : Prop) [Decidable p] (a b : Str), OutStr u a → OutStr u b → OutStr u (if p then a else b) := by
    intro p _ a b ha hb
    split
    · exact ha
    · exact hb
  unfold escapeText
  repeat' apply two
  all_goals first
    | (refine one _ ?_ ?_ <;> decide)
    | (refine OutStr.cons (outChar_ascii ?_ ?_) (outStr_hexDigits _ _) <;> decide)

/-! ### The frame -/

/-- The state of the emitter without its position on the page. -/
def core (s : EState) : EState :=
  { s with line := 0, column := 0, whitespace := false, indention := false, openEnded := 0 }

/-- The emitter may write: nothing has failed, the settings are in force, and a byte order mark has
been written where there has to be one. -/
structure Wr (e : Encoding) (u : Bool) (s : EState) (b : Ob) : Prop where
  broken : b.broken = false
  enc : s.encoding = e
  uni : s.unicode = u
  bom : e = .utf8 ∨ b.text ≠ []
  indent : 2 ≤ s.bestIndent ∧ s.bestIndent ≤ 9

theorem Wr.of_core {e : Encoding} {u : Bool} {s s' : EState} {b : Ob} (h : Wr e u s b) (hc : core s' = core s) : Wr e u s' b := by
  have h1 := congrArg EState.encoding hc
  have h2 := congrArg EState.unicode hc
  have h3 := congrArg EState.bestIndent hc
  simp only [core] at h1 h2 h3
  exact ⟨h.1, h1.trans h.2, h2.trans h.3, h.4, by rw [h3]; exact h.5⟩

/-- A function that only writes. -/
def Wrt (e : Encoding) (u : Bool) (fails : Prop) {α : Type} (m : Emit α) : Prop :=
  ∀ s b, Wr e u s b → M.wp (stepE e u fails) (fun _ => False) (fun err _ b => b.broken = true ∧ ∃ k, err = .io k) m
    (fun _ s' b' => core s' = core s ∧ Wr e u s' b') s b

variable {e : Encoding} {u : Bool} {fails : Prop} {α β : Type}

theorem Wrt.cut {m : Emit α} (h : Wrt e u fails m) {s : EState} {b : Ob} {P : PanicSite → Prop} {E : Err → EState → Ob → Prop}
    {Q : α → EState → Ob → Prop} (hw : Wr e u s b) (hE : ∀ k s b, b.broken = true → E (.io k) s b)
    (hQ : ∀ a s' b', core s' = core s → Wr e u s' b' → Q a s' b') : M.wp (stepE e u fails) P E m Q s b := by
  refine M.wp_mono (stepE_mono _ _ _) (h s b hw) ?_ ?_ ?_
  · rintro a s' b' ⟨h1, h2⟩; exact hQ a s' b' h1 h2
  · rintro err s' b' ⟨h0, k, rfl⟩; exact hE _ _ _ h0
  · rintro p h; exact h.elim

theorem Wrt.pure (a : α) : Wrt e u fails (pure a : Emit α) := fun _ _ h => ⟨rfl, h⟩

theorem Wrt.bind {m : Emit α} {f : α → Emit β} (hm : Wrt e u fails m) (hf : ∀ a, Wrt e u fails (f a)) :
    Wrt e u fails (m >>= f) := by
  intro s b h
  rw [M.wp_bind]
  refine hm.cut h (fun k _ _ h0 => ⟨h0, k, rfl⟩) (fun a s' b' hc hw => ?_)
  refine (hf a).cut hw (fun k _ _ h0 => ⟨h0, k, rfl⟩) (fun a s'' b'' hc' hw' => ⟨hc'.trans hc, hw'⟩)

theorem Wrt.get {f : EState → Emit β} (hf : ∀ s : EState, s.unicode = u → 2 ≤ s.bestIndent ∧ s.bestIndent ≤ 9 → Wrt e u fails (f s)) :
    Wrt e u fails (M.get >>= f) := by
  intro s b h
  rw [M.wp_bind, M.wp_get]
  exact hf s h.uni h.indent s b h

theorem Wrt.modify {f : EState → EState} (hf : ∀ s, core (f s) = core s) : Wrt e u fails (M.modify f) :=
  fun s _ h => ⟨hf s, h.of_core (hf s)⟩

theorem Wrt.when {c : Bool} {m : Emit Unit} (h : c = true → Wrt e u fails m) : Wrt e u fails (M.when c m) := by
  cases c
  · exact Wrt.pure ()
  · exact h rfl

theorem M.wp_ofOut_ok {step : Step EmitOp EmitAns Ob} {P : PanicSite → Prop} {E : Err → EState → Ob → Prop}
    {Q : α → EState → Ob → Prop} {s : EState} {b : Ob} {a : α} :
    M.wp step P E (M.ofOut (.ok a)) Q s b ↔ Q a s b := Iff.rfl

theorem Wrt.iteb {c : Prop} [Decidable c] {m n : Emit α} {f : α → Emit β} (h1 : c → Wrt e u fails m) (h2 : ¬ c → Wrt e u fails n)
    (hf : ∀ a, Wrt e u fails (f a)) : Wrt e u fails (if c then m >>= f else n >>= f) := by
  split
  · exact (h1 ‹_›).bind hf
  · exact (h2 ‹_›).bind hf

theorem Wrt.ite {c : Prop} [Decidable c] {m n : Emit α} (h1 : c → Wrt e u fails m) (h2 : ¬ c → Wrt e u fails n) :
    Wrt e u fails (if c then m else n) := by
  split
  · exact h1 ‹_›
  · exact h2 ‹_›

theorem wrt_flushIfNeeded : Wrt e u fails flushIfNeeded := by
  intro s b h
  unfold flushIfNeeded
  simp only [M.wp_bind, M.wp_get, M.wp_prim]
  exact ⟨h.broken, h.enc, ⟨rfl, h⟩, fun _ k => ⟨rfl, k, rfl⟩⟩

theorem wrt_flush : Wrt e u fails Emitter.flush := by
  intro s b h
  unfold Emitter.flush
  simp only [M.wp_bind, M.wp_get, M.wp_prim]
  exact ⟨h.broken, h.enc, ⟨rfl, ⟨h.1, h.2, h.3, h.4, h.5⟩⟩, fun _ k => ⟨rfl, k, rfl⟩⟩

theorem wrt_push {c : Char} (hc : OutChar u c) : Wrt e u fails (push c) := by
  intro s b h
  show stepE e u fails (.push c) (fun _ b' => core s = core s ∧ Wr e u s b') b
  refine ⟨h.broken, ?_, rfl, ⟨h.1, h.2, h.3, Or.inr (by simp), h.5⟩⟩
  unfold okAt
  rw [if_neg]
  · exact hc
  · rintro ⟨h1, h2⟩
    rcases h.bom with h' | h'
    · exact h1 h'
    · exact h' h2

theorem wrt_pushAll {t : Str} (ht : OutStr u t) : Wrt e u fails (pushAll t) := by
  induction t with
  | nil => exact Wrt.pure ()
  | cons c t ih => exact (wrt_push ht.head).bind fun _ => ih ht.tail

theorem wrt_addColumn (n : Int) : Wrt e u fails (addColumn n) := Wrt.modify fun _ => rfl
theorem wrt_nextLine : Wrt e u fails nextLine := Wrt.modify fun _ => rfl
theorem wrt_setWI (w i : Bool) : Wrt e u fails (setWI w i) := Wrt.modify fun _ => rfl
theorem wrt_setIndention (i : Bool) : Wrt e u fails (setIndention i) := Wrt.modify fun _ => rfl
theorem wrt_setOpenEnded (n : Int) : Wrt e u fails (setOpenEnded n) := Wrt.modify fun _ => rfl

theorem wrt_put {c : Char} (hc : OutChar u c) : Wrt e u fails (put c) :=
  wrt_flushIfNeeded.bind fun _ => (wrt_push hc).bind fun _ => wrt_addColumn 1

theorem wrt_writeChar {c : Char} (hc : OutChar u c) : Wrt e u fails (writeChar c) := wrt_put hc

theorem wrt_putBreak : Wrt e u fails putBreak :=
  wrt_flushIfNeeded.bind fun _ => Wrt.get fun _ _ _ => (wrt_pushAll (outStr_break _)).bind fun _ => wrt_nextLine

theorem wrt_writeStr {t : Str} (ht : OutStr u t) : Wrt e u fails (writeStr t) := by
  intro s b h
  unfold writeStr
  simp only [M.wp_bind, M.wp_get, M.wp_prim]
  refine ⟨h.broken, h.enc, M.wp_ofOut_ok.2 ?_, fun _ k => ⟨rfl, k, rfl⟩⟩
  refine (wrt_addColumn _).cut h (fun k _ _ h0 => ⟨h0, k, rfl⟩) (fun _ s' b' hc hw => ?_)
  exact (wrt_pushAll ht).cut hw (fun k _ _ h0 => ⟨h0, k, rfl⟩) (fun _ s'' b'' hc' hw' => ⟨hc'.trans hc, hw'⟩)

theorem wrt_writeBreak {c : Char} (hc : OutChar u c) : Wrt e u fails (writeBreak c) :=
  wrt_flushIfNeeded.bind fun _ => Wrt.ite (fun _ => wrt_putBreak) fun _ => (wrt_writeChar hc).bind fun _ => wrt_nextLine

theorem wrt_putSpaces (n : Nat) : Wrt e u fails (putSpaces n) := by
  induction n with
  | zero => exact Wrt.pure ()
  | succ n ih => exact (wrt_put outChar_space).bind fun _ => ih

theorem wrt_writeIndent : Wrt e u fails writeIndent :=
  Wrt.get fun _ _ _ => (Wrt.when fun _ => wrt_putBreak).bind fun _ => Wrt.get fun _ _ _ =>
    (wrt_putSpaces _).bind fun _ => wrt_setWI _ _

theorem wrt_writeIndicator {t : Str} (ht : OutStr u t) (a b c : Bool) : Wrt e u fails (writeIndicator t a b c) :=
  Wrt.get fun _ _ _ => (Wrt.when fun _ => wrt_put outChar_space).bind fun _ => (wrt_writeStr ht).bind fun _ =>
    Wrt.modify fun _ => rfl

theorem wrt_writeAnchor {t : Str} (ht : OutStr u t) : Wrt e u fails (writeAnchor t) :=
  (wrt_writeStr ht).bind fun _ => wrt_setWI _ _

theorem wrt_writeTagHandle {t : Str} (ht : OutStr u t) : Wrt e u fails (writeTagHandle t) :=
  Wrt.get fun _ _ _ => (Wrt.when fun _ => wrt_put outChar_space).bind fun _ => (wrt_writeStr ht).bind fun _ => wrt_setWI _ _

theorem wrt_putAll {t : Str} (ht : OutStr u t) : Wrt e u fails (putAll t) := by
  induction t with
  | nil => exact Wrt.pure ()
  | cons c t ih => exact (wrt_put ht.head).bind fun _ => ih ht.tail

theorem wrt_tagContentLoop (t : Str) : Wrt e u fails (tagContentLoop t) := by
  induction t with
  | nil => exact Wrt.pure ()
  | cons c t ih =>
    unfold tagContentLoop
    have h1 : isAlpha c || isTagPunct c → OutChar u c := by
      intro h
      rcases Bool.or_eq_true _ _ ▸ h with h | h
      · exact outChar_alpha h
      · exact outChar_tagPunct h
    have h2 : OutStr u ((utf8Bytes c).flatMap uriEscape) := by
      intro d hd
      obtain ⟨x, hx, hd⟩ := List.mem_flatMap.1 hd
      exact outStr_uri x d hd
    exact Wrt.iteb (fun h => wrt_writeChar (h1 h)) (fun _ => wrt_putAll h2) fun _ => ih

theorem wrt_writeTagContent (t : Str) (w : Bool) : Wrt e u fails (writeTagContent t w) :=
  Wrt.get fun _ _ _ => (Wrt.when fun _ => wrt_put outChar_space).bind fun _ => (wrt_tagContentLoop t).bind fun _ => wrt_setWI _ _

theorem wrt_plainLoop {t : Str} (ht : OutStr u t) (a x y : Bool) : Wrt e u fails (plainLoop a t x y) := by
  induction t generalizing x y with
  | nil => exact Wrt.pure ()
  | cons c t ih =>
    unfold plainLoop
    exact Wrt.ite (fun _ => Wrt.get fun _ _ _ => Wrt.iteb (fun _ => wrt_writeIndent) (fun _ => wrt_writeChar ht.head) fun _ => ih ht.tail _ _)
      fun _ => Wrt.ite (fun _ => (Wrt.when fun _ => wrt_putBreak).bind fun _ => (wrt_writeBreak ht.head).bind fun _ =>
          (wrt_setIndention _).bind fun _ => ih ht.tail _ _)
        fun _ => (Wrt.when fun _ => wrt_writeIndent).bind fun _ => (wrt_writeChar ht.head).bind fun _ =>
          (wrt_setIndention _).bind fun _ => ih ht.tail _ _

theorem wrt_writePlain {t : Str} (ht : OutStr u t) (a : Bool) : Wrt e u fails (writePlain t a) :=
  Wrt.get fun _ _ _ => (Wrt.when fun _ => wrt_put outChar_space).bind fun _ => (wrt_plainLoop ht _ _ _).bind fun _ => wrt_setWI _ _

theorem wrt_singleLoop {t : Str} (ht : OutStr u t) (a x y z : Bool) : Wrt e u fails (singleLoop a t x y z) := by
  induction t generalizing x y z with
  | nil => exact Wrt.pure _
  | cons c t ih =>
    unfold singleLoop
    exact Wrt.ite (fun _ => Wrt.get fun _ _ _ => Wrt.iteb (fun _ => wrt_writeIndent) (fun _ => wrt_writeChar ht.head) fun _ => ih ht.tail _ _ _)
      fun _ => Wrt.ite (fun _ => (Wrt.when fun _ => wrt_putBreak).bind fun _ => (wrt_writeBreak ht.head).bind fun _ =>
          (wrt_setIndention _).bind fun _ => ih ht.tail _ _ _)
        fun _ => (Wrt.when fun _ => wrt_writeIndent).bind fun _ =>
          (Wrt.when fun _ => wrt_put (outChar_ascii (by decide) (by decide))).bind fun _ => (wrt_writeChar ht.head).bind fun _ =>
          (wrt_setIndention _).bind fun _ => ih ht.tail _ _ _

theorem outStr_one {c : Char} (h1 : 0x20 ≤ c.toNat) (h2 : c.toNat ≤ 0x7E) : OutStr u [c] :=
  OutStr.cons (outChar_ascii h1 h2) OutStr.nil

theorem wrt_writeSingleQuoted {t : Str} (ht : OutStr u t) (a : Bool) : Wrt e u fails (writeSingleQuoted t a) :=
  (wrt_writeIndicator (outStr_one (by decide) (by decide)) _ _ _).bind fun _ => (wrt_singleLoop ht _ _ _ _).bind fun _ =>
    (Wrt.when fun _ => wrt_writeIndent).bind fun _ =>
    (wrt_writeIndicator (outStr_one (by decide) (by decide)) _ _ _).bind fun _ => wrt_setWI _ _

theorem mustEscape_false {c : Char} (h : mustEscape u c = false) : OutChar u c := by
  simp only [mustEscape, Bool.or_eq_false_iff, Bool.not_eq_false', Bool.and_eq_false_imp, Bool.not_eq_true'] at h
  refine outChar_printable h.1.1.1.1.1 ?_
  cases u
  · exact Or.inr (h.1.1.1.1.2 rfl)
  · exact Or.inl rfl

theorem wrt_doubleLoop (t : Str) (a x y : Bool) : Wrt e u fails (doubleLoop a t x y) := by
  induction t generalizing x y with
  | nil => exact Wrt.pure ()
  | cons c t ih =>
    unfold doubleLoop
    refine Wrt.get fun s hs _ => ?_
    rw [hs]
    exact Wrt.ite (fun _ => (wrt_put (outChar_ascii (by decide) (by decide))).bind fun _ => (wrt_putAll (outStr_escape c)).bind fun _ => ih _ _)
      fun h => Wrt.ite
        (fun _ => Wrt.ite (fun _ => wrt_writeIndent.bind fun _ =>
            (Wrt.when fun _ => wrt_put (outChar_ascii (by decide) (by decide))).bind fun _ => ih _ _)
          fun _ => (wrt_writeChar (mustEscape_false (by simpa using h))).bind fun _ => ih _ _)
        fun _ => (wrt_writeChar (mustEscape_false (by simpa using h))).bind fun _ => ih _ _

theorem wrt_writeDoubleQuoted (t : Str) (a : Bool) : Wrt e u fails (writeDoubleQuoted t a) :=
  (wrt_writeIndicator (outStr_one (by decide) (by decide)) _ _ _).bind fun _ => (wrt_doubleLoop t _ _ _).bind fun _ =>
    (wrt_writeIndicator (outStr_one (by decide) (by decide)) _ _ _).bind fun _ => wrt_setWI _ _

theorem outChar_digit {i : Int} (h : 0 ≤ i ∧ i ≤ 9) : OutChar u (Char.ofNat (48 + i.toNat)) := by
  have : ∀ n < 10, 0x20 ≤ (Char.ofNat (48 + n)).toNat ∧ (Char.ofNat (48 + n)).toNat ≤ 0x7E := by decide
  have := this i.toNat (by omega)
  exact outChar_ascii this.1 this.2

theorem wrt_writeBlockHints (t : Str) : Wrt e u fails (writeBlockHints t) := by
  refine Wrt.get fun s _ hi => (Wrt.when fun _ => ?_).bind fun _ => (wrt_setOpenEnded 0).bind fun _ => ?_
  · refine Wrt.ite (fun h => wrt_writeIndicator (OutStr.cons (outChar_digit h) OutStr.nil) _ _ _) (fun h => ?_)
    exact absurd (show 0 ≤ s.bestIndent ∧ s.bestIndent ≤ 9 by omega) h
  · cases t.reverse with
    | nil => exact wrt_writeIndicator (outStr_one (by decide) (by decide)) _ _ _
    | cons c r =>
      refine Wrt.ite (fun _ => wrt_writeIndicator (outStr_one (by decide) (by decide)) _ _ _) fun _ => ?_
      exact Wrt.ite (fun _ => (wrt_setOpenEnded 2).bind fun _ => wrt_writeIndicator (outStr_one (by decide) (by decide)) _ _ _)
        fun _ => Wrt.pure ()

theorem wrt_literalLoop {t : Str} (ht : OutStr u t) (y : Bool) : Wrt e u fails (literalLoop t y) := by
  induction t generalizing y with
  | nil => exact Wrt.pure ()
  | cons c t ih =>
    unfold literalLoop
    exact Wrt.ite (fun _ => (wrt_writeBreak ht.head).bind fun _ => (wrt_setIndention _).bind fun _ => ih ht.tail _)
        fun _ => (Wrt.when fun _ => wrt_writeIndent).bind fun _ => (wrt_writeChar ht.head).bind fun _ =>
          (wrt_setIndention _).bind fun _ => ih ht.tail _

theorem wrt_writeLiteral {t : Str} (ht : OutStr u t) : Wrt e u fails (writeLiteral t) :=
  (wrt_writeIndicator (outStr_one (by decide) (by decide)) _ _ _).bind fun _ => (wrt_writeBlockHints t).bind fun _ =>
    wrt_putBreak.bind fun _ => (wrt_setWI _ _).bind fun _ => wrt_literalLoop ht _

theorem wrt_foldedLoop {t : Str} (ht : OutStr u t) (x y : Bool) : Wrt e u fails (foldedLoop t x y) := by
  induction t generalizing x y with
  | nil => exact Wrt.pure ()
  | cons c t ih =>
    unfold foldedLoop
    exact Wrt.ite (fun _ => (Wrt.when fun _ => wrt_putBreak).bind fun _ => (wrt_writeBreak ht.head).bind fun _ =>
          (wrt_setIndention _).bind fun _ => ih ht.tail _ _)
        fun _ => (Wrt.when fun _ => wrt_writeIndent).bind fun _ => Wrt.get fun _ _ _ =>
          Wrt.iteb (fun _ => wrt_writeIndent) (fun _ => wrt_writeChar ht.head) fun _ =>
          (wrt_setIndention _).bind fun _ => ih ht.tail _ _

theorem wrt_writeFolded {t : Str} (ht : OutStr u t) : Wrt e u fails (writeFolded t) :=
  (wrt_writeIndicator (outStr_one (by decide) (by decide)) _ _ _).bind fun _ => (wrt_writeBlockHints t).bind fun _ =>
    wrt_putBreak.bind fun _ => (wrt_setWI _ _).bind fun _ => wrt_foldedLoop ht _ _

end Yaml.Emitter
