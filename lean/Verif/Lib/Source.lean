import Verif.Lib.Input
import Verif.Reader

/-
The real reader behind the demonic input of the proofs: what the `BufRead` will deliver
(`Future`), and the simulation of `stepB` by the model of `reader.rs`.
-/

namespace Yaml
open Reader
set_option linter.unusedSimpArgs false
set_option linter.unusedVariables false

theorem pushChars_ok (w : Char → Nat) {cs : List Char} (h : ∀ c ∈ cs, isAllowed c = true) (buf : List Char) (off : Nat) :
    pushChars w cs buf off = (none, buf ++ cs, off + (cs.map w).sum) := by
  induction cs generalizing buf off with
  | nil => simp [pushChars]
  | cons c cs ih =>
    rw [pushChars, if_pos (h c (by simp)), ih (fun c hc => h c (by simp [hc]))]
    simp [Nat.add_assoc]

theorem pushChars_frame (w : Char → Nat) (cs buf : List Char) (off : Nat) :
    (pushChars w cs buf off).2.1 = buf ++ (pushChars w cs [] 0).2.1 ∧
    (((pushChars w cs buf off).1 = none ∧ (pushChars w cs [] 0).1 = none) ∨
      ∃ e e0, (pushChars w cs buf off).1 = some e ∧ (pushChars w cs [] 0).1 = some e0 ∧ ReaderErr e ∧ ReaderErr e0) := by
  have aux : ∀ (cs buf : List Char) (off : Nat),
      ∃ out, (∀ buf off, (pushChars w cs buf off).2.1 = buf ++ out) ∧
        ((∀ buf off, (pushChars w cs buf off).1 = none) ∨
          ∀ buf off, ∃ e, (pushChars w cs buf off).1 = some e ∧ ReaderErr e) := by
    intro cs
    induction cs with
    | nil => intro _ _; exact ⟨[], by simp [pushChars], Or.inl (by simp [pushChars])⟩
    | cons c cs ih =>
      intro buf off
      by_cases hc : isAllowed c = true
      · obtain ⟨out, h1, h2⟩ := ih buf off
        refine ⟨c :: out, ?_, ?_⟩
        · intro buf off
          rw [pushChars, if_pos hc, h1]; simp
        · rcases h2 with h2 | h2
          · exact Or.inl fun buf off => by rw [pushChars, if_pos hc]; exact h2 _ _
          · exact Or.inr fun buf off => by rw [pushChars, if_pos hc]; exact h2 _ _
      · refine ⟨[], ?_, Or.inr ?_⟩
        · intro buf off; rw [pushChars, if_neg hc]; simp
        · intro buf off; rw [pushChars, if_neg hc]
          exact ⟨_, rfl, Or.inl ⟨_, _, _, rfl⟩⟩
  obtain ⟨out, h1, h2⟩ := aux cs [] 0
  refine ⟨by rw [h1, h1]; simp, ?_⟩
  rcases h2 with h2 | h2
  · exact Or.inl ⟨h2 _ _, h2 _ _⟩
  · obtain ⟨e, he, hr⟩ := h2 buf off
    obtain ⟨e0, he0, hr0⟩ := h2 [] 0
    exact Or.inr ⟨e, e0, he, he0, hr, hr0⟩

/-- Two results of reading a chunk that agree up to the buffer in front and the offset. -/
structure Same (r : Rd) (q q0 : Except Err Bool × Rd) : Prop where
  rd : q.2 = { r with items := q0.2.items, buffer := r.buffer ++ q0.2.buffer, offset := q.2.offset }
  res : (∃ b, q.1 = .ok b ∧ q0.1 = .ok b) ∨ ∃ e e0, q.1 = .error e ∧ q0.1 = .error e0 ∧ ReaderErr e ∧ ReaderErr e0

/-- Same, for the functions that read a single character. -/
structure SameO (r : Rd) (q q0 : Option Err × Rd) : Prop where
  rd : q.2 = { r with items := q0.2.items, buffer := r.buffer ++ q0.2.buffer, offset := q.2.offset }
  res : (q.1 = none ∧ q0.1 = none) ∨ ∃ e e0, q.1 = some e ∧ q0.1 = some e0 ∧ ReaderErr e ∧ ReaderErr e0

/-- The reader with nothing buffered. -/
def bare (e : Encoding) (items : List SrcItem) : Rd := { items := items, encoding := e }

theorem io_err (k : IoKind) : ReaderErr (.io k) := Or.inr ⟨k, rfl⟩
theorem rd_err (p : String) (o : Nat) (v : Int) : ReaderErr (.reader p o v) := Or.inl ⟨p, o, v, rfl⟩

theorem pushChars_same (w : Char → Nat) (cs : List Char) (r : Rd) (off : Nat) (items : List SrcItem) (o0 : Nat) :
    SameO r ((pushChars w cs r.buffer off).1, { r with items := items, buffer := (pushChars w cs r.buffer off).2.1, offset := (pushChars w cs r.buffer off).2.2 })
      ((pushChars w cs [] 0).1, { bare r.encoding items with buffer := (pushChars w cs [] 0).2.1, offset := o0 }) := by
  obtain ⟨h1, h2⟩ := pushChars_frame w cs r.buffer off
  refine ⟨?_, h2⟩
  show ({ r with items := items, buffer := _, offset := _ } : Rd) = { r with items := items, buffer := r.buffer ++ (pushChars w cs [] 0).2.1, offset := _ }
  rw [h1]

theorem readUtf8Char_same (b : UInt8) (r : Rd) : SameO r (readUtf8Char b r) (readUtf8Char b (bare r.encoding r.items)) := by
  unfold readUtf8Char
  dsimp only
  show SameO r _ (match readExact (utf8CharWidth b) r.items with | (.error k, items) => _ | (.ok bytes, items) => _)
  obtain ⟨res, items⟩ := readExact (utf8CharWidth b) r.items
  cases res with
  | error k => exact ⟨by simp [bare], Or.inr ⟨_, _, rfl, rfl, io_err _, io_err _⟩⟩
  | ok bytes =>
    dsimp only
    obtain ⟨cs, rest, e⟩ := utf8Run bytes
    cases cs with
    | nil => exact ⟨by simp [bare], Or.inr ⟨_, _, rfl, rfl, rd_err _ _ _, rd_err _ _ _⟩⟩
    | cons c cs =>
      cases e with
      | done => exact pushChars_same _ _ _ _ _ _
      | invalid => exact ⟨by simp [bare], Or.inr ⟨_, _, rfl, rfl, rd_err _ _ _, rd_err _ _ _⟩⟩
      | incomplete => exact ⟨by simp [bare], Or.inr ⟨_, _, rfl, rfl, rd_err _ _ _, rd_err _ _ _⟩⟩

theorem readUtf16Char_same (be : Bool) (r : Rd) : SameO r (readUtf16Char be r) (readUtf16Char be (bare r.encoding r.items)) := by
  unfold readUtf16Char
  dsimp only
  show SameO r _ (match readExact 2 r.items with | (.error k, items) => _ | (.ok bytes, items) => _)
  obtain ⟨res, items⟩ := readExact 2 r.items
  cases res with
  | error k => exact ⟨by simp [bare], Or.inr ⟨_, _, rfl, rfl, io_err _, io_err _⟩⟩
  | ok bytes =>
    dsimp only
    split
    · obtain ⟨res, items⟩ := readExact 2 items
      cases res with
      | error k => exact ⟨by simp [bare], Or.inr ⟨_, _, rfl, rfl, io_err _, io_err _⟩⟩
      | ok bytes' =>
        dsimp only
        generalize decode16 _ = d
        match d with
        | some (.ok (c, k)) => exact pushChars_same _ _ _ _ _ _
        | some (.error u) => exact ⟨by simp [bare], Or.inr ⟨_, _, rfl, rfl, rd_err _ _ _, rd_err _ _ _⟩⟩
        | none => exact ⟨by simp [bare], Or.inl ⟨rfl, rfl⟩⟩
    · exact pushChars_same _ _ _ _ _ _

theorem readUtf8_same (r : Rd) : Same r (readUtf8 r) (readUtf8 (bare r.encoding r.items)) := by
  unfold readUtf8
  dsimp only
  show Same r _ (match fillBufRetry r.items with | (.error k, items) => _ | (.ok [], items) => _ | (.ok (b :: bs), items) => _)
  obtain ⟨res, items⟩ := fillBufRetry r.items
  match res with
  | .error k => exact ⟨by simp [bare], Or.inr ⟨_, _, rfl, rfl, io_err _, io_err _⟩⟩
  | .ok [] => exact ⟨by simp [bare], Or.inl ⟨_, rfl, rfl⟩⟩
  | .ok (b :: bs) =>
    dsimp only
    obtain ⟨cs, rest, e⟩ := utf8Run (b :: bs)
    dsimp only
    obtain ⟨h1, h2⟩ := pushChars_frame lenUtf8 cs r.buffer r.offset
    show Same r _ (match (pushChars lenUtf8 cs [] 0).1 with | some e => _ | none => _)
    rcases h2 with ⟨h2, h3⟩ | ⟨e1, e0, h2, h3, h4, h5⟩
    · rw [h2, h3]
      dsimp only
      cases e with
      | done => exact ⟨by simp [bare, h1], Or.inl ⟨_, rfl, rfl⟩⟩
      | invalid => exact ⟨by simp [bare, h1], Or.inr ⟨_, _, rfl, rfl, rd_err _ _ _, rd_err _ _ _⟩⟩
      | incomplete =>
        dsimp only
        by_cases hcs : cs = []
        · subst hcs
          simp only [pushChars, ne_eq, not_true_eq_false, if_false]
          have := readUtf8Char_same b { r with items := items }
          obtain ⟨g1, g2⟩ := this
          rcases g2 with ⟨g2, g3⟩ | ⟨e1, e0, g2, g3, g4, g5⟩
          · have p1 : readUtf8Char b { r with items := items } = (none, (readUtf8Char b { r with items := items }).2) := by rw [← g2]
            have p2 : readUtf8Char b (bare r.encoding items) = (none, (readUtf8Char b (bare r.encoding items)).2) := by
              exact Prod.ext g3 rfl
            show Same r (match readUtf8Char b { r with items := items } with | (some e, r) => _ | (none, r) => _)
              (match readUtf8Char b (bare r.encoding items) with | (some e, r) => _ | (none, r) => _)
            rw [p1, p2]
            exact ⟨g1, Or.inl ⟨_, rfl, rfl⟩⟩
          · have p1 : readUtf8Char b { r with items := items } = (some e1, (readUtf8Char b { r with items := items }).2) := by rw [← g2]
            have p2 : readUtf8Char b (bare r.encoding items) = (some e0, (readUtf8Char b (bare r.encoding items)).2) := by
              exact Prod.ext g3 rfl
            show Same r (match readUtf8Char b { r with items := items } with | (some e, r) => _ | (none, r) => _)
              (match readUtf8Char b (bare r.encoding items) with | (some e, r) => _ | (none, r) => _)
            rw [p1, p2]
            exact ⟨g1, Or.inr ⟨_, _, rfl, rfl, g4, g5⟩⟩
        · rw [if_pos hcs, if_pos hcs]
          exact ⟨by simp [bare, h1], Or.inl ⟨_, rfl, rfl⟩⟩
    · rw [h2, h3]
      exact ⟨by simp [bare, h1], Or.inr ⟨_, _, rfl, rfl, h4, h5⟩⟩

theorem utf16Run_pos {n : Nat} {us : List Nat} : ∀ x ∈ utf16Run n us, 0 < x.2 := by
  induction n generalizing us with
  | zero => simp [utf16Run]
  | succ n ih =>
    unfold utf16Run
    split
    · rename_i c k hd
      intro x hx
      rcases List.mem_cons.1 hx with rfl | hx
      · unfold decode16 at hd
        split at hd
        · simp at hd
        · split at hd
          · simp at hd; show 0 < k; omega
          · split at hd
            · simp at hd
            · split at hd
              · simp at hd
              · split at hd
                · simp at hd; show 0 < k; omega
                · simp at hd
      · exact ih x hx
    · simp

theorem readUtf16_same (be : Bool) (r : Rd) : Same r (readUtf16 be r) (readUtf16 be (bare r.encoding r.items)) := by
  unfold readUtf16
  dsimp only
  show Same r _ (match fillBufRetry r.items with | (.error k, items) => _ | (.ok [], items) => _ | (.ok (b :: bs), items) => _)
  obtain ⟨res, items⟩ := fillBufRetry r.items
  match res with
  | .error k => exact ⟨by simp [bare], Or.inr ⟨_, _, rfl, rfl, io_err _, io_err _⟩⟩
  | .ok [] => exact ⟨by simp [bare], Or.inl ⟨_, rfl, rfl⟩⟩
  | .ok (b :: bs) =>
    dsimp only
    generalize hrun : utf16Run (units16 be (b :: bs)).length (units16 be (b :: bs)) = run
    obtain ⟨h1, h2⟩ := pushChars_frame (fun c => (utf16Units c).length) (run.map Prod.fst) r.buffer r.offset
    show Same r _ (match (pushChars (fun c => (utf16Units c).length) (run.map Prod.fst) [] 0).1 with | some e => _ | none => _)
    rcases h2 with ⟨h2, h3⟩ | ⟨e1, e0, h2, h3, h4, h5⟩
    · rw [h2, h3]
      dsimp only
      by_cases hcs : (run.map Prod.snd).sum = 0
      · have hne : ¬ (run.map Prod.snd).sum ≠ 0 := by simpa using hcs
        rw [if_neg hne, if_neg hne]
        have hnil : run = [] := by
          cases run with
          | nil => rfl
          | cons x xs =>
            have := utf16Run_pos x (hrun ▸ List.mem_cons_self)
            simp at hcs; omega
        subst hnil
        simp only [List.map_nil, pushChars]
        have := readUtf16Char_same be { r with items := items }
        obtain ⟨g1, g2⟩ := this
        rcases g2 with ⟨g2, g3⟩ | ⟨e1, e0, g2, g3, g4, g5⟩
        · have p1 : readUtf16Char be { r with items := items } = (none, (readUtf16Char be { r with items := items }).2) := by rw [← g2]
          have p2 : readUtf16Char be (bare r.encoding items) = (none, (readUtf16Char be (bare r.encoding items)).2) := by
            exact Prod.ext g3 rfl
          show Same r (match readUtf16Char be { r with items := items } with | (some e, r) => _ | (none, r) => _)
            (match readUtf16Char be (bare r.encoding items) with | (some e, r) => _ | (none, r) => _)
          rw [p1, p2]
          exact ⟨g1, Or.inl ⟨_, rfl, rfl⟩⟩
        · have p1 : readUtf16Char be { r with items := items } = (some e1, (readUtf16Char be { r with items := items }).2) := by rw [← g2]
          have p2 : readUtf16Char be (bare r.encoding items) = (some e0, (readUtf16Char be (bare r.encoding items)).2) := by
            exact Prod.ext g3 rfl
          show Same r (match readUtf16Char be { r with items := items } with | (some e, r) => _ | (none, r) => _)
            (match readUtf16Char be (bare r.encoding items) with | (some e, r) => _ | (none, r) => _)
          rw [p1, p2]
          exact ⟨g1, Or.inr ⟨_, _, rfl, rfl, g4, g5⟩⟩
      · rw [if_pos hcs, if_pos hcs]
        exact ⟨by simp [bare, h1], Or.inl ⟨_, rfl, rfl⟩⟩
    · rw [h2, h3]
      exact ⟨by simp [bare, h1], Or.inr ⟨_, _, rfl, rfl, h4, h5⟩⟩

theorem readChunk_same (r : Rd) (h : r.encoding ≠ .any) : Same r (readChunk r) (readChunk (bare r.encoding r.items)) := by
  unfold readChunk
  cases he : r.encoding with
  | any => exact absurd he h
  | utf8 => have := readUtf8_same r; rw [he] at this; exact this
  | utf16le => have := readUtf16_same false r; rw [he] at this; exact this
  | utf16be => have := readUtf16_same true r; rw [he] at this; exact this

/-! ### Progress -/

/-- A measure of what is left in the source. -/
def srcSize : List SrcItem → Nat
  | [] => 0
  | .data bs :: r => bs.length + 1 + srcSize r
  | _ :: r => 1 + srcSize r

theorem fillBufRetry_spec (items : List SrcItem) :
    match fillBufRetry items with
    | (.ok [], items') => items' = []
    | (.ok (b :: bs), items') => ∃ r, items' = .data (b :: bs) :: r ∧ srcSize items' ≤ srcSize items
    | (.error k, items') => srcSize items' ≤ srcSize items := by
  induction items with
  | nil => simp [fillBufRetry]
  | cons x xs ih =>
    cases x with
    | data bs =>
      cases bs with
      | nil =>
        simp only [fillBufRetry, srcSize]
        split
        · rename_i heq; rw [heq] at ih; exact ih
        · rename_i heq; rw [heq] at ih; obtain ⟨r, h1, h2⟩ := ih; exact ⟨r, h1, by omega⟩
        · rename_i heq; rw [heq] at ih; simp only at ih; omega
      | cons b bs => simp [fillBufRetry]
    | intr =>
      simp only [fillBufRetry, srcSize]
      split
      · rename_i heq; rw [heq] at ih; exact ih
      · rename_i heq; rw [heq] at ih; obtain ⟨r, h1, h2⟩ := ih; exact ⟨r, h1, by omega⟩
      · rename_i heq; rw [heq] at ih; simp only at ih; omega
    | fail k => simp [fillBufRetry, srcSize]

theorem readExact_size (n : Nat) (items : List SrcItem) :
    srcSize (readExact n items).2 + (match (readExact n items).1 with | .ok _ => n | .error _ => 0) ≤ srcSize items := by
  induction items generalizing n with
  | nil => cases n <;> simp [readExact, srcSize]
  | cons x xs ih =>
    cases n with
    | zero => simp [readExact]
    | succ n =>
      cases x with
      | intr => simp only [readExact, srcSize]; have := ih (n + 1); omega
      | fail k => simp [readExact, srcSize]
      | data bs =>
        simp only [readExact]
        split
        · simp [srcSize]; omega
        · have := ih (n + 1 - bs.length)
          simp only [srcSize]
          cases hr : (readExact (n + 1 - bs.length) xs).1 with
          | ok a =>
            rw [hr] at this
            have this : srcSize (readExact (n + 1 - bs.length) xs).2 + (n + 1 - bs.length) ≤ srcSize xs := this
            show srcSize (readExact (n + 1 - bs.length) xs).2 + (n + 1) ≤ bs.length + 1 + srcSize xs
            omega
          | error k => rw [hr] at this; simp [Except.map] at this ⊢; omega

theorem decodeOne_rest {b : UInt8} {bs : List UInt8} {c : Char} {rest : List UInt8}
    (h : decodeOne b bs = .char c rest) : rest.length ≤ bs.length := by
  unfold decodeOne at h
  repeat' split at h
  all_goals first
    | (simp at h; done)
    | (simp at h; obtain ⟨_, rfl⟩ := h; simp <;> omega)

theorem utf8RunF_rest (n : Nat) (bs : List UInt8) :
    (utf8RunF n bs).2.1.length + (utf8RunF n bs).1.length ≤ bs.length := by
  induction n generalizing bs with
  | zero => cases bs <;> simp [utf8RunF]
  | succ n ih =>
    cases bs with
    | nil => simp [utf8RunF]
    | cons b bs =>
      unfold utf8RunF
      split
      · rename_i c rest hd
        have := decodeOne_rest hd
        have := ih rest
        simp; omega
      · simp
      · simp

theorem utf8Run_done {bs : List UInt8} (hne : bs ≠ []) (h : (utf8Run bs).2.2 = .done) : (utf8Run bs).1 ≠ [] := by
  cases bs with
  | nil => simp at hne
  | cons b bs =>
    unfold utf8Run utf8RunF at *
    simp only [List.length_cons] at *
    split at h
    · rename_i c rest hd; simp [hd]
    · simp at h
    · simp at h

theorem pushChars_none {w : Char → Nat} {cs buf : List Char} {off : Nat} (h : (pushChars w cs buf off).1 = none) :
    (pushChars w cs buf off).2.1 = buf ++ cs ∧ ∀ c ∈ cs, isAllowed c = true := by
  induction cs generalizing buf off with
  | nil => simp [pushChars]
  | cons c cs ih =>
    rw [pushChars] at h ⊢
    split at h
    · rename_i hc
      rw [if_pos hc]
      obtain ⟨h1, h2⟩ := ih h
      exact ⟨by rw [h1]; simp, by simp [hc]; exact h2⟩
    · simp at h

theorem utf16Run_sum (n : Nat) (us : List Nat) : ((utf16Run n us).map Prod.snd).sum ≤ us.length := by
  induction n generalizing us with
  | zero => simp [utf16Run]
  | succ n ih =>
    unfold utf16Run
    split
    · rename_i c k hd
      have := ih (us.drop k)
      have hk : k ≤ us.length := by
        unfold decode16 at hd
        split at hd
        · simp at hd
        · split at hd
          · simp at hd; simp; omega
          · split at hd
            · simp at hd
            · split at hd
              · simp at hd
              · split at hd
                · simp at hd; simp; omega
                · simp at hd
      simp at this ⊢
      omega
    · simp

theorem units16_length (be : Bool) : ∀ bs : List UInt8, (units16 be bs).length ≤ bs.length
  | [] => by simp [units16]
  | [_] => by simp [units16]
  | _ :: _ :: r => by have := units16_length be r; simp [units16]; omega

theorem consume_size {n m : Nat} {bs : List UInt8} {r : List SrcItem} (h0 : m ≤ n) (h1 : n ≤ bs.length) :
    srcSize (consume n (.data bs :: r)) + m ≤ srcSize (.data bs :: r) := by
  simp [consume, srcSize]; omega

theorem readUtf16Char_progress (be : Bool) (r : Rd) (hb : r.buffer = []) :
    match readUtf16Char be r with
    | (none, r') => r'.buffer ≠ [] ∧ srcSize r'.items + r'.buffer.length ≤ srcSize r.items
    | (some _, _) => True := by
  unfold readUtf16Char
  have hre := readExact_size 2 r.items
  generalize readExact 2 r.items = ex at hre ⊢
  obtain ⟨res, items2⟩ := ex
  have hpush : ∀ (w : Char → Nat) (c : Char) (o : Nat), (pushChars w [c] r.buffer o).1 = none →
      (pushChars w [c] r.buffer o).2.1 ≠ [] ∧ (pushChars w [c] r.buffer o).2.1.length = 1 := by
    intro w c o h
    rw [(pushChars_none h).1, hb]; simp
  cases res with
  | error k => trivial
  | ok bytes =>
    dsimp only at hre ⊢
    by_cases hs : isSurrogate (unit16 be (bytes.getD 0 0) (bytes.getD 1 0)) = true
    · rw [if_pos hs]
      have hre2 := readExact_size 2 items2
      generalize readExact 2 items2 = ex at hre2 ⊢
      obtain ⟨res, items3⟩ := ex
      cases res with
      | error k => trivial
      | ok bytes2 =>
        dsimp only at hre2 ⊢
        generalize hd : decode16 [unit16 be (bytes.getD 0 0) (bytes.getD 1 0), unit16 be (bytes2.getD 0 0) (bytes2.getD 1 0)] = d
        match d, hd with
        | some (.ok (c, k)), _ =>
          dsimp only
          have := hpush (fun _ => 4) c r.offset
          cases hq : (pushChars (fun _ => 4) [c] r.buffer r.offset).1 with
          | some er => trivial
          | none => exact ⟨(this hq).1, by have := (this hq).2; dsimp only; omega⟩
        | some (.error u), _ => trivial
        | none, hd =>
          exfalso
          unfold decode16 at hd
          simp only at hd
          repeat' split at hd
          all_goals simp at hd
    · rw [if_neg hs]
      have := hpush (fun _ => 2) (Char.ofNat (unit16 be (bytes.getD 0 0) (bytes.getD 1 0))) r.offset
      cases hq : (pushChars (fun _ => 2) [Char.ofNat (unit16 be (bytes.getD 0 0) (bytes.getD 1 0))] r.buffer r.offset).1 with
      | some er => trivial
      | none => exact ⟨(this hq).1, by have := (this hq).2; dsimp only; omega⟩

/-- What a successful chunk achieves. -/
def Progress (items : List SrcItem) : Except Err Bool × Rd → Prop
  | (.ok true, r) => r.buffer ≠ [] ∧ srcSize r.items + r.buffer.length ≤ srcSize items
  | (.ok false, r) => r.buffer = [] ∧ r.items = []
  | (.error _, _) => True

/-- A successful chunk delivers characters and uses up input; at the end there is nothing left. -/
theorem readChunk_progress (e : Encoding) (items : List SrcItem) :
    Progress items (readChunk (bare e items)) := by
  have h16 : ∀ be, Progress items (readUtf16 be (bare e items)) := by
    intro be
    unfold readUtf16
    have hfill := fillBufRetry_spec items
    show Progress items (match fillBufRetry items with | (.error k, items) => _ | (.ok [], items) => _ | (.ok (b :: bs), items) => _)
    generalize fillBufRetry items = fb at hfill ⊢
    obtain ⟨res, items'⟩ := fb
    match res with
    | .error k => trivial
    | .ok [] => exact ⟨rfl, hfill⟩
    | .ok (b :: bs) =>
      obtain ⟨rr, rfl, hsz⟩ := hfill
      dsimp only
      have hpos := utf16Run_pos (n := (units16 be (b :: bs)).length) (us := units16 be (b :: bs))
      have hsum := utf16Run_sum (units16 be (b :: bs)).length (units16 be (b :: bs))
      generalize utf16Run (units16 be (b :: bs)).length (units16 be (b :: bs)) = run at hpos hsum
      generalize hq : pushChars (fun c => (utf16Units c).length) (run.map Prod.fst) (bare e items).buffer (bare e items).offset = q
      obtain ⟨q1, q2, q3⟩ := q
      cases q1 with
      | some er => trivial
      | none =>
        dsimp only
        have hpn := pushChars_none (w := fun c => (utf16Units c).length) (cs := run.map Prod.fst) (buf := (bare e items).buffer) (off := (bare e items).offset) (by rw [hq])
        rw [hq] at hpn
        have hpn1 : q2 = [] ++ run.map Prod.fst := hpn.1
        by_cases hcs : (run.map Prod.snd).sum = 0
        · rw [if_neg (by simpa using hcs)]
          have hnil : run = [] := by
            cases run with
            | nil => rfl
            | cons x xs => have := hpos x (by simp); simp at hcs; omega
          subst hnil
          have hq2 : q2 = [] := by simpa using hpn1
          subst hq2
          have hp := readUtf16Char_progress be { bare e items with items := .data (b :: bs) :: rr, buffer := [], offset := q3 } rfl
          generalize readUtf16Char be _ = o at hp ⊢
          obtain ⟨oe, or⟩ := o
          cases oe with
          | some _ => trivial
          | none => exact ⟨hp.1, Nat.le_trans hp.2 hsz⟩
        · rw [if_pos hcs]
          refine ⟨?_, ?_⟩
          · show q2 ≠ []
            rw [hpn1]
            cases run with
            | nil => simp at hcs
            | cons x xs => simp
          · show srcSize (consume (run.map Prod.snd).sum (.data (b :: bs) :: rr)) + q2.length ≤ srcSize items
            rw [hpn1]
            refine Nat.le_trans (consume_size ?_ ?_) hsz
            · have : ∀ l : List (Char × Nat), (∀ x ∈ l, 0 < x.2) → l.length ≤ (l.map Prod.snd).sum := by
                intro l
                induction l with
                | nil => simp
                | cons x xs ih =>
                  intro h
                  have h1 := ih (fun y hy => h y (by simp [hy]))
                  have h2 := h x (by simp)
                  simp; omega
              simpa using this run hpos
            · exact Nat.le_trans hsum (units16_length be _)
  unfold readChunk
  cases e with
  | any => trivial
  | utf16le => exact h16 false
  | utf16be => exact h16 true
  | utf8 =>
    show Progress items (readUtf8 (bare .utf8 items))
    unfold readUtf8
    have hfill := fillBufRetry_spec items
    show Progress items (match fillBufRetry items with | (.error k, items) => _ | (.ok [], items) => _ | (.ok (b :: bs), items) => _)
    generalize fillBufRetry items = fb at hfill ⊢
    obtain ⟨res, items'⟩ := fb
    match res with
    | .error k => trivial
    | .ok [] => exact ⟨rfl, hfill⟩
    | .ok (b :: bs) =>
      obtain ⟨rr, rfl, hsz⟩ := hfill
      dsimp only
      have hrest := utf8RunF_rest (b :: bs).length (b :: bs)
      have hdone := utf8Run_done (bs := b :: bs) (by simp)
      change (utf8Run (b :: bs)).2.1.length + (utf8Run (b :: bs)).1.length ≤ _ at hrest
      generalize utf8Run (b :: bs) = run at hrest hdone
      obtain ⟨cs, rest, en⟩ := run
      dsimp only at *
      generalize hq : pushChars lenUtf8 cs (bare Encoding.utf8 items).buffer (bare Encoding.utf8 items).offset = q
      obtain ⟨q1, q2, q3⟩ := q
      cases q1 with
      | some er => trivial
      | none =>
        dsimp only
        have hpn := pushChars_none (w := lenUtf8) (cs := cs) (buf := (bare Encoding.utf8 items).buffer) (off := (bare Encoding.utf8 items).offset) (by rw [hq])
        rw [hq] at hpn
        have hpn1 : q2 = [] ++ cs := hpn.1
        simp at hpn1; subst hpn1
        cases en with
        | done =>
          refine ⟨hdone rfl, Nat.le_trans (consume_size (m := q2.length) (by omega) (Nat.le_refl _)) hsz⟩
        | invalid => trivial
        | incomplete =>
          dsimp only
          by_cases hcs : q2 = []
          · rw [if_neg (by simpa using hcs)]
            subst hcs
            unfold readUtf8Char
            dsimp only
            have hre := readExact_size (utf8CharWidth b) (.data (b :: bs) :: rr)
            cases hw : utf8CharWidth b with
            | zero => simp [readExact, utf8Run, utf8RunF]; trivial
            | succ w =>
              rw [hw] at hre
              generalize readExact (w + 1) (.data (b :: bs) :: rr) = ex at hre ⊢
              obtain ⟨res, items2⟩ := ex
              cases res with
              | error k => trivial
              | ok bytes =>
                have hre : srcSize items2 + (w + 1) ≤ srcSize (.data (b :: bs) :: rr) := hre
                dsimp only
                generalize utf8Run bytes = run2
                obtain ⟨cs2, rest2, en2⟩ := run2
                cases cs2 with
                | nil => trivial
                | cons c cs2 =>
                  cases en2 with
                  | invalid => trivial
                  | incomplete => trivial
                  | done =>
                    dsimp only
                    generalize hq' : pushChars _ [c] [] _ = q'
                    obtain ⟨a1, a2, a3⟩ := q'
                    cases a1 with
                    | some er => trivial
                    | none =>
                      have := pushChars_none (by rw [hq'])
                      rw [hq'] at this
                      have h : a2 = [] ++ [c] := this.1
                      subst h
                      exact ⟨by simp, by dsimp only; simp; omega⟩
          · rw [if_pos hcs]
            refine ⟨hcs, Nat.le_trans (consume_size (m := q2.length) ?_ ?_) hsz⟩
            · omega
            · omega

end Yaml
