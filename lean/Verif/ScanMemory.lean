import Verif.Scanner

/-!
# What the scanner stores

Besides the buffer, the scanner stores the first parts of the token that is being recorded (`tokenParts`).
-/

set_option linter.unusedSimpArgs false
set_option linter.unusedVariables false

namespace Verif

/-- `Prog.Reach M p s L p' s'`: the program `p`, started in `s`, gets to a moment when it still has to run `p'` and the state is `s'`; on the way `EndToken`
has returned the tokens `L`. -/
inductive Prog.Reach {σ α : Type} (M : Machine σ) : Prog α → σ → List Bytes → Prog α → σ → Prop
  | refl (p s) : Reach M p s [] p s
  | emit {t k s L p' s'} : Reach M k s L p' s' → Reach M (.emit t k) s L p' s'
  | read {k s L p' s'} : Reach M (k (M.read s).1) (M.read s).2 L p' s' → Reach M (.read k) s L p' s'
  | peek {k s L p' s'} : Reach M (k (M.peek s).1) (M.peek s).2 L p' s' → Reach M (.peek k) s L p' s'
  | skipPeek {k s L p' s'} : Reach M (k (M.skipPeek s).1) (M.skipPeek s).2 L p' s' → Reach M (.skipPeek k) s L p' s'
  | skipRead {k s L p' s'} : Reach M (k (M.skipRead s).1) (M.skipRead s).2 L p' s' → Reach M (.skipRead k) s L p' s'
  | back {k s s1 L p' s'} : M.back s = .ok s1 → Reach M k s1 L p' s' → Reach M (.back k) s L p' s'
  | startToken {k s s1 L p' s'} : M.startToken s = some s1 → Reach M k s1 L p' s' → Reach M (.startToken k) s L p' s'
  | endToken {k s s1 b L p' s'} : M.endToken s = some (b, s1) → Reach M (k b) s1 L p' s' → Reach M (.endToken k) s (b :: L) p' s'
  | currentPos {k s L p' s'} : Reach M (k (M.currentPos s)) s L p' s' → Reach M (.currentPos k) s L p' s'

namespace CScan

/-- The number of bytes recorded. -/
def recorded (c : CScan) : Nat := c.parts.flatten.length + (c.cur - c.tokStart.getD c.cur)

/-- The last byte can be unread. -/
def flag (c : CScan) : Nat := if c.prevPos.line < 0 then 0 else 1

/-- The indexes are in order, and parts are stored only while recording. -/
structure Tidy (c : CScan) : Prop where
  cur : c.cur ≤ c.buf.length
  buf : c.buf.length ≤ c.size
  tok : ∀ t, c.tokStart = some t → t ≤ c.cur
  parts : c.tokStart = none → c.parts = []

/-- A step that neither starts nor ends a token. -/
structure Onward (c c' : CScan) : Prop where
  tidy : c'.Tidy
  size : c'.size = c.size
  tok : c'.tokStart.isSome = c.tokStart.isSome
  rec_ : c.tokStart.isSome = true → c.recorded + c'.flag ≤ c'.recorded + c.flag

theorem Onward.refl {c : CScan} (h : c.Tidy) : Onward c c := ⟨h, rfl, rfl, fun _ => Nat.le_refl _⟩

theorem Onward.trans {a b c : CScan} (h : Onward a b) (h' : Onward b c) : Onward a c :=
  ⟨h'.tidy, h'.size.trans h.size, h'.tok.trans h.tok, fun ht => by have := h.rec_ ht; have := h'.rec_ (h.tok.trans ht); omega⟩

theorem tidy_new (r : Reader) (size : Nat) : (new r size).Tidy := ⟨Nat.le_refl _, Nat.zero_le _, fun _ h => (by cases h), fun _ => rfl⟩

theorem makeRoom_onward {c : CScan} (h : c.Tidy) : Onward c c.makeRoom := by
  obtain ⟨reader, size, buf, cur, pos, prevPos, tokStart, parts, err, eofCount⟩ := c
  obtain ⟨h1, h2, h3, h4⟩ := h
  simp only at h1 h2 h3 h4
  unfold makeRoom
  simp only
  split
  · split
    · rename_i t
      have := h3 (t + 1) rfl
      refine ⟨⟨?_, ?_, ?_, ?_⟩, rfl, rfl, ?_⟩
      · simp; omega
      · simp; omega
      · intro t' e; cases e; exact Nat.zero_le _
      · intro e; cases e
      · simp [recorded, flag]
    · split
      · refine ⟨⟨?_, ?_, ?_, ?_⟩, rfl, rfl, ?_⟩
        · simp; omega
        · simp; omega
        · intro t' e; cases e; exact Nat.zero_le _
        · intro e; cases e
        · simp [recorded, flag]; omega
      · exact .refl ⟨h1, h2, h3, h4⟩
    · split
      · refine ⟨⟨?_, ?_, ?_, ?_⟩, rfl, rfl, ?_⟩
        · simp; omega
        · simp; omega
        · intro t' e; cases e
        · intro e; exact h4 rfl
        · simp [recorded, flag]
      · exact .refl ⟨h1, h2, h3, h4⟩
  · exact .refl ⟨h1, h2, h3, h4⟩

theorem read_le (r : Reader) (cap : Nat) : (r.read cap).1.length ≤ cap := by
  unfold Reader.read
  split
  · exact Nat.zero_le _
  · simp; omega

theorem readLoop_onward : ∀ (i : Nat) {c : CScan}, c.Tidy → Onward c (c.readLoop i)
  | 0, c, h => ⟨⟨h.cur, h.buf, h.tok, h.parts⟩, rfl, rfl, fun _ => Nat.le_refl _⟩
  | i + 1, c, h => by
    have hl := read_le c.reader (c.size - c.buf.length)
    have h1 : Onward c { c with reader := (c.reader.read (c.size - c.buf.length)).2.2, buf := c.buf ++ (c.reader.read (c.size - c.buf.length)).1 } := by
      refine ⟨⟨?_, ?_, h.tok, h.parts⟩, rfl, rfl, fun _ => Nat.le_refl _⟩
      · have := h.cur; simp; omega
      · have := h.buf; simp; omega
    rw [readLoop]
    simp only
    split
    · exact h1.trans ⟨⟨h1.tidy.cur, h1.tidy.buf, h1.tidy.tok, h1.tidy.parts⟩, rfl, rfl, fun _ => Nat.le_refl _⟩
    · split
      · exact h1
      · exact h1.trans (readLoop_onward i h1.tidy)

theorem fillBuf_onward {c : CScan} (h : c.Tidy) : Onward c c.fillBuf := (makeRoom_onward h).trans (readLoop_onward 100 (makeRoom_onward h).tidy)

theorem ensure_onward {c : CScan} (h : c.Tidy) : Onward c c.ensure := by
  unfold ensure
  split
  · exact fillBuf_onward h
  · exact .refl h

/-- More bytes are taken. -/
theorem take_onward {c : CScan} (h : c.Tidy) {n : Nat} (hn : c.cur + n ≤ c.buf.length) (pos prevPos : Pos) (hf : n = 0 → prevPos = c.prevPos) :
    Onward c { c with pos := pos, prevPos := prevPos, cur := c.cur + n } := by
  refine ⟨⟨hn, h.buf, fun t e => ?_, h.parts⟩, rfl, rfl, ?_⟩
  · have := h.tok t e; simp only; omega
  · intro ht
    obtain ⟨t, ht⟩ := Option.isSome_iff_exists.1 ht
    have := h.tok t ht
    have hl : ∀ p : Pos, (if p.line < 0 then 0 else 1) ≤ 1 := fun p => by split <;> omega
    have hl := hl prevPos
    simp only [recorded, ht, Option.getD_some, flag]
    rcases Nat.eq_zero_or_pos n with rfl | hp
    · rw [hf rfl]
      omega
    · omega

theorem read_onward {c : CScan} (h : c.Tidy) : Onward c c.read.2 := by
  have h1 := ensure_onward h
  unfold read
  simp only
  split
  · rename_i b hb
    refine h1.trans (take_onward (n := 1) h1.tidy ?_ _ _ (fun e => by cases e))
    obtain ⟨hlt, -⟩ := List.getElem?_eq_some_iff.1 hb
    omega
  · split
    · exact h1.trans ⟨⟨h1.tidy.cur, h1.tidy.buf, h1.tidy.tok, h1.tidy.parts⟩, rfl, rfl, fun _ => Nat.le_refl _⟩
    · exact h1

theorem peek_onward {c : CScan} (h : c.Tidy) : Onward c c.peek.2 := by
  have h1 := ensure_onward h
  unfold peek
  simp only
  split <;> exact h1

theorem skipIn_le : ∀ (l : Bytes) (p : Pos), (skipIn p l).2.1 ≤ l.length ∧ ((skipIn p l).1 ≠ none → (skipIn p l).2.1 < l.length)
  | [], p => by simp [skipIn]
  | b :: l, p => by
    rw [skipIn]
    split
    · have := skipIn_le l ⟨p.line + 1, 0⟩
      generalize skipIn ⟨p.line + 1, 0⟩ l = r at this ⊢
      obtain ⟨r, n, q⟩ := r
      simp only [List.length_cons] at this ⊢
      exact ⟨by omega, fun h => by have := this.2 h; omega⟩
    · split
      · have := skipIn_le l ⟨p.line, p.col + 1⟩
        generalize skipIn ⟨p.line, p.col + 1⟩ l = r at this ⊢
        obtain ⟨r, n, q⟩ := r
        simp only [List.length_cons] at this ⊢
        exact ⟨by omega, fun h => by have := this.2 h; omega⟩
      · simp

/-- The rest of the buffer is skipped. -/
theorem skipAll_onward {c : CScan} (h : c.Tidy) (pos : Pos) : Onward c { c with pos := pos, cur := c.buf.length } := by
  have := take_onward h (n := c.buf.length - c.cur) (by have := h.cur; omega) pos c.prevPos (fun _ => rfl)
  rw [show c.cur + (c.buf.length - c.cur) = c.buf.length from by have := h.cur; omega] at this
  exact this

theorem skipPeekLoop_onward : ∀ (f : Nat) {c : CScan}, c.Tidy → Onward c (c.skipPeekLoop f).2
  | 0, c, h => .refl h
  | f + 1, c, h => by
    have hi := skipIn_le (c.buf.drop c.cur) c.pos
    rw [skipPeekLoop]
    split
    · rename_i b n p e
      rw [e] at hi
      have := hi.2 (by simp)
      exact take_onward (n := n) h (by simp at this; have := h.cur; omega) p c.prevPos (fun _ => rfl)
    · rename_i n p e
      have h1 := skipAll_onward h p
      have h2 := h1.trans (fillBuf_onward h1.tidy)
      simp only
      split
      · exact h2
      · exact h2.trans (skipPeekLoop_onward f h2.tidy)

theorem skipReadLoop_onward : ∀ (f : Nat) {c : CScan}, c.Tidy → Onward c (c.skipReadLoop f).2
  | 0, c, h => .refl h
  | f + 1, c, h => by
    have hi := skipIn_le (c.buf.drop c.cur) c.pos
    rw [skipReadLoop]
    split
    · rename_i b n p e
      rw [e] at hi
      have := hi.2 (by simp)
      exact take_onward (n := n + 1) h (by simp at this; have := h.cur; omega) (if b < 0xC0 then ⟨p.line, p.col + 1⟩ else p) c.prevPos (fun _ => rfl)
    · rename_i n p e
      have h1 := skipAll_onward h p
      have h2 := h1.trans (fillBuf_onward h1.tidy)
      simp only
      split
      · exact h2
      · exact h2.trans (skipReadLoop_onward f h2.tidy)

theorem skipPeek_onward {c : CScan} (h : c.Tidy) : Onward c c.skipPeek.2 := skipPeekLoop_onward _ h

theorem skipRead_onward {c : CScan} (h : c.Tidy) : Onward c c.skipRead.2 := skipReadLoop_onward _ h

theorem back_onward {c c' : CScan} (h : c.Tidy) (e : c.back = .ok c') : Onward c c' := by
  unfold back at e
  split at e
  · cases e
  · rename_i hn
    split at e
    · cases e
    · rename_i hp
      split at e
      · cases e
        exact ⟨⟨h.cur, h.buf, h.tok, h.parts⟩, rfl, rfl, fun _ => Nat.le_refl _⟩
      · cases e
        simp only [not_or, Option.mem_def, not_exists, not_and] at hn
        refine ⟨⟨?_, h.buf, ?_, h.parts⟩, rfl, rfl, ?_⟩
        · have := h.cur; simp only; omega
        · intro t ht
          have := hn.2 t ht
          simp only; omega
        · intro ht
          obtain ⟨t, ht⟩ := Option.isSome_iff_exists.1 ht
          have := hn.2 t ht
          simp only [recorded, ht, Option.getD_some, flag, if_neg hp]
          rw [if_pos (by decide)]
          omega

theorem startToken_tidy {c c' : CScan} (h : c.Tidy) (e : c.startToken = some c') : c'.Tidy ∧ c'.size = c.size ∧ c.tokStart = none := by
  unfold startToken at e
  split at e
  · cases e
  · rename_i hn
    cases e
    have hn : c.tokStart = none := by simpa using hn
    exact ⟨⟨h.cur, h.buf, fun t e => (by cases e; exact Nat.le_refl _), fun e => (by cases e)⟩, rfl, hn⟩

theorem endToken_tidy {c c' : CScan} {b : Bytes} (h : c.Tidy) (e : c.endToken = some (b, c')) : c'.Tidy ∧ c'.size = c.size ∧ b.length = c.recorded := by
  unfold endToken at e
  split at e
  · cases e
  · rename_i t ht
    have h1 := h.cur
    have h2 := h.tok t ht
    split at e
    · rename_i hp
      simp only [Option.some.injEq, Prod.mk.injEq] at e
      obtain ⟨rfl, rfl⟩ := e
      refine ⟨⟨h.cur, h.buf, fun t e => (by cases e), fun _ => hp⟩, rfl, ?_⟩
      simp [recorded, ht, hp]
      omega
    · simp only [Option.some.injEq, Prod.mk.injEq] at e
      obtain ⟨rfl, rfl⟩ := e
      refine ⟨⟨h.cur, h.buf, fun t e => (by cases e), fun _ => rfl⟩, rfl, ?_⟩
      simp [recorded, ht]
      omega

end CScan

open CScan

/-- The invariant in every state reached. -/
theorem Prog.Reach.tidy {α : Type} {p p' : Prog α} {c c' : CScan} {L : List Bytes} (hr : Prog.Reach CScan.machine p c L p' c') (h : c.Tidy) :
    c'.Tidy ∧ c'.size = c.size := by
  induction hr with
  | refl => exact ⟨h, rfl⟩
  | emit _ ih => exact ih h
  | read _ ih => exact ⟨(ih (read_onward h).tidy).1, (ih (read_onward h).tidy).2.trans (read_onward h).size⟩
  | peek _ ih => exact ⟨(ih (peek_onward h).tidy).1, (ih (peek_onward h).tidy).2.trans (peek_onward h).size⟩
  | skipPeek _ ih =>
    have h1 := skipPeek_onward h
    exact ⟨(ih h1.tidy).1, (ih h1.tidy).2.trans h1.size⟩
  | skipRead _ ih =>
    have h1 := skipRead_onward h
    exact ⟨(ih h1.tidy).1, (ih h1.tidy).2.trans h1.size⟩
  | back e _ ih =>
    have h1 := back_onward h e
    exact ⟨(ih h1.tidy).1, (ih h1.tidy).2.trans h1.size⟩
  | startToken e _ ih =>
    have h1 := startToken_tidy h e
    exact ⟨(ih h1.1).1, (ih h1.1).2.trans h1.2.1⟩
  | endToken e _ ih =>
    have h1 := endToken_tidy h e
    exact ⟨(ih h1.1).1, (ih h1.1).2.trans h1.2.1⟩
  | currentPos _ ih => exact ih h

/-- While recording: what is recorded is at most one byte longer than the token that is returned in the end. -/
theorem Prog.Reach.recorded {α : Type} {p p' : Prog α} {c c' : CScan} {b : Bytes} {L : List Bytes} (hr : Prog.Reach CScan.machine p c (b :: L) p' c')
    (h : c.Tidy) (ht : c.tokStart.isSome = true) : c.recorded ≤ b.length + c.flag := by
  generalize hb : b :: L = L' at hr
  induction hr with
  | refl => cases hb
  | emit _ ih => exact ih h ht hb
  | read _ ih =>
    have h1 := read_onward h
    have := ih h1.tidy (h1.tok.trans ht) hb
    have := h1.rec_ ht
    simp only [CScan.machine] at *
    omega
  | peek _ ih =>
    have h1 := peek_onward h
    have := ih h1.tidy (h1.tok.trans ht) hb
    have := h1.rec_ ht
    simp only [CScan.machine] at *
    omega
  | skipPeek _ ih =>
    have h1 := skipPeek_onward h
    have := ih h1.tidy (h1.tok.trans ht) hb
    have := h1.rec_ ht
    simp only [CScan.machine] at *
    omega
  | skipRead _ ih =>
    have h1 := skipRead_onward h
    have := ih h1.tidy (h1.tok.trans ht) hb
    have := h1.rec_ ht
    simp only [CScan.machine] at *
    omega
  | back e _ ih =>
    have h1 := back_onward h e
    have := ih h1.tidy (h1.tok.trans ht) hb
    have := h1.rec_ ht
    omega
  | startToken e _ ih =>
    have h1 := startToken_tidy h e
    rw [h1.2.2] at ht
    cases ht
  | endToken e _ ih =>
    cases hb
    have h1 := endToken_tidy h e
    omega
  | currentPos _ ih => exact ih h ht hb

end Verif
