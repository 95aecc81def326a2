import Verif.Scanner

/-!
# The buffered scanner behaves like the unbuffered one (helper lemmas)
-/

set_option linter.unusedSimpArgs false
set_option linter.unusedVariables false

namespace Verif

/-- The reader never makes 100 reads in a row that deliver nothing. -/
def Fair (sched : Nat → Nat × Bool) : Prop := ∀ i, ∃ j, j < 100 ∧ 0 < (sched (i + j)).1

/-- The buffered scanner `c` corresponds to the unbuffered scanner `a` if the reader goes on to
deliver `D` and then the error `fin`. -/
structure Sim (c : CScan) (D : Bytes) (fin : RErr) (a : AScan) : Prop where
  cur_le : c.cur ≤ c.buf.length
  len_le : c.buf.length ≤ c.size
  size2 : 2 ≤ c.size
  rest : a.rest = c.buf.drop c.cur ++ D
  fin : a.fin = fin
  hist : ∀ b, a.hist = some b → ∃ n, c.cur = n + 1 ∧ c.buf[n]? = some b
  histtok : a.hist.isSome → ∀ t, c.tokStart = some t → t < c.cur
  tok : a.tok = c.tokStart.map fun t => c.parts.flatten ++ (c.buf.take c.cur).drop t
  tokle : ∀ t, c.tokStart = some t → t ≤ c.cur
  parts0 : c.parts ≠ [] → c.tokStart = some 0
  partsne : ∀ p ∈ c.parts, p ≠ []
  pos : a.pos = c.pos
  prevPos : a.prevPos = c.prevPos
  eofCount : a.eofCount = c.eofCount

namespace CScan

theorem makeRoom_reader (c : CScan) : c.makeRoom.reader = c.reader := by
  unfold makeRoom
  split
  · split
    · rfl
    · split <;> rfl
    · split <;> rfl
  · rfl

theorem makeRoom_size (c : CScan) : c.makeRoom.size = c.size := by
  unfold makeRoom
  split
  · split
    · rfl
    · split <;> rfl
    · split <;> rfl
  · rfl

end CScan

/-- Making room does not change the abstract state. -/
theorem Sim.makeRoom {c : CScan} {D fin a} (h : Sim c D fin a) (hc : c.cur = c.buf.length) :
    Sim c.makeRoom D fin a ∧ c.makeRoom.cur = c.makeRoom.buf.length ∧ c.makeRoom.buf.length < c.makeRoom.size := by
  have hlen := h.len_le
  have hsz := h.size2
  unfold CScan.makeRoom
  split
  case isFalse hne => exact ⟨h, hc, by omega⟩
  case isTrue heq =>
    split
    · rename_i t ht
      have htle := h.tokle _ ht
      refine ⟨?_, by simp; omega, by simp; omega⟩
      have hparts : c.parts = [] := by
        apply Classical.byContradiction
        intro hp
        have := h.parts0 hp
        rw [ht] at this; simp at this
      constructor
      case cur_le => simp; omega
      case len_le => simp; omega
      case size2 => exact h.size2
      case rest =>
        simp only
        rw [h.rest, List.drop_drop]
        congr 2; omega
      case hist =>
        intro b hb
        obtain ⟨n, hn, hbn⟩ := h.hist b hb
        have := h.histtok (by simp [hb]) _ ht
        refine ⟨n - (t + 1), by simp only; omega, ?_⟩
        simp only
        rw [List.getElem?_drop, show t + 1 + (n - (t + 1)) = n by omega]
        exact hbn
      case histtok =>
        intro hb t' ht'
        have := h.histtok hb _ ht
        simp at ht'
        subst ht'
        simp only; omega
      case tok =>
        rw [h.tok, ht]
        simp only [Option.map_some, hparts, List.flatten_nil, List.nil_append, List.drop_zero, Option.some.injEq]
        rw [List.drop_take]
      case tokle => intro t' ht'; simp at ht'; omega
      case parts0 => intro hp; exact absurd hparts hp
      case partsne => exact h.partsne
      case fin => exact h.fin
      case pos => exact h.pos
      case prevPos => exact h.prevPos
      case eofCount => exact h.eofCount
    · rename_i ht
      rw [if_pos (by omega)]
      refine ⟨?_, by simp; omega, by simp; omega⟩
      constructor
      case cur_le => simp; omega
      case len_le => simp; omega
      case size2 => exact h.size2
      case rest =>
        simp only
        rw [h.rest, List.drop_drop]
        congr 2; omega
      case hist =>
        intro b hb
        obtain ⟨n, hn, hbn⟩ := h.hist b hb
        refine ⟨0, by simp only; omega, ?_⟩
        simp only
        rw [List.getElem?_drop, show c.cur - 1 + 0 = n by omega]
        exact hbn
      case histtok =>
        intro hb t' ht'
        simp only at ht' ⊢
        rw [ht] at ht'; cases ht'
        omega
      case tok =>
        rw [h.tok, ht]
        simp only [Option.map_some, List.flatten_append, List.flatten_cons, List.flatten_nil, List.append_nil,
          Option.some.injEq, List.drop_zero, List.append_assoc, List.append_cancel_left_eq]
        rw [show c.cur - (c.cur - 1) = 1 by omega]
        have : c.buf.take c.cur = c.buf.take (c.cur - 1 + 1) := by congr 1; omega
        rw [this, List.take_add]
      case tokle => intro t' ht'; simp only at ht' ⊢; rw [ht] at ht'; cases ht'; omega
      case parts0 => intro _; exact ht
      case partsne =>
        intro p hp
        simp only [List.mem_append, List.mem_singleton] at hp
        rcases hp with hp | rfl
        · exact h.partsne p hp
        · intro hnil
          have := congrArg List.length hnil
          rw [List.length_take, List.length_nil] at this; omega
      case fin => exact h.fin
      case pos => exact h.pos
      case prevPos => exact h.prevPos
      case eofCount => exact h.eofCount
    · rename_i ht
      rw [if_pos (by omega)]
      refine ⟨?_, by simp; omega, by simp; omega⟩
      constructor
      case cur_le => simp; omega
      case len_le => simp; omega
      case size2 => exact h.size2
      case rest =>
        simp only
        rw [h.rest, List.drop_drop]
        congr 2; omega
      case hist =>
        intro b hb
        obtain ⟨n, hn, hbn⟩ := h.hist b hb
        refine ⟨0, by simp only; omega, ?_⟩
        simp only
        rw [List.getElem?_drop, show c.cur - 1 + 0 = n by omega]
        exact hbn
      case histtok =>
        intro hb t' ht'
        simp only at ht' ⊢
        rw [ht] at ht'; cases ht'
      case tok => rw [h.tok, ht]; rfl
      case tokle => intro t' ht'; simp only at ht' ⊢; rw [ht] at ht'; cases ht'
      case parts0 => exact h.parts0
      case partsne => exact h.partsne
      case fin => exact h.fin
      case pos => exact h.pos
      case prevPos => exact h.prevPos
      case eofCount => exact h.eofCount

/-- Bytes move from the reader to the buffer. -/
theorem Sim.deliver {c : CScan} {new D fin a} (h : Sim c (new ++ D) fin a) (r : Reader)
    (hl : c.buf.length + new.length ≤ c.size) (e : Option RErr) :
    Sim { c with reader := r, buf := c.buf ++ new, err := e } D fin a := by
  have hcur := h.cur_le
  constructor
  case cur_le => simp; omega
  case len_le => simpa using hl
  case rest => simp only; rw [h.rest, List.drop_append_of_le_length hcur, List.append_assoc]
  case hist =>
    intro b hb
    obtain ⟨n, hn, hbn⟩ := h.hist b hb
    refine ⟨n, hn, ?_⟩
    simp only
    rw [List.getElem?_append_left (by omega)]; exact hbn
  case tok =>
    simp only
    rw [h.tok, List.take_append_of_le_length hcur]
  case size2 => exact h.size2
  case fin => exact h.fin
  case histtok => exact h.histtok
  case tokle => exact h.tokle
  case parts0 => exact h.parts0
  case partsne => exact h.partsne
  case pos => exact h.pos
  case prevPos => exact h.prevPos
  case eofCount => exact h.eofCount

/-- How the end of the input shows: the reader's error, or (only with a reader that is not fair)
`ErrNoProgress`, with undelivered bytes. -/
def EndsWith (r : Reader) (e : RErr) : Prop :=
  (r.rest = [] ∧ e = r.fin) ∨ (¬ Fair r.sched ∧ r.rest ≠ [] ∧ e = .noProgress)

/-- What is common to the states before and after a refill. -/
structure Refill (c c' : CScan) (new : Bytes) : Prop where
  rest : c.reader.rest = new ++ c'.reader.rest
  fin : c'.reader.fin = c.reader.fin
  sched : c'.reader.sched = c.reader.sched
  sim : ∀ {D fin a}, Sim c (new ++ D) fin a → Sim c' D fin a

theorem readLoop_spec (i : Nat) (c : CScan) (hroom : c.buf.length < c.size)
    (h0 : c.reader.rest = [] → 0 < i)
    (hi : Fair c.reader.sched → ∃ j, j < i ∧ 0 < (c.reader.sched (c.reader.idx + j)).1) :
    ∃ new, Refill c (c.readLoop i) new ∧ (c.readLoop i).buf = c.buf ++ new ∧ (c.readLoop i).cur = c.cur ∧
      (new = [] → ∃ e, (c.readLoop i).err = some e ∧ EndsWith (c.readLoop i).reader e) := by
  induction i generalizing c with
  | zero =>
    have hr : c.reader.rest ≠ [] := fun h => by have := h0 h; omega
    refine ⟨[], ⟨by simp [CScan.readLoop], rfl, rfl, ?_⟩, by simp [CScan.readLoop], rfl, ?_⟩
    · intro D fin a h
      have := Sim.deliver (new := []) (D := D) (by simpa using h) c.reader (by simp; omega) (some .noProgress)
      simpa [CScan.readLoop] using this
    · intro _
      refine ⟨.noProgress, rfl, .inr ⟨?_, hr, rfl⟩⟩
      intro hf
      obtain ⟨j, hj, _⟩ := hi hf; omega
  | succ i ih =>
    cases hr : c.reader.rest with
    | nil =>
      have hl : c.readLoop (i + 1) =
          { c with reader := { c.reader with idx := c.reader.idx + 1 }, buf := c.buf ++ [], err := some c.reader.fin } := by
        simp [CScan.readLoop, Reader.read, hr]
      rw [hl]
      refine ⟨[], ⟨by simp [hr], rfl, rfl, ?_⟩, by simp, rfl, ?_⟩
      · intro D fin a h
        exact Sim.deliver (new := []) (D := D) (by simpa using h) _ (by simp; omega) _
      · intro _
        exact ⟨_, rfl, .inl ⟨hr, rfl⟩⟩
    | cons b bs =>
      generalize hk : min (c.reader.sched c.reader.idx).1 (c.size - c.buf.length) = k
      have hread : c.reader.read (c.size - c.buf.length) = ((b :: bs).take k,
          (if ((b :: bs).drop k).isEmpty && (c.reader.sched c.reader.idx).2 then some c.reader.fin else none),
          { c.reader with idx := c.reader.idx + 1, rest := (b :: bs).drop k }) := by
        simp [Reader.read, hr, hk]
      have hsplit : (b :: bs).take k ++ (b :: bs).drop k = b :: bs := List.take_append_drop _ _
      have hfit : c.buf.length + ((b :: bs).take k).length ≤ c.size := by
        rw [List.length_take]; omega
      cases he : (if ((b :: bs).drop k).isEmpty && (c.reader.sched c.reader.idx).2 then some c.reader.fin else none) with
      | some e =>
        have hl : c.readLoop (i + 1) = { c with reader := { c.reader with idx := c.reader.idx + 1, rest := (b :: bs).drop k }, buf := c.buf ++ (b :: bs).take k, err := some e } := by
          simp only [CScan.readLoop, hread, he]
        rw [hl]
        have hempty : (b :: bs).drop k = [] := by
          split at he
          · rename_i hh; simp only [Bool.and_eq_true, List.isEmpty_iff] at hh; exact hh.1
          · cases he
        refine ⟨(b :: bs).take k, ⟨by simp [hr], rfl, rfl, ?_⟩, rfl, rfl, ?_⟩
        · intro D fin a h
          exact Sim.deliver h _ hfit _
        · intro hnil
          rw [hnil, hempty] at hsplit
          cases hsplit
      | none =>
        by_cases hpos : ((b :: bs).take k).length > 0
        · have hl : c.readLoop (i + 1) = { c with reader := { c.reader with idx := c.reader.idx + 1, rest := (b :: bs).drop k }, buf := c.buf ++ (b :: bs).take k } := by
            simp only [CScan.readLoop, hread, he, if_pos hpos]
          rw [hl]
          refine ⟨(b :: bs).take k, ⟨by simp [hr], rfl, rfl, ?_⟩, rfl, rfl, ?_⟩
          · intro D fin a h
            exact Sim.deliver h _ hfit _
          · intro hnil
            rw [hnil] at hpos
            simp at hpos
        · have hk0 : (b :: bs).take k = [] := by
            apply List.eq_nil_of_length_eq_zero; omega
          have hk0' : k = 0 := by simpa using hk0
          have hl : c.readLoop (i + 1) = ({ c with reader := { c.reader with idx := c.reader.idx + 1 } } : CScan).readLoop i := by
            simp only [CScan.readLoop, hread, he, if_neg hpos]
            congr 1
            simp [hk0', hr]
          rw [hl]
          obtain ⟨new, h1, h2, h3, h4⟩ := ih { c with reader := { c.reader with idx := c.reader.idx + 1 } } hroom
            (by intro h; simp only at h; rw [hr] at h; cases h)
            (by
              intro hf
              obtain ⟨j, hj, hp⟩ := hi hf
              cases j with
              | zero => simp only [Nat.add_zero] at hp; omega
              | succ j =>
                refine ⟨j, by omega, ?_⟩
                simp only
                rw [show c.reader.idx + 1 + j = c.reader.idx + (j + 1) by omega]
                exact hp)
          refine ⟨new, ⟨by simpa using h1.rest, by simpa using h1.fin, by simpa using h1.sched, ?_⟩, by simpa using h2, by simpa using h3, h4⟩
          intro D fin a h
          apply h1.sim
          have := Sim.deliver (new := []) (D := new ++ D) (by simpa using h) { c.reader with idx := c.reader.idx + 1 } (by simp; omega) c.err
          simpa using this

theorem fillBuf_spec (c : CScan) (hc : c.cur = c.buf.length) (hlen : c.buf.length ≤ c.size) (h2 : 2 ≤ c.size)
    (hr : ∃ D fin a, Sim c D fin a) :
    ∃ new, Refill c c.fillBuf new ∧ c.fillBuf.buf.drop c.fillBuf.cur = new ∧ c.fillBuf.cur ≤ c.fillBuf.buf.length ∧
      (new = [] → ∃ e, c.fillBuf.err = some e ∧ EndsWith c.fillBuf.reader e) := by
  obtain ⟨D0, fin0, a0, h0⟩ := hr
  obtain ⟨s1, s2, s3⟩ := h0.makeRoom hc
  obtain ⟨new, h1, h2, h3, h4⟩ := readLoop_spec 100 c.makeRoom s3 (fun _ => by omega) (fun hf => hf _)
  refine ⟨new, ⟨?_, ?_, ?_, ?_⟩, ?_, ?_, h4⟩
  · have := h1.rest; rw [CScan.makeRoom_reader] at this; exact this
  · have := h1.fin; rw [CScan.makeRoom_reader] at this; exact this
  · have := h1.sched; rw [CScan.makeRoom_reader] at this; exact this
  · intro D fin a h
    exact h1.sim (h.makeRoom hc).1
  · unfold CScan.fillBuf
    rw [h2, h3, s2]; simp
  · unfold CScan.fillBuf
    rw [h2, h3, s2]; simp

/-- Taking the next byte from the buffer, with any new positions. -/
theorem Sim.take {c : CScan} {D fin a b} (h : Sim c D fin a) (hb : c.buf[c.cur]? = some b) (p q : Pos) :
    a.rest = b :: (c.buf.drop (c.cur + 1) ++ D) ∧
    Sim { c with cur := c.cur + 1, pos := q, prevPos := p } D fin
      { a with rest := c.buf.drop (c.cur + 1) ++ D, hist := some b, tok := a.tok.map (· ++ [b]), pos := q, prevPos := p } := by
  obtain ⟨hlt, hget⟩ := List.getElem?_eq_some_iff.1 hb
  refine ⟨by rw [h.rest, List.drop_eq_getElem_cons hlt, hget]; rfl, ?_⟩
  constructor
  case cur_le => exact hlt
  case rest => rfl
  case hist => intro b' hb'; simp at hb'; subst hb'; exact ⟨c.cur, rfl, hb⟩
  case histtok => intro _ t ht; have := h.tokle t ht; simp only; omega
  case tok =>
    simp only
    rw [h.tok]
    cases ht : c.tokStart with
    | none => rfl
    | some t =>
      have := h.tokle t ht
      simp only [Option.map_some, Option.some.injEq]
      rw [List.take_add_one, hb, List.drop_append_of_le_length (by rw [List.length_take]; omega), List.append_assoc]
      rfl
  case tokle => intro t ht; have := h.tokle t ht; simp only; omega
  case len_le => exact h.len_le
  case size2 => exact h.size2
  case fin => exact h.fin
  case parts0 => exact h.parts0
  case partsne => exact h.partsne
  case pos => rfl
  case prevPos => rfl
  case eofCount => exact h.eofCount

/-- Correspondence for one scanner method: `c'` and `r` are what the buffered scanner gives.  Either
the method has delivered `new` from the reader and its result does not depend on what comes
after, or it has met the end of the input. -/
def OpSpec (aop : AScan → Rd × AScan) (c : CScan) (r : Rd) (c' : CScan) : Prop :=
  c'.reader.fin = c.reader.fin ∧ c'.reader.sched = c.reader.sched ∧
  ∃ new, c.reader.rest = new ++ c'.reader.rest ∧
    ((∀ D fin a, Sim c (new ++ D) fin a → (aop a).1 = r ∧ Sim c' D fin (aop a).2) ∨
     (∃ e, EndsWith c'.reader e ∧ (e ≠ .eof → r = .error e) ∧
        ∀ a, Sim c new e a → (aop a).1 = r ∧ Sim c' [] e (aop a).2))

theorem ensure_spec (c : CScan) (hr : ∃ D fin a, Sim c D fin a) :
    ∃ new, Refill c c.ensure new ∧ c.ensure.cur ≤ c.ensure.buf.length ∧
      (c.ensure.buf[c.ensure.cur]? = none → new = [] ∧ ∃ e, c.ensure.err = some e ∧ EndsWith c.ensure.reader e) := by
  obtain ⟨D0, fin0, a0, h0⟩ := hr
  have := h0.cur_le
  unfold CScan.ensure
  split
  · obtain ⟨new, h1, h2, h3, h4⟩ := fillBuf_spec c (by omega) h0.len_le h0.size2 ⟨_, _, _, h0⟩
    refine ⟨new, h1, h3, ?_⟩
    intro hn
    have hn' : new = [] := by
      rw [← h2]
      simp only [List.getElem?_eq_none_iff] at hn
      exact List.drop_eq_nil_of_le hn
    exact ⟨hn', h4 hn'⟩
  · refine ⟨[], ⟨by simp, rfl, rfl, by simp⟩, this, ?_⟩
    intro hn
    simp only [List.getElem?_eq_none_iff] at hn
    omega

theorem Sim.rest_nil {c : CScan} {e a} (h : Sim c [] e a) (hn : c.buf[c.cur]? = none) : a.rest = [] := by
  rw [h.rest]
  simp only [List.getElem?_eq_none_iff] at hn
  simp [List.drop_eq_nil_of_le hn]

theorem errOrEOF_spec {c : CScan} {e : RErr} (h : c.err = some e) (a : AScan) (ha : a.fin = e) :
    c.errOrEOF = a.atEnd ∧ (e ≠ .eof → c.errOrEOF = .error e) := by
  unfold CScan.errOrEOF AScan.atEnd
  rw [h, ha]
  cases e <;> simp

theorem Sim.setEof {c : CScan} {D e a} (h : Sim c D e a) (n : Nat) :
    Sim { c with eofCount := n } D e { a with eofCount := n } := by
  cases h; constructor <;> first | assumption | rfl

theorem read_spec (c : CScan) (hr : ∃ D fin a, Sim c D fin a) :
    OpSpec AScan.read c c.read.1 c.read.2 := by
  obtain ⟨new, h1, h2, h3⟩ := ensure_spec c hr
  unfold CScan.read
  simp only
  cases hb : c.ensure.buf[c.ensure.cur]? with
  | some b =>
    simp only
    refine ⟨h1.fin, h1.sched, new, h1.rest, .inl ?_⟩
    intro D fin a h
    obtain ⟨h4, h5⟩ := (h1.sim h).take hb a.pos (a.pos.adv b)
    refine ⟨by simp [AScan.read, h4], ?_⟩
    have hp := (h1.sim h).pos
    rw [hp] at h5
    simp only [AScan.read, h4, AScan.take1, hp]
    exact h5
  | none =>
    obtain ⟨hnew, e, he, hend⟩ := h3 hb
    subst hnew
    by_cases heof : e = .eof
    · subst heof
      rw [if_pos he]
      refine ⟨h1.fin, h1.sched, [], h1.rest, .inr ⟨_, hend, by simp, ?_⟩⟩
      intro a h
      have h' := h1.sim (D := []) h
      have hnil := h'.rest_nil hb
      have hf := h'.fin
      refine ⟨by simp [AScan.read, hnil, AScan.atEnd, hf], ?_⟩
      have := h'.eofCount
      have h6 := h'.setEof (c.ensure.eofCount + 1)
      simp only [hnil, hf] at h6
      simp only [AScan.read, hnil, hf, if_true, this]
      exact h6
    · have hne : ¬ c.ensure.err = some .eof := by rw [he]; simpa using heof
      rw [if_neg hne]
      refine ⟨h1.fin, h1.sched, [], h1.rest, .inr ⟨_, hend, ?_, ?_⟩⟩
      · intro _; unfold CScan.errOrEOF; rw [he]; cases e <;> simp_all
      · intro a h
        have h' := h1.sim (D := []) h
        have hnil := h'.rest_nil hb
        have hf := h'.fin
        refine ⟨by simp only [AScan.read, hnil]; exact (errOrEOF_spec he a hf).1.symm, ?_⟩
        simp only [AScan.read, hnil, hf, heof, if_false]
        exact h'

theorem peek_spec (c : CScan) (hr : ∃ D fin a, Sim c D fin a) :
    OpSpec AScan.peek c c.peek.1 c.peek.2 := by
  obtain ⟨new, h1, h2, h3⟩ := ensure_spec c hr
  unfold CScan.peek
  simp only
  cases hb : c.ensure.buf[c.ensure.cur]? with
  | some b =>
    simp only
    refine ⟨h1.fin, h1.sched, new, h1.rest, .inl ?_⟩
    intro D fin a h
    obtain ⟨h4, h5⟩ := (h1.sim h).take hb a.pos (a.pos.adv b)
    refine ⟨by simp [AScan.peek, h4], ?_⟩
    simp only [AScan.peek, h4]
    exact h1.sim h
  | none =>
    obtain ⟨hnew, e, he, hend⟩ := h3 hb
    subst hnew
    refine ⟨h1.fin, h1.sched, [], h1.rest, .inr ⟨_, hend, ?_, ?_⟩⟩
    · intro hne; obtain ⟨_, _, a0, _⟩ := hr; exact (errOrEOF_spec he { a0 with fin := e } rfl).2 hne
    · intro a h
      have h' := h1.sim (D := []) h
      have hnil := h'.rest_nil hb
      have hf := h'.fin
      refine ⟨by simp only [AScan.peek, hnil]; exact (errOrEOF_spec he a hf).1.symm, ?_⟩
      simp only [AScan.peek, hnil]
      exact h'

theorem AScan.skip_cons (a : AScan) (b : Byte) (r : Bytes) (h : a.rest = b :: r) (hs : isSpace b = true) :
    a.skip a.rest = ({ a with rest := r, hist := some b, tok := a.tok.map (· ++ [b]), pos := a.pos.adv b } : AScan).skip r := by
  rw [h, AScan.skip, if_pos hs]

theorem AScan.skip_stop (a : AScan) (b : Byte) (r : Bytes) (h : a.rest = b :: r) (hs : isSpace b = false) :
    a.skip a.rest = a := by
  rw [h, AScan.skip, if_neg (by simp [hs])]

/-- The inner loop of the skip methods. -/
theorem skipIn_spec (l : Bytes) (c : CScan) (hl : c.buf.drop c.cur = l) (hcur : c.cur ≤ c.buf.length) :
    let r := CScan.skipIn c.pos l
    c.cur + r.2.1 ≤ c.buf.length ∧
    (r.1 = none → c.cur + r.2.1 = c.buf.length) ∧
    (∀ b, r.1 = some b → c.buf[c.cur + r.2.1]? = some b ∧ isSpace b = false) ∧
    (∀ D fin a, Sim c D fin a → ∃ a', Sim { c with cur := c.cur + r.2.1, pos := r.2.2 } D fin a' ∧
      a.skip a.rest = a'.skip a'.rest) := by
  induction l generalizing c with
  | nil =>
    have : c.buf.length ≤ c.cur := List.drop_eq_nil_iff.1 hl
    refine ⟨by simp [CScan.skipIn]; omega, by simp [CScan.skipIn]; omega, by simp [CScan.skipIn], ?_⟩
    intro D fin a h
    exact ⟨a, by simpa [CScan.skipIn] using h, rfl⟩
  | cons b bs ih =>
    have hlt : c.cur < c.buf.length := by
      apply Nat.lt_of_not_le
      intro hle
      rw [List.drop_eq_nil_of_le hle] at hl; cases hl
    rw [List.drop_eq_getElem_cons hlt] at hl
    obtain ⟨hb, hbs⟩ := List.cons.inj hl
    have hget : c.buf[c.cur]? = some b := by rw [List.getElem?_eq_getElem hlt, hb]
    have key : ∀ q, q = c.pos.adv b → isSpace b = true →
        let r := CScan.skipIn q bs
        CScan.skipIn c.pos (b :: bs) = (r.1, r.2.1 + 1, r.2.2) →
        (let r := CScan.skipIn c.pos (b :: bs)
        c.cur + r.2.1 ≤ c.buf.length ∧
        (r.1 = none → c.cur + r.2.1 = c.buf.length) ∧
        (∀ b, r.1 = some b → c.buf[c.cur + r.2.1]? = some b ∧ isSpace b = false) ∧
        (∀ D fin a, Sim c D fin a → ∃ a', Sim { c with cur := c.cur + r.2.1, pos := r.2.2 } D fin a' ∧
          a.skip a.rest = a'.skip a'.rest)) := by
      intro q hq hsp r heq
      simp only [heq]
      obtain ⟨i1, i2, i3, i4⟩ := ih { c with cur := c.cur + 1, pos := q } hbs hlt
      have hadd : c.cur + (r.2.1 + 1) = c.cur + 1 + r.2.1 := by omega
      rw [hadd]
      refine ⟨i1, i2, i3, ?_⟩
      intro D fin a h
      obtain ⟨h5, h6⟩ := h.take hget a.prevPos q
      have hpp := h.prevPos
      obtain ⟨a', h7, h8⟩ := i4 D fin { a with rest := c.buf.drop (c.cur + 1) ++ D, hist := some b, tok := a.tok.map (· ++ [b]), pos := q } (by
        rw [hpp] at h6
        cases h6
        constructor <;> assumption)
      refine ⟨a', h7, ?_⟩
      rw [← h8, AScan.skip_cons a b _ h5 hsp, h.pos, ← hq]
    by_cases h10 : b = 10
    · subst h10
      exact key ⟨c.pos.line + 1, 0⟩ (by simp [Pos.adv]) (by decide) (by simp [CScan.skipIn])
    · by_cases hsp : b = 32 ∨ b = 9 ∨ b = 13
      · refine key ⟨c.pos.line, c.pos.col + 1⟩ ?_ ?_ (by simp [CScan.skipIn, h10, hsp])
        · have : b < 0xC0 := by rcases hsp with rfl | rfl | rfl <;> decide
          simp [Pos.adv, h10, this]
        · rcases hsp with rfl | rfl | rfl <;> decide
      · have hns : isSpace b = false := by
          simp only [isSpace]
          simp [h10]
          simp at hsp
          exact ⟨⟨hsp.1, hsp.2.1⟩, hsp.2.2⟩
        have hr : CScan.skipIn c.pos (b :: bs) = (some b, 0, c.pos) := by
          simp [CScan.skipIn, h10, hsp]
        simp only [hr]
        refine ⟨hcur, by simp, ?_, ?_⟩
        · intro b' hb'; cases hb'; exact ⟨hget, hns⟩
        · intro D fin a h
          exact ⟨a, h, rfl⟩

theorem Sim.rest_cons {c : CScan} {D e a b} (h : Sim c D e a) (hb : c.buf[c.cur]? = some b) :
    a.rest = b :: (c.buf.drop (c.cur + 1) ++ D) := (h.take hb a.pos a.pos).1

theorem skipPeekLoop_spec (fuel : Nat) (c : CScan) (hf : c.reader.rest.length < fuel)
    (hr : ∃ D fin a, Sim c D fin a) :
    OpSpec AScan.skipPeek c (c.skipPeekLoop fuel).1 (c.skipPeekLoop fuel).2 := by
  induction fuel generalizing c with
  | zero => omega
  | succ fuel ih =>
    obtain ⟨D0, fin0, a0, h0⟩ := hr
    have hcur := h0.cur_le
    obtain ⟨s1, s2, s3, s4⟩ := skipIn_spec (c.buf.drop c.cur) c rfl hcur
    unfold CScan.skipPeekLoop
    generalize hrr : CScan.skipIn c.pos (c.buf.drop c.cur) = rr at s1 s2 s3 s4 ⊢
    obtain ⟨r, n, p⟩ := rr
    cases r with
    | some b =>
      obtain ⟨hb, hns⟩ := s3 b rfl
      refine ⟨rfl, rfl, [], rfl, .inl ?_⟩
      intro D fin a h
      obtain ⟨a', h1, h2⟩ := s4 D fin a h
      have hrest := h1.rest_cons hb
      unfold AScan.skipPeek
      rw [h2, AScan.skip_stop a' b _ hrest hns]
      simp only [AScan.peek, hrest]
      exact ⟨trivial, h1⟩
    | none =>
      have hn : c.cur + n = c.buf.length := s2 rfl
      simp only
      generalize hc1 : ({ c with pos := p, cur := c.buf.length } : CScan) = c1
      have hc1' : c1 = { c with cur := c.cur + n, pos := p } := by rw [← hc1, hn]
      have hcc : c1.cur = c1.buf.length := by rw [← hc1]
      have hrd : c1.reader = c.reader := by rw [← hc1]
      obtain ⟨a1, h1, _⟩ := s4 _ _ _ h0
      rw [← hc1'] at h1
      obtain ⟨new, f1, f2, f3, f4⟩ := fillBuf_spec c1 hcc h1.len_le h1.size2 ⟨_, _, _, h1⟩
      split
      · rename_i hge
        have hnew : new = [] := by rw [← f2]; exact List.drop_eq_nil_of_le hge
        obtain ⟨e, he, hend⟩ := f4 hnew
        subst hnew
        refine ⟨by rw [f1.fin, hrd], by rw [f1.sched, hrd], [], by rw [← hrd]; exact f1.rest, .inr ⟨e, hend, ?_, ?_⟩⟩
        · intro hne; exact (errOrEOF_spec he { a0 with fin := e } rfl).2 hne
        · intro a h
          obtain ⟨a', h2, h3⟩ := s4 _ _ a h
          have h2 : Sim c1 [] e a' := by rw [hc1']; exact h2
          have h4 := f1.sim (D := []) h2
          have hnil : a'.rest = [] := h4.rest_nil (by simpa using hge)
          have hskip : a'.skip a'.rest = a' := by rw [hnil]; rfl
          unfold AScan.skipPeek
          rw [h3, hskip]
          refine ⟨by simp only [AScan.peek, hnil]; exact (errOrEOF_spec he a' h4.fin).1.symm, ?_⟩
          simp only [AScan.peek, hnil]; exact h4
      · rename_i hlt
        have hnew : new ≠ [] := by
          rw [← f2]; intro hh
          have := List.drop_eq_nil_iff.1 hh; omega
        have hlen := congrArg List.length f1.rest
        rw [List.length_append, hrd] at hlen
        have hpos : 0 < new.length := List.length_pos_iff.2 hnew
        obtain ⟨g1, g2, new2, g3, g4⟩ := ih c1.fillBuf (by omega) (by
          refine ⟨[], RErr.eof, { a1 with rest := c1.buf.drop c1.cur ++ new, fin := .eof }, ?_⟩
          apply f1.sim
          cases h1
          constructor <;> first | assumption | simp)
        refine ⟨by rw [g1, f1.fin, hrd], by rw [g2, f1.sched, hrd], new ++ new2, ?_, ?_⟩
        · rw [← hrd, f1.rest, g3, List.append_assoc]
        · have lift : ∀ D fin a, Sim c (new ++ D) fin a → ∃ a', Sim c1.fillBuf D fin a' ∧ a.skip a.rest = a'.skip a'.rest := by
            intro D fin a h
            obtain ⟨a', h2, h3⟩ := s4 _ _ a h
            have h2 : Sim c1 (new ++ D) fin a' := by rw [hc1']; exact h2
            exact ⟨a', f1.sim h2, h3⟩
          rcases g4 with g4 | ⟨e, g5, g6, g7⟩
          · left
            intro D fin a h
            obtain ⟨a', h2, h3⟩ := lift (new2 ++ D) fin a (by simpa using h)
            have := g4 D fin a' h2
            unfold AScan.skipPeek at this ⊢
            rw [h3]; exact this
          · right
            refine ⟨e, g5, g6, ?_⟩
            intro a h
            obtain ⟨a', h2, h3⟩ := lift new2 e a h
            have := g7 a' h2
            unfold AScan.skipPeek at this ⊢
            rw [h3]; exact this

theorem Pos.adv_nonspace (p : Pos) (b : Byte) (h : isSpace b = false) :
    p.adv b = if b < 0xC0 then ⟨p.line, p.col + 1⟩ else p := by
  have : b ≠ 10 := by rintro rfl; revert h; decide
  simp [Pos.adv, this]

theorem skipReadLoop_spec (fuel : Nat) (c : CScan) (hf : c.reader.rest.length < fuel)
    (hr : ∃ D fin a, Sim c D fin a) :
    OpSpec AScan.skipRead c (c.skipReadLoop fuel).1 (c.skipReadLoop fuel).2 := by
  induction fuel generalizing c with
  | zero => omega
  | succ fuel ih =>
    obtain ⟨D0, fin0, a0, h0⟩ := hr
    have hcur := h0.cur_le
    obtain ⟨s1, s2, s3, s4⟩ := skipIn_spec (c.buf.drop c.cur) c rfl hcur
    unfold CScan.skipReadLoop
    generalize hrr : CScan.skipIn c.pos (c.buf.drop c.cur) = rr at s1 s2 s3 s4 ⊢
    obtain ⟨r, n, p⟩ := rr
    cases r with
    | some b =>
      obtain ⟨hb, hns⟩ := s3 b rfl
      refine ⟨rfl, rfl, [], rfl, .inl ?_⟩
      intro D fin a h
      obtain ⟨a', h1, h2⟩ := s4 D fin a h
      have hrest := h1.rest_cons hb
      have h3 := (h1.take hb a'.prevPos (a'.pos.adv b)).2
      unfold AScan.skipRead
      rw [h2, AScan.skip_stop a' b _ hrest hns]
      simp only [hrest]
      have hpos := h1.pos
      have hpp := h1.prevPos
      simp only at hpos hpp
      refine ⟨trivial, ?_⟩
      rw [hpp, hpos, Pos.adv_nonspace _ _ hns] at h3
      simp only [AScan.take1, hpp, hpos, Pos.adv_nonspace _ _ hns]
      exact h3
    | none =>
      have hn : c.cur + n = c.buf.length := s2 rfl
      simp only
      generalize hc1 : ({ c with pos := p, cur := c.buf.length } : CScan) = c1
      have hc1' : c1 = { c with cur := c.cur + n, pos := p } := by rw [← hc1, hn]
      have hcc : c1.cur = c1.buf.length := by rw [← hc1]
      have hrd : c1.reader = c.reader := by rw [← hc1]
      obtain ⟨a1, h1, _⟩ := s4 _ _ _ h0
      rw [← hc1'] at h1
      obtain ⟨new, f1, f2, f3, f4⟩ := fillBuf_spec c1 hcc h1.len_le h1.size2 ⟨_, _, _, h1⟩
      split
      · rename_i hge
        have hnew : new = [] := by rw [← f2]; exact List.drop_eq_nil_of_le hge
        obtain ⟨e, he, hend⟩ := f4 hnew
        subst hnew
        refine ⟨by rw [f1.fin, hrd], by rw [f1.sched, hrd], [], by rw [← hrd]; exact f1.rest, .inr ⟨e, hend, ?_, ?_⟩⟩
        · intro hne; exact (errOrEOF_spec he { a0 with fin := e } rfl).2 hne
        · intro a h
          obtain ⟨a', h2, h3⟩ := s4 _ _ a h
          have h2 : Sim c1 [] e a' := by rw [hc1']; exact h2
          have h4 := f1.sim (D := []) h2
          have hnil : a'.rest = [] := h4.rest_nil (by simpa using hge)
          have hskip : a'.skip a'.rest = a' := by rw [hnil]; rfl
          unfold AScan.skipRead
          rw [h3, hskip]
          simp only [hnil]
          exact ⟨(errOrEOF_spec he a' h4.fin).1.symm, h4⟩
      · rename_i hlt
        have hnew : new ≠ [] := by
          rw [← f2]; intro hh
          have := List.drop_eq_nil_iff.1 hh; omega
        have hlen := congrArg List.length f1.rest
        rw [List.length_append, hrd] at hlen
        have hpos : 0 < new.length := List.length_pos_iff.2 hnew
        obtain ⟨g1, g2, new2, g3, g4⟩ := ih c1.fillBuf (by omega) (by
          refine ⟨[], RErr.eof, { a1 with rest := c1.buf.drop c1.cur ++ new, fin := .eof }, ?_⟩
          apply f1.sim
          cases h1
          constructor <;> first | assumption | simp)
        refine ⟨by rw [g1, f1.fin, hrd], by rw [g2, f1.sched, hrd], new ++ new2, ?_, ?_⟩
        · rw [← hrd, f1.rest, g3, List.append_assoc]
        · have lift : ∀ D fin a, Sim c (new ++ D) fin a → ∃ a', Sim c1.fillBuf D fin a' ∧ a.skip a.rest = a'.skip a'.rest := by
            intro D fin a h
            obtain ⟨a', h2, h3⟩ := s4 _ _ a h
            have h2 : Sim c1 (new ++ D) fin a' := by rw [hc1']; exact h2
            exact ⟨a', f1.sim h2, h3⟩
          rcases g4 with g4 | ⟨e, g5, g6, g7⟩
          · left
            intro D fin a h
            obtain ⟨a', h2, h3⟩ := lift (new2 ++ D) fin a (by simpa using h)
            have := g4 D fin a' h2
            unfold AScan.skipRead at this ⊢
            rw [h3]; exact this
          · right
            refine ⟨e, g5, g6, ?_⟩
            intro a h
            obtain ⟨a', h2, h3⟩ := lift new2 e a h
            have := g7 a' h2
            unfold AScan.skipRead at this ⊢
            rw [h3]; exact this

/-! ## Simulation -/

/-- The program uses the scanner no more. -/
inductive Prog.NoScan {α : Type} : Prog α → Prop
  | ret (a) : NoScan (.ret a)
  | fail (e) : NoScan (.fail e)
  | crash : NoScan .crash
  | oof : NoScan .oof
  | emit (t) {k} : NoScan k → NoScan (.emit t k)

/-- After an error of the reader the program uses the scanner no more. -/
inductive Prog.FailStop {α : Type} : Prog α → Prop
  | ret (a) : FailStop (.ret a)
  | fail (e) : FailStop (.fail e)
  | crash : FailStop .crash
  | oof : FailStop .oof
  | emit (t) {k} : FailStop k → FailStop (.emit t k)
  | read {k} : (∀ e, NoScan (k (.error e))) → (∀ r, FailStop (k r)) → FailStop (.read k)
  | peek {k} : (∀ e, NoScan (k (.error e))) → (∀ r, FailStop (k r)) → FailStop (.peek k)
  | skipPeek {k} : (∀ e, NoScan (k (.error e))) → (∀ r, FailStop (k r)) → FailStop (.skipPeek k)
  | skipRead {k} : (∀ e, NoScan (k (.error e))) → (∀ r, FailStop (k r)) → FailStop (.skipRead k)
  | back {k} : FailStop k → FailStop (.back k)
  | startToken {k} : FailStop k → FailStop (.startToken k)
  | endToken {k} : (∀ b, FailStop (k b)) → FailStop (.endToken k)
  | currentPos {k} : (∀ p, FailStop (k p)) → FailStop (.currentPos k)

theorem Prog.NoScan.result {σ τ α : Type} {p : Prog α} (h : NoScan p) (M : Machine σ) (N : Machine τ) (s : σ) (t : τ) :
    p.result M s = p.result N t := by
  induction h with
  | ret a => rfl
  | fail e => rfl
  | crash => rfl
  | oof => rfl
  | emit x _ ih =>
    simp only [Prog.result, Prog.run, Prod.mk.injEq, List.cons.injEq, true_and] at ih ⊢
    exact ih

/-- What the reader is taken to deliver: everything, followed by its error; or, if the reader is not
fair, less than everything, followed by `ErrNoProgress`. -/
def Delivers (r : Reader) (D : Bytes) (fin : RErr) : Prop :=
  (D = r.rest ∧ fin = r.fin) ∨ (¬ Fair r.sched ∧ fin = .noProgress ∧ ∃ x, x ≠ [] ∧ r.rest = D ++ x)

theorem Delivers.back {c c' : CScan} {new D fin} (h : Delivers c'.reader D fin) (h1 : c.reader.rest = new ++ c'.reader.rest)
    (h2 : c'.reader.fin = c.reader.fin) (h3 : c'.reader.sched = c.reader.sched) : Delivers c.reader (new ++ D) fin := by
  rcases h with ⟨rfl, rfl⟩ | ⟨hf, hn, x, hx, hr⟩
  · exact .inl ⟨h1.symm, h2⟩
  · exact .inr ⟨by rw [← h3]; exact hf, hn, x, hx, by rw [h1, hr, List.append_assoc]⟩

/-- Replacing the part that is still to be delivered. -/
theorem Sim.retarget {c : CScan} {D fin a} (h : Sim c D fin a) (D' : Bytes) (fin' : RErr) :
    Sim c D' fin' { a with rest := c.buf.drop c.cur ++ D', fin := fin' } := by
  cases h
  constructor <;> first | assumption | rfl

theorem Sim.back {c : CScan} {D fin a} (h : Sim c D fin a) :
    match a.back with
    | .ok a' => ∃ c', c.back = .ok c' ∧ Sim c' D fin a' ∧ c'.reader = c.reader
    | .error true => c.back = .error true
    | .error false => True := by
  unfold AScan.back
  by_cases hp : a.prevPos.line < 0 ∨ a.tok = some []
  · simp only [hp, if_true]
    unfold CScan.back
    rcases hp with hp | hp
    · rw [h.prevPos] at hp
      by_cases h1 : c.cur = 0 ∨ (∃ t ∈ c.tokStart, c.cur ≤ t)
      · rw [if_pos h1]
      · rw [if_neg h1, if_pos hp]
    · rw [h.tok] at hp
      cases ht : c.tokStart with
      | none => rw [ht] at hp; cases hp
      | some t =>
        rw [ht] at hp
        simp only [Option.map_some, Option.some.injEq, List.append_eq_nil_iff] at hp
        have hd := List.drop_eq_nil_iff.1 hp.2
        have := h.cur_le
        rw [List.length_take] at hd
        rw [if_pos (.inr ⟨t, rfl, by omega⟩)]
  · simp only [hp, if_false]
    cases hh : a.hist with
    | none => simp
    | some b =>
      obtain ⟨n, hn, hb⟩ := h.hist b hh
      have h1 : ¬ (c.cur = 0 ∨ (∃ t ∈ c.tokStart, c.cur ≤ t)) := by
        rintro (h1 | ⟨t, ht, h1⟩)
        · omega
        · have := h.histtok (by simp [hh]) t ht; omega
      have h2 : ¬ c.prevPos.line < 0 := by
        rw [← h.prevPos]; intro h2; exact hp (.inl h2)
      simp only
      unfold CScan.back
      rw [if_neg h1, if_neg h2]
      by_cases he : a.eofCount > 0
      · rw [if_pos he]
        rw [h.eofCount] at he ⊢
        rw [if_pos he]
        have := h.setEof (c.eofCount - 1)
        simp only [hh] at this
        exact ⟨_, rfl, this, rfl⟩
      · rw [if_neg he]
        rw [h.eofCount] at he
        rw [if_neg he]
        refine ⟨_, rfl, ?_, rfl⟩
        have hlt : n < c.buf.length := by
          have := h.cur_le; omega
        obtain ⟨_, hget⟩ := List.getElem?_eq_some_iff.1 hb
        constructor
        case cur_le => have := h.cur_le; simp only; omega
        case rest =>
          simp only
          rw [h.rest, hn, Nat.add_sub_cancel, List.drop_eq_getElem_cons hlt, hget]
          rfl
        case hist => simp
        case histtok => simp
        case tok =>
          simp only
          rw [h.tok]
          cases ht : c.tokStart with
          | none => rfl
          | some t =>
            have := h.histtok (by simp [hh]) t ht
            simp only [Option.map_some, Option.some.injEq]
            have : (c.buf.take c.cur).drop t = (c.buf.take (c.cur - 1)).drop t ++ [b] := by
              rw [hn, Nat.add_sub_cancel, List.take_add_one, hb,
                List.drop_append_of_le_length (by rw [List.length_take]; omega)]
              rfl
            rw [this, ← List.append_assoc, List.dropLast_concat]
        case tokle =>
          intro t ht
          have := h.histtok (by simp [hh]) t ht
          simp only; omega
        case len_le => exact h.len_le
        case size2 => exact h.size2
        case fin => exact h.fin
        case parts0 => exact h.parts0
        case partsne => exact h.partsne
        case pos => exact h.prevPos
        case prevPos => simp only; rw [h.prevPos]
        case eofCount => exact h.eofCount

theorem Sim.startToken {c : CScan} {D fin a} (h : Sim c D fin a) :
    match a.startToken with
    | some a' => ∃ c', c.startToken = some c' ∧ Sim c' D fin a' ∧ c'.reader = c.reader
    | none => c.startToken = none := by
  unfold AScan.startToken CScan.startToken
  have htok := h.tok
  cases ht : c.tokStart with
  | some t => simp [htok, ht]
  | none =>
    rw [ht] at htok
    simp only [Option.map_none] at htok
    simp only [htok, Option.isSome_none, Bool.false_eq_true, if_false]
    refine ⟨_, rfl, ?_, rfl⟩
    have hparts : c.parts = [] := by
      apply Classical.byContradiction
      intro hp
      have := h.parts0 hp
      rw [ht] at this; cases this
    constructor
    case hist => simp
    case histtok => simp
    case tok =>
      simp only [Option.map_some, hparts, List.flatten_nil, List.nil_append, Option.some.injEq]
      rw [List.drop_eq_nil_of_le (by rw [List.length_take]; omega)]
    case tokle => intro t ht; simp only [Option.some.injEq] at ht; subst ht; exact Nat.le_refl _
    case parts0 => intro hp; exact absurd hparts hp
    all_goals (cases h; assumption)

theorem Sim.endToken {c : CScan} {D fin a} (h : Sim c D fin a) :
    match a.endToken with
    | some (b, a') => ∃ c', c.endToken = some (b, c') ∧ Sim c' D fin a' ∧ c'.reader = c.reader
    | none => c.endToken = none := by
  unfold AScan.endToken CScan.endToken
  have htok := h.tok
  cases ht : c.tokStart with
  | none => simp [htok, ht]
  | some t =>
    rw [ht] at htok
    simp only [Option.map_some] at htok
    simp only [htok]
    by_cases hp : c.parts = []
    · rw [if_pos hp]
      refine ⟨{ c with tokStart := none }, by simp [hp], ?_, rfl⟩
      constructor
      case tok => rfl
      case tokle => simp
      case histtok => simp
      case parts0 => intro hp'; exact absurd hp hp'
      all_goals (cases h; assumption)
    · rw [if_neg hp]
      refine ⟨_, rfl, ?_, rfl⟩
      constructor
      case tok => rfl
      case tokle => simp
      case histtok => simp
      case parts0 => simp
      case partsne => simp
      all_goals (cases h; assumption)

/-- The claim of the simulation for a program in a state of the buffered scanner. -/
def Simulated {α : Type} (p : Prog α) (c : CScan) : Prop :=
  ∃ D fin, Delivers c.reader D fin ∧ ∀ a, Sim c D fin a →
    (p.result AScan.machine a).2 = .stuck ∨ p.result CScan.machine c = p.result AScan.machine a

/-- One method that returns a byte, within the simulation. -/
theorem sim_op {α : Type} {p : Prog α} {k : Rd → Prog α} {aop : AScan → Rd × AScan} {c c' : CScan} {r : Rd}
    (hr : ∃ D fin a, Sim c D fin a) (hop : OpSpec aop c r c')
    (hk : ∀ e, (k (.error e)).NoScan)
    (ih : (∃ D fin a, Sim c' D fin a) → Simulated (k r) c')
    (hc : p.result CScan.machine c = (k r).result CScan.machine c')
    (ha : ∀ a, p.result AScan.machine a = (k (aop a).1).result AScan.machine (aop a).2) :
    Simulated p c := by
  obtain ⟨D0, fin0, a0, h0⟩ := hr
  obtain ⟨h1, h2, new, h3, h4⟩ := hop
  rcases h4 with h4 | ⟨e, he, hne, h4⟩
  · obtain ⟨_, s1⟩ := h4 [] .eof _ (h0.retarget (new ++ []) .eof)
    obtain ⟨D, fin, hd, hx⟩ := ih ⟨_, _, _, s1⟩
    refine ⟨new ++ D, fin, hd.back h3 h1 h2, ?_⟩
    intro a h
    obtain ⟨r1, s2⟩ := h4 D fin _ h
    rw [ha, hc, r1]
    exact hx _ s2
  · obtain ⟨_, s1⟩ := h4 _ (h0.retarget new e)
    rcases he with ⟨hrest, hfin⟩ | ⟨hf, hrest, hfin⟩
    · obtain ⟨D, fin, hd, hx⟩ := ih ⟨_, _, _, s1⟩
      have hD : D = [] ∧ fin = e := by
        rcases hd with ⟨rfl, rfl⟩ | ⟨_, _, x, hx', hr'⟩
        · exact ⟨hrest, hfin.symm⟩
        · rw [hrest] at hr'
          have := List.append_eq_nil_iff.1 hr'.symm
          exact absurd this.2 hx'
      obtain ⟨rfl, rfl⟩ := hD
      have := hd.back h3 h1 h2
      rw [List.append_nil] at this
      refine ⟨new, _, this, ?_⟩
      intro a h
      obtain ⟨r1, s2⟩ := h4 _ h
      rw [ha, hc, r1]
      exact hx _ s2
    · refine ⟨new, e, .inr ⟨by rw [← h2]; exact hf, hfin, _, hrest, h3⟩, ?_⟩
      intro a h
      obtain ⟨r1, s2⟩ := h4 _ h
      have hr : r = .error e := hne (by rw [hfin]; simp)
      subst hr
      rw [ha, hc, r1]
      exact .inr ((hk e).result _ _ _ _)

/-- Every program that stops after an error of the reader gives the same result on the buffered
scanner, whatever the reader does, as on the unbuffered scanner for what the reader delivers. -/
theorem simulation {α : Type} (p : Prog α) (hp : p.FailStop) (c : CScan) (hr : ∃ D fin a, Sim c D fin a) :
    Simulated p c := by
  have hall : Delivers c.reader c.reader.rest c.reader.fin := .inl ⟨rfl, rfl⟩
  induction hp generalizing c with
  | ret a => exact ⟨_, _, hall, fun _ _ => .inr rfl⟩
  | fail a => exact ⟨_, _, hall, fun _ _ => .inr rfl⟩
  | crash => exact ⟨_, _, hall, fun _ _ => .inr rfl⟩
  | oof => exact ⟨_, _, hall, fun _ _ => .inr rfl⟩
  | emit t _ ih =>
    obtain ⟨D, fin, hd, hx⟩ := ih c hr hall
    refine ⟨D, fin, hd, fun a h => ?_⟩
    rcases hx a h with hx | hx
    · exact .inl hx
    · right
      simp only [Prog.result, Prog.run, Prod.mk.injEq, List.cons.injEq, true_and] at hx ⊢
      exact hx
  | read h1 h2 ih =>
    exact sim_op hr (read_spec c hr) h1 (fun h => ih _ _ h (.inl ⟨rfl, rfl⟩)) rfl (fun _ => rfl)
  | peek h1 h2 ih =>
    exact sim_op hr (peek_spec c hr) h1 (fun h => ih _ _ h (.inl ⟨rfl, rfl⟩)) rfl (fun _ => rfl)
  | skipPeek h1 h2 ih =>
    exact sim_op hr (skipPeekLoop_spec _ c (by omega) hr) h1 (fun h => ih _ _ h (.inl ⟨rfl, rfl⟩)) rfl (fun _ => rfl)
  | skipRead h1 h2 ih =>
    exact sim_op hr (skipReadLoop_spec _ c (by omega) hr) h1 (fun h => ih _ _ h (.inl ⟨rfl, rfl⟩)) rfl (fun _ => rfl)
  | @back k _ ih =>
    by_cases hb : ∃ c', c.back = .ok c' ∧ c'.reader = c.reader ∧ ∃ D fin a, Sim c' D fin a
    · obtain ⟨c', hc', hrd, hs⟩ := hb
      obtain ⟨D, fin, hd, hx⟩ := ih c' hs (.inl ⟨rfl, rfl⟩)
      rw [hrd] at hd
      refine ⟨D, fin, hd, fun a h => ?_⟩
      have := h.back
      simp only [Prog.result, Prog.run, AScan.machine, CScan.machine] at hx ⊢
      cases hab : a.back with
      | ok a' =>
        rw [hab] at this
        obtain ⟨c'', hc'', hs', _⟩ := this
        rw [hc'] at hc''
        cases hc''
        rw [hc']
        exact hx a' hs'
      | error b =>
        rw [hab] at this
        cases b
        · left; rfl
        · right; simp only at this; simp only [this, Out.erase]
    · refine ⟨_, _, hall, fun a h => ?_⟩
      have := h.back
      simp only [Prog.result, Prog.run, AScan.machine, CScan.machine]
      cases hab : a.back with
      | ok a' =>
        rw [hab] at this
        obtain ⟨c'', hc'', hs', hrd⟩ := this
        exact absurd ⟨c'', hc'', hrd, _, _, _, hs'⟩ hb
      | error b =>
        rw [hab] at this
        cases b
        · left; rfl
        · right; simp only at this; simp only [this, Out.erase]
  | @startToken k _ ih =>
    by_cases hb : ∃ c', c.startToken = some c' ∧ c'.reader = c.reader ∧ ∃ D fin a, Sim c' D fin a
    · obtain ⟨c', hc', hrd, hs⟩ := hb
      obtain ⟨D, fin, hd, hx⟩ := ih c' hs (.inl ⟨rfl, rfl⟩)
      rw [hrd] at hd
      refine ⟨D, fin, hd, fun a h => ?_⟩
      have := h.startToken
      simp only [Prog.result, Prog.run, AScan.machine, CScan.machine] at hx ⊢
      cases hab : a.startToken with
      | some a' =>
        rw [hab] at this
        obtain ⟨c'', hc'', hs', _⟩ := this
        rw [hc'] at hc''
        cases hc''
        rw [hc']
        exact hx a' hs'
      | none =>
        rw [hab] at this
        right; simp only at this; simp only [this, Out.erase]
    · refine ⟨_, _, hall, fun a h => ?_⟩
      have := h.startToken
      simp only [Prog.result, Prog.run, AScan.machine, CScan.machine]
      cases hab : a.startToken with
      | some a' =>
        rw [hab] at this
        obtain ⟨c'', hc'', hs', hrd⟩ := this
        exact absurd ⟨c'', hc'', hrd, _, _, _, hs'⟩ hb
      | none =>
        rw [hab] at this
        right; simp only at this; simp only [this, Out.erase]
  | @endToken k _ ih =>
    by_cases hb : ∃ t c', c.endToken = some (t, c') ∧ c'.reader = c.reader ∧ ∃ D fin a, Sim c' D fin a
    · obtain ⟨t, c', hc', hrd, hs⟩ := hb
      obtain ⟨D, fin, hd, hx⟩ := ih t c' hs (.inl ⟨rfl, rfl⟩)
      rw [hrd] at hd
      refine ⟨D, fin, hd, fun a h => ?_⟩
      have := h.endToken
      simp only [Prog.result, Prog.run, AScan.machine, CScan.machine] at hx ⊢
      cases hab : a.endToken with
      | some x =>
        rw [hab] at this
        obtain ⟨c'', hc'', hs', _⟩ := this
        rw [hc'] at hc''
        cases hc''
        rw [hc']
        exact hx x.2 hs'
      | none =>
        rw [hab] at this
        right; simp only at this; simp only [this, Out.erase]
    · refine ⟨_, _, hall, fun a h => ?_⟩
      have := h.endToken
      simp only [Prog.result, Prog.run, AScan.machine, CScan.machine]
      cases hab : a.endToken with
      | some x =>
        rw [hab] at this
        obtain ⟨c'', hc'', hs', hrd⟩ := this
        exact absurd ⟨_, c'', hc'', hrd, _, _, _, hs'⟩ hb
      | none =>
        rw [hab] at this
        right; simp only at this; simp only [this, Out.erase]
  | @currentPos k _ ih =>
    obtain ⟨D, fin, hd, hx⟩ := ih c.pos c hr hall
    refine ⟨D, fin, hd, fun a h => ?_⟩
    have := hx a h
    simp only [Prog.result, Prog.run, AScan.machine, CScan.machine] at this ⊢
    rw [h.pos]; exact this

/-- The initial states correspond. -/
theorem Sim.init (r : Reader) (size : Nat) (h : 2 ≤ size) (D : Bytes) (fin : RErr) :
    Sim (CScan.new r size) D fin (AScan.new D fin) := by
  constructor <;> simp [CScan.new, AScan.new, h]

theorem simulation_new {α : Type} (p : Prog α) (hp : p.FailStop) (r : Reader) (size : Nat) (h : 2 ≤ size) :
    ∃ D fin, Delivers r D fin ∧
      ((p.result AScan.machine (AScan.new D fin)).2 = .stuck ∨
        p.result CScan.machine (CScan.new r size) = p.result AScan.machine (AScan.new D fin)) := by
  obtain ⟨D, fin, hd, hx⟩ := simulation p hp (CScan.new r size) ⟨[], .eof, _, Sim.init r size h [] .eof⟩
  exact ⟨D, fin, hd, hx _ (Sim.init r size h D fin)⟩

end Verif
