import Verif.CsvReader
import Verif.ScannerLemmas

/-!
# The reader of `encoding/csv` on a text

However the input arrives, the lines are those of the text.
-/

set_option linter.unusedSimpArgs false
set_option linter.unusedVariables false

namespace Verif.Csv

/-- `readLine` on a text. -/
def textLine (fin : RErr) (D : Bytes) : Bytes × Option RErr × Bytes :=
  if c%'\n' ∈ D then ((finishLine (lineOf D) none).1, (finishLine (lineOf D) none).2, D.drop (lineOf D).length)
  else ((finishLine D (some fin)).1, (finishLine D (some fin)).2, [])

/-- The buffered reader `b` is going to deliver `D` and then `fin`. -/
structure BufReader.Has (b : BufReader) (fin : RErr) (D : Bytes) : Prop where
  fair : Fair b.reader.sched
  last : b.reader.fin = fin
  text : b.buf ++ b.reader.rest = D
  err : ∀ e, b.err = some e → e = fin ∧ b.reader.rest = []
  size : b.buf.length ≤ bufSize

theorem mem_lineOf {s t : Bytes} (h : c%'\n' ∈ s) : lineOf (s ++ t) = lineOf s ∧ (lineOf s).length ≤ s.length := by
  unfold lineOf
  induction s with
  | nil => cases h
  | cons b s ih =>
    by_cases hb : b = c%'\n'
    · subst hb; simp
    · have hm : c%'\n' ∈ s := by
        rcases List.mem_cons.1 h with h | h
        · exact absurd h.symm hb
        · exact h
      obtain ⟨h1, h2⟩ := ih hm
      simp [hb] at h1 h2 ⊢
      exact ⟨h1, by omega⟩

theorem lineOf_append {s t : Bytes} (h : c%'\n' ∉ s) : lineOf (s ++ t) = s ++ lineOf t := by
  unfold lineOf
  rw [List.takeWhile_append_of_pos]
  · simp
  · intro a ha
    simp
    rintro rfl
    exact h ha

theorem lineOf_drop {s : Bytes} (h : c%'\n' ∈ s) : lineOf s ++ s.drop (lineOf s).length = s := by
  induction s with
  | nil => cases h
  | cons b s ih =>
    by_cases hb : b = c%'\n'
    · subst hb; simp [lineOf]
    · have hm : c%'\n' ∈ s := by
        rcases List.mem_cons.1 h with h | h
        · exact absurd h.symm hb
        · exact h
      have := ih hm
      have e : lineOf (b :: s) = b :: lineOf s := by simp [lineOf, hb]
      rw [e]
      simp [this]

namespace BufReader
variable {fin : RErr} {D : Bytes}

theorem Has.fillLoop {i : Nat} : ∀ {b : BufReader}, b.Has fin D → b.err = none → b.buf.length < bufSize →
    (∃ j, j < i ∧ 0 < (b.reader.sched (b.reader.idx + j)).1) →
    (b.fillLoop i).Has fin D ∧ ((b.fillLoop i).err ≠ none ∨ b.buf.length < (b.fillLoop i).buf.length) := by
  induction i with
  | zero => rintro b _ _ _ ⟨j, hj, _⟩; omega
  | succ i ih =>
    rintro b h he hs ⟨j, hj, hp⟩
    have hz := h.size
    have ht := h.text
    unfold BufReader.fillLoop
    unfold Reader.read
    cases hr : b.reader.rest with
    | nil =>
      rw [hr] at ht
      simp only [List.append_nil] at ht ⊢
      exact ⟨⟨h.fair, h.last, by simp [ht, hr], fun e h' => by simp at h'; subst h'; exact ⟨h.last, rfl⟩, hz⟩, .inl (by simp)⟩
    | cons x xs =>
      rw [hr] at ht
      simp only
      generalize hk : min (b.reader.sched b.reader.idx).1 (bufSize - b.buf.length) = k
      have hk' : k ≤ bufSize - b.buf.length := by omega
      by_cases h1 : ((x :: xs).drop k).isEmpty = true ∧ (b.reader.sched b.reader.idx).2 = true
      · rw [if_pos (by simpa using h1)]
        simp only
        have h1' : (x :: xs).drop k = [] := by simpa using h1.1
        refine ⟨⟨h.fair, h.last, ?_, fun e h' => ?_, ?_⟩, .inl (by simp)⟩
        · simp only [List.append_assoc, List.take_append_drop]; exact ht
        · simp at h'; subst h'; exact ⟨h.last, h1'⟩
        · simp only [List.length_append, List.length_take]; omega
      · rw [if_neg (by simpa using h1)]
        simp only
        have hb : ({ b with reader := { b.reader with idx := b.reader.idx + 1, rest := (x :: xs).drop k }, buf := b.buf ++ (x :: xs).take k } : BufReader).Has fin D := by
          refine ⟨h.fair, h.last, ?_, fun e h' => ?_, ?_⟩
          · simp only [List.append_assoc, List.take_append_drop]; exact ht
          · simp [he] at h'
          · simp only [List.length_append, List.length_take]; omega
        by_cases hk0 : k = 0
        · subst hk0
          simp only [List.take_zero, List.length_nil, gt_iff_lt, Nat.lt_irrefl, if_false, List.append_nil, List.drop_zero]
          simp only [List.take_zero, List.append_nil, List.drop_zero] at hb
          cases j with
          | zero => simp only [Nat.add_zero] at hp; omega
          | succ j =>
            exact ih hb he hs ⟨j, by omega, by show 0 < (b.reader.sched (b.reader.idx + 1 + j)).1; rw [Nat.add_assoc, Nat.add_comm 1]; exact hp⟩
        · have hl : ((x :: xs).take k).length > 0 := by
            simp only [List.length_take, List.length_cons]; omega
          rw [if_pos hl]
          refine ⟨hb, .inr ?_⟩
          simp only [List.length_append]; omega

theorem Has.fill {b : BufReader} (h : b.Has fin D) (he : b.err = none) (hs : b.buf.length < bufSize) :
    b.fill.Has fin D ∧ (b.fill.err ≠ none ∨ b.buf.length < b.fill.buf.length) :=
  h.fillLoop he hs (h.fair _)

theorem Has.readSlice {f : Nat} : ∀ {b : BufReader}, b.Has fin D → (if b.err = none then bufSize + 1 - b.buf.length else 0) < f →
    ∃ l k b', b.readSlice f = (l, k, b') ∧
      ((k = .found ∧ c%'\n' ∈ D ∧ l = lineOf D ∧ b'.Has fin (D.drop (lineOf D).length)) ∨
       (k = .err fin ∧ c%'\n' ∉ D ∧ l = D ∧ b'.Has fin []) ∨
       ∃ D', k = .full ∧ c%'\n' ∉ l ∧ l ≠ [] ∧ l ++ D' = D ∧ b'.Has fin D') := by
  induction f with
  | zero => intro b _ hf; omega
  | succ f ih =>
    intro b h hf
    have ht := h.text
    unfold BufReader.readSlice
    split
    · rename_i hn
      obtain ⟨h1, h2⟩ := mem_lineOf (t := b.reader.rest) hn
      rw [ht] at h1
      refine ⟨_, _, _, rfl, .inl ⟨rfl, by rw [← ht]; simp [hn], h1.symm, h.fair, h.last, ?_, h.err, ?_⟩⟩
      · show b.buf.drop _ ++ b.reader.rest = _
        rw [h1, ← ht, List.drop_append_of_le_length h2]
      · have := h.size
        simp only [List.length_drop]; omega
    · rename_i hn
      cases he : b.err with
      | some e =>
        simp only
        obtain ⟨rfl, hr⟩ := h.err e he
        rw [hr, List.append_nil] at ht
        subst ht
        exact ⟨_, _, _, rfl, .inr (.inl ⟨rfl, hn, rfl, h.fair, h.last, by simp [hr], fun e h' => by simp at h', by simp⟩)⟩
      | none =>
        simp only
        split
        · rename_i hs
          refine ⟨_, _, _, rfl, .inr (.inr ⟨b.reader.rest, rfl, hn, ?_, ht, h.fair, h.last, rfl, fun e h' => by simp [he] at h', by simp⟩)⟩
          intro h0; rw [h0] at hs; simp [bufSize] at hs
        · rename_i hs
          obtain ⟨g1, g2⟩ := h.fill he (by omega)
          rw [if_pos he] at hf
          refine ih g1 ?_
          split
          · rename_i h0
            rcases g2 with g2 | g2
            · exact absurd h0 g2
            · omega
          · omega

theorem Has.rawLine {f : Nat} : ∀ {b : BufReader} {D : Bytes}, b.Has fin D → D.length < f →
    ∃ b', b.rawLine f = (if c%'\n' ∈ D then lineOf D else D, if c%'\n' ∈ D then none else some fin, b') ∧
      b'.Has fin (if c%'\n' ∈ D then D.drop (lineOf D).length else []) := by
  induction f with
  | zero => intro b D _ hf; omega
  | succ f ih =>
    intro b D h hf
    obtain ⟨l, k, b', e, hc⟩ := h.readSlice (f := bufSize + 2) (by split <;> omega)
    unfold BufReader.rawLine
    rw [e]
    rcases hc with ⟨rfl, hn, rfl, hb⟩ | ⟨rfl, hn, rfl, hb⟩ | ⟨D', rfl, hn, hl, hd, hb⟩
    · simp only [hn, if_true]; exact ⟨_, rfl, hb⟩
    · simp only [hn, if_false]; exact ⟨_, rfl, hb⟩
    · simp only
      have hlen : l.length + D'.length = D.length := by rw [← hd]; simp
      have : 0 < l.length := List.length_pos_iff.2 hl
      obtain ⟨b'', e', hb'⟩ := ih hb (by omega)
      rw [e']
      have hm : c%'\n' ∈ D ↔ c%'\n' ∈ D' := by rw [← hd]; simp [hn]
      by_cases hD : c%'\n' ∈ D'
      · simp only [hD, hm.2 hD, if_true] at hb' ⊢
        refine ⟨b'', ?_, ?_⟩
        · rw [← hd, lineOf_append hn]
        · rw [← hd, lineOf_append hn]
          simpa using hb'
      · have hD' : ¬ c%'\n' ∈ D := fun h => hD (hm.1 h)
        simp only [hD, hD', if_false] at hb' ⊢
        exact ⟨b'', by rw [hd], hb'⟩

theorem Has.readLine {f : Nat} {b : BufReader} (h : b.Has fin D) (hf : D.length < f) :
    ∃ b', b.readLine f = ((textLine fin D).1, (textLine fin D).2.1, b') ∧ b'.Has fin (textLine fin D).2.2 := by
  obtain ⟨b', e, hb⟩ := h.rawLine hf
  unfold BufReader.readLine textLine
  rw [e]
  by_cases hn : c%'\n' ∈ D
  · simp only [hn, if_true] at hb ⊢; exact ⟨b', rfl, hb⟩
  · simp only [hn, if_false] at hb ⊢; exact ⟨b', rfl, hb⟩

end BufReader

theorem textLine_length {fin : RErr} {D : Bytes} : (textLine fin D).2.2.length ≤ D.length := by
  unfold textLine
  split <;> simp

/-! ## The loops on related states -/

section
variable {σ τ : Type} {rl : σ → Bytes × Option RErr × σ} {rl' : τ → Bytes × Option RErr × τ} {R : σ → τ → Prop}

/-- Related states give the same lines. -/
def Same (rl : σ → Bytes × Option RErr × σ) (rl' : τ → Bytes × Option RErr × τ) (R : σ → τ → Prop) : Prop :=
  ∀ s t, R s t → (rl s).1 = (rl' t).1 ∧ (rl s).2.1 = (rl' t).2.1 ∧ R (rl s).2.2 (rl' t).2.2

variable (h : Same rl rl' R)
include h

theorem same_skip : ∀ (f : Nat) {s : σ} {t : τ}, R s t →
    (skipLines rl f s).1 = (skipLines rl' f t).1 ∧ (skipLines rl f s).2.1 = (skipLines rl' f t).2.1 ∧ R (skipLines rl f s).2.2 (skipLines rl' f t).2.2
  | 0, s, t, hR => ⟨rfl, rfl, hR⟩
  | f + 1, s, t, hR => by
    obtain ⟨h1, h2, h3⟩ := h s t hR
    unfold skipLines
    simp only [h1, h2]
    split
    · exact same_skip f h3
    · exact ⟨rfl, rfl, h3⟩

theorem same_fields : ∀ (f : Nat) {s : σ} {t : τ} (line : Bytes) (e : Option RErr) (acc : List Bytes) (cur : Option Bytes), R s t →
    (parseFields rl f s line e acc cur).1 = (parseFields rl' f t line e acc cur).1 ∧
      (parseFields rl f s line e acc cur).2.1 = (parseFields rl' f t line e acc cur).2.1 ∧
      R (parseFields rl f s line e acc cur).2.2 (parseFields rl' f t line e acc cur).2.2 := by
  intro f
  induction f with
  | zero => intro s t line e acc cur hR; exact ⟨rfl, rfl, hR⟩
  | succ f ih =>
    intro s t line e acc cur hR
    cases cur with
    | none =>
      simp only [parseFields]
      split
      · split
        · split
          · exact ⟨rfl, rfl, hR⟩
          · exact ih _ _ _ _ hR
        · split
          · exact ⟨rfl, rfl, hR⟩
          · exact ⟨rfl, rfl, hR⟩
      · exact ih _ _ _ _ hR
    | some cur =>
      simp only [parseFields]
      split
      · split
        · exact ih _ _ _ _ hR
        · split
          · exact ih _ _ _ _ hR
          · split
            · exact ⟨rfl, rfl, hR⟩
            · exact ⟨rfl, rfl, hR⟩
      · split
        · split
          · exact ⟨rfl, rfl, hR⟩
          · obtain ⟨h1, h2, h3⟩ := h s t hR
            rw [h1, h2]
            exact ih _ _ _ _ h3
        · split
          · exact ⟨rfl, rfl, hR⟩
          · exact ⟨rfl, rfl, hR⟩

theorem same_record (f n : Nat) {s : σ} {t : τ} (hR : R s t) :
    (readRecord rl f n s).1 = (readRecord rl' f n t).1 ∧ (readRecord rl f n s).2.1 = (readRecord rl' f n t).2.1 ∧
      R (readRecord rl f n s).2.2 (readRecord rl' f n t).2.2 := by
  obtain ⟨h1, h2, h3⟩ := same_skip h f hR
  unfold readRecord
  generalize skipLines rl f s = x at h1 h2 h3
  generalize skipLines rl' f t = y at h1 h2 h3
  obtain ⟨x1, x2, x3⟩ := x
  obtain ⟨y1, y2, y3⟩ := y
  simp only at h1 h2 h3 ⊢
  subst h1 h2
  split
  · exact ⟨rfl, rfl, h3⟩
  · obtain ⟨k1, k2, k3⟩ := same_fields h f x1 x2 [] none h3
    generalize parseFields rl f x3 x1 x2 [] none = x at k1 k2 k3
    generalize parseFields rl' f y3 x1 x2 [] none = y at k1 k2 k3
    obtain ⟨x1, x2, x3⟩ := x
    obtain ⟨y1, y2, y3⟩ := y
    simp only at k1 k2 k3
    subst k1 k2
    cases x2 with
    | some e => exact ⟨rfl, rfl, k3⟩
    | none =>
      simp only
      split
      · exact ⟨rfl, rfl, k3⟩
      · exact ⟨rfl, rfl, k3⟩

theorem same_all (f : Nat) : ∀ (k n : Nat) {s : σ} {t : τ}, R s t → readAll rl f k n s = readAll rl' f k n t := by
  intro k
  induction k with
  | zero => intros; rfl
  | succ k ih =>
    intro n s t hR
    obtain ⟨h1, h2, h3⟩ := same_record h f n hR
    unfold readAll
    generalize readRecord rl f n s = x at h1 h2 h3
    generalize readRecord rl' f n t = y at h1 h2 h3
    obtain ⟨x1, x2, x3⟩ := x
    obtain ⟨y1, y2, y3⟩ := y
    simp only at h1 h2 h3
    subst h1 h2
    cases x1 with
    | error e => rfl
    | ok r => simp only [ih _ h3]

end

/-- The records of a text that is followed by `fin`. -/
def readText (fin : RErr) (D : Bytes) : Input := readAll (textLine fin) (D.length + 2) (D.length + 2) 0 D

/-- However the input arrives. -/
theorem readInput_eq {r : Reader} (hf : Fair r.sched) : readInput r = readText r.fin r.rest := by
  unfold readInput readText
  refine same_all (R := fun b D => BufReader.Has b r.fin D ∧ D.length < r.rest.length + 1) ?_ _ _ _
    ⟨⟨hf, rfl, rfl, fun e h => by simp at h, by simp⟩, by omega⟩
  rintro s t ⟨h1, h2⟩
  obtain ⟨b', e, hb⟩ := h1.readLine h2
  rw [e]
  have := textLine_length (fin := r.fin) (D := t)
  exact ⟨rfl, rfl, hb, by omega⟩

end Verif.Csv
