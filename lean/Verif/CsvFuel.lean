import Verif.CsvFile
import Verif.CsvPrefix

/-!
# The bounds of the loops of the CSV reader do not matter (helper lemmas)
-/

set_option linter.unusedSimpArgs false
set_option linter.unusedVariables false

namespace Verif.Csv
open Rfc4180

theorem finish_size (l : Bytes) (er : Option RErr) : (finishLine l er).1.length ≤ l.length := by
  by_cases he : er = some .eof
  · subst he
    unfold finishLine
    generalize hp : (if l.length > 0 ∧ some RErr.eof = some .eof then (if l.getLast? = some c%'\r' then l.dropLast else l, none) else (l, some RErr.eof)) = p
    have : p.1.length ≤ l.length := by
      rw [← hp]
      split
      · simp only
        split
        · simp
        · exact Nat.le_refl _
      · exact Nat.le_refl _
    obtain ⟨l', e⟩ := p
    simp only at this ⊢
    split
    · rename_i hs
      have := hs.length_le
      simp at this ⊢
      omega
    · exact this
  · exact finishLine_len he

theorem plainLine_size (fin : RErr) (T : Bytes) : (plainLine fin T).1.length + (plainLine fin T).2.2.length ≤ T.length ∧
    ((plainLine fin T).2.1 = none → (plainLine fin T).2.2.length < T.length) := by
  unfold plainLine
  split
  · rename_i h
    have h2 := (mem_lineOf (t := []) h).2
    have h3 : 0 < (lineOf T).length := by simp [lineOf]
    simp only [List.length_drop]
    exact ⟨by omega, fun _ => by omega⟩
  · simp only [List.length_nil, Nat.add_zero]
    constructor
    · exact finish_size _ _
    · intro h
      cases T with
      | nil => unfold finishLine at h; simp at h
      | cons b T => simp

variable {fin : RErr}

theorem skip_fuel : ∀ (f g : Nat) (T : Bytes), T.length < f → T.length < g →
    skipLines (plainLine fin) f T = skipLines (plainLine fin) g T ∧
    (skipLines (plainLine fin) f T).1.length + (skipLines (plainLine fin) f T).2.2.length ≤ T.length ∧
    ((skipLines (plainLine fin) f T).2.1 = none → (skipLines (plainLine fin) f T).2.2.length < T.length)
  | 0, _, _, h, _ => by omega
  | _, 0, _, _, h => by omega
  | f + 1, g + 1, T, hf, hg => by
    have h1 := plainLine_size fin T
    simp only [skipLines]
    generalize plainLine fin T = x at h1
    obtain ⟨l, er, s⟩ := x
    simp only at h1 ⊢
    split
    · rename_i hc
      have hs := h1.2 hc.1
      have := skip_fuel f g s (by omega) (by omega)
      exact ⟨this.1, by omega, fun h => by have := this.2.2 h; omega⟩
    · exact ⟨rfl, h1⟩

theorem fields_fuel : ∀ (f g : Nat) (T line : Bytes) (e : Option RErr) (acc : List Bytes) (cur : Option Bytes),
    line.length + T.length < f → line.length + T.length < g →
    parseFields (plainLine fin) f T line e acc cur = parseFields (plainLine fin) g T line e acc cur ∧
    (parseFields (plainLine fin) f T line e acc cur).2.2.length ≤ T.length
  | 0, _, _, _, _, _, _, h, _ => by omega
  | _, 0, _, _, _, _, _, _, h => by omega
  | f + 1, g + 1, T, line, e, acc, none, hf, hg => by
    simp only [parseFields]
    split
    · split
      · rename_i hm
        have := List.length_pos_of_mem hm
        split
        · exact ⟨rfl, Nat.le_refl _⟩
        · exact fields_fuel f g _ _ _ _ _ (by simp only [List.length_drop]; omega) (by simp only [List.length_drop]; omega)
      · split <;> exact ⟨rfl, Nat.le_refl _⟩
    · rename_i hh
      have : 0 < line.length := by
        cases line with
        | nil => simp at hh
        | cons b l => simp
      exact fields_fuel f g _ _ _ _ _ (by simp only [List.length_drop]; omega) (by simp only [List.length_drop]; omega)
  | f + 1, g + 1, T, line, e, acc, some cur, hf, hg => by
    simp only [parseFields]
    split
    · rename_i hm
      have := List.length_pos_of_mem hm
      split
      · exact fields_fuel f g _ _ _ _ _ (by simp only [List.length_drop]; omega) (by simp only [List.length_drop]; omega)
      · split
        · exact fields_fuel f g _ _ _ _ _ (by simp only [List.length_drop]; omega) (by simp only [List.length_drop]; omega)
        · split <;> exact ⟨rfl, Nat.le_refl _⟩
    · split
      · split
        · exact ⟨rfl, Nat.le_refl _⟩
        · have h1 := plainLine_size fin T
          generalize plainLine fin T = x at h1
          obtain ⟨l, er, s⟩ := x
          simp only at h1 ⊢
          have := fields_fuel f g s l (if er = some .eof then none else er) acc (some (cur ++ line)) (by omega) (by omega)
          exact ⟨this.1, by omega⟩
      · split <;> exact ⟨rfl, Nat.le_refl _⟩

theorem record_fuel (f g n : Nat) (T : Bytes) (hf : T.length < f) (hg : T.length < g) :
    readRecord (plainLine fin) f n T = readRecord (plainLine fin) g n T ∧
    (∀ r, (readRecord (plainLine fin) f n T).1 = .ok r → (readRecord (plainLine fin) f n T).2.2.length < T.length) := by
  have hs := skip_fuel (fin := fin) f g T hf hg
  unfold readRecord
  rw [← hs.1]
  generalize skipLines (plainLine fin) f T = x at hs
  obtain ⟨l, er, s⟩ := x
  simp only at hs ⊢
  split
  · exact ⟨rfl, fun r h => by cases h⟩
  · rename_i hne
    have hp := fields_fuel (fin := fin) f g s l er [] none (by omega) (by omega)
    have hb : er ≠ none → Bad (parseFields (plainLine fin) f s l er [] none).2.1 := fun h => bad_fields _ ⟨h, hne⟩ _ _ _ _ _
    rw [← hp.1]
    generalize parseFields (plainLine fin) f s l er [] none = y at hp hb
    obtain ⟨fs, e, s'⟩ := y
    cases e with
    | some e => exact ⟨rfl, fun r h => by cases h⟩
    | none =>
      simp only at hp hb ⊢
      refine ⟨trivial, ?_⟩
      split
      · exact fun r h => by cases h
      · intro r _
        cases er with
        | some e => exact absurd rfl (hb (by simp)).1
        | none => have := hs.2.2 rfl; simp only; omega

theorem all_fuel (f g : Nat) : ∀ (i j n : Nat) (T : Bytes), T.length < f → T.length < g → T.length < i → T.length < j →
    readAll (plainLine fin) f i n T = readAll (plainLine fin) g j n T
  | 0, _, _, _, _, _, h, _ => by omega
  | _, 0, _, _, _, _, _, h => by omega
  | i + 1, j + 1, n, T, hf, hg, hi, hj => by
    have h := record_fuel (fin := fin) f g n T hf hg
    simp only [readAll]
    rw [← h.1]
    generalize readRecord (plainLine fin) f n T = x at h
    obtain ⟨r, n', s⟩ := x
    cases r with
    | error e => rfl
    | ok r =>
      have hl := h.2 r rfl
      simp only at hl ⊢
      rw [all_fuel f g i j n' s (by omega) (by omega) (by omega) (by omega)]

/-- Texts that differ only in their line endings have the same records, and the same error. -/
theorem readText_endings (fin : RErr) {D D' : Bytes} (h : crlf D = crlf D') : readText fin D = readText fin D' := by
  rw [readText_crlf, readText_crlf, ← h]
  have h1 := crlf_length D
  have h2 := crlf_length D'
  rw [← h] at h2
  exact all_fuel _ _ _ _ _ _ (by omega) (by omega) (by omega) (by omega)

end Verif.Csv
