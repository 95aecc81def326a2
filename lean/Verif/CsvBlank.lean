import Verif.CsvEnd
import Verif.CsvPrefix

/-!
# Blank lines between CSV records (helper lemmas)
-/

set_option linter.unusedSimpArgs false
set_option linter.unusedVariables false

namespace Verif.Csv

variable {σ : Type}

/-- The error of a record is never the end of the input, unless there is no record. -/
theorem fields_not_eof (rd : σ → Bytes × Option RErr × σ) : ∀ (f : Nat) (s : σ) (line : Bytes) (e : Option RErr) (acc : List Bytes) (cur : Option Bytes),
    e ≠ some .eof → (parseFields rd f s line e acc cur).2.1 ≠ some .eof
  | 0, _, _, _, _, _, _ => by simp [parseFields]
  | f + 1, s, line, e, acc, none, h => by
    simp only [parseFields]
    split
    · split
      · split
        · exact (by decide : some errBareQuote ≠ some RErr.eof)
        · exact fields_not_eof rd f _ _ _ _ _ h
      · split
        · exact (by decide : some errBareQuote ≠ some RErr.eof)
        · exact h
    · exact fields_not_eof rd f _ _ _ _ _ h
  | f + 1, s, line, e, acc, some cur, h => by
    simp only [parseFields]
    split
    · split
      · exact fields_not_eof rd f _ _ _ _ _ h
      · split
        · exact fields_not_eof rd f _ _ _ _ _ h
        · split
          · exact h
          · exact (by decide : some errQuote ≠ some RErr.eof)
    · split
      · split
        · exact h
        · refine fields_not_eof rd f _ _ _ _ _ ?_
          split
          · simp
          · assumption
      · split
        · exact (by decide : some errQuote ≠ some RErr.eof)
        · exact h

theorem record_eof (rd : σ → Bytes × Option RErr × σ) {f n : Nat} {s : σ} (h : (readRecord rd f n s).1 = .error .eof) : (skipLines rd f s).2.1 = some .eof := by
  unfold readRecord at h
  generalize skipLines rd f s = x at h
  obtain ⟨l, e, s'⟩ := x
  by_cases he : e = some .eof
  · exact he
  · simp only [if_neg he] at h
    have hn := fields_not_eof rd f s' l e [] none he
    generalize parseFields rd f s' l e [] none = y at h hn
    obtain ⟨fs, e', s''⟩ := y
    cases e' with
    | some e' => simp only [Except.error.injEq] at h; exact absurd (congrArg some h) hn
    | none =>
      simp only at h
      split at h
      · exact absurd h (by simp [errFieldCount])
      · cases h

theorem textLine_lt {fin : RErr} {D : Bytes} (h : (textLine fin D).2.1 = none) (hD : D ≠ []) : (textLine fin D).2.2.length < D.length := by
  unfold textLine
  split
  · rename_i hm
    have h1 := (mem_lineOf (t := []) hm).2
    have h2 : 0 < (lineOf D).length := by simp [lineOf]
    simp only [List.length_drop]
    omega
  · exact List.length_pos_iff.2 hD

theorem textLine_nil (fin : RErr) : textLine fin [] = ([], some fin, []) := by
  unfold textLine finishLine
  simp

theorem skip_enough (fin : RErr) : ∀ (f g : Nat) (D : Bytes), D.length < f → D.length < g → skipLines (textLine fin) f D = skipLines (textLine fin) g D
  | 0, _, _, h, _ => by omega
  | _, 0, _, _, h => by omega
  | f + 1, g + 1, D, hf, hg => by
    by_cases hD : D = []
    · subst hD
      simp [skipLines, textLine_nil]
    · simp only [skipLines]
      have h := textLine_lt (fin := fin) (D := D) (hD := hD)
      generalize textLine fin D = x at h
      obtain ⟨l, e, s⟩ := x
      simp only at h ⊢
      split
      · rename_i hb
        have := h hb.1
        exact skip_enough fin f g s (by omega) (by omega)
      · rfl

/-- Blank lines are skipped. -/
theorem skip_blanks (fin : RErr) (X : Bytes) : ∀ (m f : Nat) (P : Bytes), Lines P → (skipLines (textLine .eof) m P).2.1 = some .eof → m ≤ f →
    ∃ g, f ≤ g + P.length ∧ skipLines (textLine fin) f (P ++ X) = skipLines (textLine fin) g X
  | 0, _, _, _, h, _ => by simp [skipLines] at h
  | m + 1, f, P, hP, h, hm => by
    by_cases hn : P = []
    · subst hn; exact ⟨f, by simp, rfl⟩
    obtain ⟨f, rfl⟩ : ∃ k, f = k + 1 := ⟨f - 1, by omega⟩
    have hlt := textLine_lt (fin := .eof) (D := P) (hD := hn)
    rcases textLine_lines fin hP X with h1 | ⟨h1, h2, h3⟩
    · rcases hP with rfl | hP
      · exact absurd rfl hn
      · have hm : c%'\n' ∈ P := List.mem_of_getLast? hP
        unfold textLine at h1
        rw [if_pos hm, finishLine_none] at h1
        simp at h1
    · simp only [skipLines] at h ⊢
      rw [h2]
      generalize textLine .eof P = x at h h1 h2 h3 hlt
      obtain ⟨l, e, s⟩ := x
      simp only at h h1 h3 hlt ⊢
      subst h1
      by_cases hb : l.length = lengthNL l
      · simp only [hb, and_self, if_true] at h ⊢
        obtain ⟨g, h4, h5⟩ := skip_blanks fin X m f s h3 h (by omega)
        have := hlt rfl
        exact ⟨g, by omega, h5⟩
      · simp only [hb, and_false, if_false] at h
        cases h

theorem skip_len (fin : RErr) : ∀ (f : Nat) (D : Bytes), (skipLines (textLine fin) f D).2.2.length ≤ D.length
  | 0, _ => Nat.le_refl _
  | f + 1, D => by
    have h := textLine_size fin D
    simp only [skipLines]
    generalize textLine fin D = x at h
    obtain ⟨l, e, s⟩ := x
    simp only at h ⊢
    split
    · exact Nat.le_trans (skip_len fin f s) (by omega)
    · simp only; omega

theorem fields_len (fin : RErr) : ∀ (f : Nat) (D line : Bytes) (e : Option RErr) (acc : List Bytes) (cur : Option Bytes),
    (parseFields (textLine fin) f D line e acc cur).2.2.length ≤ D.length
  | 0, _, _, _, _, _ => Nat.le_refl _
  | f + 1, D, line, e, acc, none => by
    simp only [parseFields]
    split
    · split
      · split
        · exact Nat.le_refl _
        · exact fields_len fin f _ _ _ _ _
      · split <;> exact Nat.le_refl _
    · exact fields_len fin f _ _ _ _ _
  | f + 1, D, line, e, acc, some cur => by
    simp only [parseFields]
    split
    · split
      · exact fields_len fin f _ _ _ _ _
      · split
        · exact fields_len fin f _ _ _ _ _
        · split <;> exact Nat.le_refl _
    · split
      · split
        · exact Nat.le_refl _
        · have h := textLine_size fin D
          exact Nat.le_trans (fields_len fin f _ _ _ _ _) (Nat.le_trans (Nat.le_add_left _ _) h)
      · split <;> exact Nat.le_refl _

theorem record_len (fin : RErr) (f n : Nat) (D : Bytes) : (readRecord (textLine fin) f n D).2.2.length ≤ D.length := by
  have h1 := skip_len fin f D
  unfold readRecord
  generalize skipLines (textLine fin) f D = x at h1
  obtain ⟨l, e, s⟩ := x
  simp only at h1 ⊢
  split
  · exact h1
  · have h2 := fields_len fin f s l e [] none
    generalize parseFields (textLine fin) f s l e [] none = y at h2
    obtain ⟨fs, e', s'⟩ := y
    simp only at h2
    cases e' with
    | some e' => simp only; omega
    | none => simp only; split <;> (simp only; omega)

theorem all_blank (fin : RErr) (E : Bytes) {m f : Nat} (hm : m ≤ f) : ∀ (k j n : Nat) (P : Bytes), Lines P → P.length + E.length + 3 ≤ f →
    (readAll (textLine .eof) m j n P).fin = .eof →
    readAll (textLine fin) f k n (P ++ (c%'\n' :: E)) = readAll (textLine fin) f k n (P ++ E)
  | 0, _, _, _, _, _, _ => rfl
  | _ + 1, 0, _, _, _, _, h => by simp [readAll] at h
  | k + 1, j + 1, n, P, hP, hf, h => by
    simp only [readAll] at h ⊢
    have hlen := record_len .eof m n P
    have hx := record_eof (textLine .eof) (f := m) (n := n) (s := P)
    rcases record_lines fin E m f n P hm hP with ⟨x, h1⟩ | ⟨r, h1, h2, h3⟩
    · have he : x = .eof := by
        generalize readRecord (textLine .eof) m n P = y at h h1
        obtain ⟨y, n', s⟩ := y
        simp only at h1
        subst h1
        exact h
      subst he
      have hs := hx h1
      obtain ⟨g, hg, e1⟩ := skip_blanks fin (c%'\n' :: E) m f P hP hs hm
      obtain ⟨g', hg', e2⟩ := skip_blanks fin E m f P hP hs hm
      obtain ⟨g, rfl⟩ : ∃ k, g = k + 1 := ⟨g - 1, by omega⟩
      have e3 : textLine fin (c%'\n' :: E) = ([c%'\n'], none, E) := by
        unfold textLine finishLine lineOf
        simp
      have e : skipLines (textLine fin) f (P ++ (c%'\n' :: E)) = skipLines (textLine fin) f (P ++ E) := by
        rw [e1, e2, skipLines, e3]
        simp only
        rw [if_pos (by decide)]
        exact skip_enough fin _ _ _ (by omega) (by omega)
      have e' : readRecord (textLine fin) f n (P ++ (c%'\n' :: E)) = readRecord (textLine fin) f n (P ++ E) := by
        unfold readRecord
        rw [e]
      rw [e']
    · rcases record_lines fin (c%'\n' :: E) m f n P hm hP with ⟨x, h1'⟩ | ⟨r', h1', h2', h3'⟩
      · rw [h1] at h1'; cases h1'
      · rw [h2, h2']
        rw [h1] at h1'
        cases h1'
        generalize readRecord (textLine .eof) m n P = y at h h1 h3 hlen
        obtain ⟨y, n', s⟩ := y
        simp only at h1 h3 hlen
        subst h1
        simp only at h ⊢
        rw [all_blank fin E hm k j n' s h3 (by omega) h]

/-- A blank line behind lines that are complete records does not matter. -/
theorem readText_blank (fin : RErr) {P : Bytes} (hP : Lines P) (h : (readText .eof P).fin = .eof) (E : Bytes) :
    readText fin (P ++ (c%'\n' :: E)) = readText fin (P ++ E) := by
  have h' : readText fin (P ++ E) = readAll (textLine fin) ((P ++ E).length + 3) ((P ++ E).length + 3) 0 (P ++ E) := by
    rw [readText_crlf, show readAll (textLine fin) ((P ++ E).length + 3) ((P ++ E).length + 3) 0 (P ++ E) =
      readAll (plainLine fin) ((P ++ E).length + 3) ((P ++ E).length + 3) 0 (Rfc4180.crlf (P ++ E)) from same_all (same_crlf fin) _ _ _ rfl]
    have := crlf_length (P ++ E)
    exact all_fuel _ _ _ _ _ _ (by omega) (by omega) (by omega) (by omega)
  rw [h']
  unfold readText at h ⊢
  have e : (P ++ (c%'\n' :: E)).length + 2 = (P ++ E).length + 3 := by simp only [List.length_append, List.length_cons]; omega
  rw [e]
  exact all_blank fin E (by simp only [List.length_append]; omega) _ _ _ _ hP (by simp only [List.length_append]; omega) h

end Verif.Csv
