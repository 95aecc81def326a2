import Verif.QuotedLemmas

/-!
# C47: single-quoted string literals
-/

namespace Verif

open JPath Rfc9535

/-- The literals that the lexer accepts are those that RFC 9535 gives a meaning. -/
theorem C47_lexer_sound {c : Bytes} (h : LexSingle c) : ∃ s, Single c s := by
  induction h with
  | nil => exact ⟨_, .nil⟩
  | @esc e c he _ ih =>
    obtain ⟨s, hs⟩ := ih
    have : ∃ x, (e, x) ∈ Rfc9535.escapes := by
      simp only [List.mem_cons, List.not_mem_nil, or_false] at he
      rcases he with rfl | rfl | rfl | rfl | rfl | rfl | rfl | rfl
      · exact ⟨0x08, by decide⟩
      · exact ⟨0x0C, by decide⟩
      · exact ⟨0x0A, by decide⟩
      · exact ⟨0x0D, by decide⟩
      · exact ⟨0x09, by decide⟩
      · exact ⟨0x2F, by decide⟩
      · exact ⟨0x5C, by decide⟩
      · exact ⟨0x27, by decide⟩
    obtain ⟨x, hx⟩ := this
    exact ⟨_, .esc hx hs⟩
  | @hex x y z w c hx hy hz hw _ ih =>
    obtain ⟨s, hs⟩ := ih
    simp only [Bool.and_eq_true, Bool.not_eq_true', Bool.or_eq_false_iff, beq_eq_false_iff_ne] at hx
    obtain ⟨x', ex, lx⟩ := hexDigit_val hx.1
    obtain ⟨y', ey, ly⟩ := hexDigit_val hy
    obtain ⟨z', ez, lz⟩ := hexDigit_val hz
    obtain ⟨w', ew, lw⟩ := hexDigit_val hw
    have hne : x' ≠ 13 := by
      rintro rfl
      have : ∀ b : Byte, GoJson.hexVal b = some 13 → b = 0x44 ∨ b = 0x64 := by
        apply forall_byte
        set_option maxRecDepth 10000 in decide
      rcases this x ex with h | h
      · exact hx.2.1 h
      · exact hx.2.2 h
    exact ⟨_, Single.hex (h := [x, y, z, w]) ⟨x, y, z, w, x', y', z', w', rfl, ex, ey, ez, ew, rfl⟩ ⟨by omega, by omega⟩ hs⟩
  | @hexD x y z w c hx hy1 hy2 hz hw _ ih =>
    obtain ⟨s, hs⟩ := ih
    have ex : GoJson.hexVal x = some 13 := by rcases hx with rfl | rfl <;> decide
    have : ∀ b : Byte, 0x30 ≤ b → b ≤ 0x37 → ∃ n, GoJson.hexVal b = some n ∧ n < 8 := by
      apply forall_byte
      set_option maxRecDepth 10000 in decide
    obtain ⟨y', ey, ly⟩ := this y hy1 hy2
    obtain ⟨z', ez, lz⟩ := hexDigit_val hz
    obtain ⟨w', ew, lw⟩ := hexDigit_val hw
    exact ⟨_, Single.hex (h := [x, y, z, w]) ⟨x, y, z, w, 13, y', z', w', rfl, ex, ey, ez, ew, rfl⟩ ⟨by omega, by omega⟩ hs⟩
  | @pair x y z w x2 y2 z2 w2 c hx hy hz hw hx2 hy2 hz2 hw2 _ ih =>
    obtain ⟨s, hs⟩ := ih
    have ex : GoJson.hexVal x = some 13 := by rcases hx with rfl | rfl <;> decide
    have ex2 : GoJson.hexVal x2 = some 13 := by rcases hx2 with rfl | rfl <;> decide
    have : ∀ b : Byte, b ∈ b%"89ABab" → ∃ n, GoJson.hexVal b = some n ∧ 8 ≤ n ∧ n < 12 := by
      apply forall_byte
      set_option maxRecDepth 10000 in decide
    obtain ⟨y', ey, ly, ly'⟩ := this y hy
    have : ∀ b : Byte, b ∈ b%"CDEFcdef" → ∃ n, GoJson.hexVal b = some n ∧ 12 ≤ n ∧ n < 16 := by
      apply forall_byte
      set_option maxRecDepth 10000 in decide
    obtain ⟨y2', ey2, ly2, ly2'⟩ := this y2 hy2
    obtain ⟨z', ez, lz⟩ := hexDigit_val hz
    obtain ⟨w', ew, lw⟩ := hexDigit_val hw
    obtain ⟨z2', ez2, lz2⟩ := hexDigit_val hz2
    obtain ⟨w2', ew2, lw2⟩ := hexDigit_val hw2
    exact ⟨_, Single.pair (h := [x, y, z, w]) (h' := [x2, y2, z2, w2]) ⟨x, y, z, w, 13, y', z', w', rfl, ex, ey, ez, ew, rfl⟩
      ⟨x2, y2, z2, w2, 13, y2', z2', w2', rfl, ex2, ey2, ez2, ew2, rfl⟩ (by omega) (by omega) (by omega) (by omega) hs⟩
  | @char r c hr _ ih =>
    obtain ⟨s, hs⟩ := ih
    exact ⟨_, .char (by omega) ⟨by omega, by omega⟩ (by omega) (by omega) hs⟩

set_option maxRecDepth 10000 in
/-- All literals to which RFC 9535 gives a meaning are accepted by the lexer. -/
theorem C47_lexer_complete {c s : Bytes} (h : Single c s) : LexSingle c := by
  induction h with
  | nil => exact .nil
  | @char r c s h1 h2 h3 h4 _ ih => exact .char (by have := h2.1; have := h2.2; omega) ih
  | @esc e x c s he _ ih =>
    refine .esc ?_ ih
    simp only [Rfc9535.escapes, List.mem_cons, Prod.mk.injEq, List.not_mem_nil, or_false] at he
    rcases he with ⟨rfl, -⟩ | ⟨rfl, -⟩ | ⟨rfl, -⟩ | ⟨rfl, -⟩ | ⟨rfl, -⟩ | ⟨rfl, -⟩ | ⟨rfl, -⟩ | ⟨rfl, -⟩ <;> decide
  | @hex hx n c s hh hu _ ih =>
    obtain ⟨x, y, z, w, x', y', z', w', rfl, ex, ey, ez, ew, rfl⟩ := hh
    obtain ⟨kx, lx⟩ := hexVal_digit ex
    obtain ⟨ky, ly⟩ := hexVal_digit ey
    obtain ⟨kz, lz⟩ := hexVal_digit ez
    obtain ⟨kw, lw⟩ := hexVal_digit ew
    by_cases hd : x = c%'D' ∨ x = c%'d'
    · have h13 : x' = 13 := by rcases hd with rfl | rfl <;> simpa [GoJson.hexVal] using ex.symm
      subst h13
      have hy : y' < 8 := by have := hu.2; omega
      have := hexVal_class (fun n => n < 8) (fun b => 0x30 ≤ b ∧ b ≤ 0x37) (by decide) ey (by simpa using hy)
      exact .hexD hd this.1 this.2 kz kw ih
    · refine .hex ?_ ky kz kw ih
      simp only [not_or] at hd
      simp [kx, hd.1, hd.2]
  | @pair hx n hx' n' c s hh hh' h1 h2 h3 h4 _ ih =>
    obtain ⟨x, y, z, w, x', y', z', w', rfl, ex, ey, ez, ew, rfl⟩ := hh
    obtain ⟨x2, y2, z2, w2, x2', y2', z2', w2', rfl, ex2, ey2, ez2, ew2, rfl⟩ := hh'
    obtain ⟨-, lx⟩ := hexVal_digit ex
    obtain ⟨-, ly⟩ := hexVal_digit ey
    obtain ⟨kz, lz⟩ := hexVal_digit ez
    obtain ⟨kw, lw⟩ := hexVal_digit ew
    obtain ⟨-, lx2⟩ := hexVal_digit ex2
    obtain ⟨-, ly2⟩ := hexVal_digit ey2
    obtain ⟨kz2, lz2⟩ := hexVal_digit ez2
    obtain ⟨kw2, lw2⟩ := hexVal_digit ew2
    refine .pair ?_ ?_ kz kw ?_ ?_ kz2 kw2 ih
    · exact hexVal_class (fun n => n == 13) (fun b => b = c%'D' ∨ b = c%'d') (by decide) ex (by simp; omega)
    · exact hexVal_class (fun n => 8 ≤ n && n < 12) (fun b => b ∈ b%"89ABab") (by decide) ey (by simp; omega)
    · exact hexVal_class (fun n => n == 13) (fun b => b = c%'D' ∨ b = c%'d') (by decide) ex2 (by simp; omega)
    · exact hexVal_class (fun n => 12 ≤ n) (fun b => b ∈ b%"CDEFcdef") (by decide) ey2 (by simp; omega)

/-- A literal in single quotes denotes the string that RFC 9535 assigns to it. -/
theorem C47_single_quoted {c s : Bytes} (h : Single c s) : parseSingle (c%'\'' :: (c ++ [c%'\''])) = some s := parseSingle_ok h

/-- So every literal that the lexer accepts denotes a string, and the code finds it. -/
theorem C47_accepted {c : Bytes} (h : LexSingle c) : ∃ s, Single c s ∧ parseSingle (c%'\'' :: (c ++ [c%'\''])) = some s := by
  obtain ⟨s, hs⟩ := C47_lexer_sound h
  exact ⟨s, hs, C47_single_quoted hs⟩

/-- The literal `'\\\'"\u0041'` denotes `\'"A`. -/
example : Single b%"\\\\\\'\"\\u0041" b%"\\'\"A" :=
  .esc (e := 0x5C) (x := 0x5C) (by decide) <| .esc (e := 0x27) (x := 0x27) (by decide) <|
    Single.char (r := 0x22) (by decide) ⟨by decide, by decide⟩ (by decide) (by decide) <|
    Single.hex (h := b%"0041") (n := 0x41) ⟨0x30, 0x30, 0x34, 0x31, 0, 0, 4, 1, rfl, by decide, by decide, by decide, by decide, by decide⟩
      ⟨by decide, by decide⟩ .nil
example : parseSingle b%"'\\\\\\'\"\\u0041'" = some b%"\\'\"A" := by decide

end Verif
