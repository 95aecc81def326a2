import Verif.Decimal

/-!
# Indices as numbers (helper lemmas)

The keys for indices in JPV paths are digits followed by a closing bracket.
-/

set_option linter.unusedSimpArgs false

namespace Verif
open Rfc8259

theorem intPart_digits {i : Bytes} (hi : IntPart i) : i ≠ [] ∧ ∀ x ∈ i, Digit x := by
  rcases hi with rfl | ⟨d, ds, h1, h2, h3, rfl⟩
  · refine ⟨by simp, ?_⟩
    intro x hx
    rw [List.mem_singleton.1 hx]; unfold Digit; decide
  · refine ⟨by simp, ?_⟩
    intro x hx
    rcases List.mem_cons.1 hx with rfl | hx
    · exact ⟨UInt8.le_trans (by decide : (0x30 : UInt8) ≤ 0x31) h1, h2⟩
    · exact h3 x hx

theorem isDig_all {ds : Bytes} (h : ∀ x ∈ ds, Digit x) : ds.takeWhile isDig = ds ∧ ds.dropWhile isDig = [] := by
  have := GoJson.take_digits (r := []) h (by simp)
  simpa using this

/-- The number denoted by digits. -/
theorem decimal_digits {ds : Bytes} (h0 : ds ≠ []) (h : ∀ x ∈ ds, Digit x) : decimal ds = ((digitsVal ds : Int) : Rat) := by
  obtain ⟨ht, hdr⟩ := isDig_all h
  have ha : absVal ds = ((digitsVal ds : Int) : Rat) := by
    unfold absVal
    simp only [ht, hdr, fracOf, expVal, List.append_nil, List.length_nil]
    show _ * (10 : Rat) ^ (0 : Int) = _
    rw [Rat.zpow_zero, Rat.mul_one]
    rfl
  cases ds with
  | nil => exact absurd rfl h0
  | cons x l =>
    have hx : x ≠ 0x2D := by
      intro e
      have := h x (by simp)
      rw [e] at this
      exact absurd this (by unfold Digit; decide)
    unfold decimal
    split
    · rename_i h; simp only [List.cons.injEq] at h; exact absurd h.1 hx
    · exact ha

/-- The literal at the start of an index. -/
theorem numLit_prefix {i r : Bytes} {y : Byte} (hi : IntPart i) (hy : i = [0x30] ∨ isDig y = false)
    (hy' : y ≠ 0x2E ∧ y ≠ 0x65 ∧ y ≠ 0x45) : GoJson.numLit (i ++ y :: r) = some i := by
  have hI : GoJson.intLit (i ++ y :: r) = some (i, y :: r) := by
    rcases hi with rfl | ⟨d, ds, h1, h2, hd, rfl⟩
    · rfl
    · have h0 : d ≠ 0x30 := by rintro rfl; exact absurd h1 (by decide)
      have hy : isDig y = false := by
        rcases hy with h | h
        · simp only [List.cons.injEq] at h; exact absurd h.1 h0
        · exact h
      have hdd : ∀ x ∈ d :: ds, Digit x := by
        intro x hx
        rcases List.mem_cons.1 hx with rfl | hx
        · exact ⟨UInt8.le_trans (by decide : (0x30 : UInt8) ≤ 0x31) h1, h2⟩
        · exact hd x hx
      have := GoJson.digitsLit_ok (r := y :: r) hdd (by simp) (by
        intro x r' e; simp only [List.cons.injEq] at e; rw [← e.1]; exact hy)
      simpa only [List.cons_append, GoJson.intLit, if_neg h0] using this
  have hA : GoJson.absLit (i ++ y :: r) = some i := by
    unfold GoJson.absLit
    rw [hI]
    simp only [Option.bind_some, GoJson.fracLit, hy'.1, if_false, GoJson.expLit, hy'.2.1, hy'.2.2, or_self,
      Option.map_some, List.append_nil]
  obtain ⟨x, l, rfl, hx⟩ : ∃ x l, i = x :: l ∧ x ≠ 0x2D := by
    rcases hi with rfl | ⟨d, ds, h1, h2, hd, rfl⟩
    · exact ⟨_, _, rfl, by decide⟩
    · refine ⟨_, _, rfl, ?_⟩
      rintro rfl
      exact absurd h1 (by decide)
  simp only [List.cons_append] at hA ⊢
  simp only [GoJson.numLit, if_neg hx, hA]

theorem digitsVal_lt (ds : Bytes) (h : ∀ x ∈ ds, Digit x) : digitsVal ds < 10 ^ ds.length := by
  have gen : ∀ (ds : Bytes) (n m : Nat), (∀ x ∈ ds, Digit x) → n < 10 ^ m →
      ds.foldl (fun n d => 10 * n + (d.toNat - 0x30)) n < 10 ^ (m + ds.length) := by
    intro ds
    induction ds with
    | nil => intro n m _ h; exact h
    | cons x l ih =>
      intro n m h hn
      have hx := h x (by simp)
      simp only [Digit, UInt8.le_iff_toNat_le] at hx
      have := ih (10 * n + (x.toNat - 0x30)) (m + 1) (fun y hy => h y (by simp [hy])) (by
        have : (0x39 : UInt8).toNat = 57 := rfl
        rw [Nat.pow_succ]; omega)
      have e : m + 1 + l.length = m + (x :: l).length := by simp; omega
      rw [e] at this
      exact this
  have := gen ds 0 0 h (by simp)
  rw [Nat.zero_add] at this
  exact this

/-- An index that is an integer of up to 53 bits. -/
theorem number_index {ds : Bytes} (hi : IntPart ds) (hv : digitsVal ds < 2 ^ 53) :
    GoJson.number (ds ++ [0x5D]) = some ((digitsVal ds : Int) : Rat) := by
  unfold GoJson.number
  obtain ⟨h0, hd⟩ := intPart_digits hi
  rw [numLit_prefix hi (.inr (by decide)) (by decide), Option.bind_some, decimal_digits h0 hd]
  exact F64.round_int _ (by simpa using hv)

/-- Any index of up to fifteen digits can be converted. -/
theorem number_digits {ds : Bytes} (h0 : ds ≠ []) (hd : ∀ x ∈ ds, Digit x) (hl : ds.length ≤ 15) :
    ∃ q, GoJson.number (ds ++ [0x5D]) = some q := by
  obtain ⟨d, l, rfl⟩ := List.exists_cons_of_ne_nil h0
  by_cases hz : d = 0x30
  · subst hz
    unfold GoJson.number
    have hn : GoJson.numLit (0x30 :: l ++ [0x5D]) = some [0x30] := by
      cases l with
      | nil => exact numLit_prefix (i := [0x30]) (.inl rfl) (.inl rfl) (by decide)
      | cons y l =>
        have hy := hd y (by simp)
        exact numLit_prefix (i := [0x30]) (y := y) (r := l ++ [0x5D]) (.inl rfl) (.inl rfl) (by
          unfold Digit at hy
          refine ⟨?_, ?_, ?_⟩ <;> (rintro rfl; revert hy; decide))
    rw [hn, Option.bind_some]
    exact ⟨0, by decide +kernel⟩
  · refine ⟨_, number_index (.inr ⟨d, l, ?_, (hd d (by simp)).2, fun x hx => hd x (by simp [hx]), rfl⟩) ?_⟩
    · have h1 := (hd d (by simp)).1
      rw [UInt8.le_iff_toNat_le] at h1 ⊢
      have : d.toNat ≠ 0x30 := by
        intro e; apply hz; rw [← UInt8.toNat_inj, e]; rfl
      have e1 : (0x30 : UInt8).toNat = 48 := rfl
      have e2 : (0x31 : UInt8).toNat = 49 := rfl
      omega
    · have h1 := digitsVal_lt _ hd
      have h2 : 10 ^ (d :: l).length ≤ 10 ^ 15 := Nat.pow_le_pow_right (by omega) hl
      have h3 : 10 ^ 15 < 2 ^ 53 := by decide
      omega

end Verif
