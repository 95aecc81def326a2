import Verif.PathOut
import Verif.Props.C29

/-!
# Values and facts for examples about queries
-/

set_option linter.unusedSimpArgs false

namespace Verif.JPath
open Rfc9535 GoJson

/-- A number. -/
def num (b : Bytes) : JVal := .scalar ⟨b, .num, false, false, false⟩

/-- A string, as a name or a value. -/
def str (b : Bytes) : Scalar := ⟨b, .str, false, false, false⟩

/-- Integers of up to 15 digits have their values: so it is with all values (`decimal`) and with rounded ones (`Double`). -/
def ExactShort (val : Bytes → Rat) : Prop := ∀ b, ShortInt b → val b = decimal b

theorem exact_decimal : ExactShort decimal := fun _ _ => rfl

theorem within_short {b : Bytes} (h : ShortInt b) : InRange64 b := by
  obtain ⟨z, e, hz⟩ := decimal_short h
  exact (F64.round_within _).1 ⟨z, by rw [e, F64.round_int z hz]⟩

theorem exact_double {val : Bytes → Rat} (hv : Double val) : ExactShort val := by
  intro b h
  obtain ⟨z, e, hz⟩ := decimal_short h
  have := hv.round (within_short h)
  rw [e, F64.round_int z hz] at this
  rw [e]
  exact (Option.some.inj this).symm

/-- Integers of up to 15 digits are compared as they should. -/
theorem ordered_short {val : Bytes → Rat} (hv : ExactShort val) : Ordered val ShortInt := by
  intro a b ha hb _ _
  obtain ⟨z, e1, h1⟩ := decimal_short ha
  obtain ⟨z', e2, h2⟩ := decimal_short hb
  refine ⟨z, z', ?_, ?_, ?_, ?_⟩
  · rw [number_ok (number_short ha), e1]; exact F64.round_int z h1
  · rw [number_ok (number_short hb), e2]; exact F64.round_int z' h2
  · rw [hv a ha, hv b hb, e1, e2]
  · rw [hv a ha, hv b hb, e1, e2]

/-- All numbers in the range of `float64` are compared as their nearest `float64` values. -/
theorem ordered_double {val : Bytes → Rat} (h : Double val) : Ordered val InRange64 := by
  intro a b ha hb e1 e2
  exact ⟨val a, val b, by rw [number_ok e1, h.round ha], by rw [number_ok e2, h.round hb], Iff.rfl, Iff.rfl⟩

/-- Digits other than zero are such integers. -/
theorem short_digit {b : Byte} (h : 0x31 ≤ b ∧ b ≤ 0x39) : ShortInt [b] := ⟨[b], .inl rfl, by simp, .inr ⟨b, [], h.1, h.2, by simp, rfl⟩⟩

theorem short_itoa (n : Nat) (h : n < 10 ^ 15) : ShortInt (itoa n) := by
  refine ⟨itoa n, .inl rfl, ?_, JpvTree.itoa_int n⟩
  apply Classical.byContradiction
  intro hl
  have hlen : 16 ≤ (itoa n).length := by omega
  have hi := JpvTree.itoa_int n
  have hv := JpvTree.itoa_val n
  rcases hi with h0 | ⟨d, ds, h1, h2, h3, h4⟩
  · rw [h0] at hlen; simp at hlen
  · rw [h4] at hlen hv
    have key : ∀ (ds : Bytes) (m : Nat), m * 10 ^ ds.length ≤ ds.foldl (fun n d => 10 * n + (d.toNat - 0x30)) m := by
      intro ds
      induction ds with
      | nil => intro m; simp
      | cons x l ih =>
        intro m
        have := ih (10 * m + (x.toNat - 0x30))
        simp only [List.foldl_cons, List.length_cons, Nat.pow_succ]
        refine Nat.le_trans ?_ this
        have : m * (10 ^ l.length * 10) = 10 * m * 10 ^ l.length := by rw [Nat.mul_comm (10 ^ l.length), ← Nat.mul_assoc, Nat.mul_comm m]
        rw [this]
        exact Nat.mul_le_mul_right _ (by omega)
    have k := key ds (d.toNat - 0x30)
    have hd : 1 ≤ d.toNat - 0x30 := by
      have := UInt8.le_iff_toNat_le.1 h1
      simp at this; omega
    have hp : 10 ^ 15 ≤ 10 ^ ds.length := Nat.pow_le_pow_right (by omega) (by simp at hlen; omega)
    have hv' : ds.foldl (fun n d => 10 * n + (d.toNat - 0x30)) (d.toNat - 0x30) = n := by
      have : digitsVal (d :: ds) = n := hv
      simpa [digitsVal] using this
    have : 10 ^ ds.length ≤ (d.toNat - 0x30) * 10 ^ ds.length := Nat.le_mul_of_pos_left _ hd
    omega

theorem den_short {val : Bytes → Rat} {b : Bytes} (h : ShortInt b) : DenBy val (num b) (.num (val b)) := .num rfl (number_short h)

theorem den_digit {val : Bytes → Rat} {b : Byte} (h : 0x31 ≤ b ∧ b ≤ 0x39) : DenBy val (num [b]) (.num (val [b])) := den_short (short_digit h)

theorem is_a : StrIs (str b%"\"a\"") b%"a" :=
  ⟨rfl, b%"a", rfl, .char (r := 0x61) (by decide) (by unfold UScalar; decide) (by decide) (by decide) .nil, fun e => nomatch e⟩
theorem is_b : StrIs (str b%"\"b\"") b%"b" :=
  ⟨rfl, b%"b", rfl, .char (r := 0x62) (by decide) (by unfold UScalar; decide) (by decide) (by decide) .nil, fun e => nomatch e⟩
theorem is_ab : StrIs (str b%"\"ab\"") b%"ab" :=
  ⟨rfl, b%"ab", rfl, .char (r := 0x61) (by decide) (by unfold UScalar; decide) (by decide) (by decide)
    (.char (r := 0x62) (by decide) (by unfold UScalar; decide) (by decide) (by decide) .nil), fun e => nomatch e⟩

theorem chars_a : Chars b%"a" [0x61] := ⟨by decide, by simp [UScalar]⟩
theorem chars_ab : Chars b%"ab" [0x61, 0x62] := ⟨by decide, by simp [UScalar]⟩

/-- Numbers of a value that are digits. -/
theorem nums_digits {v : JVal} (h : v.toks.all (fun t => match t with
    | .scalar k => k.type != .num || (match k.bytes with | [b] => decide (0x31 ≤ b) && decide (b ≤ 0x39) | _ => false)
    | _ => true) = true) : NumsIn ShortInt v := by
  intro k hk ht
  have := List.all_eq_true.1 h _ hk
  simp only [ht, bne_self_eq_false, Bool.false_or] at this
  split at this
  · rename_i b hb
    rw [hb]
    simp only [Bool.and_eq_true, decide_eq_true_eq] at this
    exact short_digit this
  · cases this

end Verif.JPath
