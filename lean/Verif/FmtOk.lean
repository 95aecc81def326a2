import Verif.PathTame

/-!
# Formatting of numbers is possible

`FmtOk` can be satisfied: every number of double precision has a finite decimal notation.
-/

namespace Verif.JPath

/-- `m/2^k` in decimal notation: `m*5^k` and the exponent `-k`. -/
def dyadic (m : Int) (k : Nat) : Bytes :=
  (if m < 0 then [0x2D] else []) ++ (itoa (m.natAbs * 5 ^ k) ++ 0x65 :: 0x2D :: itoa k)

theorem itoa_digits (n : Nat) : ∀ x ∈ itoa n, Rfc8259.Digit x := by
  rcases JpvTree.itoa_int n with h | ⟨d, ds, h1, h2, h3, h⟩
  · rw [h]; intro x hx; simp only [List.mem_singleton] at hx; subst hx; exact ⟨by decide, by decide⟩
  · rw [h]
    intro x hx
    rcases List.mem_cons.1 hx with rfl | hx
    · exact ⟨UInt8.le_trans (by decide : (0x30 : UInt8) ≤ 0x31) h1, h2⟩
    · exact h3 x hx

theorem itoa_ne (n : Nat) : itoa n ≠ [] := by
  rcases JpvTree.itoa_int n with h | ⟨d, ds, _, _, _, h⟩ <;> rw [h] <;> simp

theorem dyadic_number (m : Int) (k : Nat) : Rfc8259.Number (dyadic m k) := by
  refine ⟨if m < 0 then [0x2D] else [], itoa (m.natAbs * 5 ^ k), [], 0x65 :: 0x2D :: itoa k, ?_, JpvTree.itoa_int _, .inl rfl,
    .inr ⟨0x65, [0x2D], itoa k, .inl rfl, .inr (.inl rfl), itoa_ne k, itoa_digits k, rfl⟩, by simp [dyadic]⟩
  split
  · exact .inr rfl
  · exact .inl rfl

theorem absVal_exp (a k : Nat) : absVal (itoa a ++ 0x65 :: 0x2D :: itoa k) = (a : Rat) * 10 ^ (-(k : Int)) := by
  have h1 : (itoa a ++ 0x65 :: 0x2D :: itoa k).takeWhile isDig = itoa a := by
    rw [List.takeWhile_append_of_pos fun x hx => GoJson.isDig_iff.2 (itoa_digits a x hx)]
    simp [show isDig 0x65 = false by decide]
  have h2 : (itoa a ++ 0x65 :: 0x2D :: itoa k).dropWhile isDig = 0x65 :: 0x2D :: itoa k := by
    rw [List.dropWhile_append_of_pos fun x hx => GoJson.isDig_iff.2 (itoa_digits a x hx)]
    simp [show isDig 0x65 = false by decide]
  have h3 : fracOf (0x65 :: 0x2D :: itoa k) = ([], 0x65 :: 0x2D :: itoa k) := rfl
  have h4 : expVal (0x65 :: 0x2D :: itoa k) = -(k : Int) := by rw [expVal, JpvTree.itoa_val]
  unfold absVal
  rw [h1, h2, h3]
  simp only [h4, List.append_nil, JpvTree.itoa_val, List.length_nil]
  congr 2
  omega

theorem pow_five_ten (k : Nat) : ((5 ^ k : Nat) : Rat) * 10 ^ (-(k : Int)) = 2 ^ (-(k : Int)) := by
  have h10 : (10 : Rat) ^ (-(k : Int)) * ((10 ^ k : Nat) : Rat) = 1 := by
    rw [Rat.zpow_neg, Rat.zpow_natCast]
    have : ((10 ^ k : Nat) : Rat) = (10 : Rat) ^ k := by exact_mod_cast rfl
    rw [this]
    exact Rat.inv_mul_cancel _ (by
      rw [← this]
      exact_mod_cast Nat.ne_of_gt (Nat.pow_pos (by decide)))
  have h2 : (2 : Rat) ^ (-(k : Int)) * ((2 ^ k : Nat) : Rat) = 1 := by
    rw [Rat.zpow_neg, Rat.zpow_natCast]
    have : ((2 ^ k : Nat) : Rat) = (2 : Rat) ^ k := by exact_mod_cast rfl
    rw [this]
    exact Rat.inv_mul_cancel _ (by
      rw [← this]
      exact_mod_cast Nat.ne_of_gt (Nat.pow_pos (by decide)))
  have hp : ((10 ^ k : Nat) : Rat) = ((5 ^ k : Nat) : Rat) * ((2 ^ k : Nat) : Rat) := by
    rw [show 10 ^ k = 5 ^ k * 2 ^ k by rw [← Nat.mul_pow]]
    exact_mod_cast rfl
  grind

theorem decimal_dyadic (m : Int) (k : Nat) : decimal (dyadic m k) = m * 2 ^ (-(k : Int)) := by
  have h := absVal_exp (m.natAbs * 5 ^ k) k
  have hc : ((m.natAbs * 5 ^ k : Nat) : Rat) = (m.natAbs : Rat) * ((5 ^ k : Nat) : Rat) := by exact_mod_cast rfl
  have hp := pow_five_ten k
  unfold dyadic
  by_cases hm : m < 0
  · rw [if_pos hm]
    show decimal (0x2D :: (itoa (m.natAbs * 5 ^ k) ++ 0x65 :: 0x2D :: itoa k)) = _
    rw [decimal, h, hc, Rat.mul_assoc, hp]
    have : (m : Rat) = -(m.natAbs : Rat) := by
      have e : m = -(m.natAbs : Int) := by omega
      have : (m : Rat) = ((-(m.natAbs : Int) : Int) : Rat) := by rw [← e]
      rw [this, Rat.intCast_neg]; rfl
    rw [this]
    grind
  · rw [if_neg hm, List.nil_append]
    have hs : decimal (itoa (m.natAbs * 5 ^ k) ++ 0x65 :: 0x2D :: itoa k) = absVal (itoa (m.natAbs * 5 ^ k) ++ 0x65 :: 0x2D :: itoa k) := by
      have hd := itoa_digits (m.natAbs * 5 ^ k)
      have hn := itoa_ne (m.natAbs * 5 ^ k)
      generalize itoa (m.natAbs * 5 ^ k) = t at *
      cases t with
      | nil => exact absurd rfl hn
      | cons x t =>
        have hx : x ≠ 0x2D := by
          rintro rfl
          exact absurd (hd _ List.mem_cons_self) (by unfold Rfc8259.Digit; decide)
        show decimal (x :: _) = _
        unfold decimal
        split
        · rename_i e; cases e; exact absurd rfl hx
        · rfl
    rw [hs, h, hc, Rat.mul_assoc, hp]
    have : (m : Rat) = (m.natAbs : Rat) := by
      have e : m = (m.natAbs : Int) := by omega
      have : (m : Rat) = (((m.natAbs : Int) : Int) : Rat) := by rw [← e]
      rw [this]; rfl
    rw [this]

theorem dyadic_of {q : Rat} (h : F64.IsF64 q) : ∃ mk : Int × Nat, q = mk.1 * 2 ^ (-(mk.2 : Int)) := by
  obtain ⟨m, e, -, -, -, rfl⟩ := h
  rcases Int.le_total 0 e with he | he
  · refine ⟨(m * 2 ^ e.toNat, 0), ?_⟩
    have : (2 : Rat) ^ e = ((2 ^ e.toNat : Int) : Rat) := by
      obtain ⟨n, rfl⟩ := Int.eq_ofNat_of_zero_le he
      rw [Rat.zpow_natCast, Int.toNat_natCast]
      exact_mod_cast rfl
    simp only [Rat.intCast_mul, ← this]
    simp [Rat.zpow_zero]
  · refine ⟨(m, (-e).toNat), ?_⟩
    have : -(((-e).toNat : Nat) : Int) = e := by omega
    rw [this]

theorem isF64_within {q : Rat} (h : F64.IsF64 q) : F64.Within64 q := by
  obtain ⟨m, e, h1, h2, h3, rfl⟩ := h
  unfold F64.Within64
  rw [F64.abs_mul (F64.two_pos e)]
  have hm : (m : Rat).abs ≤ ((2 ^ 53 - 1 : Nat) : Rat) := by
    have : (m : Rat).abs = (m.natAbs : Rat) := by
      rcases F64.abs_cases (m : Rat) with ⟨h, e⟩ | ⟨h, e⟩
      · rw [e]
        have h : 0 ≤ m := by exact_mod_cast h
        have e : m = (m.natAbs : Int) := by omega
        have : (m : Rat) = (((m.natAbs : Int) : Int) : Rat) := by rw [← e]
        rw [this]; rfl
      · rw [e]
        have h : m ≤ 0 := by exact_mod_cast h
        have e : m = -(m.natAbs : Int) := by omega
        have : (m : Rat) = ((-(m.natAbs : Int) : Int) : Rat) := by rw [← e]
        rw [this, Rat.intCast_neg, Rat.neg_neg]; rfl
    rw [this]
    exact F64.natCast_le_iff.2 (by omega)
  have he := F64.two_mono h3
  have hp := F64.two_pos e
  have hq : (((2 ^ 53 - 1 : Nat) : Rat)) * 2 ^ (971 : Int) < 2 ^ (1024 : Int) - 2 ^ (970 : Int) := by decide +kernel
  have h4 : (m : Rat).abs * 2 ^ e ≤ ((2 ^ 53 - 1 : Nat) : Rat) * 2 ^ e := (F64.mul_le_iff hp).2 hm
  have h5 : ((2 ^ 53 - 1 : Nat) : Rat) * 2 ^ e ≤ ((2 ^ 53 - 1 : Nat) : Rat) * 2 ^ (971 : Int) := by
    rw [Rat.mul_comm, Rat.mul_comm _ ((2 : Rat) ^ (971 : Int))]
    exact (F64.mul_le_iff (by decide)).2 he
  grind

theorem nearest_self {q : Rat} (h : F64.IsF64 q) : F64.Nearest64 q q := by
  refine ⟨h, fun s _ => ?_⟩
  have h0 : (q - q).abs = 0 := by rw [Rat.sub_self]; rfl
  rw [h0]
  rcases F64.abs_cases (q - s) with ⟨h1, e⟩ | ⟨h1, e⟩
  · rw [e]; exact ⟨h1, fun h => .inl (by grind)⟩
  · rw [e]; exact ⟨by grind, fun h => .inl (by grind)⟩

open Classical in
/-- Exact notation. -/
noncomputable def fmtExact (q : Rat) : Bytes :=
  if h : ∃ mk : Int × Nat, q = mk.1 * 2 ^ (-(mk.2 : Int)) then dyadic h.choose.1 h.choose.2 else b%"0"

theorem fmtExact_ok : FmtOk fmtExact := by
  intro q h
  have hd : decimal (fmtExact q) = q := by
    unfold fmtExact
    rw [dif_pos (dyadic_of h), decimal_dyadic]
    exact (dyadic_of h).choose_spec.symm
  refine ⟨?_, ?_, ?_⟩
  · unfold fmtExact
    rw [dif_pos (dyadic_of h)]
    exact dyadic_number _ _
  · unfold InRange64; rw [hd]; exact isF64_within h
  · rw [hd]; exact nearest_self h

end Verif.JPath
