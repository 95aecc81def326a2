import Verif.Decimal

/-!
# `F64.round` is correct

The nearest number of IEEE 754 double precision, and that with the even significand if there are two.
-/

namespace Verif.F64

/-- A finite number of IEEE 754 double precision (binary64): 53 bits and an exponent. -/
def IsF64 (x : Rat) : Prop := ∃ m e : Int, m.natAbs < 2 ^ 53 ∧ -1074 ≤ e ∧ e ≤ 971 ∧ x = m * 2 ^ e

/-- Specification: `r` is the nearest number of double precision to `q`, and that with the even significand if there are two. -/
def Nearest64 (q r : Rat) : Prop := IsF64 r ∧ ∀ s, IsF64 s → (q - r).abs ≤ (q - s).abs ∧
  ((q - r).abs = (q - s).abs → s = r ∨ ∃ m e : Int, r = 2 * m * 2 ^ e ∧ (s = (2 * m + 1) * 2 ^ e ∨ s = (2 * m - 1) * 2 ^ e))

/-- Specification: the number is in the range of double precision: it is below the middle of the largest number of double precision and the power of two
above it. -/
def Within64 (q : Rat) : Prop := q.abs < 2 ^ (1024 : Int) - 2 ^ (970 : Int)

theorem two_ne : (2 : Rat) ≠ 0 := by decide

theorem two_pos (n : Int) : (0 : Rat) < 2 ^ n := Rat.zpow_pos (by decide)

theorem two_split (u : Int) : (2 : Rat) ^ u * ((2 ^ (-u).toNat : Nat) : Rat) = ((2 ^ u.toNat : Nat) : Rat) := by
  rcases Int.le_total 0 u with h | h
  · obtain ⟨n, rfl⟩ := Int.eq_ofNat_of_zero_le h
    have : (-(n : Int)).toNat = 0 := by omega
    rw [this]
    simp [Rat.zpow_natCast]
  · obtain ⟨n, hn⟩ := Int.eq_ofNat_of_zero_le (show 0 ≤ -u by omega)
    have h1 : u.toNat = 0 := by omega
    have h2 : u = -(n : Int) := by omega
    rw [h1, hn, h2, Rat.zpow_neg, Rat.zpow_natCast, Int.toNat_natCast]
    rw [Rat.natCast_pow]
    have : ((2 : Nat) : Rat) ^ n ≠ 0 := by
      have := two_pos n
      rw [Rat.zpow_natCast] at this
      exact (Rat.ne_of_lt this).symm
    rw [show ((2 : Nat) : Rat) = 2 from rfl] at this ⊢
    rw [Rat.inv_mul_cancel _ this]
    rfl

theorem two_mono {a b : Int} (h : a ≤ b) : (2 : Rat) ^ a ≤ 2 ^ b := by
  obtain ⟨n, hn⟩ := Int.eq_ofNat_of_zero_le (show 0 ≤ b - a by omega)
  have : b = a + n := by omega
  subst this
  rw [Rat.zpow_add two_ne, Rat.zpow_natCast]
  have h1 : (1 : Rat) ≤ 2 ^ n := by
    have : (1 : Rat) ≤ ((2 ^ n : Nat) : Rat) := by exact_mod_cast Nat.one_le_two_pow
    rwa [Rat.natCast_pow] at this
  have := Rat.mul_le_mul_of_nonneg_left h1 (Rat.le_of_lt (two_pos a))
  rwa [Rat.mul_one] at this

/-- Multiples of a power are multiples of a smaller power. -/
theorem two_multiple {a b : Int} (h : a ≤ b) : ∃ j : Nat, (2 : Rat) ^ b = j * 2 ^ a ∧ j = 2 ^ (b - a).toNat := by
  obtain ⟨n, hn⟩ := Int.eq_ofNat_of_zero_le (show 0 ≤ b - a by omega)
  have : b = a + n := by omega
  subst this
  refine ⟨2 ^ n, ?_, by rw [hn]; simp⟩
  rw [Rat.zpow_add two_ne, Rat.zpow_natCast, Rat.natCast_pow, Rat.mul_comm]
  rfl

/-- `nearest` is nearest. -/
theorem nearest_spec (a : Nat) {b : Nat} (hb : 0 < b) : 2 * (nearest a b * b) ≤ 2 * a + b ∧ 2 * a ≤ 2 * (nearest a b * b) + b ∧
    ((2 * a = 2 * (nearest a b * b) + b ∨ 2 * a + b = 2 * (nearest a b * b)) → nearest a b % 2 = 0) := by
  have e := Nat.div_add_mod a b
  have hm := Nat.mod_lt a hb
  rw [Nat.mul_comm] at e
  unfold nearest
  split
  · rename_i h
    rw [Nat.add_mul, Nat.one_mul]
    refine ⟨by omega, by omega, ?_⟩
    intro h'
    omega
  · rename_i h
    refine ⟨by omega, by omega, ?_⟩
    intro h'
    omega

theorem mul_le_iff {a b c : Rat} (hc : 0 < c) : a * c ≤ b * c ↔ a ≤ b := by
  constructor
  · intro h
    apply Classical.byContradiction
    intro hn
    have := Rat.mul_lt_mul_of_pos_right (Rat.not_le.1 hn) hc
    exact Rat.not_le.2 this h
  · intro h
    exact Rat.mul_le_mul_of_nonneg_right h (Rat.le_of_lt hc)

theorem mul_eq_iff {a b c : Rat} (hc : 0 < c) : a * c = b * c ↔ a = b := by
  constructor
  · intro h
    exact Rat.le_antisymm ((mul_le_iff hc).1 (by rw [h]; exact Rat.le_refl)) ((mul_le_iff hc).1 (by rw [h]; exact Rat.le_refl))
  · rintro rfl; rfl

theorem cmp_scaled (a b : Nat) (u : Int) : b * 2 ^ u.toNat ≤ a * 2 ^ (-u).toNat ↔ (2 : Rat) ^ u * b ≤ a := by
  have h := two_split u
  have hN : (0 : Rat) < ((2 ^ (-u).toNat : Nat) : Rat) := by exact_mod_cast Nat.two_pow_pos _
  generalize (2 ^ (-u).toNat : Nat) = N at h hN
  generalize (2 ^ u.toNat : Nat) = M at h
  have e : b * M ≤ a * N ↔ ((b * M : Nat) : Rat) ≤ ((a * N : Nat) : Rat) := by exact_mod_cast Iff.rfl
  rw [e, Rat.natCast_mul, Rat.natCast_mul, ← h]
  have e2 : (b : Rat) * (2 ^ u * (N : Rat)) = (2 ^ u * b) * N := by
    rw [← Rat.mul_assoc, Rat.mul_comm (b : Rat)]
  rw [e2]
  exact mul_le_iff hN

theorem cast_pow (n : Nat) : ((2 ^ n : Nat) : Rat) = (2 : Rat) ^ (n : Int) := by
  rw [Rat.natCast_pow, Rat.zpow_natCast]; rfl

theorem exponent_spec {p d : Nat} (hp : 0 < p) (hd : 0 < d) : (2 : Rat) ^ exponent p d * d ≤ p ∧ (p : Rat) < 2 ^ (exponent p d + 1) * d := by
  have p1 : ((2 ^ p.log2 : Nat) : Rat) ≤ (p : Rat) := by exact_mod_cast Nat.log2_self_le (by omega)
  have p2 : (p : Rat) < ((2 ^ (p.log2 + 1) : Nat) : Rat) := by exact_mod_cast Nat.lt_log2_self
  have d1 : ((2 ^ d.log2 : Nat) : Rat) ≤ (d : Rat) := by exact_mod_cast Nat.log2_self_le (by omega)
  have d2 : (d : Rat) < ((2 ^ (d.log2 + 1) : Nat) : Rat) := by exact_mod_cast Nat.lt_log2_self
  rw [cast_pow] at p1 p2 d1 d2
  unfold exponent
  have hc := cmp_scaled p d ((p.log2 : Int) - d.log2)
  simp only []
  split
  · rename_i h
    refine ⟨hc.1 h, ?_⟩
    have := Rat.mul_le_mul_of_nonneg_left d1 (Rat.le_of_lt (two_pos ((p.log2 : Int) - d.log2 + 1)))
    rw [← Rat.zpow_add two_ne] at this
    rw [show (p.log2 : Int) - d.log2 + 1 + d.log2 = ((p.log2 + 1 : Nat) : Int) by omega] at this
    grind
  · rename_i h
    have h' := mt hc.2 h
    rw [Rat.not_le] at h'
    rw [Int.sub_add_cancel]
    refine ⟨Rat.le_trans ?_ p1, h'⟩
    have := Rat.mul_le_mul_of_nonneg_left (Rat.le_of_lt d2) (Rat.le_of_lt (two_pos ((p.log2 : Int) - d.log2 - 1)))
    rw [← Rat.zpow_add two_ne] at this
    rwa [show (p.log2 : Int) - d.log2 - 1 + ((d.log2 + 1 : Nat) : Int) = p.log2 by omega] at this

/-- `significand` is the multiple of the last place that is nearest to `p/d`; here `x` is `p/d` in units of the last place. -/
theorem significand_spec (p : Nat) {d : Nat} (hd : 0 < d) : ∃ x : Rat, (p : Rat) = x * 2 ^ lastPlace p d * d ∧
    2 * (significand p d : Rat) ≤ 2 * x + 1 ∧ 2 * x ≤ 2 * (significand p d : Rat) + 1 ∧
    ((2 * x = 2 * (significand p d : Rat) + 1 ∨ 2 * x + 1 = 2 * (significand p d : Rat)) → significand p d % 2 = 0) := by
  have h := two_split (lastPlace p d)
  have hu := two_pos (lastPlace p d)
  have hB : 0 < d * 2 ^ (lastPlace p d).toNat := Nat.mul_pos hd (Nat.two_pow_pos _)
  have hn := nearest_spec (p * 2 ^ (-lastPlace p d).toNat) hB
  rw [← show significand p d = nearest (p * 2 ^ (-lastPlace p d).toNat) (d * 2 ^ (lastPlace p d).toNat) from rfl] at hn
  generalize (2 : Rat) ^ lastPlace p d = U at h hu ⊢
  have hN : (0 : Rat) < ((2 ^ (-lastPlace p d).toNat : Nat) : Rat) := by exact_mod_cast Nat.two_pow_pos _
  generalize (2 ^ (-lastPlace p d).toNat : Nat) = N at h hn hN
  generalize (2 ^ (lastPlace p d).toNat : Nat) = M at h hn hB
  generalize significand p d = m at hn ⊢
  have hd' : (0 : Rat) < (d : Rat) := by exact_mod_cast hd
  have hB' : (0 : Rat) < ((d * M : Nat) : Rat) := by exact_mod_cast hB
  have hx : ((p * N : Nat) : Rat) = ((p * N : Nat) : Rat) / ((d * M : Nat) : Rat) * ((d * M : Nat) : Rat) := by
    rw [Rat.div_mul_cancel (Rat.ne_of_gt hB')]
  generalize ((p * N : Nat) : Rat) / ((d * M : Nat) : Rat) = x at hx
  generalize hK : d * M = K at hn hB hB' hx
  have k1 : ((2 * (m * K) : Nat) : Rat) ≤ ((2 * (p * N) + K : Nat) : Rat) := by exact_mod_cast hn.1
  have k2 : ((2 * (p * N) : Nat) : Rat) ≤ ((2 * (m * K) + K : Nat) : Rat) := by exact_mod_cast hn.2.1
  have hK' : (K : Rat) = d * M := by rw [← hK]; exact Rat.natCast_mul _ _
  refine ⟨x, ?_, (mul_le_iff hB').1 (by grind), (mul_le_iff hB').1 (by grind), ?_⟩
  · refine (mul_eq_iff hN).1 ?_
    grind
  · intro h'
    apply hn.2.2
    rcases h' with h' | h'
    · left
      have : ((2 * (p * N) : Nat) : Rat) = ((2 * (m * K) + K : Nat) : Rat) := by
        have := congrArg (· * (K : Rat)) h'
        grind
      exact_mod_cast this
    · right
      have : ((2 * (p * N) + K : Nat) : Rat) = ((2 * (m * K) : Nat) : Rat) := by
        have := congrArg (· * (K : Rat)) h'
        grind
      exact_mod_cast this

theorem lastPlace_ge (p d : Nat) : -1074 ≤ lastPlace p d := by unfold lastPlace; omega

theorem two_add (a b : Int) : (2 : Rat) ^ (a + b) = 2 ^ a * 2 ^ b := Rat.zpow_add two_ne a b

/-- Facts about the number `p/d` in units of the last place. -/
theorem units {p d : Nat} (hp : 0 < p) (hd : 0 < d) {x : Rat} (hx : (p : Rat) = x * 2 ^ lastPlace p d * d) :
    x < 2 ^ (53 : Int) ∧ (-1074 < lastPlace p d → 2 ^ (52 : Int) ≤ x) := by
  obtain ⟨h1, h2⟩ := exponent_spec hp hd
  have hd' : (0 : Rat) < (d : Rat) := by exact_mod_cast hd
  rw [hx] at h1 h2
  have hu := two_pos (lastPlace p d)
  refine ⟨?_, fun h => ?_⟩
  · have h3 : (2 : Rat) ^ (exponent p d + 1) ≤ 2 ^ (53 + lastPlace p d) := two_mono (by unfold lastPlace; omega)
    rw [two_add 53] at h3
    apply Classical.byContradiction
    intro hn
    rw [Rat.not_lt] at hn
    have h4 := (mul_le_iff hu).2 hn
    have h5 := (mul_le_iff hd').2 (Rat.le_trans h3 h4)
    grind
  · have e : exponent p d = 52 + lastPlace p d := by unfold lastPlace at h ⊢; omega
    rw [e, two_add] at h1
    exact (mul_le_iff hu).1 ((mul_le_iff hd').1 h1)

theorem natCast_le_iff {a b : Nat} : ((a : Nat) : Rat) ≤ (b : Rat) ↔ a ≤ b := by exact_mod_cast Iff.rfl

/-- The significand has at most 53 bits, or is the next power. -/
theorem significand_le (p : Nat) {d : Nat} (hd : 0 < d) : significand p d ≤ 2 ^ 53 := by
  obtain ⟨x, h1, h2, h3, -⟩ := significand_spec p hd
  rcases Nat.eq_zero_or_pos p with rfl | hp
  · have : significand 0 d = 0 := by
      unfold significand nearest
      simp
    rw [this]; exact Nat.zero_le _
  · obtain ⟨h4, -⟩ := units hp hd h1
    have h5 : (2 * (significand p d : Rat)) < ((2 ^ 54 + 1 : Nat) : Rat) := by
      have : ((2 ^ 54 + 1 : Nat) : Rat) = 2 * 2 ^ (53 : Int) + 1 := by decide +kernel
      grind
    have h6 : ((2 * significand p d : Nat) : Rat) < ((2 ^ 54 + 1 : Nat) : Rat) := by
      rw [Rat.natCast_mul]; exact h5
    have h7 : 2 * significand p d < 2 ^ 54 + 1 := by exact_mod_cast h6
    omega

theorem abs_mul {a u : Rat} (h : 0 < u) : (a * u).abs = a.abs * u := by
  rcases Rat.le_total (a := 0) (b := a) with ha | ha
  · have := (mul_le_iff h).2 ha
    rw [Rat.abs_of_nonneg ha, Rat.abs_of_nonneg (by grind)]
  · have := (mul_le_iff h).2 ha
    rw [Rat.abs_of_nonpos ha, Rat.abs_of_nonpos (by grind)]
    grind

theorem abs_cases (a : Rat) : (0 ≤ a ∧ a.abs = a) ∨ (a ≤ 0 ∧ a.abs = -a) := by
  rcases Rat.le_total (a := 0) (b := a) with ha | ha
  · exact .inl ⟨ha, Rat.abs_of_nonneg ha⟩
  · exact .inr ⟨ha, Rat.abs_of_nonpos ha⟩

/-- Integers: `m` is nearest to `x`. -/
theorem near_int {x : Rat} {m : Int} (h2 : 2 * (m : Rat) ≤ 2 * x + 1) (h3 : 2 * x ≤ 2 * (m : Rat) + 1) (J : Int) :
    (x - m).abs ≤ (x - J).abs ∧ ((x - m).abs = (x - J).abs → J = m ∨ (2 * x = 2 * (m : Rat) + 1 ∧ J = m + 1) ∨ (2 * x + 1 = 2 * (m : Rat) ∧ J = m - 1)) := by
  rcases Int.lt_trichotomy J m with h | rfl | h
  · have h' : (J : Rat) + 1 ≤ m := by exact_mod_cast h
    have := abs_cases (x - m)
    have := abs_cases (x - J)
    refine ⟨by grind, fun e => .inr (.inr ⟨by grind, ?_⟩)⟩
    have : (J : Rat) + 1 = m := by grind
    have : J + 1 = m := by exact_mod_cast this
    omega
  · exact ⟨Rat.le_refl, fun _ => .inl rfl⟩
  · have h' : (m : Rat) + 1 ≤ J := by exact_mod_cast h
    have := abs_cases (x - m)
    have := abs_cases (x - J)
    refine ⟨by grind, fun e => .inr (.inl ⟨by grind, ?_⟩)⟩
    have : (m : Rat) + 1 = J := by grind
    have : m + 1 = J := by exact_mod_cast this
    omega

/-- Among the multiples of the last place, and among the numbers of 53 bits, `significand` is the nearest. -/
theorem pos_nearest (p : Nat) {d : Nat} (hd : 0 < d) {X : Rat} (hX : (p : Rat) = X * d) {j e : Int} (hj : j.natAbs < 2 ^ 53) (he : -1074 ≤ e) {s : Rat}
    (hs : s = (j : Rat) * 2 ^ e) :
    (X - (significand p d : Rat) * 2 ^ lastPlace p d).abs ≤ (X - s).abs ∧
    ((X - (significand p d : Rat) * 2 ^ lastPlace p d).abs = (X - s).abs → s = (significand p d : Rat) * 2 ^ lastPlace p d ∨
      significand p d % 2 = 0 ∧ (s = ((significand p d : Rat) + 1) * 2 ^ lastPlace p d ∨ s = ((significand p d : Rat) - 1) * 2 ^ lastPlace p d)) := by
  obtain ⟨x, h1, h2, h3, h4⟩ := significand_spec p hd
  have hd' : (0 : Rat) < (d : Rat) := by exact_mod_cast hd
  have hu := two_pos (lastPlace p d)
  have hXx : X = x * 2 ^ lastPlace p d := (mul_eq_iff hd').1 (by rw [← hX, h1])
  have near : ∀ J : Int, (X - (significand p d : Rat) * 2 ^ lastPlace p d).abs ≤ (X - J * 2 ^ lastPlace p d).abs ∧
      ((X - (significand p d : Rat) * 2 ^ lastPlace p d).abs = (X - J * 2 ^ lastPlace p d).abs → J = (significand p d : Int) ∨
        significand p d % 2 = 0 ∧ (J = (significand p d : Int) + 1 ∨ J = (significand p d : Int) - 1)) := by
    intro J
    obtain ⟨g1, g2⟩ := near_int (m := (significand p d : Int)) h2 h3 J
    have e1 : X - (significand p d : Rat) * 2 ^ lastPlace p d = (x - (((significand p d : Nat) : Int) : Rat)) * 2 ^ lastPlace p d := by
      rw [show (((significand p d : Nat) : Int) : Rat) = (significand p d : Rat) from rfl, hXx]; grind
    have e2 : X - J * 2 ^ lastPlace p d = (x - J) * 2 ^ lastPlace p d := by rw [hXx]; grind
    rw [e1, e2, abs_mul hu, abs_mul hu]
    refine ⟨(mul_le_iff hu).2 g1, fun h => ?_⟩
    rcases g2 ((mul_eq_iff hu).1 h) with h | ⟨h, h'⟩ | ⟨h, h'⟩
    · exact .inl h
    · exact .inr ⟨h4 (.inl h), .inl h'⟩
    · exact .inr ⟨h4 (.inr h), .inr h'⟩
  rcases Int.lt_or_le e (lastPlace p d) with hlt | hle
  · -- a smaller exponent: below the power of two that is not above `X`
    rcases Nat.eq_zero_or_pos p with rfl | hp
    · have hX0 : X = 0 := (mul_eq_iff hd').1 (by rw [← hX, Rat.zero_mul]; rfl)
      have := near 0
      have e0 : X - ((0 : Int) : Rat) * 2 ^ lastPlace 0 d = 0 := by rw [hX0, show ((0 : Int) : Rat) = 0 from rfl, Rat.zero_mul]; grind
      rw [e0] at this
      have h0 := this.1
      rw [Rat.abs_zero] at h0
      refine ⟨Rat.le_trans h0 Rat.abs_nonneg, fun h => .inl ?_⟩
      have ha := abs_cases (X - (significand 0 d : Rat) * 2 ^ lastPlace 0 d)
      have hb := abs_cases (X - s)
      grind
    · obtain ⟨-, hge⟩ := units hp hd h1
      have hge := hge (by omega)
      have hsl : s < 2 ^ (52 : Int) * 2 ^ lastPlace p d := by
        have a1 : (j : Rat) < 2 ^ (53 : Int) := by
          have : j < 2 ^ 53 := by omega
          have : (j : Rat) < ((2 ^ 53 : Int) : Rat) := by exact_mod_cast this
          have e : ((2 ^ 53 : Int) : Rat) = 2 ^ (53 : Int) := by decide +kernel
          rwa [e] at this
        have a2 := Rat.mul_lt_mul_of_pos_right a1 (two_pos e)
        have a3 : (2 : Rat) ^ (53 + e) ≤ 2 ^ (52 + lastPlace p d) := two_mono (by omega)
        rw [two_add, two_add] at a3
        grind
      have hXge := (mul_le_iff hu).2 hge
      rw [← hXx] at hXge
      have n1 := (near (2 ^ 52)).1
      have e52 : ((2 ^ 52 : Int) : Rat) = 2 ^ (52 : Int) := by decide +kernel
      rw [e52] at n1
      have c1 := abs_cases (X - 2 ^ (52 : Int) * 2 ^ lastPlace p d)
      have c2 := abs_cases (X - s)
      have : (X - (significand p d : Rat) * 2 ^ lastPlace p d).abs < (X - s).abs := by grind
      exact ⟨Rat.le_of_lt this, fun h => absurd h (Rat.ne_of_lt this)⟩
  · obtain ⟨n, hn, -⟩ := two_multiple hle
    have es : s = ((j * n : Int) : Rat) * 2 ^ lastPlace p d := by
      rw [hs, hn, Rat.intCast_mul, Rat.mul_assoc]; rfl
    obtain ⟨n1, n2⟩ := near (j * n)
    rw [← es] at n1 n2
    refine ⟨n1, fun h => ?_⟩
    rcases n2 h with h | ⟨h, h' | h'⟩
    · left; rw [es, h]; rfl
    · right; refine ⟨h, .inl ?_⟩; rw [es, h', Rat.intCast_add]; rfl
    · right; refine ⟨h, .inr ?_⟩; rw [es, h', Rat.intCast_sub]; rfl

set_option exponentiation.threshold 2000 in
/-- The value that is rounded to, and when it is out of range. -/
theorem roundFrac_eq (z : Int) (d : Nat) : roundFrac z d =
    if (2 : Rat) ^ (1024 : Int) ≤ (significand z.natAbs d : Rat) * 2 ^ lastPlace z.natAbs d then none
    else some (z.sign * ((significand z.natAbs d : Rat) * 2 ^ lastPlace z.natAbs d)) := by
  have h := two_split (lastPlace z.natAbs d)
  have hN : 0 < 2 ^ (-lastPlace z.natAbs d).toNat := Nat.two_pow_pos _
  have e0 : ((2 ^ 1024 : Nat) : Rat) = 2 ^ (1024 : Int) := cast_pow 1024
  unfold roundFrac
  simp only []
  generalize significand z.natAbs d = m
  generalize (2 ^ (-lastPlace z.natAbs d).toNat : Nat) = N at h hN ⊢
  generalize (2 ^ (lastPlace z.natAbs d).toNat : Nat) = M at h ⊢
  generalize (2 : Rat) ^ lastPlace z.natAbs d = U at h ⊢
  have hN' : (0 : Rat) < (N : Rat) := by exact_mod_cast hN
  have key : 2 ^ 1024 * N ≤ m * M ↔ (2 : Rat) ^ (1024 : Int) ≤ (m : Rat) * U := by
    have e : 2 ^ 1024 * N ≤ m * M ↔ ((2 ^ 1024 * N : Nat) : Rat) ≤ ((m * M : Nat) : Rat) := by exact_mod_cast Iff.rfl
    rw [e, Rat.natCast_mul, Rat.natCast_mul, e0, ← h, ← Rat.mul_assoc]
    exact mul_le_iff hN'
  by_cases hc : 2 ^ 1024 * N ≤ m * M
  · rw [if_pos hc, if_pos (key.1 hc)]
  · rw [if_neg hc, if_neg (mt key.2 hc)]
    congr 1
    rw [Rat.mkRat_eq_div]
    refine (mul_eq_iff hN').1 ?_
    rw [Rat.div_mul_cancel (Rat.ne_of_gt hN'), Rat.intCast_mul]
    have : (((m * M : Nat) : Int) : Rat) = (m : Rat) * (M : Rat) := by rw [← Rat.natCast_mul]; rfl
    rw [this, ← h]
    grind

/-- What is rounded to is a number of double precision. -/
theorem pos_isF64 (p : Nat) {d : Nat} (hd : 0 < d) (h : (significand p d : Rat) * 2 ^ lastPlace p d < 2 ^ (1024 : Int)) :
    IsF64 ((significand p d : Rat) * 2 ^ lastPlace p d) := by
  have hm := significand_le p hd
  have hl := lastPlace_ge p d
  rcases Nat.eq_zero_or_pos (significand p d) with h0 | hpos
  · rw [h0]
    exact ⟨0, 0, by decide, by decide, by decide, by rw [show ((0 : Nat) : Rat) = 0 from rfl, show ((0 : Int) : Rat) = 0 from rfl, Rat.zero_mul, Rat.zero_mul]⟩
  have hp : 0 < p := by
    apply Classical.byContradiction
    intro hp
    have : p = 0 := by omega
    subst this
    have : significand 0 d = 0 := by
      unfold significand nearest
      simp
    omega
  obtain ⟨x, h1, h2, h3, -⟩ := significand_spec p hd
  have hu := two_pos (lastPlace p d)
  have hu971 : lastPlace p d ≤ 971 := by
    apply Classical.byContradiction
    intro hn
    have hge := (units hp hd h1).2 (by omega)
    have : (2 : Rat) ^ (1024 : Int) ≤ 2 ^ (52 + lastPlace p d) := two_mono (by omega)
    rw [two_add] at this
    have c : (2 : Rat) ^ (52 : Int) - 1 < significand p d := by grind
    have e : (2 : Rat) ^ (52 : Int) = ((2 ^ 52 : Nat) : Rat) := (cast_pow 52).symm
    have c' : 2 ^ 52 < significand p d + 1 := by
      have : ((2 ^ 52 : Nat) : Rat) < ((significand p d + 1 : Nat) : Rat) := by rw [Rat.natCast_add, ← e]; grind
      exact_mod_cast this
    have c'' : (2 : Rat) ^ (52 : Int) ≤ significand p d := by rw [e]; exact natCast_le_iff.2 (by omega)
    have := (mul_le_iff hu).2 c''
    grind
  rcases Nat.lt_or_ge (significand p d) (2 ^ 53) with hlt | hge
  · exact ⟨significand p d, lastPlace p d, by simpa using hlt, hl, hu971, rfl⟩
  · have hm : significand p d = 2 ^ 53 := by omega
    refine ⟨2 ^ 52, lastPlace p d + 1, by decide, by omega, ?_, ?_⟩
    · apply Classical.byContradiction
      intro hn
      have : lastPlace p d = 971 := by omega
      rw [hm, this, cast_pow, ← two_add] at h
      exact absurd h (by rw [Rat.not_lt]; exact two_mono (by decide))
    · rw [hm, cast_pow, two_add]
      have : ((2 ^ 52 : Int) : Rat) = 2 ^ (52 : Int) := by decide +kernel
      rw [this, show ((53 : Nat) : Int) = 52 + 1 from rfl, two_add]
      grind

/-- A number is out of range if it is not below the middle of the largest number and the next one that there would be. -/
theorem pos_range (p : Nat) {d : Nat} (hd : 0 < d) {X : Rat} (hX : (p : Rat) = X * d) :
    2 ^ (1024 : Int) ≤ (significand p d : Rat) * 2 ^ lastPlace p d ↔ (2 : Rat) ^ (1024 : Int) - 2 ^ (970 : Int) ≤ X := by
  obtain ⟨x, h1, h2, h3, h4⟩ := significand_spec p hd
  have hd' : (0 : Rat) < (d : Rat) := by exact_mod_cast hd
  have hu := two_pos (lastPlace p d)
  have hXx : X = x * 2 ^ lastPlace p d := (mul_eq_iff hd').1 (by rw [← hX, h1])
  have hm := significand_le p hd
  have w1 : (2 : Rat) ^ (1024 : Int) = 2 ^ (53 : Int) * 2 ^ (971 : Int) := two_add 53 971
  have w2 : (2 : Rat) ^ (971 : Int) = 2 * 2 ^ (970 : Int) := two_add 1 970
  have w0 := two_pos 970
  have p53 : (2 : Rat) ^ (53 : Int) = 9007199254740992 := by decide +kernel
  have p52 : (2 : Rat) ^ (52 : Int) = 4503599627370496 := by decide +kernel
  have big : 971 < lastPlace p d → 0 < p → 2 ^ (1024 : Int) ≤ (significand p d : Rat) * 2 ^ lastPlace p d ∧ (2 : Rat) ^ (1024 : Int) ≤ X := by
    intro hn hp
    have hge := (units hp hd h1).2 (by omega)
    have hb : (2 : Rat) ^ (1024 : Int) ≤ 2 ^ (52 + lastPlace p d) := two_mono (by omega)
    rw [two_add] at hb
    have c' : 2 ^ 52 < significand p d + 1 := by
      have : ((2 ^ 52 : Nat) : Rat) < ((significand p d + 1 : Nat) : Rat) := by rw [Rat.natCast_add, cast_pow]; grind
      exact_mod_cast this
    have c'' : (2 : Rat) ^ (52 : Int) ≤ significand p d := by
      rw [show (2 : Rat) ^ (52 : Int) = ((2 ^ 52 : Nat) : Rat) from (cast_pow 52).symm]; exact natCast_le_iff.2 (by omega)
    exact ⟨Rat.le_trans hb ((mul_le_iff hu).2 c''), Rat.le_trans hb (by rw [hXx]; exact (mul_le_iff hu).2 hge)⟩
  rcases Nat.eq_zero_or_pos p with rfl | hp
  · have hX0 : X = 0 := (mul_eq_iff hd').1 (by rw [← hX, Rat.zero_mul]; rfl)
    have : significand 0 d = 0 := by
      unfold significand nearest
      simp
    rw [this, hX0, show ((0 : Nat) : Rat) = 0 from rfl, Rat.zero_mul]
    constructor <;> intro h <;> grind
  rcases Int.lt_trichotomy (lastPlace p d) 971 with hlt | he | hgt
  · have hx := (units hp hd h1).1
    have hs : (significand p d : Rat) ≤ 2 ^ (53 : Int) := by
      rw [show (2 : Rat) ^ (53 : Int) = ((2 ^ 53 : Nat) : Rat) from (cast_pow 53).symm]; exact natCast_le_iff.2 hm
    have hb : (2 : Rat) ^ lastPlace p d ≤ 2 ^ (970 : Int) := two_mono (by omega)
    have a1 := (mul_le_iff hu).2 hs
    have a2 := Rat.mul_lt_mul_of_pos_right hx hu
    have a3 := Rat.mul_le_mul_of_nonneg_left hb (show (0 : Rat) ≤ 2 ^ (53 : Int) from Rat.le_of_lt (two_pos 53))
    rw [← hXx] at a2
    constructor <;> intro h <;> grind
  · rw [he] at hXx ⊢
    have w3 := two_pos 971
    have cm : (2 : Rat) ^ (1024 : Int) ≤ (significand p d : Rat) * 2 ^ (971 : Int) ↔ 2 ^ 53 ≤ significand p d := by
      rw [w1, mul_le_iff w3, show (2 : Rat) ^ (53 : Int) = ((2 ^ 53 : Nat) : Rat) from (cast_pow 53).symm]
      exact natCast_le_iff
    have cx : (2 : Rat) ^ (1024 : Int) - 2 ^ (970 : Int) ≤ X ↔ 2 * 2 ^ (53 : Int) - 1 ≤ 2 * x := by
      rw [show (2 : Rat) ^ (1024 : Int) - 2 ^ (970 : Int) = (2 * 2 ^ (53 : Int) - 1) * 2 ^ (970 : Int) by grind, show X = 2 * x * 2 ^ (970 : Int) by grind]
      exact mul_le_iff w0
    rw [cm, cx]
    constructor
    · intro h
      have : ((2 ^ 53 : Nat) : Rat) ≤ significand p d := natCast_le_iff.2 h
      rw [cast_pow] at this
      grind
    · intro h
      apply Classical.byContradiction
      intro hn
      have hle : significand p d + 1 ≤ 2 ^ 53 := by omega
      have : ((significand p d + 1 : Nat) : Rat) ≤ ((2 ^ 53 : Nat) : Rat) := natCast_le_iff.2 hle
      rw [cast_pow, Rat.natCast_add] at this
      have e1 : ((1 : Nat) : Rat) = 1 := rfl
      rw [e1] at this
      have heq : 2 * x = 2 * (significand p d : Rat) + 1 := by grind
      have hs : (significand p d : Rat) + 1 = ((2 ^ 53 : Nat) : Rat) := by rw [cast_pow]; grind
      have hs' : significand p d + 1 = 2 ^ 53 := by
        have : ((significand p d + 1 : Nat) : Rat) = ((2 ^ 53 : Nat) : Rat) := by rw [Rat.natCast_add]; exact hs
        exact_mod_cast this
      have := h4 (.inl heq)
      omega
  · obtain ⟨b1, b2⟩ := big hgt hp
    exact ⟨fun _ => by grind, fun _ => b1⟩

/-- A number and its absolute value. -/
theorem frac_abs (q : Rat) : ∃ X : Rat, (q.num.natAbs : Rat) = X * q.den ∧ X = q.abs ∧
    ((q.num.sign = 1 ∧ q = X) ∨ (q.num.sign = -1 ∧ q = -X) ∨ (q.num.sign = 0 ∧ q = 0 ∧ X = 0)) := by
  have hd : (0 : Rat) < (q.den : Rat) := by exact_mod_cast q.den_pos
  have hq : (q.num : Rat) = q * q.den := by
    have := Rat.mkRat_self q
    rw [Rat.mkRat_eq_div] at this
    have e := congrArg (· * (q.den : Rat)) this
    simp only [Rat.div_mul_cancel (Rat.ne_of_gt hd)] at e
    exact e
  rcases Int.lt_trichotomy q.num 0 with h | h | h
  · have hn : q < 0 := by
      apply Classical.byContradiction
      intro hn
      have := (mul_le_iff hd).2 (Rat.not_lt.1 hn)
      have h' : (q.num : Rat) < ((0 : Int) : Rat) := by exact_mod_cast h
      rw [show ((0 : Int) : Rat) = 0 from rfl] at h'
      grind
    refine ⟨-q, ?_, by rw [Rat.abs_of_nonpos (Rat.le_of_lt hn)], .inr (.inl ⟨Int.sign_eq_neg_one_of_neg h, by grind⟩)⟩
    have : ((q.num.natAbs : Int) : Rat) = ((-q.num : Int) : Rat) := by congr 1; omega
    have e : ((q.num.natAbs : Int) : Rat) = (q.num.natAbs : Rat) := rfl
    rw [← e, this, Rat.intCast_neg, hq]
    grind
  · have h0 : q = 0 := Rat.num_eq_zero.1 h
    refine ⟨0, by rw [h, Rat.zero_mul]; rfl, by rw [h0]; rfl, .inr (.inr ⟨by rw [h]; rfl, h0, rfl⟩)⟩
  · have hn : 0 < q := by
      apply Classical.byContradiction
      intro hn
      have := (mul_le_iff hd).2 (Rat.not_lt.1 hn)
      have h' : ((0 : Int) : Rat) < (q.num : Rat) := by exact_mod_cast h
      rw [show ((0 : Int) : Rat) = 0 from rfl] at h'
      grind
    refine ⟨q, ?_, by rw [Rat.abs_of_nonneg (Rat.le_of_lt hn)], .inl ⟨Int.sign_eq_one_of_pos h, rfl⟩⟩
    have : ((q.num.natAbs : Int) : Rat) = ((q.num : Int) : Rat) := by congr 1; omega
    have e : ((q.num.natAbs : Int) : Rat) = (q.num.natAbs : Rat) := rfl
    rw [← e, this, hq]

/-- `round` gives the nearest number of double precision, and if another one is as near, that with the even significand. -/
theorem round_nearest {q r : Rat} (h : round q = some r) : Nearest64 q r := by
  unfold round at h
  rw [roundFrac_eq] at h
  split at h
  · cases h
  rename_i hlt
  rw [Rat.not_le] at hlt
  have hr := Option.some.inj h
  obtain ⟨X, hX, -, hsign⟩ := frac_abs q
  have hF := pos_isF64 q.num.natAbs q.den_pos hlt
  have near := fun (j e : Int) hj he s hs => pos_nearest q.num.natAbs q.den_pos hX (j := j) (e := e) hj he (s := s) hs
  generalize hR : (significand q.num.natAbs q.den : Rat) * 2 ^ lastPlace q.num.natAbs q.den = R at hF near hr
  have even : ∀ {s : Rat}, significand q.num.natAbs q.den % 2 = 0 ∧ (s = ((significand q.num.natAbs q.den : Rat) + 1) * 2 ^ lastPlace q.num.natAbs q.den ∨
      s = ((significand q.num.natAbs q.den : Rat) - 1) * 2 ^ lastPlace q.num.natAbs q.den) →
      ∃ m e : Int, R = 2 * m * 2 ^ e ∧ (s = (2 * m + 1) * 2 ^ e ∨ s = (2 * m - 1) * 2 ^ e) := by
    rintro s ⟨hev, hs⟩
    refine ⟨(significand q.num.natAbs q.den / 2 : Nat), lastPlace q.num.natAbs q.den, ?_⟩
    have e : (2 : Rat) * (((significand q.num.natAbs q.den / 2 : Nat) : Int) : Rat) = (significand q.num.natAbs q.den : Rat) := by
      have : 2 * (significand q.num.natAbs q.den / 2) = significand q.num.natAbs q.den := by omega
      have e2 : ((2 * (significand q.num.natAbs q.den / 2) : Nat) : Rat) = (significand q.num.natAbs q.den : Rat) := by rw [this]
      rw [Rat.natCast_mul] at e2
      exact e2
    rw [e]
    exact ⟨hR.symm, hs⟩
  rcases hsign with ⟨hs, hq⟩ | ⟨hs, hq⟩ | ⟨hs, hq, hX0⟩
  · rw [hs, show ((1 : Int) : Rat) = 1 from rfl, Rat.one_mul] at hr
    subst hr
    refine ⟨hF, fun s ⟨j, e, h1, h2, h3, h4⟩ => ?_⟩
    have := near j e h1 h2 s h4
    rw [← hq] at this
    refine ⟨this.1, fun he => ?_⟩
    rcases this.2 he with h | h
    · exact .inl h
    · exact .inr (even h)
  · rw [hs, show ((-1 : Int) : Rat) = -1 from rfl, Rat.neg_mul, Rat.one_mul] at hr
    have hr : r = -R := hr.symm
    subst hr
    have e0 : q - -R = -(X - R) := by grind
    unfold Nearest64
    rw [e0, Rat.abs_neg]
    refine ⟨?_, fun s ⟨j, e, h1, h2, h3, h4⟩ => ?_⟩
    · obtain ⟨m, e, h1, h2, h3, h4⟩ := hF
      exact ⟨-m, e, by omega, h2, h3, by rw [h4, Rat.intCast_neg]; grind⟩
    · have e1 : q - s = -(X - -s) := by grind
      rw [e1, Rat.abs_neg]
      have := near (-j) e (by omega) h2 (-s) (by rw [h4, Rat.intCast_neg]; grind)
      refine ⟨this.1, fun he => ?_⟩
      rcases this.2 he with h | h
      · exact .inl (by grind)
      · obtain ⟨m, e, g1, g2⟩ := even h
        refine .inr ⟨-m, e, by rw [Rat.intCast_neg]; grind, ?_⟩
        rw [Rat.intCast_neg]
        rcases g2 with g2 | g2
        · exact .inr (by grind)
        · exact .inl (by grind)
  · rw [hs, show ((0 : Int) : Rat) = 0 from rfl, Rat.zero_mul] at hr
    subst hr
    subst hq
    refine ⟨⟨0, 0, by decide, by decide, by decide, by rw [show ((0 : Int) : Rat) = 0 from rfl, Rat.zero_mul]⟩, fun s _ => ?_⟩
    rw [show (0 : Rat) - 0 = 0 by grind, Rat.abs_zero]
    refine ⟨Rat.abs_nonneg, fun he => .inl ?_⟩
    have := abs_cases (0 - s)
    grind

/-- Numbers are out of range if they are not below the middle of the largest number of double precision and the power of two above it. -/
theorem round_range (q : Rat) : round q = none ↔ (2 : Rat) ^ (1024 : Int) - 2 ^ (970 : Int) ≤ q.abs := by
  obtain ⟨X, hX, ha, -⟩ := frac_abs q
  unfold round
  rw [roundFrac_eq, ← ha, ← pos_range q.num.natAbs q.den_pos hX]
  split
  · rename_i h; exact ⟨fun _ => h, fun _ => rfl⟩
  · rename_i h; exact ⟨(fun e => nomatch e), fun e => absurd e h⟩

theorem round_within (q : Rat) : (∃ r, round q = some r) ↔ Within64 q := by
  have := round_range q
  unfold Within64
  rw [← Rat.not_le, ← this]
  cases round q with
  | none => simp
  | some r => simp

/-- Odd multiples of a power are not even multiples of a power that is not smaller. -/
theorem odd_even {m m' e e' : Int} {c : Int} (hc : c = 1 ∨ c = -1) (hle : e ≤ e') (h : ((2 * m + c : Int) : Rat) * 2 ^ e = ((2 * m' : Int) : Rat) * 2 ^ e') :
    False := by
  obtain ⟨n, hn, -⟩ := two_multiple hle
  rw [hn, ← Rat.mul_assoc] at h
  have h := (mul_eq_iff (two_pos e)).1 h
  have h' : ((2 * m + c : Int) : Rat) = ((2 * m' * n : Int) : Rat) := by rw [Rat.intCast_mul (2 * m')]; exact h
  have h'' : 2 * m + c = 2 * m' * n := by exact_mod_cast h'
  rw [Int.mul_assoc] at h''
  omega

theorem nearest_unique {q r r' : Rat} (h : Nearest64 q r) (h' : Nearest64 q r') : r = r' := by
  obtain ⟨f, g⟩ := h
  obtain ⟨f', g'⟩ := h'
  obtain ⟨a1, a2⟩ := g r' f'
  obtain ⟨b1, b2⟩ := g' r f
  have e := Rat.le_antisymm a1 b1
  rcases a2 e with h | ⟨m, k, h1, h2⟩
  · exact h.symm
  rcases b2 e.symm with h | ⟨m', k', h3, h4⟩
  · exact h
  exfalso
  have p1 : ∃ c : Int, (c = 1 ∨ c = -1) ∧ r' = ((2 * m + c : Int) : Rat) * 2 ^ k := by
    rcases h2 with h2 | h2
    · exact ⟨1, .inl rfl, by rw [h2, Rat.intCast_add, Rat.intCast_mul]; rfl⟩
    · exact ⟨-1, .inr rfl, by rw [h2, show 2 * m + -1 = 2 * m - 1 by omega, Rat.intCast_sub, Rat.intCast_mul]; rfl⟩
  have p2 : ∃ c : Int, (c = 1 ∨ c = -1) ∧ r = ((2 * m' + c : Int) : Rat) * 2 ^ k' := by
    rcases h4 with h2 | h2
    · exact ⟨1, .inl rfl, by rw [h2, Rat.intCast_add, Rat.intCast_mul]; rfl⟩
    · exact ⟨-1, .inr rfl, by rw [h2, show 2 * m' + -1 = 2 * m' - 1 by omega, Rat.intCast_sub, Rat.intCast_mul]; rfl⟩
  obtain ⟨c, hc, e1⟩ := p1
  obtain ⟨c', hc', e2⟩ := p2
  rcases Int.le_total k k' with hk | hk
  · exact odd_even hc hk (m := m) (m' := m') (by rw [← e1, h3, Rat.intCast_mul]; rfl)
  · exact odd_even hc' hk (m := m') (m' := m) (by rw [← e2, h1, Rat.intCast_mul]; rfl)

/-- `round` meets its specification, which determines it. -/
theorem round_iff {q r : Rat} : round q = some r ↔ Within64 q ∧ Nearest64 q r := by
  constructor
  · intro h
    exact ⟨(round_within q).1 ⟨r, h⟩, round_nearest h⟩
  · rintro ⟨h1, h2⟩
    obtain ⟨r', h⟩ := (round_within q).2 h1
    rw [h, nearest_unique (round_nearest h) h2]

end Verif.F64
