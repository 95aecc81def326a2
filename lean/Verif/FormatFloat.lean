import Verif.FmtOk

/-!
# `strconv.FormatFloat(x, 'g', -1, 64)`

`Float64Scalar` (`/repo/token/tokens.go:244-246`) formats numbers with the Go library, which is not part of the repository.  This is a model of what that
function does with these arguments (`strconv/ftoa.go`: `roundShortest`, `%e`, `%f`): the shortest sequence of digits from which the number can be read back,
the nearest one if there are two of them.  It satisfies `FmtOk`.
-/

namespace Verif.GoFmt

/-- The position of the decimal point in the digits of a number: `10^(p-1) ≤ q < 10^p`.  (`10^340 * q` is at least 1 for all numbers of type `float64`.) -/
def decPoint (q : Rat) : Int := (itoa (q * 10 ^ 340).floor.toNat).length - 340

/-- Go library: `roundShortest`.  `n` digits, then `n + 1` and so on: those of the number itself, cut off or rounded up, if the number can be read back from
them; if both are possible those which are nearer, and the even one in the middle.  The result are the digits as an integer and its exponent. -/
def shortest (q : Rat) : Nat → Nat → Nat × Int
  | 0, _ => (0, 0)
  | f + 1, n =>
    let p := decPoint q - n
    let x := q * 10 ^ (-p)
    let d := x.floor.toNat
    let down := F64.round (d * 10 ^ p) = some q
    let up := F64.round ((d + 1 : Nat) * 10 ^ p) = some q
    if down ∧ up then (if 2 * (x - d) < 1 ∨ (2 * (x - d) = 1 ∧ d % 2 = 0) then d else d + 1, p)
    else if down then (d, p)
    else if up then (d + 1, p)
    else shortest q f (n + 1)

/-- Without zeros at the end. -/
def strip : Nat → Nat × Int → Nat × Int
  | 0, x => x
  | f + 1, (d, p) => if d % 10 = 0 then strip f (d / 10, p + 1) else (d, p)

/-- Zeros. -/
def zeros (n : Nat) : Bytes := List.replicate n 0x30

/-- Go library: `fmtE`: one digit before the point, and at least two digits of the exponent. -/
def fmtE (ds : Bytes) (e : Int) : Bytes :=
  ds.take 1 ++ ((if 1 < ds.length then 0x2E :: ds.drop 1 else []) ++
    0x65 :: (if e < 0 then 0x2D else 0x2B) :: ((if e.natAbs < 10 then [0x30] else []) ++ itoa e.natAbs))

/-- Go library: `fmtF`. -/
def fmtF (ds : Bytes) (dp : Int) : Bytes :=
  (if 0 < dp then ds.take dp.toNat ++ zeros (dp.toNat - ds.length) else [0x30]) ++
    (if dp < ds.length then 0x2E :: (zeros (-dp).toNat ++ ds.drop dp.toNat) else [])

/-- Go library: the case of `%g` in `formatDigits`. -/
def fmtG (ds : Bytes) (dp : Int) : Bytes := if dp - 1 < -4 ∨ 6 ≤ dp - 1 then fmtE ds (dp - 1) else fmtF ds dp

/-- Positive numbers.  17 digits are always enough. -/
def fmtPos (q : Rat) : Bytes :=
  let (d, p) := strip 20 (shortest q 17 1)
  fmtG (itoa d) ((itoa d).length + p)

/-- Go library: `FormatFloat(x, 'g', -1, 64)` for finite numbers (zero without sign). -/
def formatFloat (q : Rat) : Bytes := if q = 0 then b%"0" else if q < 0 then 0x2D :: fmtPos (-q) else fmtPos q

/-! ## Doubles have gaps -/

/-- Significands of 53 bits unless the exponent is the smallest one. -/
theorem normal {q : Rat} (h : F64.IsF64 q) (hq : 0 < q) : ∃ (m : Nat) (e : Int), m < 2 ^ 53 ∧ -1074 ≤ e ∧ e ≤ 971 ∧ q = m * 2 ^ e ∧
    (e = -1074 ∨ 2 ^ 52 ≤ m) := by
  obtain ⟨m, e, h1, h2, h3, rfl⟩ := h
  have hm : 0 < m := by
    apply Classical.byContradiction
    intro hn
    have : (m : Rat) ≤ 0 := by exact_mod_cast Int.not_lt.1 hn
    have := (F64.mul_le_iff (F64.two_pos e)).2 this
    grind
  obtain ⟨n, rfl⟩ := Int.eq_ofNat_of_zero_le (Int.le_of_lt hm)
  have gen : ∀ (k : Nat) (n : Nat) (e : Int), 0 < n → n < 2 ^ 53 → -1074 ≤ e → e ≤ 971 → e + 1074 = k →
      ∃ (m : Nat) (e' : Int), m < 2 ^ 53 ∧ -1074 ≤ e' ∧ e' ≤ 971 ∧ (n : Rat) * 2 ^ e = m * 2 ^ e' ∧ (e' = -1074 ∨ 2 ^ 52 ≤ m) := by
    intro k
    induction k with
    | zero => intro n e h0 h1 h2 h3 h4; exact ⟨n, e, h1, h2, h3, rfl, .inl (by omega)⟩
    | succ k ih =>
      intro n e h0 h1 h2 h3 h4
      by_cases hb : 2 ^ 52 ≤ n
      · exact ⟨n, e, h1, h2, h3, rfl, .inr hb⟩
      obtain ⟨m, e', a1, a2, a3, a4, a5⟩ := ih (2 * n) (e - 1) (by omega) (by omega) (by omega) (by omega) (by omega)
      refine ⟨m, e', a1, a2, a3, ?_, a5⟩
      rw [← a4, Rat.natCast_mul]
      have : (2 : Rat) ^ e = 2 ^ (e - 1) * 2 := by
        have := F64.two_add (e - 1) 1
        rw [show e - 1 + 1 = e by omega] at this
        exact this
      rw [this]
      have : ((2 : Nat) : Rat) = 2 := rfl
      grind
  obtain ⟨k, hk⟩ := Int.eq_ofNat_of_zero_le (show 0 ≤ e + 1074 by omega)
  exact gen k n e (by omega) (by omega) h2 h3 hk

theorem natCast_lt_iff {a b : Nat} : ((a : Nat) : Rat) < (b : Rat) ↔ a < b := by exact_mod_cast Iff.rfl

theorem int_le {m : Int} (h : m.natAbs < 2 ^ 53) : (m : Rat) ≤ 2 ^ 53 - 1 := by
  have : (m : Rat) ≤ ((9007199254740991 : Int) : Rat) := Rat.intCast_le_intCast.2 (by omega)
  have e : ((9007199254740991 : Int) : Rat) = 2 ^ 53 - 1 := by decide +kernel
  rwa [e] at this

/-- The distance of a double to any other one. -/
theorem gap {q s : Rat} (hq : F64.IsF64 q) (hs : F64.IsF64 s) (h0 : 0 < q) (hne : q ≠ s) : q ≤ 2 ^ 53 * (q - s).abs := by
  obtain ⟨m, e, h1, h2, h3, rfl, h5⟩ := normal hq h0
  obtain ⟨m', e', g1, g2, g3, rfl⟩ := hs
  have hp := F64.two_pos e
  have hm : (m : Rat) ≤ 2 ^ 53 := by
    have : (m : Rat) ≤ ((2 ^ 53 : Nat) : Rat) := F64.natCast_le_iff.2 (by omega)
    exact this
  rcases Int.le_total e e' with he | he
  · -- both are multiples of `2^e`
    obtain ⟨j, hj, -⟩ := F64.two_multiple he
    rw [hj, ← Rat.mul_assoc] at hne ⊢
    have e1 : (m : Rat) * 2 ^ e - (m' : Rat) * j * 2 ^ e = (((m : Int) - m' * j : Int) : Rat) * 2 ^ e := by
      rw [Rat.intCast_sub, Rat.intCast_mul]
      have a : (((m : Nat) : Int) : Rat) = (m : Rat) := rfl
      have b : (((j : Nat) : Int) : Rat) = (j : Rat) := rfl
      rw [a, b]; grind
    rw [e1, F64.abs_mul hp]
    have hz : (m : Int) - m' * j ≠ 0 := by
      intro hz
      rw [hz] at e1
      apply hne
      grind
    have ha : (1 : Rat) ≤ (((m : Int) - m' * j : Int) : Rat).abs := by
      rcases Int.lt_or_gt_of_ne hz with h | h
      · have : (((m : Int) - m' * j : Int) : Rat) ≤ ((-1 : Int) : Rat) := by exact_mod_cast (show _ ≤ (-1 : Int) by omega)
        have : (((m : Int) - m' * j : Int) : Rat) ≤ -1 := this
        rcases F64.abs_cases (((m : Int) - m' * j : Int) : Rat) with ⟨x, y⟩ | ⟨x, y⟩ <;> rw [y] <;> grind
      · have : ((1 : Int) : Rat) ≤ (((m : Int) - m' * j : Int) : Rat) := by exact_mod_cast (show (1 : Int) ≤ _ by omega)
        have : (1 : Rat) ≤ (((m : Int) - m' * j : Int) : Rat) := this
        rcases F64.abs_cases (((m : Int) - m' * j : Int) : Rat) with ⟨x, y⟩ | ⟨x, y⟩ <;> rw [y] <;> grind
    rw [← Rat.mul_assoc]
    exact (F64.mul_le_iff hp).2 (by grind)
  · rcases Int.lt_or_eq_of_le he with he | he
    · -- `s` has a smaller exponent: it is smaller
      have hm2 : 2 ^ 52 ≤ m := by rcases h5 with h5 | h5 <;> omega
      have hm3 : (2 : Rat) ^ 52 ≤ m := by
        have : ((2 ^ 52 : Nat) : Rat) ≤ (m : Rat) := F64.natCast_le_iff.2 hm2
        exact this
      have hp' := F64.two_pos (e - 1)
      have e2 : (2 : Rat) ^ e = 2 * 2 ^ (e - 1) := by
        have := F64.two_add 1 (e - 1)
        rw [show 1 + (e - 1) = e by omega] at this
        exact this
      have hsle : (m' : Rat) * 2 ^ e' ≤ (2 ^ 53 - 1) * 2 ^ (e - 1) := by
        have a : (m' : Rat) ≤ 2 ^ 53 - 1 := int_le g1
        have b := (F64.mul_le_iff (F64.two_pos e')).2 a
        have c := F64.two_mono (show e' ≤ e - 1 by omega)
        have d : ((2 : Rat) ^ 53 - 1) * 2 ^ e' ≤ (2 ^ 53 - 1) * 2 ^ (e - 1) := by
          rw [Rat.mul_comm, Rat.mul_comm (2 ^ 53 - 1)]
          exact (F64.mul_le_iff (by decide +kernel)).2 c
        exact Rat.le_trans b d
      have hd : (2 * (m : Rat) - (2 ^ 53 - 1)) * 2 ^ (e - 1) ≤ (m : Rat) * 2 ^ e - m' * 2 ^ e' := by rw [e2]; grind
      have hpos : (0 : Rat) ≤ (m : Rat) * 2 ^ e - m' * 2 ^ e' := by
        refine Rat.le_trans ?_ hd
        have := (F64.mul_le_iff hp').2 (show (0 : Rat) ≤ 2 * (m : Rat) - (2 ^ 53 - 1) by grind)
        grind
      rw [Rat.abs_of_nonneg hpos]
      have h6 : (m : Rat) * 2 ^ e ≤ 2 ^ 53 * ((2 * (m : Rat) - (2 ^ 53 - 1)) * 2 ^ (e - 1)) := by
        rw [e2, ← Rat.mul_assoc, ← Rat.mul_assoc]
        exact (F64.mul_le_iff hp').2 (by grind)
      grind
    · subst he
      have e1 : (m : Rat) * 2 ^ e' - (m' : Rat) * 2 ^ e' = (((m : Int) - m' : Int) : Rat) * 2 ^ e' := by
        rw [Rat.intCast_sub]
        have a : (((m : Nat) : Int) : Rat) = (m : Rat) := rfl
        rw [a]; grind
      rw [e1, F64.abs_mul hp]
      have hz : (m : Int) - m' ≠ 0 := by
        intro hz
        rw [hz] at e1
        apply hne
        grind
      have ha : (1 : Rat) ≤ (((m : Int) - m' : Int) : Rat).abs := by
        rcases Int.lt_or_gt_of_ne hz with h | h
        · have : (((m : Int) - m' : Int) : Rat) ≤ ((-1 : Int) : Rat) := by exact_mod_cast (show _ ≤ (-1 : Int) by omega)
          have : (((m : Int) - m' : Int) : Rat) ≤ -1 := this
          rcases F64.abs_cases (((m : Int) - m' : Int) : Rat) with ⟨x, y⟩ | ⟨x, y⟩ <;> rw [y] <;> grind
        · have : ((1 : Int) : Rat) ≤ (((m : Int) - m' : Int) : Rat) := by exact_mod_cast (show (1 : Int) ≤ _ by omega)
          have : (1 : Rat) ≤ (((m : Int) - m' : Int) : Rat) := this
          rcases F64.abs_cases (((m : Int) - m' : Int) : Rat) with ⟨x, y⟩ | ⟨x, y⟩ <;> rw [y] <;> grind
      rw [← Rat.mul_assoc]
      exact (F64.mul_le_iff hp).2 (by grind)

/-- What is near to a double is read as this double. -/
theorem round_near {q d : Rat} (hq : F64.IsF64 q) (h0 : 0 < q) (h : 2 ^ 54 * (d - q).abs < q) : F64.round d = some q := by
  refine F64.round_iff.2 ⟨?_, hq, ?_⟩
  · have hw := hq
    obtain ⟨m, e, h1, h2, h3, h4⟩ := hw
    have hle : q ≤ (2 ^ 53 - 1) * 2 ^ (971 : Int) := by
      rw [h4]
      have a : (m : Rat) ≤ 2 ^ 53 - 1 := int_le h1
      have b := (F64.mul_le_iff (F64.two_pos e)).2 a
      have c := F64.two_mono h3
      have d : ((2 : Rat) ^ 53 - 1) * 2 ^ e ≤ (2 ^ 53 - 1) * 2 ^ (971 : Int) := by
        rw [Rat.mul_comm, Rat.mul_comm (2 ^ 53 - 1)]
        exact (F64.mul_le_iff (by decide +kernel)).2 c
      exact Rat.le_trans b d
    have hk : ((2 : Rat) ^ 53 - 1) * 2 ^ (971 : Int) * (2 ^ 54 + 1) < 2 ^ 54 * (2 ^ (1024 : Int) - 2 ^ (970 : Int)) := by decide +kernel
    unfold F64.Within64
    generalize ((2 : Rat) ^ 53 - 1) * 2 ^ (971 : Int) = A at *
    generalize (2 : Rat) ^ (1024 : Int) - 2 ^ (970 : Int) = B at *
    rcases F64.abs_cases (d - q) with ⟨x, y⟩ | ⟨x, y⟩ <;> rcases F64.abs_cases d with ⟨x', y'⟩ | ⟨x', y'⟩ <;> rw [y] at h <;> rw [y'] <;> grind
  · intro s hs
    by_cases hne : q = s
    · subst hne; exact ⟨Rat.le_refl, fun _ => .inl rfl⟩
    have hg := gap hq hs h0 hne
    have hlt : (d - q).abs < (d - s).abs := by
      rcases F64.abs_cases (d - q) with ⟨x, y⟩ | ⟨x, y⟩ <;> rcases F64.abs_cases (d - s) with ⟨x', y'⟩ | ⟨x', y'⟩ <;>
        rcases F64.abs_cases (q - s) with ⟨x2, y2⟩ | ⟨x2, y2⟩ <;> rw [y] at h ⊢ <;> rw [y'] <;> rw [y2] at hg <;> grind
    exact ⟨Rat.le_of_lt hlt, fun e => absurd e (Rat.ne_of_lt hlt)⟩

/-! ## 17 digits are enough -/

theorem ten_pos (n : Int) : (0 : Rat) < 10 ^ n := Rat.zpow_pos (by decide)

theorem ten_add (a b : Int) : (10 : Rat) ^ (a + b) = 10 ^ a * 10 ^ b := Rat.zpow_add (by decide) a b

theorem ten_nat (n : Nat) : ((10 ^ n : Nat) : Rat) = (10 : Rat) ^ (n : Int) := by rw [Rat.natCast_pow, Rat.zpow_natCast]; rfl

theorem itoa_length {n : Nat} (h : 0 < n) : 0 < (itoa n).length ∧ 10 ^ ((itoa n).length - 1) ≤ n := by
  induction n using itoa.induct with
  | case1 n hn => rw [itoa, if_pos hn]; simp; omega
  | case2 n hn ih =>
    rw [itoa, if_neg hn]
    obtain ⟨h1, h2⟩ := ih (by omega)
    simp only [List.length_append, List.length_singleton, Nat.add_sub_cancel]
    refine ⟨by omega, ?_⟩
    have : (itoa (n / 10)).length = ((itoa (n / 10)).length - 1) + 1 := by omega
    rw [this, Nat.pow_succ]
    omega

theorem floor_cast {x : Rat} (h : 0 ≤ x) : (x.floor.toNat : Rat) ≤ x ∧ x < (x.floor.toNat : Rat) + 1 := by
  have h1 := Rat.floor_le x
  have h2 := Rat.lt_floor (x := x)
  have h3 : 0 ≤ x.floor := Rat.le_floor_iff.2 h
  have e : ((x.floor.toNat : Nat) : Rat) = ((x.floor : Int) : Rat) := by
    have : ((x.floor.toNat : Nat) : Int) = x.floor := Int.toNat_of_nonneg h3
    exact congrArg (fun z : Int => (z : Rat)) this
  rw [e]
  exact ⟨h1, by grind⟩

/-- The first digit is not zero. -/
theorem decPoint_le {q : Rat} (h : F64.IsF64 q) (h0 : 0 < q) : (10 : Rat) ^ (decPoint q - 1) ≤ q := by
  obtain ⟨m, e, h1, h2, h3, h4⟩ := h
  have hm : 0 < m := by
    apply Classical.byContradiction
    intro hn
    have : (m : Rat) ≤ 0 := by exact_mod_cast Int.not_lt.1 hn
    have := (F64.mul_le_iff (F64.two_pos e)).2 this
    grind
  have hm1 : (1 : Rat) ≤ m := by
    have : ((1 : Int) : Rat) ≤ (m : Rat) := Rat.intCast_le_intCast.2 (by omega)
    exact this
  have hq : (2 : Rat) ^ (-1074 : Int) ≤ q := by
    have a := F64.two_mono h2
    have b := (F64.mul_le_iff (F64.two_pos e)).2 hm1
    grind
  have hk : (1 : Rat) ≤ 2 ^ (-1074 : Int) * 10 ^ 340 := by decide +kernel
  have hx : (1 : Rat) ≤ q * 10 ^ 340 := by
    have := (F64.mul_le_iff (show (0 : Rat) < 10 ^ 340 by decide +kernel)).2 hq
    exact Rat.le_trans hk this
  have hf := floor_cast (show 0 ≤ q * 10 ^ 340 by grind)
  have hn : 0 < (q * 10 ^ 340).floor.toNat := by
    have : 1 ≤ (q * 10 ^ 340).floor := Rat.le_floor_iff.2 hx
    omega
  unfold decPoint
  generalize (q * 10 ^ 340).floor.toNat = N at *
  obtain ⟨l1, l2⟩ := itoa_length hn
  generalize (itoa N).length = L at *
  have h5 : ((10 ^ (L - 1) : Nat) : Rat) ≤ q * 10 ^ 340 := Rat.le_trans (F64.natCast_le_iff.2 l2) hf.1
  rw [ten_nat] at h5
  have e1 : (10 : Rat) ^ ((L - 1 : Nat) : Int) = 10 ^ ((L : Int) - 340 - 1) * 10 ^ (340 : Int) := by
    rw [← ten_add]; congr 1; omega
  rw [e1] at h5
  exact (F64.mul_le_iff (show (0 : Rat) < 10 ^ 340 by decide +kernel)).1 h5

/-- The number can be read back from its digits. -/
theorem shortest_round {q : Rat} (h : F64.IsF64 q) (h0 : 0 < q) : ∀ f n, n + f = 18 → 0 < f →
    F64.round ((shortest q f n).1 * 10 ^ (shortest q f n).2) = some q := by
  intro f
  induction f with
  | zero => intro n _ hf; omega
  | succ f ih =>
    intro n hn _
    simp only [shortest]
    split
    · rename_i hb
      split
      · exact hb.1
      · exact hb.2
    split
    · rename_i hd; exact hd
    split
    · rename_i hu; exact hu
    rename_i hnd hnu
    rcases Nat.eq_zero_or_pos f with rfl | hf
    · exfalso
      obtain rfl : n = 17 := by omega
      have hp := decPoint_le h h0
      generalize hpd : decPoint q - (17 : Nat) = p at *
      have e1 : decPoint q - 1 = 16 + p := by omega
      rw [e1, ten_add] at hp
      have hpp := ten_pos p
      have hx : q = q * 10 ^ (-p) * 10 ^ p := by
        rw [Rat.mul_assoc, ← ten_add]
        have : -p + p = 0 := by omega
        rw [this, Rat.zpow_zero, Rat.mul_one]
      have hxp : 0 ≤ q * 10 ^ (-p) := by
        have := Rat.mul_pos h0 (ten_pos (-p))
        grind
      have hfl := floor_cast hxp
      generalize (q * 10 ^ (-p)).floor.toNat = d at *
      generalize q * 10 ^ (-p) = x at *
      have h16 : (10 : Rat) ^ (16 : Int) = 10000000000000000 := by decide +kernel
      rw [h16] at hp
      have key : ∀ y : Rat, (y - x).abs * 2 ≤ 1 → F64.round (y * 10 ^ p) = some q := by
        intro y hy
        apply round_near h h0
        have e2 : y * 10 ^ p - q = (y - x) * 10 ^ p := by rw [hx]; grind
        rw [e2, F64.abs_mul hpp]
        have h3 : 2 ^ 54 * ((y - x).abs * 10 ^ p) ≤ 2 ^ 53 * 10 ^ p := by
          have a := (F64.mul_le_iff hpp).2 hy
          grind
        have h4 : (2 : Rat) ^ 53 * 10 ^ p < 10000000000000000 * 10 ^ p := Rat.mul_lt_mul_of_pos_right (by decide +kernel) hpp
        grind
      by_cases hh : 2 * (x - d) ≤ 1
      · apply hnd
        apply key
        rcases F64.abs_cases ((d : Rat) - x) with ⟨a, b⟩ | ⟨a, b⟩ <;> rw [b] <;> grind
      · apply hnu
        apply key
        have e : ((d + 1 : Nat) : Rat) = (d : Rat) + 1 := by rw [Rat.natCast_add]; rfl
        rw [e]
        rcases F64.abs_cases ((d : Rat) + 1 - x) with ⟨a, b⟩ | ⟨a, b⟩ <;> rw [b] <;> grind
    · exact ih (n + 1) (by omega) hf

theorem strip_val : ∀ f x, ((strip f x).1 : Rat) * 10 ^ (strip f x).2 = x.1 * 10 ^ x.2 := by
  intro f
  induction f with
  | zero => intro x; rfl
  | succ f ih =>
    rintro ⟨d, p⟩
    unfold strip
    split
    · rename_i h
      rw [ih]
      show ((d / 10 : Nat) : Rat) * 10 ^ (p + 1) = d * 10 ^ p
      have : (d : Rat) = ((d / 10 : Nat) : Rat) * 10 := by
        have : d = d / 10 * 10 := by omega
        have e : ((d : Nat) : Rat) = ((d / 10 * 10 : Nat) : Rat) := by rw [← this]
        rw [e, Rat.natCast_mul]; rfl
      rw [this, ten_add]
      have : (10 : Rat) ^ (1 : Int) = 10 := by decide +kernel
      rw [this]; grind
    · rfl

/-! ## The notation -/

theorem digitsVal_concat (a b : Bytes) : digitsVal (a ++ b) = digitsVal a * 10 ^ b.length + digitsVal b := by
  have gen : ∀ (b : Bytes) (n : Nat), b.foldl (fun n d => 10 * n + (d.toNat - 0x30)) n =
      n * 10 ^ b.length + b.foldl (fun n d => 10 * n + (d.toNat - 0x30)) 0 := by
    intro b
    induction b with
    | nil => intro n; simp
    | cons x l ih =>
      intro n
      rw [List.foldl_cons, List.foldl_cons, ih, ih (10 * 0 + _), List.length_cons, Nat.pow_succ]
      grind
  unfold digitsVal
  rw [List.foldl_append, gen]

theorem digitsVal_zeros (n : Nat) : digitsVal (zeros n) = 0 := by
  induction n with
  | zero => rfl
  | succ n ih =>
    rw [zeros, List.replicate_succ']
    rw [JpvTree.digitsVal_append]
    show 10 * digitsVal (zeros n) + _ = 0
    rw [ih]; rfl

theorem zeros_digit (n : Nat) : ∀ x ∈ zeros n, Rfc8259.Digit x := by
  intro x hx
  rw [zeros, List.mem_replicate] at hx
  rw [hx.2]; exact ⟨by decide, by decide⟩

/-- An integer and an exponent. -/
theorem absVal_int {i r : Bytes} (hi : ∀ x ∈ i, Rfc8259.Digit x) (hr : ∀ x r', r = x :: r' → isDig x = false ∧ x ≠ 0x2E) :
    absVal (i ++ r) = digitsVal i * 10 ^ expVal r := by
  obtain ⟨h1, h2⟩ := GoJson.take_digits hi (fun x r' e => (hr x r' e).1)
  have h3 : fracOf r = ([], r) := by
    unfold fracOf
    split
    · exact absurd rfl (hr _ _ rfl).2
    · rfl
  unfold absVal
  rw [h1, h2, h3]
  simp

/-- An integer, a fraction and an exponent. -/
theorem absVal_frac {i f r : Bytes} (hi : ∀ x ∈ i, Rfc8259.Digit x) (hf : ∀ x ∈ f, Rfc8259.Digit x)
    (hr : ∀ x r', r = x :: r' → isDig x = false) : absVal (i ++ 0x2E :: (f ++ r)) = digitsVal (i ++ f) * 10 ^ (expVal r - f.length) := by
  obtain ⟨h1, h2⟩ := GoJson.take_digits (ds := i) (r := 0x2E :: (f ++ r)) hi (by intro x r' e; cases e; decide)
  obtain ⟨h3, h4⟩ := GoJson.take_digits hf hr
  have h5 : fracOf (0x2E :: (f ++ r)) = (f, r) := by rw [fracOf, h3, h4]
  unfold absVal
  rw [h1, h2, h5]

/-- Digits without a zero at the start. -/
def Lead (ds : Bytes) : Prop := ∃ d r, ds = d :: r ∧ 0x31 ≤ d ∧ d ≤ 0x39 ∧ ∀ x ∈ r, Rfc8259.Digit x

theorem Lead.all {ds : Bytes} (h : Lead ds) : ∀ x ∈ ds, Rfc8259.Digit x := by
  obtain ⟨d, r, rfl, h1, h2, h3⟩ := h
  intro x hx
  rcases List.mem_cons.1 hx with rfl | hx
  · exact ⟨UInt8.le_trans (by decide : (0x30 : UInt8) ≤ 0x31) h1, h2⟩
  · exact h3 x hx

theorem itoa_lead {n : Nat} (h : 0 < n) : Lead (itoa n) := by
  rcases JpvTree.itoa_int n with h' | ⟨d, ds, h1, h2, h3, h'⟩
  · have := JpvTree.itoa_val n
    rw [h'] at this
    have : n = 0 := this.symm
    omega
  · exact ⟨d, ds, h', h1, h2, h3⟩

/-- `%e` -/
theorem fmtE_ok {ds : Bytes} (h : Lead ds) (e : Int) : (∃ i f x, Rfc8259.IntPart i ∧ (f = [] ∨ Rfc8259.FracPart f) ∧ (x = [] ∨ Rfc8259.ExpPart x) ∧
    fmtE ds e = i ++ (f ++ x)) ∧ absVal (fmtE ds e) = digitsVal ds * 10 ^ (e - ds.length + 1) := by
  obtain ⟨d, r, rfl, h1, h2, h3⟩ := h
  generalize hx : 0x65 :: (if e < 0 then (0x2D : Byte) else 0x2B) :: ((if e.natAbs < 10 then [0x30] else []) ++ itoa e.natAbs) = x
  have hd : ∀ y ∈ ((if e.natAbs < 10 then [0x30] else []) ++ itoa e.natAbs : Bytes), Rfc8259.Digit y := by
    intro y hy
    rcases List.mem_append.1 hy with hy | hy
    · split at hy
      · simp only [List.mem_singleton] at hy; subst hy; exact ⟨by decide, by decide⟩
      · simp at hy
    · exact JPath.itoa_digits _ _ hy
  have hn : ((if e.natAbs < 10 then [0x30] else []) ++ itoa e.natAbs : Bytes) ≠ [] := by
    intro h; exact JPath.itoa_ne _ (List.append_eq_nil_iff.1 h).2
  have hv : digitsVal ((if e.natAbs < 10 then [0x30] else []) ++ itoa e.natAbs) = e.natAbs := by
    rw [digitsVal_concat, JpvTree.itoa_val]
    split <;> simp [digitsVal]
  have hX : Rfc8259.ExpPart x := by
    refine ⟨0x65, [if e < 0 then (0x2D : Byte) else 0x2B], _, .inl rfl, ?_, hn, hd, hx.symm⟩
    split
    · exact .inr (.inl rfl)
    · exact .inr (.inr rfl)
  have hE : expVal x = e := by
    rw [← hx]
    split
    · rename_i hl; show -(digitsVal _ : Int) = e; rw [hv]; omega
    · rename_i hl; show (digitsVal _ : Int) = e; rw [hv]; omega
  have hdg : Rfc8259.Digit d := ⟨UInt8.le_trans (by decide : (0x30 : UInt8) ≤ 0x31) h1, h2⟩
  have hxs : ∀ y r', x = y :: r' → isDig y = false ∧ y ≠ 0x2E := by
    intro y r' e; rw [← hx] at e; cases e; decide
  unfold fmtE
  rw [hx]
  cases r with
  | nil =>
    refine ⟨⟨[d], [], x, .inr ⟨d, [], h1, h2, by simp, rfl⟩, .inl rfl, .inr hX, rfl⟩, ?_⟩
    show absVal ([d] ++ x) = _
    rw [absVal_int (by simpa using hdg) hxs, hE]
    congr 2
    simp only [List.length_singleton]; omega
  | cons y r =>
    have hf : (if 1 < (d :: y :: r).length then 0x2E :: (d :: y :: r).drop 1 else [] : Bytes) = 0x2E :: y :: r := by simp
    rw [hf]
    refine ⟨⟨[d], 0x2E :: y :: r, x, .inr ⟨d, [], h1, h2, by simp, rfl⟩, .inr ⟨y :: r, by simp, h3, rfl⟩, .inr hX, rfl⟩, ?_⟩
    show absVal ([d] ++ 0x2E :: ((y :: r) ++ x)) = _
    rw [absVal_frac (by simpa using hdg) h3 (fun z r' e => (hxs z r' e).1), hE]
    congr 2
    simp only [List.length_cons]; omega

/-- `%f` -/
theorem fmtF_ok {ds : Bytes} (h : Lead ds) (dp : Int) : (∃ i f x, Rfc8259.IntPart i ∧ (f = [] ∨ Rfc8259.FracPart f) ∧ (x = [] ∨ Rfc8259.ExpPart x) ∧
    fmtF ds dp = i ++ (f ++ x)) ∧ absVal (fmtF ds dp) = digitsVal ds * 10 ^ (dp - ds.length) := by
  have hl := h.all
  have hpos : 0 < ds.length := by obtain ⟨d, r, rfl, -⟩ := h; simp
  unfold fmtF
  by_cases h0 : 0 < dp
  · rw [if_pos h0]
    by_cases h1 : dp < ds.length
    · rw [if_pos h1]
      have e1 : zeros (dp.toNat - ds.length) = [] := by
        have : dp.toNat - ds.length = 0 := by omega
        rw [this]; rfl
      have e2 : zeros (-dp).toNat = [] := by
        have : (-dp).toNat = 0 := by omega
        rw [this]; rfl
      rw [e1, e2, List.append_nil, List.nil_append]
      have hL : Lead (ds.take dp.toNat) := by
        obtain ⟨d, r, rfl, a, b, c⟩ := h
        obtain ⟨k, hk⟩ : ∃ k, dp.toNat = k + 1 := ⟨dp.toNat - 1, by omega⟩
        rw [hk]
        exact ⟨d, r.take k, rfl, a, b, fun x hx => c x (List.mem_of_mem_take hx)⟩
      have hD : ∀ x ∈ ds.drop dp.toNat, Rfc8259.Digit x := fun x hx => hl x (List.mem_of_mem_drop hx)
      have hne : ds.drop dp.toNat ≠ [] := by
        intro e
        have := congrArg List.length e
        simp only [List.length_drop, List.length_nil] at this
        omega
      obtain ⟨d, r, e, a, b, c⟩ := id hL
      refine ⟨⟨ds.take dp.toNat, 0x2E :: ds.drop dp.toNat, [], .inr ⟨d, r, a, b, c, e⟩, .inr ⟨_, hne, hD, rfl⟩, .inl rfl, by simp⟩, ?_⟩
      have := absVal_frac hL.all hD (r := []) (fun _ _ e => nomatch e)
      rw [List.append_nil] at this
      rw [this, List.take_append_drop]
      congr 2
      simp only [expVal, List.length_drop]
      omega
    · rw [if_neg h1, List.append_nil]
      have e1 : ds.take dp.toNat = ds := List.take_of_length_le (by omega)
      rw [e1]
      obtain ⟨d, r, rfl, a, b, c⟩ := id h
      have hD : ∀ x ∈ d :: r ++ zeros (dp.toNat - (d :: r).length), Rfc8259.Digit x := by
        intro x hx
        rcases List.mem_append.1 hx with hx | hx
        · exact hl x hx
        · exact zeros_digit _ x hx
      refine ⟨⟨d :: r ++ zeros (dp.toNat - (d :: r).length), [], [], .inr ⟨d, r ++ zeros _, a, b, ?_, rfl⟩, .inl rfl, .inl rfl, by simp⟩, ?_⟩
      · intro x hx; exact hD x (List.mem_cons_of_mem _ hx)
      · have := absVal_int hD (r := []) (fun _ _ e => nomatch e)
        rw [List.append_nil] at this
        rw [this, digitsVal_concat, digitsVal_zeros, Nat.add_zero, Rat.natCast_mul, ten_nat]
        have e2 : ((zeros (dp.toNat - (d :: r).length)).length : Int) = dp - ((d :: r).length : Nat) := by
          simp only [zeros, List.length_replicate]; omega
        rw [e2]
        show _ * (10 : Rat) ^ (0 : Int) = _
        rw [Rat.zpow_zero, Rat.mul_one]
  · rw [if_neg h0, if_pos (by omega)]
    have e1 : ds.drop dp.toNat = ds := by
      have : dp.toNat = 0 := by omega
      rw [this]; rfl
    rw [e1]
    have hD : ∀ x ∈ zeros (-dp).toNat ++ ds, Rfc8259.Digit x := by
      intro x hx
      rcases List.mem_append.1 hx with hx | hx
      · exact zeros_digit _ x hx
      · exact hl x hx
    have hne : zeros (-dp).toNat ++ ds ≠ [] := by
      intro e
      have := congrArg List.length e
      simp only [List.length_append, List.length_nil] at this
      omega
    refine ⟨⟨[0x30], 0x2E :: (zeros (-dp).toNat ++ ds), [], .inl rfl, .inr ⟨_, hne, hD, rfl⟩, .inl rfl, by simp⟩, ?_⟩
    have := absVal_frac (i := [0x30]) (by intro x hx; simp only [List.mem_singleton] at hx; subst hx; exact ⟨by decide, by decide⟩) hD (r := [])
      (fun _ _ e => nomatch e)
    rw [List.append_nil] at this
    rw [this]
    have e3 : digitsVal ([0x30] ++ (zeros (-dp).toNat ++ ds)) = digitsVal ds := by
      rw [digitsVal_concat, digitsVal_concat, digitsVal_zeros]
      simp [digitsVal]
    rw [e3]
    congr 2
    simp only [expVal, zeros, List.length_append, List.length_replicate]
    omega

theorem fmtG_ok {ds : Bytes} (h : Lead ds) (dp : Int) : (∃ i f x, Rfc8259.IntPart i ∧ (f = [] ∨ Rfc8259.FracPart f) ∧ (x = [] ∨ Rfc8259.ExpPart x) ∧
    fmtG ds dp = i ++ (f ++ x)) ∧ absVal (fmtG ds dp) = digitsVal ds * 10 ^ (dp - ds.length) := by
  unfold fmtG
  split
  · obtain ⟨a, b⟩ := fmtE_ok h (dp - 1)
    refine ⟨a, ?_⟩
    rw [b]; congr 2; omega
  · exact fmtF_ok h dp

theorem fmtPos_ok {q : Rat} (h : F64.IsF64 q) (h0 : 0 < q) : (∃ i f x, Rfc8259.IntPart i ∧ (f = [] ∨ Rfc8259.FracPart f) ∧
    (x = [] ∨ Rfc8259.ExpPart x) ∧ fmtPos q = i ++ (f ++ x)) ∧ F64.round (absVal (fmtPos q)) = some q := by
  have hr := shortest_round h h0 17 1 (by omega) (by omega)
  have hv := strip_val 20 (shortest q 17 1)
  rw [← hv] at hr
  unfold fmtPos
  generalize strip 20 (shortest q 17 1) = dp at hr
  obtain ⟨d, p⟩ := dp
  have hd : 0 < d := by
    rcases Nat.eq_zero_or_pos d with rfl | h
    · exfalso
      have e : (((0 : Nat) : Rat)) * 10 ^ p = 0 := by
        have : ((0 : Nat) : Rat) = 0 := rfl
        rw [this, Rat.zero_mul]
      have hr : F64.round ((((0 : Nat) : Rat)) * 10 ^ p) = some q := hr
      rw [e] at hr
      have : F64.round 0 = some 0 := by decide +kernel
      rw [this] at hr
      cases hr
      exact absurd h0 (by decide)
    · exact h
  obtain ⟨a, b⟩ := fmtG_ok (itoa_lead hd) ((itoa d).length + p)
  refine ⟨a, ?_⟩
  show F64.round (absVal (fmtG (itoa d) ((itoa d).length + p))) = _
  rw [b, JpvTree.itoa_val]
  have : ((itoa d).length : Int) + p - (itoa d).length = p := by omega
  rw [this]
  exact hr

theorem isF64_neg {q : Rat} (h : F64.IsF64 q) : F64.IsF64 (-q) := by
  obtain ⟨m, e, h1, h2, h3, rfl⟩ := h
  exact ⟨-m, e, by omega, h2, h3, by rw [Rat.intCast_neg]; grind⟩

theorem nearest_neg {q r : Rat} (h : F64.Nearest64 q r) : F64.Nearest64 (-q) (-r) := by
  refine ⟨isF64_neg h.1, fun s hs => ?_⟩
  obtain ⟨a, b⟩ := h.2 (-s) (isF64_neg hs)
  have e1 : (-q - -r).abs = (q - r).abs := by
    rcases F64.abs_cases (-q - -r) with ⟨x, y⟩ | ⟨x, y⟩ <;> rcases F64.abs_cases (q - r) with ⟨x', y'⟩ | ⟨x', y'⟩ <;> rw [y, y'] <;> grind
  have e2 : (-q - s).abs = (q - -s).abs := by
    rcases F64.abs_cases (-q - s) with ⟨x, y⟩ | ⟨x, y⟩ <;> rcases F64.abs_cases (q - -s) with ⟨x', y'⟩ | ⟨x', y'⟩ <;> rw [y, y'] <;> grind
  rw [e1, e2]
  refine ⟨a, fun e => ?_⟩
  rcases b e with h | ⟨m, k, h1, h2⟩
  · left; grind
  · refine .inr ⟨-m, k, ?_, ?_⟩
    · rw [h1, Rat.intCast_neg]; grind
    · rw [Rat.intCast_neg]
      rcases h2 with h2 | h2
      · right; grind
      · left; grind

theorem round_neg {q r : Rat} (h : F64.round q = some r) : F64.round (-q) = some (-r) := by
  obtain ⟨h1, h2⟩ := F64.round_iff.1 h
  refine F64.round_iff.2 ⟨?_, nearest_neg h2⟩
  unfold F64.Within64 at *
  rcases F64.abs_cases (-q) with ⟨x, y⟩ | ⟨x, y⟩ <;> rcases F64.abs_cases q with ⟨x', y'⟩ | ⟨x', y'⟩ <;> rw [y] <;> rw [y'] at h1 <;> grind

/-- What is formatted is a JSON number, and is read back as the number. -/
theorem formatFloat_round {q : Rat} (h : F64.IsF64 q) : Rfc8259.Number (formatFloat q) ∧ F64.round (decimal (formatFloat q)) = some q := by
  unfold formatFloat
  split
  · rename_i h; subst h
    exact ⟨⟨[], [0x30], [], [], .inl rfl, .inl rfl, .inl rfl, .inl rfl, rfl⟩, by decide +kernel⟩
  rename_i hz
  split
  · rename_i hn
    obtain ⟨⟨i, f, x, h1, h2, h3, h4⟩, h5⟩ := fmtPos_ok (isF64_neg h) (by grind)
    refine ⟨⟨[0x2D], i, f, x, .inr rfl, h1, h2, h3, by rw [h4]; rfl⟩, ?_⟩
    show F64.round (-absVal (fmtPos (-q))) = _
    have := round_neg h5
    rwa [Rat.neg_neg] at this
  · rename_i hn
    obtain ⟨⟨i, f, x, h1, h2, h3, h4⟩, h5⟩ := fmtPos_ok h (by grind)
    refine ⟨⟨[], i, f, x, .inl rfl, h1, h2, h3, by rw [h4]; rfl⟩, ?_⟩
    have e : decimal (fmtPos q) = absVal (fmtPos q) := by
      rw [h4]
      have : ∃ y r, i ++ (f ++ x) = y :: r ∧ y ≠ 0x2D := by
        rcases h1 with rfl | ⟨d, ds, a, b, -, rfl⟩
        · exact ⟨0x30, f ++ x, rfl, by decide⟩
        · refine ⟨d, ds ++ (f ++ x), rfl, ?_⟩
          rintro rfl
          exact absurd a (by decide)
      obtain ⟨y, r, e, hy⟩ := this
      rw [e]
      unfold decimal
      split
      · rename_i e; cases e; exact absurd rfl hy
      · rfl
    rw [e]
    exact h5

theorem formatFloat_ok : JPath.FmtOk formatFloat := by
  intro q h
  obtain ⟨a, b⟩ := formatFloat_round h
  obtain ⟨c, d⟩ := F64.round_iff.1 b
  exact ⟨a, c, d⟩

end Verif.GoFmt
