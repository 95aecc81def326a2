import Verif.Rfc8259

/-!
# Numbers

The number denoted by a literal, and its conversion to `float64` by the Go library
(`strconv.ParseFloat`, which `encoding/json` uses for literals), taken to be correctly rounded.
-/

namespace Verif

/-- Value of a sequence of digits. -/
def digitsVal (ds : Bytes) : Nat := ds.foldl (fun n d => 10 * n + (d.toNat - 0x30)) 0

/-- A decimal digit. -/
def isDig (b : Byte) : Bool := 0x30 ≤ b && b ≤ 0x39

/-- Specification: the exponent at the end of a number literal. -/
def expVal : Bytes → Int
  | [] => 0
  | _ :: 0x2D :: ds => -(digitsVal ds : Int)
  | _ :: 0x2B :: ds => digitsVal ds
  | _ :: ds => digitsVal ds

/-- Specification: the fraction of a number literal, and what follows it. -/
def fracOf : Bytes → Bytes × Bytes
  | 0x2E :: r => (r.takeWhile isDig, r.dropWhile isDig)
  | r => ([], r)

/-- Specification: the number denoted by an unsigned literal. -/
def absVal (b : Bytes) : Rat :=
  let i := b.takeWhile isDig
  let (f, r) := fracOf (b.dropWhile isDig)
  (digitsVal (i ++ f) : Rat) * (10 : Rat) ^ (expVal r - f.length)

/-- Specification: the number denoted by a literal (RFC 8259 section 6). -/
def decimal : Bytes → Rat
  | 0x2D :: b => -absVal b
  | b => absVal b

namespace F64

/-- The largest `k` with `2^k ≤ p/d`. -/
def exponent (p d : Nat) : Int :=
  let k : Int := (p.log2 : Int) - d.log2
  if d * 2 ^ k.toNat ≤ p * 2 ^ (-k).toNat then k else k - 1

/-- Exponent of the last place: numbers have 53 significant bits, and no bits below `2^-1074`. -/
def lastPlace (p d : Nat) : Int := max (exponent p d - 52) (-1074)

/-- `a/b` to the nearest integer, and to the even one in the middle. -/
def nearest (a b : Nat) : Nat :=
  if b < 2 * (a % b) ∨ (2 * (a % b) = b ∧ a / b % 2 = 1) then a / b + 1 else a / b

/-- Significand of the nearest number to `p/d`. -/
def significand (p d : Nat) : Nat :=
  nearest (p * 2 ^ (-lastPlace p d).toNat) (d * 2 ^ (lastPlace p d).toNat)

/-- The nearest IEEE 754 binary64 number to `z/d`; `none` if it is out of range.  Zero has no sign: the
numbers are compared with `==`. -/
def roundFrac (z : Int) (d : Nat) : Option Rat :=
  let u := lastPlace z.natAbs d
  let m := significand z.natAbs d
  if 2 ^ 1024 * 2 ^ (-u).toNat ≤ m * 2 ^ u.toNat then none
  else some (mkRat (z.sign * (m * 2 ^ u.toNat : Nat)) (2 ^ (-u).toNat))

/-- The nearest binary64 number. -/
def round (q : Rat) : Option Rat := roundFrac q.num q.den

end F64

namespace F64

theorem nearest_one (a : Nat) : nearest a 1 = a := by
  unfold nearest
  rw [if_neg (by omega)]
  omega

/-- Integers of up to 53 bits are exact. -/
theorem round_int (z : Int) (h : z.natAbs < 2 ^ 53) : round (z : Rat) = some (z : Rat) := by
  show roundFrac z 1 = _
  by_cases hz : z = 0
  · subst hz; decide +kernel
  · have hp : z.natAbs ≠ 0 := by omega
    have hk : exponent z.natAbs 1 = (z.natAbs.log2 : Int) := by
      unfold exponent
      have h1 : Nat.log2 1 = 0 := by decide
      simp only [h1]
      rw [if_pos]
      · simp
      · have := Nat.log2_self_le hp
        simpa using this
    have hl : z.natAbs.log2 < 53 := (Nat.log2_lt hp).2 h
    generalize hj : 52 - z.natAbs.log2 = j
    have hu : lastPlace z.natAbs 1 = -(j : Int) := by
      unfold lastPlace; rw [hk]; omega
    have h0 : (-(j : Int)).toNat = 0 := by omega
    have hs : significand z.natAbs 1 = z.natAbs * 2 ^ j := by
      unfold significand
      rw [hu]
      simp only [Int.neg_neg, Int.toNat_natCast, h0, Nat.pow_zero, Nat.mul_one]
      exact nearest_one _
    unfold roundFrac
    simp only [hs, hu, Int.neg_neg, Int.toNat_natCast, h0, Nat.pow_zero, Nat.mul_one]
    rw [if_neg]
    · congr 1
      have hpos : (2 ^ j : Nat) ≠ 0 := by
        have := Nat.two_pow_pos j; omega
      rw [Int.natCast_mul, ← Int.mul_assoc, Int.sign_mul_natAbs]
      have e1 : mkRat (z * ((2 ^ j : Nat) : Int)) (2 ^ j) = mkRat z 1 := by
        have := Rat.mkRat_mul_right (n := z) (d := 1) hpos
        rwa [Nat.one_mul] at this
      rw [e1]
      exact Rat.mkRat_self (z : Rat)
    · intro hle
      have := Nat.le_of_mul_le_mul_right hle (Nat.two_pow_pos _)
      exact absurd (Nat.lt_of_lt_of_le h (Nat.pow_le_pow_right (by omega) (by omega : 53 ≤ 1024))) (Nat.not_lt.2 this)

end F64

namespace GoJson

/-- Digits, of which there must be one. -/
def digitsLit (r : Bytes) : Option (Bytes × Bytes) :=
  if r.takeWhile isDig = [] then none else some (r.takeWhile isDig, r.dropWhile isDig)

/-- Integer part. -/
def intLit : Bytes → Option (Bytes × Bytes)
  | [] => none
  | b :: r => if b = 0x30 then some ([b], r) else digitsLit (b :: r)

/-- Fraction. -/
def fracLit : Bytes → Option (Bytes × Bytes)
  | [] => some ([], [])
  | b :: r => if b = 0x2E then (digitsLit r).map fun x => (b :: x.1, x.2) else some ([], b :: r)

/-- Sign of an exponent. -/
def signLit : Bytes → Bytes × Bytes
  | [] => ([], [])
  | b :: r => if b = 0x2B ∨ b = 0x2D then ([b], r) else ([], b :: r)

/-- Exponent. -/
def expLit : Bytes → Option (Bytes × Bytes)
  | [] => some ([], [])
  | b :: r =>
    if b = 0x65 ∨ b = 0x45 then (digitsLit (signLit r).2).map fun x => (b :: ((signLit r).1 ++ x.1), x.2)
    else some ([], b :: r)

/-- Number without sign. -/
def absLit (r : Bytes) : Option Bytes :=
  (intLit r).bind fun i => (fracLit i.2).bind fun f => (expLit f.2).map fun e => i.1 ++ (f.1 ++ e.1)

/-- Go library: the part of the input that the scanner of `encoding/json` takes as a number; `none` is a syntax
error.  What follows a complete number is not looked at (`json.Decoder.Token` reads only one token). -/
def numLit : Bytes → Option Bytes
  | [] => none
  | b :: r => if b = 0x2D then (absLit r).map (b :: ·) else absLit (b :: r)

/-- Go library: `json.Decoder.Token` on bytes that start with a number; `none` is an error (no number, or out of
range). -/
def number (b : Bytes) : Option Rat := (numLit b).bind fun l => F64.round (decimal l)

theorem isDig_iff {b : Byte} : isDig b = true ↔ Rfc8259.Digit b := by
  simp [isDig, Rfc8259.Digit]

theorem take_digits {ds r : Bytes} (hd : ∀ x ∈ ds, Rfc8259.Digit x) (hr : ∀ x r', r = x :: r' → isDig x = false) :
    (ds ++ r).takeWhile isDig = ds ∧ (ds ++ r).dropWhile isDig = r := by
  induction ds with
  | nil =>
    cases r with
    | nil => exact ⟨rfl, rfl⟩
    | cons x r => simp [List.takeWhile_cons, List.dropWhile_cons, hr x r rfl]
  | cons d ds ih =>
    have h1 := ih (fun x hx => hd x (by simp [hx]))
    have h2 := isDig_iff.2 (hd d (by simp))
    simp [List.takeWhile_cons, List.dropWhile_cons, h2, h1]

theorem digitsLit_ok {ds r : Bytes} (hd : ∀ x ∈ ds, Rfc8259.Digit x) (hne : ds ≠ []) (hr : ∀ x r', r = x :: r' → isDig x = false) :
    digitsLit (ds ++ r) = some (ds, r) := by
  obtain ⟨h1, h2⟩ := take_digits hd hr
  unfold digitsLit
  rw [h1, h2, if_neg hne]

theorem absLit_ok {i f e : Bytes} (hi : Rfc8259.IntPart i) (hf : f = [] ∨ Rfc8259.FracPart f) (he : e = [] ∨ Rfc8259.ExpPart e) :
    absLit (i ++ (f ++ e)) = some (i ++ (f ++ e)) := by
  have hE : expLit e = some (e, []) ∧ ∀ x r', e = x :: r' → isDig x = false ∧ x ≠ 0x2E := by
    rcases he with rfl | ⟨x, s, ds, hx, hs, hne, hd, rfl⟩
    · exact ⟨rfl, by simp⟩
    · have hsl : signLit (s ++ ds) = (s, ds) := by
        rcases hs with rfl | rfl | rfl
        · cases ds with
          | nil => exact absurd rfl hne
          | cons d ds =>
            have := hd d (by simp)
            have h1 : ¬ (d = 0x2B ∨ d = 0x2D) := by
              rintro (rfl | rfl) <;> exact absurd this (by unfold Rfc8259.Digit; decide)
            simp only [List.nil_append, signLit, if_neg h1]
        · rfl
        · rfl
      have hdl := digitsLit_ok (r := []) hd hne (by simp)
      rw [List.append_nil] at hdl
      refine ⟨?_, ?_⟩
      · simp only [expLit, if_pos hx, hsl, hdl, Option.map_some]
      · intro y r' e
        simp only [List.cons.injEq] at e
        rw [← e.1]
        rcases hx with rfl | rfl <;> decide
  have hF : fracLit (f ++ e) = some (f, e) ∧ ∀ x r', f ++ e = x :: r' → isDig x = false := by
    rcases hf with rfl | ⟨ds, hne, hd, rfl⟩
    · refine ⟨?_, fun x r' h => (hE.2 x r' (by simpa using h)).1⟩
      cases e with
      | nil => rfl
      | cons x r => simp only [List.nil_append, fracLit, if_neg (hE.2 x r rfl).2]
    · refine ⟨?_, ?_⟩
      · simp only [List.cons_append, fracLit, if_true, digitsLit_ok hd hne (fun x r' h => (hE.2 x r' h).1), Option.map_some]
      · intro x r' h
        simp only [List.cons_append, List.cons.injEq] at h
        rw [← h.1]; decide
  have hI : intLit (i ++ (f ++ e)) = some (i, f ++ e) := by
    rcases hi with rfl | ⟨d, ds, h1, h2, hd, rfl⟩
    · rfl
    · have h0 : d ≠ 0x30 := by rintro rfl; exact absurd h1 (by decide)
      have hdd : ∀ x ∈ d :: ds, Rfc8259.Digit x := by
        intro x hx
        rcases List.mem_cons.1 hx with rfl | hx
        · refine ⟨?_, h2⟩
          have : (0x30 : UInt8) ≤ 0x31 := by decide
          exact UInt8.le_trans this h1
        · exact hd x hx
      have := digitsLit_ok hdd (by simp) hF.2
      simpa only [List.cons_append, intLit, if_neg h0] using this
  unfold absLit
  rw [hI]
  simp only [Option.bind_some, hF.1, hE.1, Option.map_some]

/-- A number literal is taken completely. -/
theorem numLit_ok {b : Bytes} (h : Rfc8259.Number b) : numLit b = some b := by
  obtain ⟨m, i, f, e, hm, hi, hf, he, rfl⟩ := h
  have ha := absLit_ok hi hf he
  rcases hm with rfl | rfl
  · rw [List.nil_append]
    have hd : ∃ x r, i = x :: r ∧ x ≠ 0x2D := by
      rcases hi with rfl | ⟨d, ds, h1, h2, hd, rfl⟩
      · exact ⟨_, _, rfl, by decide⟩
      · refine ⟨_, _, rfl, ?_⟩
        rintro rfl
        exact absurd h1 (by decide)
    obtain ⟨x, r, rfl, hx⟩ := hd
    simp only [List.cons_append] at ha ⊢
    simp only [numLit, if_neg hx, ha]
  · simp only [List.cons_append, List.nil_append, numLit, if_true, ha, Option.map_some]

theorem number_ok {b : Bytes} (h : Rfc8259.Number b) : number b = F64.round (decimal b) := by
  unfold number; rw [numLit_ok h, Option.bind_some]

end GoJson

example : F64.round 9007199254740993 = some 9007199254740992 := by decide +kernel
example : F64.round (1 / 10) = some (3602879701896397 / 36028797018963968) := by decide +kernel
example : decimal b%"-12.50e-3" = -125 / 10000 := by decide +kernel
example : GoJson.number b%"1e999" = none := by decide +kernel
example : GoJson.number b%"1e-400" = some 0 := by decide +kernel
example : GoJson.number b%"5e-324" = some (1 / (2 : Rat) ^ (1074 : Nat)) := by decide +kernel
example : GoJson.number b%"1.7976931348623157e308" = some ((2 : Rat) ^ (1024 : Nat) - (2 : Rat) ^ (971 : Nat)) := by decide +kernel
example : GoJson.number b%"0.0" = some 0 := by decide +kernel
example : GoJson.number b%"12]" = some 12 := by decide +kernel
example : GoJson.number b%"01" = some 0 := by decide +kernel
example : GoJson.number b%"1.]" = none := by decide +kernel

end Verif
