import Verif.FormatFloat
import Verif.StrOrder
import Verif.EqualLogic

/-!
# Scalars from Go values, and back

Model of `/repo/token/tokens.go:188-277`: `ToScalar` and the functions that it calls, `ToGo`.
-/

namespace Verif

/-- Values of type `float64`.  Zero has no sign: values are compared with `==`. -/
inductive GoFloat
  | fin (q : Rat)
  | nan
  | inf (neg : Bool)
  deriving DecidableEq

/-- Go: the values that `ToScalar` distinguishes, `/repo/token/tokens.go:259-277`.  `int` is `int64`.  `other` is a value of any other type. -/
inductive GoVal
  | null
  | str (s : Bytes)
  | float (x : GoFloat)
  | int (n : Int)
  | bool (b : Bool)
  | other
  deriving DecidableEq

namespace GoScalar
open GoJson Utf8

/-- Go: `BoolScalar`, `/repo/token/tokens.go:252-257`, and the instances of `:227-231`. -/
def boolScalar (b : Bool) : Scalar := { bytes := if b then b%"true" else b%"false", type := .bool }

/-- Go: `Float64Scalar`, `/repo/token/tokens.go:244-246`.  (`FormatFloat` writes `NaN`, `+Inf` and `-Inf`.) -/
def float64Scalar : GoFloat → Scalar
  | .fin q => { bytes := GoFmt.formatFloat q, type := .num }
  | .nan => { bytes := b%"NaN", type := .num }
  | .inf neg => { bytes := if neg then b%"-Inf" else b%"+Inf", type := .num }

/-- Go: `Int64Scalar`, `/repo/token/tokens.go:248-250`. -/
def int64Scalar (n : Int) : Scalar := { bytes := if n < 0 then 0x2D :: itoa n.natAbs else itoa n.natAbs, type := .num }

/-- Go: `ToScalar`, `/repo/token/tokens.go:259-277` (`none` is an error). -/
def toScalar : GoVal → Option Scalar
  | .null => some { bytes := b%"null", type := .null }
  | .str s => some (stringScalar s)
  | .float x => some (float64Scalar x)
  | .int n => some (int64Scalar n)
  | .bool b => some (boolScalar b)
  | .other => none

/-- Go: `ToGo`, `/repo/token/tokens.go:188-193` (`none` is a panic).  `parseJsonLiteralBytes` (`:195-202`) is the Go library on a literal of the type
of the scalar; it gives all numbers as `float64`. -/
def toGo (s : Scalar) : Option GoVal :=
  if s.unesc then if s.bytes.length < 2 then none else some (.str (s.bytes.drop 1).dropLast)
  else match s.type with
    | .null => if s.bytes = b%"null" then some .null else none
    | .bool => if s.bytes = b%"true" then some (.bool true) else if s.bytes = b%"false" then some (.bool false) else none
    | .num => (number s.bytes).map fun q => .float (.fin q)
    | .str => (unquote s.bytes).map .str

/-- Specification: the string with U+FFFD for each byte that is not part of a character; fuel is the length. -/
def fixUtf8 : Nat → Bytes → Bytes
  | _, [] => []
  | 0, _ :: _ => []
  | f + 1, b :: r =>
    match decode (b :: r) with
    | none => replacement ++ fixUtf8 f r
    | some (_, n) => (b :: r).take n ++ fixUtf8 f ((b :: r).drop n)

/-- What is decoded is a character. -/
theorem decode_sound {l : Bytes} {c n : Nat} (h : decode l = some (c, n)) : UScalar c ∧ n = (encode c).length ∧ ∃ r, l = encode c ++ r := by
  have two : ∀ b : Byte, b.toNat < 256 := fun b => b.toNat_lt
  have byte : ∀ (b : Byte) (m : Nat), m = b.toNat → UInt8.ofNat m = b := by
    rintro b m rfl; exact UInt8.ofNat_toNat
  have cont : ∀ b : Byte, isCont b = true → 0x80 ≤ b.toNat ∧ b.toNat ≤ 0xBF := by
    intro b hb
    simp only [isCont, Bool.and_eq_true, decide_eq_true_eq] at hb
    exact ⟨u8le.1 hb.1, u8le.1 hb.2⟩
  cases l with
  | nil => cases h
  | cons b0 r =>
    unfold decode at h
    have h0 := two b0
    simp only at h
    split at h
    · rename_i hb
      simp only [Option.some.injEq, Prod.mk.injEq] at h
      obtain ⟨rfl, rfl⟩ := h
      have hb : b0.toNat < 0x80 := u8lt.1 hb
      refine ⟨⟨by omega, by omega⟩, ?_, r, ?_⟩ <;> rw [encode_small hb] <;> simp
    split at h
    · rename_i _ hb
      simp only [Bool.and_eq_true, decide_eq_true_eq] at hb
      have hl : 0xC2 ≤ b0.toNat := u8le.1 hb.1
      have hr : b0.toNat ≤ 0xDF := u8le.1 hb.2
      cases r with
      | nil => cases h
      | cons b1 r =>
        simp only [Option.ite_none_right_eq_some, Option.some.injEq, Prod.mk.injEq] at h
        obtain ⟨hb1, rfl, rfl⟩ := h
        have hb1 := cont b1 hb1
        have e : encode ((b0.toNat - 0xC0) * 64 + (b1.toNat - 0x80)) = [b0, b1] := by
          unfold encode
          rw [if_neg (by omega), if_pos (by omega), byte b0 _ (by omega), byte b1 _ (by omega)]
        exact ⟨⟨by omega, by omega⟩, by rw [e]; rfl, r, by rw [e]; rfl⟩
    split at h
    · rename_i _ _ hb
      simp only [Bool.and_eq_true, decide_eq_true_eq] at hb
      have hl : 0xE0 ≤ b0.toNat := u8le.1 hb.1
      have hr : b0.toNat ≤ 0xEF := u8le.1 hb.2
      match r, h with
      | [], h => cases h
      | [_], h => cases h
      | b1 :: b2 :: r, h =>
        simp only [Option.ite_none_right_eq_some, Option.some.injEq, Prod.mk.injEq, Bool.and_eq_true, decide_eq_true_eq] at h
        obtain ⟨⟨⟨ha, ha'⟩, hb2⟩, rfl, rfl⟩ := h
        have hb2 := cont b2 hb2
        have hE : b0.toNat = 0xE0 → 0xA0 ≤ b1.toNat := by
          intro e
          have : b0 = 0xE0 := UInt8.toNat_inj.1 e
          rw [if_pos this] at ha; exact u8le.1 ha
        have hD : b0.toNat = 0xED → b1.toNat ≤ 0x9F := by
          intro e
          have : b0 = 0xED := UInt8.toNat_inj.1 e
          rw [if_pos this] at ha'; exact u8le.1 ha'
        have hlo : 0x80 ≤ b1.toNat := by
          split at ha
          · exact Nat.le_trans (by decide) (u8le.1 ha)
          · exact u8le.1 ha
        have hhi : b1.toNat ≤ 0xBF := by
          split at ha'
          · exact Nat.le_trans (u8le.1 ha') (by decide)
          · exact u8le.1 ha'
        have hu : UScalar ((b0.toNat - 0xE0) * 4096 + (b1.toNat - 0x80) * 64 + (b2.toNat - 0x80)) := ⟨by omega, by omega⟩
        have e : encode ((b0.toNat - 0xE0) * 4096 + (b1.toNat - 0x80) * 64 + (b2.toNat - 0x80)) = [b0, b1, b2] := by
          unfold encode
          rw [if_neg (by omega), if_neg (by omega), if_neg, if_pos (by omega), byte b0 _ (by omega), byte b1 _ (by omega), byte b2 _ (by omega)]
          simp only [isSurrogate, Bool.or_eq_true, Bool.and_eq_true, decide_eq_true_eq]
          omega
        exact ⟨hu, by rw [e]; rfl, r, by rw [e]; rfl⟩
    split at h
    · rename_i _ _ _ hb
      simp only [Bool.and_eq_true, decide_eq_true_eq] at hb
      have hl : 0xF0 ≤ b0.toNat := u8le.1 hb.1
      have hr : b0.toNat ≤ 0xF4 := u8le.1 hb.2
      match r, h with
      | [], h => cases h
      | [_], h => cases h
      | [_, _], h => cases h
      | b1 :: b2 :: b3 :: r, h =>
        simp only [Option.ite_none_right_eq_some, Option.some.injEq, Prod.mk.injEq, Bool.and_eq_true, decide_eq_true_eq] at h
        obtain ⟨⟨⟨⟨ha, ha'⟩, hb2⟩, hb3⟩, rfl, rfl⟩ := h
        have hb2 := cont b2 hb2
        have hb3 := cont b3 hb3
        have hE : b0.toNat = 0xF0 → 0x90 ≤ b1.toNat := by
          intro e
          have : b0 = 0xF0 := UInt8.toNat_inj.1 e
          rw [if_pos this] at ha; exact u8le.1 ha
        have hD : b0.toNat = 0xF4 → b1.toNat ≤ 0x8F := by
          intro e
          have : b0 = 0xF4 := UInt8.toNat_inj.1 e
          rw [if_pos this] at ha'; exact u8le.1 ha'
        have hlo : 0x80 ≤ b1.toNat := by
          split at ha
          · exact Nat.le_trans (by decide) (u8le.1 ha)
          · exact u8le.1 ha
        have hhi : b1.toNat ≤ 0xBF := by
          split at ha'
          · exact Nat.le_trans (u8le.1 ha') (by decide)
          · exact u8le.1 ha'
        have hu : UScalar ((b0.toNat - 0xF0) * 262144 + (b1.toNat - 0x80) * 4096 + (b2.toNat - 0x80) * 64 + (b3.toNat - 0x80)) := ⟨by omega, by omega⟩
        have e : encode ((b0.toNat - 0xF0) * 262144 + (b1.toNat - 0x80) * 4096 + (b2.toNat - 0x80) * 64 + (b3.toNat - 0x80)) = [b0, b1, b2, b3] := by
          unfold encode
          rw [if_neg (by omega), if_neg (by omega), if_neg, if_neg (by omega), byte b0 _ (by omega), byte b1 _ (by omega), byte b2 _ (by omega),
            byte b3 _ (by omega)]
          simp only [isSurrogate, Bool.or_eq_true, Bool.and_eq_true, decide_eq_true_eq]
          omega
        exact ⟨hu, by rw [e]; rfl, r, by rw [e]; rfl⟩
    · cases h

/-- The literal written for any byte string denotes it, with U+FFFD for what is not a character. -/
theorem quoteBody_fix : ∀ (f : Nat) (s : Bytes), s.length ≤ f → Denotes (quoteBody f s) (fixUtf8 f s) := by
  intro f
  induction f with
  | zero =>
    intro s hs
    cases s with
    | nil => exact .nil
    | cons => simp at hs
  | succ f ih =>
    intro s hs
    cases s with
    | nil => exact .nil
    | cons b r =>
      simp only [List.length_cons, Nat.add_le_add_iff_right] at hs
      unfold quoteBody fixUtf8
      by_cases hb : b < 0x80
      · have hd : decode (b :: r) = some (b.toNat, 1) := by simp only [decode]; rw [if_pos hb]
        rw [if_pos hb, hd]
        exact denotes_ascii b hb (ih r hs)
      · rw [if_neg hb]
        cases hd : decode (b :: r) with
        | none =>
          have he : encode 0xFFFD = replacement := by decide
          have := Denotes.hex (h := [0x66, 0x66, 0x66, 0x64]) (n := 0xFFFD)
            ⟨_, _, _, _, 15, 15, 15, 13, rfl, by decide, by decide, by decide, by decide, by decide⟩ ⟨by omega, by omega⟩ (ih r hs)
          rw [he] at this
          exact this
        | some cn =>
          obtain ⟨c, n⟩ := cn
          obtain ⟨hu, hn, l, hl⟩ := decode_sound hd
          obtain ⟨b', l', he, hlo, hhi⟩ := encode_head hu
          have h8 : 0x80 ≤ c := by
            apply Classical.byContradiction
            intro h
            obtain ⟨e1, e2⟩ := hlo (by omega)
            rw [he] at hl
            simp only [List.cons_append, List.cons.injEq] at hl
            apply hb
            rw [hl.1, e1, u8lt]; simp [UInt8.toNat_ofNat']; omega
          have ht : (b :: r).take n = encode c := by rw [hl, hn, List.take_left]
          have hdr : (b :: r).drop n = l := by rw [hl, hn, List.drop_left]
          have hln : l.length ≤ f := by
            have := congrArg List.length hl
            rw [he] at this
            simp only [List.length_cons, List.length_append] at this
            omega
          simp only [ht, hdr]
          by_cases hx : c = 0x2028 ∨ c = 0x2029
          · rw [if_pos hx]
            exact Denotes.hex (h := [0x32, 0x30, 0x32, hexDigit (c % 16)]) (n := c)
              ⟨_, _, _, _, 2, 0, 2, c % 16, rfl, by decide, by decide, by decide, hexVal_hexDigit _ (by omega), by omega⟩ hu (ih l hln)
          · rw [if_neg hx]
            exact Denotes.char (by omega) hu (by omega) (by omega) (ih l hln)

theorem fix_chars {s : Bytes} {cs : List Nat} (h : Chars s cs) : ∀ f, s.length ≤ f → fixUtf8 f s = s := by
  intro f hf
  have h1 := unq_denotes (quoteBody_fix f s hf) _ (Nat.le_refl _)
  have h2 := unq_denotes (quoteBody_denotes h f hf) _ (Nat.le_refl _)
  rw [h1] at h2
  exact Option.some.inj h2

theorem stringScalar_fix (s : Bytes) : StrIs (stringScalar s) (fixUtf8 s.length s) :=
  ⟨rfl, quoteBody s.length s, rfl, quoteBody_fix _ _ (Nat.le_refl _), fun e => nomatch e⟩

/-- Decimal notation of integers. -/
theorem int_number (n : Int) : Rfc8259.Number (int64Scalar n).bytes ∧ decimal (int64Scalar n).bytes = (n : Rat) := by
  unfold int64Scalar
  split
  · rename_i h
    refine ⟨⟨[0x2D], itoa n.natAbs, [], [], .inr rfl, JpvTree.itoa_int _, .inl rfl, .inl rfl, by simp⟩, ?_⟩
    show -absVal (itoa n.natAbs) = _
    have := GoFmt.absVal_int (i := itoa n.natAbs) (r := []) (JPath.itoa_digits _) (fun _ _ e => nomatch e)
    rw [List.append_nil] at this
    rw [this, JpvTree.itoa_val]
    show -((n.natAbs : Rat) * (10 : Rat) ^ (0 : Int)) = _
    rw [Rat.zpow_zero, Rat.mul_one]
    have e : n = -(n.natAbs : Int) := by omega
    have : (n : Rat) = ((-(n.natAbs : Int) : Int) : Rat) := by rw [← e]
    rw [this, Rat.intCast_neg]; rfl
  · rename_i h
    refine ⟨⟨[], itoa n.natAbs, [], [], .inl rfl, JpvTree.itoa_int _, .inl rfl, .inl rfl, by simp⟩, ?_⟩
    show decimal (itoa n.natAbs) = _
    rw [JPath.decimal_itoa]
    have e : n = (n.natAbs : Int) := by omega
    have : (n : Rat) = (((n.natAbs : Int) : Int) : Rat) := by rw [← e]
    rw [this]; rfl

/-- The literals of queries, as Go values. -/
def ofLit : JPath.Literal → GoVal
  | .str s => .str s
  | .num q => .float (.fin q)
  | .bool b => .bool b
  | .null => .null

/-- `litScalar` is `ToScalar`. -/
theorem litScalar_eq (lib : JPath.Lib) (h : lib.fmt = GoFmt.formatFloat) (l : JPath.Literal) : toScalar (ofLit l) = some (JPath.litScalar lib l) := by
  cases l <;> simp [ofLit, toScalar, JPath.litScalar, float64Scalar, boolScalar, h]

end GoScalar
end Verif
