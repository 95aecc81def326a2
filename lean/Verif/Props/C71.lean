import Verif.GoScalar
import Verif.Props.C29

/-!
# C71 Scalars made from Go values

`ToScalar` makes a literal that denotes the value, `ToGo` gives the value back, and equality of the scalars is equality of the values.
-/

namespace Verif.GoScalar
open GoJson Utf8

/-- Specification: the value is `null`, a boolean, a string of characters, or a number of type `float64` (also as an integer), and this is its JSON data. -/
inductive GoData : GoVal → Data → Prop
  | null : GoData .null .null
  | bool {b} : GoData (.bool b) (.bool b)
  | str {s cs} : Chars s cs → GoData (.str s) (.str s)
  | float {q} : F64.IsF64 q → GoData (.float (.fin q)) (.num q)
  | int {n : Int} : F64.IsF64 (n : Rat) → GoData (.int n) (.num n)

/-- Specification: the Go value for JSON data that are not a collection, with numbers of type `float64`. -/
inductive OfData : Data → GoVal → Prop
  | null : OfData .null .null
  | bool {b} : OfData (.bool b) (.bool b)
  | str {s} : OfData (.str s) (.str s)
  | num {q} : OfData (.num q) (.float (.fin q))

/-- Specification: the string with U+FFFD for each byte that is not part of a character. -/
inductive Repaired : Bytes → Bytes → Prop
  | nil : Repaired [] []
  | char {r s t} : UScalar r → Repaired s t → Repaired (encode r ++ s) (encode r ++ t)
  | bad {b s t} : (∀ r s', UScalar r → b :: s ≠ encode r ++ s') → Repaired s t → Repaired (b :: s) ([0xEF, 0xBF, 0xBD] ++ t)

theorem repaired_fix : ∀ (f : Nat) (s : Bytes), s.length ≤ f → Repaired s (fixUtf8 f s) := by
  intro f
  induction f with
  | zero =>
    intro s hs
    cases s with
    | nil => exact .nil
    | cons => simp at hs
  | succ f ih =>
    intro s hs
    cases s with
    | nil => exact .nil
    | cons b r =>
      simp only [List.length_cons, Nat.add_le_add_iff_right] at hs
      unfold fixUtf8
      cases hd : decode (b :: r) with
      | none =>
        refine .bad (fun c s' hc e => ?_) (ih r hs)
        rw [e, decode_encode hc] at hd
        cases hd
      | some cn =>
        obtain ⟨c, n⟩ := cn
        obtain ⟨hu, hn, l, hl⟩ := decode_sound hd
        have ht : (b :: r).take n = encode c := by rw [hl, hn, List.take_left]
        have hdr : (b :: r).drop n = l := by rw [hl, hn, List.drop_left]
        have hln : l.length ≤ f := by
          obtain ⟨b', l', he, -⟩ := encode_head hu
          have := congrArg List.length hl
          rw [he] at this
          simp only [List.length_cons, List.length_append] at this
          omega
        simp only [ht, hdr]
        have := Repaired.char hu (ih l hln)
        rwa [← hl] at this

/-- There is one such string. -/
theorem repaired_unique {s t : Bytes} (h : Repaired s t) : ∀ f, s.length ≤ f → t = fixUtf8 f s := by
  induction h with
  | nil => intro f _; cases f <;> rfl
  | @char r s t hu h ih =>
    intro f hf
    have hd := decode_encode hu s
    obtain ⟨b, l, he, -⟩ := encode_head hu
    cases f with
    | zero => rw [he] at hf; simp at hf
    | succ f =>
      have hlen : s.length ≤ f := by rw [he] at hf; simp only [List.length_append, List.length_cons] at hf; omega
      have : fixUtf8 (f + 1) (encode r ++ s) = encode r ++ fixUtf8 f s := by
        rw [he] at hd ⊢
        simp only [List.cons_append] at hd ⊢
        simp only [fixUtf8, hd, List.length_cons, List.take_succ_cons, List.drop_succ_cons, List.take_left, List.drop_left, List.cons_append]
      rw [this, ih f hlen]
  | @bad b s t hb h ih =>
    intro f hf
    cases f with
    | zero => simp at hf
    | succ f =>
      unfold fixUtf8
      cases hd : decode (b :: s) with
      | none => simp only; rw [ih f (by simpa using hf)]; rfl
      | some cn =>
        obtain ⟨c, n⟩ := cn
        obtain ⟨hu, hn, l, hl⟩ := decode_sound hd
        exact absurd hl (hb c l hu)

/-- C71: the scalar made from a value is a JSON literal that denotes it (numbers: of which it is the nearest `float64`), and is converted back to this value.
Missing: `NaN` and infinite numbers, strings that are not UTF-8, and integers that are not of type `float64` (see the other theorems). -/
theorem C71_roundtrip_partial {val : Bytes → Rat} (hval : Double val) {v : GoVal} {d : Data} (h : GoData v d) :
    ∃ k, toScalar v = some k ∧ DenBy val (.scalar k) d ∧ ∀ w, OfData d w → toGo k = some w := by
  have num : ∀ (b : Bytes) (q : Rat), Rfc8259.Number b → F64.round (decimal b) = some q →
      DenBy val (.scalar { bytes := b, type := .num }) (.num q) ∧ toGo { bytes := b, type := .num } = some (.float (.fin q)) := by
    intro b q h1 h2
    obtain ⟨h3, h4⟩ := F64.round_iff.1 h2
    have e : val b = q := F64.nearest_unique (hval b h3) h4
    refine ⟨?_, ?_⟩
    · have := DenBy.num (val := val) (k := { bytes := b, type := .num }) rfl h1
      rwa [show val (Scalar.bytes { bytes := b, type := .num }) = q from e] at this
    · simp [toGo, number_ok h1, h2]
  cases h with
  | null => exact ⟨_, rfl, .null rfl, fun w hw => by cases hw; decide⟩
  | @bool b => exact ⟨_, rfl, .bool rfl rfl, fun w hw => by cases hw; cases b <;> decide⟩
  | @str s cs h =>
    refine ⟨_, rfl, .str (stringScalar_is h), fun w hw => ?_⟩
    cases hw
    show ((unquote (stringScalar s).bytes).map GoVal.str) = _
    rw [strIs_unquote (stringScalar_is h)]
    rfl
  | @float q h =>
    obtain ⟨h1, h2⟩ := GoFmt.formatFloat_round h
    obtain ⟨h3, h4⟩ := num _ q h1 h2
    exact ⟨_, rfl, h3, fun w hw => by cases hw; exact h4⟩
  | @int n h =>
    obtain ⟨h1, h2⟩ := int_number n
    have h5 : F64.round (decimal (int64Scalar n).bytes) = some (n : Rat) := by
      rw [h2]
      exact F64.round_iff.2 ⟨JPath.isF64_within h, JPath.nearest_self h⟩
    obtain ⟨h3, h4⟩ := num _ _ h1 h5
    exact ⟨_, rfl, h3, fun w hw => by cases hw; exact h4⟩

/-- C71: scalars made from values are equal if and only if the values are the same JSON data.  Missing: as in `C71_roundtrip_partial`. -/
theorem C71_equal_partial {v w : GoVal} {d d' : Data} (h : GoData v d) (h' : GoData w d') :
    ∃ k k' b, toScalar v = some k ∧ toScalar w = some k' ∧ scalarEqual k k' = some b ∧ (b = true ↔ d = d') := by
  obtain ⟨k, h1, h2, h3⟩ := C71_roundtrip_partial double_nearest h
  obtain ⟨k', h1', h2', h3'⟩ := C71_roundtrip_partial double_nearest h'
  have range : ∀ {v d k}, GoData v d → toScalar v = some k → NumsIn InRange64 (.scalar k) := by
    intro v d k hv hk x hx ht
    simp only [JVal.toks, List.mem_singleton, Token.scalar.injEq] at hx
    subst hx
    cases hv with
    | null => cases hk; cases ht
    | bool => cases hk; cases ht
    | str => cases hk; cases ht
    | float h => cases hk; exact (F64.round_iff.1 (GoFmt.formatFloat_round h).2).1
    | int h =>
      cases hk
      show F64.Within64 (decimal _)
      rw [(int_number _).2]
      exact JPath.isF64_within h
  obtain ⟨b, e1, e2⟩ := scalarEqual_ok (sharp_double double_nearest) h2 h2' (range h h1) (range h' h1')
  exact ⟨k, k', b, h1, h1', e1, e2⟩

/-- C71, exactly, for strings: every byte string is converted to a literal for the string with U+FFFD in place of the bytes that are not part of a character,
and this is what `ToGo` gives and what `EqualsString` compares with. -/
theorem C71_strings {s t : Bytes} (h : Repaired s t) : ∃ k, toScalar (.str s) = some k ∧ StrIs k t ∧ toGo k = some (.str t) ∧
    ∀ u, equalsString k u = some (decide (t = u)) := by
  have e := repaired_unique h s.length (Nat.le_refl _)
  subst e
  have hs := stringScalar_fix s
  have hu := strIs_unquote hs
  refine ⟨_, rfl, hs, ?_, fun u => ?_⟩
  · show ((unquote (stringScalar s).bytes).map GoVal.str) = _
    rw [hu]; rfl
  · show (if (stringScalar s).type ≠ .str then _ else _) = _
    rw [if_neg (by simp [stringScalar])]
    show ((unquote (stringScalar s).bytes).map _) = _
    rw [hu]; rfl

/-- C71: the literal made from an integer of type `int64` denotes it exactly; it is read as the nearest `float64`. -/
theorem C71_ints {n : Int} (h1 : -2 ^ 63 ≤ n) (h2 : n < 2 ^ 63) : ∃ k r, toScalar (.int n) = some k ∧ k.type = .num ∧ Rfc8259.Number k.bytes ∧
    decimal k.bytes = (n : Rat) ∧ toGo k = some (.float (.fin r)) ∧ F64.Nearest64 n r := by
  obtain ⟨a, b⟩ := int_number n
  have hw : F64.Within64 (n : Rat) := by
    have hk : ((2 ^ 63 : Int) : Rat) < 2 ^ (1024 : Int) - 2 ^ (970 : Int) := by decide +kernel
    have u1 : (n : Rat) ≤ ((2 ^ 63 : Int) : Rat) := Rat.intCast_le_intCast.2 (by omega)
    have u2 : ((-2 ^ 63 : Int) : Rat) ≤ (n : Rat) := Rat.intCast_le_intCast.2 h1
    have u3 : ((-2 ^ 63 : Int) : Rat) = -((2 ^ 63 : Int) : Rat) := by decide +kernel
    unfold F64.Within64
    rcases F64.abs_cases (n : Rat) with ⟨x, y⟩ | ⟨x, y⟩ <;> rw [y] <;> grind
  obtain ⟨r, hr⟩ := (F64.round_within _).2 hw
  refine ⟨_, r, rfl, rfl, a, b, ?_, F64.round_nearest hr⟩
  have : number (int64Scalar n).bytes = some r := by rw [number_ok a, b, hr]
  show ((number (int64Scalar n).bytes).map fun q => GoVal.float (.fin q)) = _
  rw [this]; rfl

/-- C71: values of other types are rejected, and only these. -/
theorem C71_other (v : GoVal) : toScalar v = none ↔ v = .other := by
  cases v <;> simp [toScalar]

/-- C71 is false for `NaN` and infinite numbers: they become number literals that are not JSON, and converting these back panics. -/
theorem C71_violated_nan (x : GoFloat) (h : ∀ q, x ≠ .fin q) : ∃ k, toScalar (.float x) = some k ∧ k.type = .num ∧ ¬ Rfc8259.Number k.bytes ∧
    toGo k = none := by
  have no : ∀ b, numLit b = none → ¬ Rfc8259.Number b := by
    intro b h hn
    rw [numLit_ok hn] at h
    cases h
  rcases x with q | _ | _ | _
  · exact absurd rfl (h q)
  · exact ⟨_, rfl, rfl, no _ (by decide), by decide +kernel⟩
  · exact ⟨_, rfl, rfl, no _ (by decide), by decide +kernel⟩
  · exact ⟨_, rfl, rfl, no _ (by decide), by decide +kernel⟩

/-- C71 is false for strings that are not UTF-8: the byte `FF` comes back as U+FFFD. -/
theorem C71_violated_utf8 : (toScalar (.str [0xFF])).bind toGo = some (.str [0xEF, 0xBF, 0xBD]) := rfl

/-- C71 is false for large integers: 9007199254740993 comes back as 9007199254740992, and the scalars of the two are equal. -/
theorem C71_violated_int : (toScalar (.int 9007199254740993)).bind toGo = some (.float (.fin 9007199254740992)) ∧
    scalarEqual (int64Scalar 9007199254740993) (int64Scalar 9007199254740992) = some true := by
  refine ⟨?_, by decide +kernel⟩
  have : number (int64Scalar 9007199254740993).bytes = some 9007199254740992 := by decide +kernel
  show ((number (int64Scalar 9007199254740993).bytes).map fun q => GoVal.float (.fin q)) = _
  rw [this]; rfl

section NonVacuity

example : GoData (.str b%"a\n") (.str b%"a\n") := .str (cs := [0x61, 0x0A]) ⟨by decide, by simp [UScalar]⟩

example : GoData (.float (.fin (1/2))) (.num (1/2)) := .float ⟨1, -1, by decide +kernel⟩

example : GoData (.int (-5)) (.num (-5 : Int)) := .int ⟨-5, 0, by decide +kernel⟩

example : toScalar (.str b%"a\n<\"") = some { bytes := b%"\"a\\n\\u003c\\\"\"", type := .str } := by decide +kernel

example : toScalar (.float (.fin 0)) = some { bytes := b%"0", type := .num } := by decide +kernel

example : toScalar (.float (.fin (-1/1048576))) = some { bytes := b%"-9.5367431640625e-07", type := .num } := by decide +kernel

/-- Every byte string is covered by `C71_strings`. -/
example (s : Bytes) : ∃ t, Repaired s t := ⟨_, repaired_fix _ s (Nat.le_refl _)⟩

end NonVacuity

end Verif.GoScalar
