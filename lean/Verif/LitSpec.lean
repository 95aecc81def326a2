import Verif.StrSpec
import Verif.Decimal

/-!
# Literals of the query language (specification)

RFC 9535 section 2.3.1.1: strings in single quotes; section 2.1: integers.
-/

namespace Verif.Rfc9535
open Utf8

/-- The escapes of two characters in single quotes. -/
def escapes : List (Byte × Byte) :=
  [(c%'\'', 0x27), (c%'\\', 0x5C), (c%'/', 0x2F), (c%'b', 0x08), (c%'f', 0x0C), (c%'n', 0x0A), (c%'r', 0x0D), (c%'t', 0x09)]

/-- `Single c s`: between single quotes, `c` denotes the string `s`. -/
inductive Single : Bytes → Bytes → Prop
  | nil : Single [] []
  | char {r c s} : 0x20 ≤ r → UScalar r → r ≠ 0x27 → r ≠ 0x5C → Single c s → Single (encode r ++ c) (encode r ++ s)
  | esc {e x c s} : (e, x) ∈ escapes → Single c s → Single (0x5C :: e :: c) (x :: s)
  | hex {h n c s} : Hex4 h n → UScalar n → Single c s → Single (0x5C :: 0x75 :: (h ++ c)) (encode n ++ s)
  | pair {h n h' n' c s} : Hex4 h n → Hex4 h' n' → 0xD800 ≤ n → n < 0xDC00 → 0xDC00 ≤ n' → n' < 0xE000 → Single c s →
      Single (0x5C :: 0x75 :: (h ++ 0x5C :: 0x75 :: (h' ++ c))) (encode (0x10000 + (n - 0xD800) * 1024 + (n' - 0xDC00)) ++ s)

/-- A digit. -/
def Dig (b : Byte) : Prop := 0x30 ≤ b ∧ b ≤ 0x39

/-- `IntLit s v`: the text `s` is an `int` (section 2.3.3.1) with the value `v`. -/
inductive IntLit : Bytes → Int → Prop
  | zero : IntLit [0x30] 0
  | pos {d ds} : Dig d → d ≠ 0x30 → (∀ x ∈ ds, Dig x) → IntLit (d :: ds) (digitsVal (d :: ds))
  | neg {d ds} : Dig d → d ≠ 0x30 → (∀ x ∈ ds, Dig x) → IntLit (0x2D :: d :: ds) (-(digitsVal (d :: ds) : Int))

end Verif.Rfc9535
