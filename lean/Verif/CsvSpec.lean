import Verif.StrSpec
import Verif.Decimal

/-!
# What the cells of a CSV file stand for (specification)
-/

namespace Verif.CsvSpec
open Rfc8259

/-- No control characters except line feeds. -/
def Clean (f : Bytes) : Prop := ∀ b ∈ f, 0x20 ≤ b ∨ b = 0x0A

/-- Bytes that occur in numbers. -/
def NumChar (b : Byte) : Prop := b ∈ b%"0123456789.eE+-"

/-- The field is made of the characters of numbers, and begins with a number that its next character cannot continue, such as
`2024-01-15`, `1.2.3` or `007`. -/
def Misread (f : Bytes) : Prop :=
  (∀ b ∈ f, NumChar b) ∧ ∃ p b r, f = p ++ b :: r ∧ Number p ∧ ¬ ∃ t, Number (p ++ b :: t)

/-- The scalar for the content `f` of a cell. -/
def Cell (f : Bytes) (s : Scalar) : Prop :=
  (f = [] → s.type = .null ∧ s.bytes = b%"null") ∧
  (f = b%"true" ∨ f = b%"false" → s.type = .bool ∧ s.bytes = f) ∧
  (Number f → s.type = .num ∧ s.bytes = f) ∧
  (f ≠ [] → f ≠ b%"true" → f ≠ b%"false" → ¬ Number f → StrIs s f)

/-- A JSON literal: `true`, `false`, `null`, a number or a string (RFC 8259 sections 3, 6 and 7). -/
def IsLiteral (b : Bytes) : Prop :=
  b = b%"true" ∨ b = b%"false" ∨ b = b%"null" ∨ Number b ∨ ∃ c, RfcChars c ∧ b = 0x22 :: (c ++ [0x22])

/-- `field_1`, `field_2` and so on: the number is written without leading zeros. -/
def FieldName (n : Nat) (t : Bytes) : Prop := ∃ ds, t = b%"field_" ++ ds ∧ IntPart ds ∧ digitsVal ds = n

/-- The names of the columns: those given, and numbered names from there on. -/
def Names (given : List Bytes) (name : Nat → Bytes) : Prop :=
  ∀ i, (∀ t, given[i]? = some t → name i = t) ∧ (given.length ≤ i → FieldName (i + 1) (name i))

/-- The value for a record: an array of the cells, or an object whose members are named by position. -/
def recordVal (objects : Bool) (key : Nat → Scalar) (cell : Bytes → Scalar) (r : List Bytes) : JVal :=
  if objects then .obj (r.zipIdx.map fun (f, j) => (key j, .scalar (cell f))) false
  else .arr (r.map fun f => .scalar (cell f)) false

/-- A token without any flags. -/
def bare : Token → Token
  | .scalar s => .scalar { bytes := s.bytes, type := s.type }
  | t => t

end Verif.CsvSpec
