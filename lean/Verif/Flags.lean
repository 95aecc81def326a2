import Verif.Token

/-!
# Packed type and flags of scalars

Model of the `TypeAndFlags` field and its accessors, `/repo/token/tokens.go:116-143,205-219`.
-/

namespace Verif

/-- Go: the constants `Null`, `Boolean`, `Number`, `String`, `/repo/token/tokens.go:207-212`. -/
def SType.code : SType → UInt8
  | .null => 0x0
  | .bool => 0x1
  | .num => 0x2
  | .str => 0x3

/-- Go: `TypeMask`, `/repo/token/tokens.go:215`. -/
def typeMask : UInt8 := 0b00011
/-- Go: `KeyMask`, `/repo/token/tokens.go:216`. -/
def keyMask : UInt8 := 0b00100
/-- Go: `AlnumMask`, `/repo/token/tokens.go:217`. -/
def alnumMask : UInt8 := 0b01000
/-- Go: `UnescapedMask`, `/repo/token/tokens.go:218`. -/
def unescMask : UInt8 := 0b10000

/-- Go: `Scalar` with its packed field, `/repo/token/tokens.go:95-105`. -/
structure PScalar where
  bytes : Bytes
  tf : UInt8
  deriving DecidableEq, Repr

namespace PScalar
/-- Go: `NewScalar`, `/repo/token/tokens.go:116-121`. -/
def new (t : SType) (b : Bytes) : PScalar := ⟨b, t.code⟩
/-- Go: `NewKey`, `/repo/token/tokens.go:123-128`. -/
def newKey (t : SType) (b : Bytes) : PScalar := ⟨b, t.code ||| keyMask⟩
/-- Go: `Scalar.Type`, `/repo/token/tokens.go:129-131`. -/
def type (s : PScalar) : UInt8 := s.tf &&& typeMask
/-- Go: `Scalar.IsKey`, `/repo/token/tokens.go:133-135`. -/
def isKey (s : PScalar) : Bool := keyMask &&& s.tf != 0
/-- Go: `Scalar.IsAlnum`, `/repo/token/tokens.go:137-139`. -/
def isAlnum (s : PScalar) : Bool := alnumMask &&& s.tf != 0
/-- Go: `Scalar.IsUnescaped`, `/repo/token/tokens.go:141-143`. -/
def isUnescaped (s : PScalar) : Bool := unescMask &&& s.tf != 0
/-- Go: the statements `s.TypeAndFlags |= mask`, e.g. `/repo/encoding/json/decoder.go:171,271,274`. -/
def setFlag (s : PScalar) (mask : UInt8) : PScalar := { s with tf := s.tf ||| mask }
end PScalar

/-- The packed form of a scalar with separate fields. -/
def Scalar.pack (s : Scalar) : PScalar :=
  ⟨s.bytes, s.type.code ||| (if s.key then keyMask else 0) ||| (if s.alnum then alnumMask else 0)
    ||| (if s.unesc then unescMask else 0)⟩

end Verif
