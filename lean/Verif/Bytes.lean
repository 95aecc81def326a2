/-!
# Bytes

Bytes of the input and output are `UInt8`.  `c%'x'` is the byte of an ASCII
character and `b%"text"` the list of bytes of an ASCII string; both expand to
numerals, so that they reduce well.
-/

namespace Verif

abbrev Byte := UInt8
abbrev Bytes := List UInt8

open Lean in
/-- The byte of an ASCII character, as a numeral. -/
macro:max "c%" c:char : term => do
  let n := c.getChar.toNat
  `(($(quote n) : UInt8))

open Lean in
/-- The bytes of an ASCII string, as a list of numerals. -/
macro:max "b%" s:str : term => do
  let cs := s.getString.toUTF8.toList.map (fun c => c.toNat)
  let elems ← cs.mapM (fun n => `(($(quote n) : UInt8)))
  let arr := elems.toArray
  `(([$arr,*] : List UInt8))

/-- Go: `IsAlpha`, `/repo/internal/scanner/charutil.go:3-5`. -/
def isAlpha (b : Byte) : Bool :=
  (c%'a' ≤ b && b ≤ c%'z') || (c%'A' ≤ b && b ≤ c%'Z') || b == c%'_'

/-- Go: `IsDigit`, `/repo/internal/scanner/charutil.go:7-9`. -/
def isDigit (b : Byte) : Bool := c%'0' ≤ b && b ≤ c%'9'

/-- Go: `IsAlnum`, `/repo/internal/scanner/charutil.go:11-13`. -/
def isAlnum (b : Byte) : Bool := isAlpha b || isDigit b

/-- Go: `IsCtrl`, `/repo/internal/scanner/charutil.go:15-17`. -/
def isCtrl (b : Byte) : Bool := b < 32

/-- Whitespace skipped by the scanner: `'\n'`, `' '`, `'\t'`, `'\r'`.
Go: `/repo/internal/scanner/scanner.go:193-198`. -/
def isSpace (b : Byte) : Bool := b == 10 || b == 32 || b == 9 || b == 13

/-- Hexadecimal digits.  Go: `/repo/encoding/json/decoder.go:261`. -/
def isHex (b : Byte) : Bool :=
  (c%'0' ≤ b && b ≤ c%'9') || (c%'a' ≤ b && b ≤ c%'f') || (c%'A' ≤ b && b ≤ c%'F')

/-- The byte used as end-of-input marker.  Go: `/repo/internal/scanner/scanner.go:242-243`. -/
def eofByte : Byte := 0xFF

/-- A property of all bytes can be checked by enumeration in the kernel. -/
theorem forall_byte {p : Byte → Prop} (h : ∀ n : Fin 256, p (UInt8.ofFin n)) (b : Byte) : p b := by
  have := h b.toFin
  simpa using this

end Verif
