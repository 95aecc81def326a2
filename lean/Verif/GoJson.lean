import Verif.Token

/-!
# String literals as the Go library reads them

The conversions of `/repo/token/tokens.go` use `encoding/json` of the Go library, which is not part of
the repository.  This is a model of what that library does for string literals
(`encoding/json/decode.go: unquoteBytes`, `unicode/utf8: DecodeRune, EncodeRune`).  Numbers are left to a
parameter.
-/

namespace Verif

namespace Utf8

/-- A continuation byte. -/
def isCont (b : Byte) : Bool := 0x80 ≤ b && b ≤ 0xBF

/-- `utf8.DecodeRune`: the character and its size, `none` for an invalid sequence (where the
library answers U+FFFD with size 1). -/
def decode : Bytes → Option (Nat × Nat)
  | [] => none
  | b0 :: r =>
    if b0 < 0x80 then some (b0.toNat, 1)
    else if 0xC2 ≤ b0 && b0 ≤ 0xDF then
      match r with
      | b1 :: _ => if isCont b1 then some ((b0.toNat - 0xC0) * 64 + (b1.toNat - 0x80), 2) else none
      | _ => none
    else if 0xE0 ≤ b0 && b0 ≤ 0xEF then
      match r with
      | b1 :: b2 :: _ =>
        if (if b0 = 0xE0 then 0xA0 else 0x80) ≤ b1 && b1 ≤ (if b0 = 0xED then 0x9F else 0xBF) && isCont b2 then
          some ((b0.toNat - 0xE0) * 4096 + (b1.toNat - 0x80) * 64 + (b2.toNat - 0x80), 3)
        else none
      | _ => none
    else if 0xF0 ≤ b0 && b0 ≤ 0xF4 then
      match r with
      | b1 :: b2 :: b3 :: _ =>
        if (if b0 = 0xF0 then 0x90 else 0x80) ≤ b1 && b1 ≤ (if b0 = 0xF4 then 0x8F else 0xBF) && isCont b2 && isCont b3 then
          some ((b0.toNat - 0xF0) * 262144 + (b1.toNat - 0x80) * 4096 + (b2.toNat - 0x80) * 64 + (b3.toNat - 0x80), 4)
        else none
      | _ => none
    else none

/-- U+FFFD -/
def replacement : Bytes := [0xEF, 0xBF, 0xBD]

/-- `utf16.IsSurrogate` -/
def isSurrogate (r : Nat) : Bool := 0xD800 ≤ r && r < 0xE000

/-- `utf8.EncodeRune` -/
def encode (r : Nat) : Bytes :=
  if r < 0x80 then [UInt8.ofNat r]
  else if r < 0x800 then [UInt8.ofNat (0xC0 + r / 64), UInt8.ofNat (0x80 + r % 64)]
  else if isSurrogate r || 0x10FFFF < r then replacement
  else if r < 0x10000 then
    [UInt8.ofNat (0xE0 + r / 4096), UInt8.ofNat (0x80 + r / 64 % 64), UInt8.ofNat (0x80 + r % 64)]
  else
    [UInt8.ofNat (0xF0 + r / 262144), UInt8.ofNat (0x80 + r / 4096 % 64), UInt8.ofNat (0x80 + r / 64 % 64),
      UInt8.ofNat (0x80 + r % 64)]

/-- Number of characters; each byte that is not part of a valid sequence counts as one
(`utf8.RuneCount`). -/
def count : Nat → Bytes → Nat
  | 0, _ => 0
  | _ + 1, [] => 0
  | f + 1, b :: r => 1 + count f ((b :: r).drop (((decode (b :: r)).map Prod.snd).getD 1))

end Utf8

namespace GoJson
open Utf8

/-- Value of a hexadecimal digit. -/
def hexVal (b : Byte) : Option Nat :=
  if 0x30 ≤ b && b ≤ 0x39 then some (b.toNat - 0x30)
  else if 0x61 ≤ b && b ≤ 0x66 then some (b.toNat - 0x61 + 10)
  else if 0x41 ≤ b && b ≤ 0x46 then some (b.toNat - 0x41 + 10)
  else none

/-- Four hexadecimal digits and the rest. -/
def hex4 : Bytes → Option (Nat × Bytes)
  | a :: b :: c :: d :: r => do
    some ((← hexVal a) * 4096 + (← hexVal b) * 256 + (← hexVal c) * 16 + (← hexVal d), r)
  | _ => none

/-- `getu4`: a `\uXXXX` at the start. -/
def getu4 : Bytes → Option (Nat × Bytes)
  | 0x5C :: 0x75 :: r => hex4 r
  | _ => none

/-- `utf16.DecodeRune` for a pair of surrogates. -/
def decodePair (a b : Nat) : Option Nat :=
  if 0xD800 ≤ a && a < 0xDC00 && 0xDC00 ≤ b && b < 0xE000 then
    some ((a - 0xD800) * 1024 + (b - 0xDC00) + 0x10000)
  else none

/-- The character of a simple escape.  (`unquoteBytes` also knows `\'`, which the library's scanner
rejects before.) -/
def simpleEsc (b : Byte) : Option Byte :=
  if b = 0x22 ∨ b = 0x5C ∨ b = 0x2F then some b
  else if b = 0x62 then some 0x08
  else if b = 0x66 then some 0x0C
  else if b = 0x6E then some 0x0A
  else if b = 0x72 then some 0x0D
  else if b = 0x74 then some 0x09
  else none

/-- The loop of `unquoteBytes`; fuel is the length. -/
def unq : Nat → Bytes → Option Bytes
  | _, [] => some []
  | 0, _ :: _ => none
  | f + 1, c :: r =>
    if c = 0x5C then
      match r with
      | [] => none
      | e :: r =>
        if e = 0x75 then
          match hex4 r with
          | none => none
          | some (a, r) =>
            if isSurrogate a then
              match getu4 r with
              | none => (unq f r).map (replacement ++ ·)
              | some (b, r') =>
                match decodePair a b with
                | some x => (unq f r').map (encode x ++ ·)
                | none => (unq f r).map (replacement ++ ·)
            else (unq f r).map (encode a ++ ·)
        else
          match simpleEsc e with
          | none => none
          | some x => (unq f r).map (x :: ·)
    else if c = 0x22 ∨ c < 0x20 then none
    else if c < 0x80 then (unq f r).map (c :: ·)
    else
      match decode (c :: r) with
      | none => (unq f r).map (replacement ++ ·)
      | some (x, n) => (unq f ((c :: r).drop n)).map (encode x ++ ·)

/-- `unquoteBytes` on a literal. -/
def unquote (b : Bytes) : Option Bytes :=
  match b with
  | [] => none
  | q :: r =>
    if q = 0x22 ∧ r.getLast? = some 0x22 then unq r.length r.dropLast else none

/-- Go: `Scalar.ToString`, `/repo/token/tokens.go:179-184` (`none` is a panic).  For scalars that are
not strings the library's answer is not a string, and the type assertion panics. -/
def toStr (s : Scalar) : Option Bytes :=
  if s.unesc then if s.bytes.length < 2 then none else some (s.bytes.drop 1).dropLast
  else if s.type = .str then unquote s.bytes else none

/-- Go: `Scalar.EqualsString`, `/repo/token/tokens.go:109-114`. -/
def equalsString (s : Scalar) (str : Bytes) : Option Bool :=
  if s.type ≠ .str then some false else (toStr s).map (decide <| · = str)

end GoJson
end Verif
