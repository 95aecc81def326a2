import Verif.Scanner

/-!
# The JSON decoder

Model of `/repo/encoding/json/decoder.go` as programs over the scanner.  `return err` is
`Prog.fail`.  Loops take fuel; `Prog.oof` is shown to be unreachable for the fuel used in
`Json.decode`.
-/

namespace Verif

namespace Prog

/-- `Read`, returning on error. -/
def rd : Prog Byte := .read fun
  | .ok b => .ret b
  | .error e => .fail (.io e)

/-- `Peek`, returning on error. -/
def pk : Prog Byte := .peek fun
  | .ok b => .ret b
  | .error e => .fail (.io e)

/-- `SkipSpaceAndPeek`, returning on error. -/
def skPk : Prog Byte := .skipPeek fun
  | .ok b => .ret b
  | .error e => .fail (.io e)

/-- `SkipSpaceAndRead`, returning on error. -/
def skRd : Prog Byte := .skipRead fun
  | .ok b => .ret b
  | .error e => .fail (.io e)

/-- `Read` after a successful `Peek`, as a statement: the result is ignored.  An error is
impossible here; the model panics in that case, and C05 shows that it does not happen. -/
def rdIgnore : Prog Unit := .read fun
  | .ok _ => .ret ()
  | .error _ => .crash

/-- `out <- t`. -/
def send (t : Token) : Prog Unit := .emit t (.ret ())

/-- `Back`. -/
def goBack : Prog Unit := .back (.ret ())

/-- `StartToken` (the position it returns is never used). -/
def start : Prog Unit := .startToken (.ret ())

/-- `EndToken`. -/
def finish : Prog Bytes := .endToken .ret

end Prog

namespace Json
open Prog

/-- Go: `checkEOF`, `/repo/encoding/json/decoder.go:101-109` (and the copy in
`/repo/encoding/jpv/decoder.go:161-169`). -/
def checkEOF (b : Byte) : Prog Byte := if b = eofByte then .fail (.io .eof) else .ret b

/-- Go: `UnexpectedByte`, `/repo/encoding/json/decoder.go:218-229`. -/
def unexpected {α : Type} (msg : String) : Prog α :=
  .currentPos fun pos => rd.bind fun b =>
    .fail (.syn pos msg (if b = eofByte then none else some b))

/-- Go: `ExpectByte`, `/repo/encoding/json/decoder.go:206-216`.  (`%q` of the expected byte is
replaced by its number in the message.) -/
def expectByte (x : Byte) : Prog Unit :=
  rd.bind fun b =>
    if b ≠ x then goBack.bind fun _ => unexpected s!"expected {x}, got" else .ret ()

/-- Go: `checkBytes`, `/repo/encoding/json/decoder.go:374-381`. -/
def checkBytes : Bytes → Prog Unit
  | [] => .ret ()
  | x :: xs => (expectByte x).bind fun _ => checkBytes xs

/-- `scanr.Read()` followed by `checkEOF`. -/
def rdChk : Prog Byte := rd.bind checkEOF

/-- The four hexadecimal digits of a `\u` escape.  Go: `/repo/encoding/json/decoder.go:256-265`. -/
def hexLoop : Nat → Prog Unit
  | 0 => .ret ()
  | i + 1 => rdChk.bind fun b =>
    if isHex b then hexLoop i else goBack.bind fun _ => unexpected "expected hex, got"

/-- Loop of `ParseString` with the variables `isAlnum`, `isUnescaped` and `firstChar`.
Go: `/repo/encoding/json/decoder.go:240-291`. -/
def stringLoop : Nat → Bool → Bool → Bool → Prog Scalar
  | 0, _, _, _ => .oof
  | fuel + 1, al, un, first => rdChk.bind fun b =>
    if b = c%'\\' then
      rdChk.bind fun x =>
        if x = c%'u' then (hexLoop 4).bind fun _ => stringLoop fuel al false first
        else stringLoop fuel al false first
    else if b = c%'"' then
      finish.bind fun bs => .ret { bytes := bs, type := .str, alnum := al, unesc := un }
    else if isCtrl b then
      goBack.bind fun _ => unexpected "invalid control character in string"
    else if al then
      if first then stringLoop fuel (isAlpha b) un false else stringLoop fuel (isAlnum b) un first
    else stringLoop fuel al un first

/-- Go: `ParseString`, `/repo/encoding/json/decoder.go:231-292`. -/
def parseString (fuel : Nat) : Prog Scalar :=
  start.bind fun _ => (expectByte c%'"').bind fun _ => stringLoop fuel true true true

/-- Go: `ReadDigits`, `/repo/encoding/json/decoder.go:360-372`, with the count so far. -/
def readDigits : Nat → Nat → Prog (Byte × Nat)
  | 0, _ => .oof
  | fuel + 1, n => rd.bind fun b =>
    if b = eofByte ∨ isDigit b = false then .ret (b, n) else readDigits fuel (n + 1)

/-- Exponent part and end of a number; `b` is the byte read last.
Go: `/repo/encoding/json/decoder.go:338-357`. -/
def numberExp (fuel : Nat) (b : Byte) : Prog Scalar :=
  let done : Prog Scalar :=
    goBack.bind fun _ => finish.bind fun bs => .ret { bytes := bs, type := .num }
  if b = c%'e' ∨ b = c%'E' then
    pk.bind fun b =>
      (if b = c%'-' ∨ b = c%'+' then rdIgnore else .ret ()).bind fun _ =>
        (readDigits fuel 0).bind fun r =>
          if r.2 = 0 then goBack.bind fun _ => unexpected "expected digit, got" else done
  else done

/-- Fraction part; `b` is the byte read last.  Go: `/repo/encoding/json/decoder.go:326-336`. -/
def numberFrac (fuel : Nat) (b : Byte) : Prog Scalar :=
  if b = c%'.' then
    (readDigits fuel 0).bind fun r =>
      if r.2 = 0 then goBack.bind fun _ => unexpected "expected digit, got"
      else numberExp fuel r.1
  else numberExp fuel b

/-- Integer part; `b` is the byte read last (not the sign).
Go: `/repo/encoding/json/decoder.go:304-324`. -/
def numberInt (fuel : Nat) (b : Byte) : Prog Scalar :=
  (checkEOF b).bind fun b =>
    if b = c%'0' then rd.bind fun b => numberFrac fuel b
    else if c%'1' ≤ b ∧ b ≤ c%'9' then (readDigits fuel 0).bind fun r => numberFrac fuel r.1
    else goBack.bind fun _ => unexpected "expected digit, got"

/-- Go: `ParseNumber`, `/repo/encoding/json/decoder.go:295-358`.  (If the first `Read` fails, `b` is
0 in Go, which is not a minus sign, and the error is returned by `checkEOF`.) -/
def parseNumber (fuel : Nat) : Prog Scalar :=
  start.bind fun _ => rd.bind fun b =>
    if b = c%'-' then rd.bind fun b => numberInt fuel b else numberInt fuel b

/-- The scalars for `true`, `false` and `null`.  Go: `/repo/encoding/json/decoder.go:389-393`. -/
def trueScalar : Scalar := { bytes := b%"true", type := .bool }
@[inherit_doc trueScalar] def falseScalar : Scalar := { bytes := b%"false", type := .bool }
@[inherit_doc trueScalar] def nullScalar : Scalar := { bytes := b%"null", type := .null }

/-- Go: `parseArray`, `/repo/encoding/json/decoder.go:111-148`, up to the loop, which is the argument. -/
def parseArray (loop : Prog Unit) : Prog Unit :=
  (expectByte c%'[').bind fun _ => (send .startArr).bind fun _ =>
  skPk.bind fun b => (checkEOF b).bind fun b =>
    if b = c%']' then rdIgnore.bind fun _ => send .endArr
    else loop

/-- Go: `parseObject`, `/repo/encoding/json/decoder.go:150-204`, up to the loop, which is the argument. -/
def parseObject (loop : Prog Unit) : Prog Unit :=
  (expectByte c%'{').bind fun _ => (send .startObj).bind fun _ =>
  skPk.bind fun b => (checkEOF b).bind fun b =>
    if b = c%'}' then rdIgnore.bind fun _ => send .endObj
    else loop

mutual

/-- Go: `ParseValue`, `/repo/encoding/json/decoder.go:41-93`. -/
def parseValue : Nat → Prog Unit
  | 0 => .oof
  | fuel + 1 => skPk.bind fun b =>
    (checkEOF b).bind fun b =>
    if b = c%'"' then (parseString (fuel + 1)).bind fun s => send (.scalar s)
    else if b = c%'[' then parseArray (items fuel)
    else if b = c%'{' then parseObject (members fuel)
    else if b = c%'t' then (checkBytes b%"true").bind fun _ => send (.scalar trueScalar)
    else if b = c%'f' then (checkBytes b%"false").bind fun _ => send (.scalar falseScalar)
    else if b = c%'n' then (checkBytes b%"null").bind fun _ => send (.scalar nullScalar)
    else if b = c%'-' ∨ (c%'0' ≤ b ∧ b ≤ c%'9') then
      (parseNumber (fuel + 1)).bind fun s => send (.scalar s)
    else unexpected "unexpected"

/-- The loop of `parseArray`.  Go: `/repo/encoding/json/decoder.go:128-147`. -/
def items : Nat → Prog Unit
  | 0 => .oof
  | fuel + 1 =>
    (parseValue fuel).bind fun _ =>
    skPk.bind fun b => (checkEOF b).bind fun b =>
      if b = c%']' then rdIgnore.bind fun _ => send .endArr
      else if b = c%',' then rdIgnore.bind fun _ => items fuel
      else unexpected "expected ']' or ',', got"

/-- The loop of `parseObject`.  Go: `/repo/encoding/json/decoder.go:166-203`. -/
def members : Nat → Prog Unit
  | 0 => .oof
  | fuel + 1 =>
    (parseString (fuel + 1)).bind fun key =>
    (send (.scalar { key with key := true })).bind fun _ =>
    skPk.bind fun b => (checkEOF b).bind fun b =>
    if b ≠ c%':' then unexpected "expected ':', got"
    else rdIgnore.bind fun _ => (parseValue fuel).bind fun _ =>
    skPk.bind fun b => (checkEOF b).bind fun b =>
      if b = c%'}' then rdIgnore.bind fun _ => send .endObj
      else if b = c%',' then
        rdIgnore.bind fun _ => skPk.bind fun b => (checkEOF b).bind fun _ => members fuel
      else unexpected "expected '}' or ',' got"

end

/-- Go: `Produce`, `/repo/encoding/json/decoder.go:26-37`; `vfuel` is the fuel for one value. -/
def produce (vfuel : Nat) : Nat → Prog Unit
  | 0 => .oof
  | fuel + 1 => skPk.bind fun b =>
    if b = eofByte then .ret ()
    else (parseValue vfuel).bind fun _ => produce vfuel fuel

/-- Enough fuel for an input of length `n`. -/
def fuelFor (n : Nat) : Nat := 2 * n + 4

/-- A run of the JSON decoder on a reader, with a buffer of the given size (8192 in Go). -/
def decodeFrom (r : Reader) (size : Nat := 8192) : List Token × Out Unit Unit :=
  (produce (fuelFor r.rest.length) (fuelFor r.rest.length)).result CScan.machine (CScan.new r size)

end Json

end Verif
