import Verif.GoJson

/-!
# Literals of the query language

Model of `/repo/internal/jsonpath/parser/parse_literals.go`.
-/

namespace Verif.JPath

/-- Go: `strings.ReplaceAll`, for `old` not empty; fuel is the length of the string. -/
def replaceAll (old new : Bytes) : Nat → Bytes → Bytes
  | 0, s => s
  | _ + 1, [] => []
  | f + 1, b :: s => if old.isPrefixOf (b :: s) then new ++ replaceAll old new f ((b :: s).drop old.length) else b :: replaceAll old new f s

/-- Go: `parseDoubleQuotedString`, `/repo/internal/jsonpath/parser/parse_literals.go:28-34`; `none` is an error.  The decoder of the
standard library reads the first value only; what follows it is never there, because the lexer ends the literal with the quote. -/
def parseDouble (s : Bytes) : Option Bytes := GoJson.unquote s

/-- Go: `parseSingleQuotedString`, `/repo/internal/jsonpath/parser/parse_literals.go:36-45`. -/
def parseSingle (s : Bytes) : Option Bytes :=
  let s := (s.drop 1).dropLast
  let s := replaceAll [c%'\\', c%'\''] [c%'\''] s.length s
  let s := replaceAll [c%'"'] [c%'\\', c%'"'] s.length s
  parseDouble (c%'"' :: (s ++ [c%'"']))

/-- Go: `strconv.ParseInt(s, 10, 64)`; `none` is an error. -/
def parseInt64 (s : Bytes) : Option Int :=
  let (neg, ds) := match s with
    | b :: r => if b = c%'-' then (true, r) else if b = c%'+' then (false, r) else (false, b :: r)
    | [] => (false, [])
  if ds.isEmpty || ds.any (fun b => b < c%'0' || c%'9' < b) then none
  else
    let v : Nat := ds.foldl (fun n d => 10 * n + (d.toNat - 0x30)) 0
    if neg then if v ≤ 2 ^ 63 then some (-(v : Int)) else none else if v < 2 ^ 63 then some v else none

/-- Go: `parseInt`, `/repo/internal/jsonpath/parser/parse_literals.go:16-25`. -/
def parseInt (s : Bytes) : Option Int :=
  match parseInt64 s with
  | none => none
  | some n => if n > 9007199254740991 ∨ n < -9007199254740991 then none else some n

end Verif.JPath

namespace Verif.JPath

/-- The class `[0-9A-Fa-f]`. -/
def hexDigit (b : Byte) : Bool := (0x30 ≤ b && b ≤ 0x39) || (0x41 ≤ b && b ≤ 0x46) || (0x61 ≤ b && b ≤ 0x66)

/-- The words of the pattern of the token `singlequotedstring`, without the quotes, `/repo/internal/jsonpath/parser/lexer.go:61-64`, on
queries that are UTF-8.  (The tokeniser itself is a library.) -/
inductive LexSingle : Bytes → Prop
  | nil : LexSingle []
  | esc {e c} : e ∈ b%"bfnrt/\\'" → LexSingle c → LexSingle (0x5C :: e :: c)
  | hex {x y z w c} : (hexDigit x && !(x == c%'D' || x == c%'d')) → hexDigit y → hexDigit z → hexDigit w → LexSingle c →
      LexSingle (0x5C :: c%'u' :: x :: y :: z :: w :: c)
  | hexD {x y z w c} : (x = c%'D' ∨ x = c%'d') → 0x30 ≤ y → y ≤ 0x37 → hexDigit z → hexDigit w → LexSingle c →
      LexSingle (0x5C :: c%'u' :: x :: y :: z :: w :: c)
  | pair {x y z w x' y' z' w' c} : (x = c%'D' ∨ x = c%'d') → y ∈ b%"89ABab" → hexDigit z → hexDigit w →
      (x' = c%'D' ∨ x' = c%'d') → y' ∈ b%"CDEFcdef" → hexDigit z' → hexDigit w' → LexSingle c →
      LexSingle (0x5C :: c%'u' :: x :: y :: z :: w :: 0x5C :: c%'u' :: x' :: y' :: z' :: w' :: c)
  | char {r c} : (0x20 ≤ r ∧ r ≤ 0x26 ∨ 0x28 ≤ r ∧ r ≤ 0x5B ∨ 0x5D ≤ r ∧ r ≤ 0xD7FF ∨ 0xE000 ≤ r ∧ r ≤ 0x10FFFF) → LexSingle c →
      LexSingle (Utf8.encode r ++ c)

end Verif.JPath
