import Verif.QuotedLit
import Verif.Decimal

/-!
# Tokens of queries

Model of `/repo/internal/jsonpath/parser/lexer.go`.  The tokeniser itself is `grammar.SimpleTokeniser` of `github.com/arnodel/grammar`, which is not part of
the repository: at each place, the first definition whose pattern matches there gives the token (lines 5-65), `Special` replaces the text that was
matched (lines 40-51), definitions without a name give no token (line 7), and if no definition matches, there is an error.

The patterns are those of the Go library `regexp`: alternatives are tried from the left, repetitions take as much as they can and give back
what they have to.  They are written out as functions; where a pattern can give back something, this is said.  Classes of characters
contain all characters beyond ASCII or none, and the library takes a byte that is not UTF-8 as the character U+FFFD; so classes are sets of
bytes here.
-/

namespace Verif.JPath

/-- The names of the definitions, `/repo/internal/jsonpath/parser/lexer.go:5-65`. -/
inductive TokKind
  | null | bool | func | cmp | descName | dotName | op | int | num | double | single
deriving DecidableEq, Repr

/-- Go: `grammar.SimpleToken`, `/repo/internal/jsonpath/parser/grammar.go:13`. -/
structure Tok where
  kind : TokKind
  text : Bytes
deriving DecidableEq, Repr

/-- The class `\s`, `/repo/internal/jsonpath/parser/lexer.go:7`: tab, line feed, form feed, carriage return and space. -/
def isBlank (b : Byte) : Bool := b == 0x09 || b == 0x0A || b == 0x0C || b == 0x0D || b == 0x20

/-- The class `\w`, for `\b`. -/
def isWord (b : Byte) : Bool := isDig b || (c%'A' ≤ b && b ≤ c%'Z') || b == c%'_' || (c%'a' ≤ b && b ≤ c%'z')

/-- `\b` after a character of the class `\w`. -/
def boundary : Bytes → Bool
  | [] => true
  | b :: _ => !isWord b

/-- `[a-z]`, `/repo/internal/jsonpath/parser/lexer.go:19`. -/
def isLower (b : Byte) : Bool := c%'a' ≤ b && b ≤ c%'z'

/-- `[a-z_0-9]`, `/repo/internal/jsonpath/parser/lexer.go:19`. -/
def isFuncChar (b : Byte) : Bool := isLower b || b == c%'_' || isDig b

/-- `[a-zA-Z_\x80-\x{D7FF}\x{E000}-\x{10FFFF}]`, `/repo/internal/jsonpath/parser/lexer.go:27,31`. -/
def isNameFirst (b : Byte) : Bool := isLower b || (c%'A' ≤ b && b ≤ c%'Z') || b == c%'_' || 0x80 ≤ b

/-- `[0-9a-zA-Z_\x80-\x{D7FF}\x{E000}-\x{10FFFF}]`, `/repo/internal/jsonpath/parser/lexer.go:27,31`. -/
def isNameChar (b : Byte) : Bool := isNameFirst b || isDig b

/-- A word that is followed by `\b`. -/
def lexWord (w : Bytes) (s : Bytes) : Option (Bytes × Bytes) :=
  if w.isPrefixOf s ∧ boundary (s.drop w.length) then some (w, s.drop w.length) else none

/-- The first of some words with which the text begins. -/
def lexAny : List Bytes → Bytes → Option (Bytes × Bytes)
  | [], _ => none
  | w :: l, s => if w.isPrefixOf s then some (w, s.drop w.length) else lexAny l s

/-- `[a-z][a-z_0-9]*\(`, `/repo/internal/jsonpath/parser/lexer.go:19`. -/
def lexFunc : Bytes → Option (Bytes × Bytes)
  | [] => none
  | b :: r =>
    if isLower b then
      match r.dropWhile isFuncChar with
      | [] => none
      | c :: r' => if c = c%'(' then some (b :: (r.takeWhile isFuncChar ++ [c]), r') else none
    else none

/-- A member name after dots, `/repo/internal/jsonpath/parser/lexer.go:27,31`. -/
def lexName (dots : Bytes) (s : Bytes) : Option (Bytes × Bytes) :=
  if dots.isPrefixOf s then
    match s.drop dots.length with
    | [] => none
    | b :: r => if isNameFirst b then some (dots ++ b :: r.takeWhile isNameChar, r.dropWhile isNameChar) else none
  else none

/-- `==|!=|<=|>=|<|>`, `/repo/internal/jsonpath/parser/lexer.go:23`. -/
def cmpOps : List Bytes := [b%"==", b%"!=", b%"<=", b%">=", b%"<", b%">"]

/-- `&&|\|\||\.\.[*[]|\.\*|[$*:?!()@[\],]`, `/repo/internal/jsonpath/parser/lexer.go:35`. -/
def ops : List Bytes :=
  [b%"&&", b%"||", b%"..*", b%"..[", b%".*", b%"$", b%"*", b%":", b%"?", b%"!", b%"(", b%")", b%"@", b%"[", b%"]", b%","]

/-- `-?0|-?[1-9][0-9]*`, `/repo/internal/jsonpath/parser/lexer.go:39,55`, as many digits as there are. -/
def lexWhole (s : Bytes) : Option (Bytes × Bytes) :=
  let (sign, r) := match s with
    | b :: r => if b = c%'-' then ([b], r) else ([], b :: r)
    | [] => ([], [])
  match r with
  | [] => none
  | d :: r =>
    if d = c%'0' then some (sign ++ [d], r)
    else if isDig d then some (sign ++ d :: r.takeWhile isDig, r.dropWhile isDig)
    else none

/-- `(?:0|-?[1-9][0-9]*)(?:[^.eE0-9]|$)` with `Special`, `/repo/internal/jsonpath/parser/lexer.go:37-52`.  A digit cannot be given back, because no digit may
follow; `Special` takes the sign and all digits. -/
def lexInt (s : Bytes) : Option (Bytes × Bytes) :=
  match lexWhole s with
  | none => none
  | some (t, r) =>
    if t = b%"-0" then none
    else match r with
      | [] => some (t, r)
      | b :: _ => if b = c%'.' ∨ b = c%'e' ∨ b = c%'E' ∨ isDig b then none else some (t, r)

/-- `(?:\.[0-9]+)?`, `/repo/internal/jsonpath/parser/lexer.go:55`. -/
def lexFrac : Bytes → Bytes × Bytes
  | [] => ([], [])
  | b :: r => if b = c%'.' ∧ r.takeWhile isDig ≠ [] then (b :: r.takeWhile isDig, r.dropWhile isDig) else ([], b :: r)

/-- `[+-]?`, `/repo/internal/jsonpath/parser/lexer.go:55`. -/
def lexSign : Bytes → Bytes × Bytes
  | [] => ([], [])
  | b :: r => if b = c%'+' ∨ b = c%'-' then ([b], r) else ([], b :: r)

/-- `(?:[eE][+-]?[0-9]+)?`, `/repo/internal/jsonpath/parser/lexer.go:55`. -/
def lexExp : Bytes → Bytes × Bytes
  | [] => ([], [])
  | b :: r =>
    if (b = c%'e' ∨ b = c%'E') ∧ (lexSign r).2.takeWhile isDig ≠ [] then
      (b :: ((lexSign r).1 ++ (lexSign r).2.takeWhile isDig), (lexSign r).2.dropWhile isDig)
    else ([], b :: r)

/-- The pattern of `number`, `/repo/internal/jsonpath/parser/lexer.go:55`.  If `\b` is not satisfied after all parts, then the fraction (with the exponent) is
given back, because there is a boundary before its dot; there is none before a digit or an `e`. -/
def lexNum (s : Bytes) : Option (Bytes × Bytes) :=
  match lexWhole s with
  | none => none
  | some (i, r) =>
    let (f, r1) := lexFrac r
    let (e, r2) := lexExp r1
    if boundary r2 then some (i ++ f ++ e, r2) else if f = [] then none else some (i, r)

/-- `[0-7]` -/
def isOct (b : Byte) : Bool := 0x30 ≤ b && b ≤ 0x37

/-- `[Dd]` -/
def isD (b : Byte) : Bool := b == c%'D' || b == c%'d'

/-- The content of a string and the closing quote, `/repo/internal/jsonpath/parser/lexer.go:59,63`.  The alternatives begin differently, so nothing
can be given back. -/
def lexChars (q : Byte) : Bytes → Option (Bytes × Bytes)
  | [] => none
  | b :: r =>
    if b = q then some ([], r)
    else if b = c%'\\' then
      match r with
      | [] => none
      | e :: r =>
        if e ∈ b%"bfnrt/\\" ∨ e = q then (lexChars q r).map fun x => (b :: e :: x.1, x.2)
        else if e = c%'u' then
          match r with
          | x :: y :: z :: w :: r =>
            if hexDigit x && hexDigit y && hexDigit z && hexDigit w then
              if !isD x || isOct y then (lexChars q r).map fun t => (b :: e :: x :: y :: z :: w :: t.1, t.2)
              else if y ∈ b%"89ABab" then
                match r with
                | b' :: e' :: x' :: y' :: z' :: w' :: r =>
                  if b' = c%'\\' ∧ e' = c%'u' ∧ isD x' ∧ y' ∈ b%"CDEFcdef" ∧ hexDigit z' ∧ hexDigit w' then
                    (lexChars q r).map fun t => (b :: e :: x :: y :: z :: w :: b' :: e' :: x' :: y' :: z' :: w' :: t.1, t.2)
                  else none
                | _ => none
              else none
            else none
          | _ => none
        else none
    else if 0x20 ≤ b then (lexChars q r).map fun t => (b :: t.1, t.2)
    else none

/-- A string, `/repo/internal/jsonpath/parser/lexer.go:59,63`. -/
def lexStr (q : Byte) : Bytes → Option (Bytes × Bytes)
  | [] => none
  | b :: r => if b = q then (lexChars q r).map fun t => (b :: (t.1 ++ [q]), t.2) else none

/-- The definitions with names, `/repo/internal/jsonpath/parser/lexer.go:9-64`, in order. -/
def tokDefs : List (TokKind × (Bytes → Option (Bytes × Bytes))) :=
  [(.null, lexWord b%"null"),
    (.bool, fun s => (lexWord b%"true" s).or (lexWord b%"false" s)),
    (.func, lexFunc),
    (.cmp, lexAny cmpOps),
    (.descName, lexName b%".."),
    (.dotName, lexName b%"."),
    (.op, lexAny ops),
    (.int, lexInt),
    (.num, lexNum),
    (.double, lexStr c%'"'),
    (.single, lexStr c%'\'')]

/-- The first definition that matches. -/
def firstDef : List (TokKind × (Bytes → Option (Bytes × Bytes))) → Bytes → Option (Tok × Bytes)
  | [], _ => none
  | (k, f) :: l, s =>
    match f s with
    | some (t, r) => some (⟨k, t⟩, r)
    | none => firstDef l s

/-- The loop of the tokeniser; fuel is the length of the text.  `none` is an error. -/
def lexAll : Nat → Bytes → Option (List Tok)
  | _, [] => some []
  | 0, _ :: _ => none
  | n + 1, b :: r =>
    if isBlank b then lexAll n (r.dropWhile isBlank)
    else match firstDef tokDefs (b :: r) with
      | none => none
      | some (t, r) => (lexAll n r).map (t :: ·)

/-- Go: `TokeniseJsonPathString`, `/repo/internal/jsonpath/parser/lexer.go:5`. -/
def lex (s : Bytes) : Option (List Tok) := lexAll s.length s

example : lex b%"$.a[?@.b==-1.5e3]..[ 'x' ]" = some [⟨.op, b%"$"⟩, ⟨.dotName, b%".a"⟩, ⟨.op, b%"["⟩, ⟨.op, b%"?"⟩, ⟨.op, b%"@"⟩,
    ⟨.dotName, b%".b"⟩, ⟨.cmp, b%"=="⟩, ⟨.num, b%"-1.5e3"⟩, ⟨.op, b%"]"⟩, ⟨.op, b%"..["⟩, ⟨.single, b%"'x'"⟩, ⟨.op, b%"]"⟩] := by
  decide +kernel

end Verif.JPath
