import Verif.Token

/-!
# The JSON grammar (specification)

The grammar of RFC 8259 as predicates on byte strings, written independently of the decoder.
A derivation also relates the text to the value it denotes.
-/

namespace Verif.Rfc8259

/-- `ws`, RFC 8259 section 2. -/
def Ws (w : Bytes) : Prop := ∀ b ∈ w, b = 0x20 ∨ b = 0x09 ∨ b = 0x0A ∨ b = 0x0D

/-- `DIGIT`. -/
def Digit (b : Byte) : Prop := 0x30 ≤ b ∧ b ≤ 0x39

/-- `int`, RFC 8259 section 6. -/
def IntPart (b : Bytes) : Prop :=
  b = [0x30] ∨ ∃ d ds, 0x31 ≤ d ∧ d ≤ 0x39 ∧ (∀ x ∈ ds, Digit x) ∧ b = d :: ds

/-- `frac`. -/
def FracPart (b : Bytes) : Prop := ∃ ds, ds ≠ [] ∧ (∀ x ∈ ds, Digit x) ∧ b = 0x2E :: ds

/-- `exp`. -/
def ExpPart (b : Bytes) : Prop :=
  ∃ e s ds, (e = 0x65 ∨ e = 0x45) ∧ (s = [] ∨ s = [0x2D] ∨ s = [0x2B]) ∧
    ds ≠ [] ∧ (∀ x ∈ ds, Digit x) ∧ b = e :: (s ++ ds)

/-- `number`. -/
def Number (b : Bytes) : Prop :=
  ∃ m i f e, (m = [] ∨ m = [0x2D]) ∧ IntPart i ∧ (f = [] ∨ FracPart f) ∧ (e = [] ∨ ExpPart e) ∧
    b = m ++ (i ++ (f ++ e))

/-- `HEXDIG`. -/
def Hex (b : Byte) : Prop :=
  (0x30 ≤ b ∧ b ≤ 0x39) ∨ (0x41 ≤ b ∧ b ≤ 0x46) ∨ (0x61 ≤ b ∧ b ≤ 0x66)

/-- `*char` (RFC 8259 section 7), for given sets of two-character escapes and of unescaped
characters. -/
inductive Chars (esc : Byte → Prop) (plain : Bytes → Prop) : Bytes → Prop
  | nil : Chars esc plain []
  | plain {c r} : plain c → Chars esc plain r → Chars esc plain (c ++ r)
  | esc {x r} : esc x → Chars esc plain r → Chars esc plain (0x5C :: x :: r)
  | uni {h1 h2 h3 h4 r} : Hex h1 → Hex h2 → Hex h3 → Hex h4 → Chars esc plain r →
      Chars esc plain (0x5C :: 0x75 :: h1 :: h2 :: h3 :: h4 :: r)

/-- UTF-8 encoding of a code point (RFC 3629 section 3). -/
def utf8 (n : Nat) : Bytes :=
  if n < 0x80 then [.ofNat n]
  else if n < 0x800 then [.ofNat (0xC0 + n / 64), .ofNat (0x80 + n % 64)]
  else if n < 0x10000 then
    [.ofNat (0xE0 + n / 4096), .ofNat (0x80 + n / 64 % 64), .ofNat (0x80 + n % 64)]
  else
    [.ofNat (0xF0 + n / 262144), .ofNat (0x80 + n / 4096 % 64), .ofNat (0x80 + n / 64 % 64),
      .ofNat (0x80 + n % 64)]

/-- Unicode scalar values. -/
def UScalar (n : Nat) : Prop := n < 0xD800 ∨ (0xE000 ≤ n ∧ n < 0x110000)

/-- The two-character escapes of the RFC (after the backslash). -/
def RfcEsc (x : Byte) : Prop := x ∈ b%"\"\\/bfnrt"

/-- `unescaped`, in UTF-8. -/
def RfcPlain (c : Bytes) : Prop :=
  ∃ n, UScalar n ∧ 0x20 ≤ n ∧ n ≠ 0x22 ∧ n ≠ 0x5C ∧ c = utf8 n

/-- `*char` of RFC 8259, in UTF-8: the contents of string literals. -/
def RfcChars : Bytes → Prop := Chars RfcEsc RfcPlain

/-- The content of a string literal without its escape sequences. -/
def dropEscapes : Bytes → Bytes
  | [] => []
  | b :: r =>
    if b = 0x5C then
      match r with
      | [] => []
      | x :: r =>
        if x = 0x75 then
          match r with
          | _ :: _ :: _ :: _ :: r => dropEscapes r
          | _ => []
        else dropEscapes r
    else b :: dropEscapes r

/-- The alphanumeric flag set by the decoder on a literal with content `c` (see C51): apart from
escape sequences the content is empty or an identifier. -/
def alnumFlag (c : Bytes) : Bool :=
  match dropEscapes c with
  | [] => true
  | x :: xs => isAlpha x && xs.all isAlnum

/-- The scalar denoted by a string literal with content `c`. -/
def strScalar (c : Bytes) : Scalar :=
  { bytes := 0x22 :: (c ++ [0x22]), type := .str, alnum := alnumFlag c, unesc := !c.contains 0x5C }

mutual

/-- `value` without surrounding white space, RFC 8259 sections 3 to 5, for a given set of string
contents. -/
inductive Text (S : Bytes → Prop) : JVal → Bytes → Prop
  | true : Text S (.scalar { bytes := b%"true", type := .bool }) b%"true"
  | false : Text S (.scalar { bytes := b%"false", type := .bool }) b%"false"
  | null : Text S (.scalar { bytes := b%"null", type := .null }) b%"null"
  | num {b} : Number b → Text S (.scalar { bytes := b, type := .num }) b
  | str {c} : S c → Text S (.scalar (strScalar c)) (0x22 :: (c ++ [0x22]))
  | arr0 {w} : Ws w → Text S (.arr [] false) (0x5B :: (w ++ [0x5D]))
  | arr {vs b} : Items S vs b → Text S (.arr vs false) (0x5B :: (b ++ [0x5D]))
  | obj0 {w} : Ws w → Text S (.obj [] false) (0x7B :: (w ++ [0x7D]))
  | obj {ms b} : Members S ms b → Text S (.obj ms false) (0x7B :: (b ++ [0x7D]))

/-- The items of an array, with white space around each. -/
inductive Items (S : Bytes → Prop) : List JVal → Bytes → Prop
  | one {w v b w'} : Ws w → Text S v b → Ws w' → Items S [v] (w ++ (b ++ w'))
  | more {w v b w' vs r} : Ws w → Text S v b → Ws w' → Items S vs r →
      Items S (v :: vs) (w ++ (b ++ (w' ++ 0x2C :: r)))

/-- The members of an object, with white space around each. -/
inductive Members (S : Bytes → Prop) : List (Scalar × JVal) → Bytes → Prop
  | one {w0 c w1 w v b w'} : Ws w0 → S c → Ws w1 → Ws w → Text S v b → Ws w' →
      Members S [({ strScalar c with key := .true }, v)]
        (w0 ++ (0x22 :: (c ++ 0x22 :: (w1 ++ 0x3A :: (w ++ (b ++ w'))))))
  | more {w0 c w1 w v b w' ms r} : Ws w0 → S c → Ws w1 → Ws w → Text S v b → Ws w' → Members S ms r →
      Members S (({ strScalar c with key := .true }, v) :: ms)
        (w0 ++ (0x22 :: (c ++ 0x22 :: (w1 ++ 0x3A :: (w ++ (b ++ (w' ++ 0x2C :: r)))))))

end

/-- A stream of texts, separated by white space or adjacent. -/
inductive Stream (S : Bytes → Prop) : List JVal → Bytes → Prop
  | nil {w} : Ws w → Stream S [] w
  | cons {w v b vs r} : Ws w → Text S v b → Stream S vs r → Stream S (v :: vs) (w ++ (b ++ r))

/-- Bytes that can continue a number. -/
def NumCont (b : Byte) : Prop := Digit b ∨ b = 0x2E ∨ b = 0x65 ∨ b = 0x45

/-- The value is a number. -/
def IsNumber (v : JVal) : Prop := ∃ s, v = .scalar s ∧ s.type = .num

/-- A stream of texts, separated by white space or adjacent, in which each number is followed by
something that cannot continue it (so that the stream can be read in one way only). -/
inductive SepStream (S : Bytes → Prop) : List JVal → Bytes → Prop
  | nil {w} : Ws w → SepStream S [] w
  | cons {w v b vs r} : Ws w → Text S v b → (IsNumber v → ∀ x r', r = x :: r' → ¬ NumCont x) →
      SepStream S vs r → SepStream S (v :: vs) (w ++ (b ++ r))

/-- The scalar is a string literal, number, boolean or null in the sense of the grammar, for given
string contents; the flags other than the key flag are those a decoder sets. -/
def Literal (S : Bytes → Prop) (s : Scalar) : Prop := ∃ b, Text S (.scalar { s with key := .false }) b

/-- Valid UTF-8. -/
def Utf8 (b : Bytes) : Prop := ∃ cps : List Nat, (∀ n ∈ cps, UScalar n) ∧ b = cps.flatMap utf8

/-- Every backslash in a sequence of bytes starts an escape that RFC 8259 knows. -/
def escOK : Bytes → Bool
  | [] => true
  | b :: r =>
    if b = 0x5C then
      match r with
      | [] => false
      | x :: r => (x == 0x75 || b%"\"\\/bfnrt".contains x) && escOK r
    else escOK r

end Verif.Rfc8259
