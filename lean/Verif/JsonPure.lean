import Verif.JsonDecoder

/-!
# The JSON decoder as a function on the input (helper definitions)

A second, direct description of what the decoder programs do on the unbuffered scanner.  It is
proved equal to the programs in `Verif.JsonPureLemmas` and is only used in proofs.
-/

namespace Verif.Pure

/-- An error, with the part of the input from the offending byte on instead of a position. -/
inductive PErr
  | io (e : RErr)
  | syn (msg : String) (rest : Bytes)
  deriving DecidableEq, Repr

/-- Read a byte and check that it is not the end of input. -/
def chk (fin : RErr) : Bytes → Except PErr (Byte × Bytes)
  | [] => .error (.io fin)
  | b :: r => if b = eofByte then .error (.io .eof) else .ok (b, r)

/-- State inside a string: plain, after a backslash, or with `k + 1` hexadecimal digits to come. -/
inductive SSt
  | norm
  | esc
  | hex (k : Nat)
  deriving DecidableEq, Repr

/-- The rest of a string after the opening quote: the bytes up to and including the closing quote,
the alnum and unescaped flags, and the rest of the input. -/
def str (fin : RErr) : SSt → Bool → Bool → Bool → Bytes → Except PErr (Bytes × Bool × Bool × Bytes)
  | _, _, _, _, [] => .error (.io fin)
  | st, al, un, first, b :: r =>
    if b = eofByte then .error (.io .eof)
    else
      let more (st : SSt) (al un first : Bool) :=
        (str fin st al un first r).map fun x => (b :: x.1, x.2)
      match st with
      | .esc => if b = c%'u' then more (.hex 3) al false first else more .norm al false first
      | .hex 0 =>
        if isHex b then more .norm al un first else .error (.syn "expected hex, got" (b :: r))
      | .hex (k + 1) =>
        if isHex b then more (.hex k) al un first else .error (.syn "expected hex, got" (b :: r))
      | .norm =>
        if b = c%'\\' then more .esc al false first
        else if b = c%'"' then .ok ([b], al, un, r)
        else if isCtrl b then .error (.syn "invalid control character in string" (b :: r))
        else if al then
          if first then more .norm (isAlpha b) un false else more .norm (isAlnum b) un first
        else more .norm al un first

/-- A message of `expectByte`. -/
def expMsg (x : Byte) : String := s!"expected {x}, got"

/-- A string token.  The input must not be empty. -/
def string (fin : RErr) : Bytes → Except PErr (Scalar × Bytes)
  | [] => .error (.syn (expMsg c%'"') [])
  | b :: r =>
    if b ≠ c%'"' then .error (.syn (expMsg c%'"') (b :: r))
    else (str fin .norm true true true r).map fun (c, al, un, r) =>
      ({ bytes := b :: c, type := .str, alnum := al, unesc := un }, r)

/-- The byte after a digit has to be read, so a reader error shows up. -/
def nxt (fin : RErr) (r : Bytes) : Except PErr Unit :=
  if r = [] ∧ fin ≠ .eof then .error (.io fin) else .ok ()

/-- Optional sign of an exponent. -/
def sign : Bytes → Bytes × Bytes
  | [] => ([], [])
  | c :: r => if c = c%'-' ∨ c = c%'+' then ([c], r) else ([], c :: r)

/-- Digits, of which there must be one. -/
def digits1 (fin : RErr) (r : Bytes) : Except PErr (Bytes × Bytes) :=
  let ds := r.takeWhile isDigit
  let r' := r.dropWhile isDigit
  (nxt fin r').bind fun _ =>
    if ds = [] then .error (.syn "expected digit, got" r') else .ok (ds, r')

/-- Exponent part. -/
def exp (fin : RErr) : Bytes → Except PErr (Bytes × Bytes)
  | [] => .ok ([], [])
  | b :: r =>
    if b = c%'e' ∨ b = c%'E' then
      (nxt fin r).bind fun _ =>
        let s := sign r
        (digits1 fin s.2).map fun x => (b :: (s.1 ++ x.1), x.2)
    else .ok ([], b :: r)

/-- Fraction and exponent part. -/
def frac (fin : RErr) : Bytes → Except PErr (Bytes × Bytes)
  | [] => .ok ([], [])
  | b :: r =>
    if b = c%'.' then
      (digits1 fin r).bind fun x => (exp fin x.2).map fun y => (b :: (x.1 ++ y.1), y.2)
    else exp fin (b :: r)

/-- Number without sign. -/
def int (fin : RErr) (r : Bytes) : Except PErr (Bytes × Bytes) :=
  (chk fin r).bind fun x =>
    if x.1 = c%'0' then
      (nxt fin x.2).bind fun _ => (frac fin x.2).map fun y => (x.1 :: y.1, y.2)
    else if c%'1' ≤ x.1 ∧ x.1 ≤ c%'9' then
      let ds := x.2.takeWhile isDigit
      let r' := x.2.dropWhile isDigit
      (nxt fin r').bind fun _ => (frac fin r').map fun y => (x.1 :: (ds ++ y.1), y.2)
    else .error (.syn "expected digit, got" r)

/-- The bytes of a number. -/
def numBytes (fin : RErr) : Bytes → Except PErr (Bytes × Bytes)
  | [] => int fin []
  | b :: r => if b = c%'-' then (int fin r).map fun y => (b :: y.1, y.2) else int fin (b :: r)

/-- A number token. -/
def number (fin : RErr) (r : Bytes) : Except PErr (Scalar × Bytes) :=
  (numBytes fin r).map fun x => ({ bytes := x.1, type := .num }, x.2)

/-- Fixed bytes. -/
def fixed : Bytes → Bytes → Except PErr Bytes
  | [], r => .ok r
  | x :: _, [] => .error (.syn (expMsg x) [])
  | x :: xs, b :: r => if b ≠ x then .error (.syn (expMsg x) (b :: r)) else fixed xs r

/-- Skip white space. -/
def ws (r : Bytes) : Bytes := r.dropWhile isSpace

/-- Result of a parser that emits tokens: the rest, an error, or out of fuel (`none`). -/
abbrev PRes := List Token × Option (Except PErr Bytes)

/-- Sequencing of emitting parsers. -/
def PRes.then (x : PRes) (f : Bytes → PRes) : PRes :=
  match x with
  | (ts, some (.ok r)) => (ts ++ (f r).1, (f r).2)
  | (ts, y) => (ts, y)

/-- A parse step that emits nothing. -/
def lift {α : Type} (x : Except PErr α) (f : α → PRes) : PRes :=
  match x with
  | .ok a => f a
  | .error e => ([], some (.error e))

/-- Emit a token. -/
def put (t : Token) (x : PRes) : PRes := (t :: x.1, x.2)

/-- Success. -/
def done (r : Bytes) : PRes := ([], some (.ok r))

/-- An array after the opening bracket, if `loop` parses the items. -/
def arr (fin : RErr) (loop : Bytes → PRes) (r : Bytes) : PRes :=
  put .startArr <| lift (chk fin (ws r)) fun x =>
    if x.1 = c%']' then put .endArr (done x.2) else loop (ws r)

/-- An object after the opening brace, if `loop` parses the members. -/
def obj (fin : RErr) (loop : Bytes → PRes) (r : Bytes) : PRes :=
  put .startObj <| lift (chk fin (ws r)) fun x =>
    if x.1 = c%'}' then put .endObj (done x.2) else loop (ws r)

mutual

/-- A value. -/
def value (fin : RErr) : Nat → Bytes → PRes
  | 0, _ => ([], none)
  | n + 1, r =>
    lift (chk fin (ws r)) fun x =>
      let b := x.1
      if b = c%'"' then lift (string fin (ws r)) fun y => put (.scalar y.1) (done y.2)
      else if b = c%'[' then arr fin (items fin n) x.2
      else if b = c%'{' then obj fin (members fin n) x.2
      else if b = c%'t' then lift (fixed b%"true" (ws r)) fun r => put (.scalar Json.trueScalar) (done r)
      else if b = c%'f' then lift (fixed b%"false" (ws r)) fun r => put (.scalar Json.falseScalar) (done r)
      else if b = c%'n' then lift (fixed b%"null" (ws r)) fun r => put (.scalar Json.nullScalar) (done r)
      else if b = c%'-' ∨ (c%'0' ≤ b ∧ b ≤ c%'9') then
        lift (number fin (ws r)) fun y => put (.scalar y.1) (done y.2)
      else ([], some (.error (.syn "unexpected" (ws r))))

/-- The items of an array. -/
def items (fin : RErr) : Nat → Bytes → PRes
  | 0, _ => ([], none)
  | n + 1, r =>
    (value fin n r).then fun r =>
      lift (chk fin (ws r)) fun x =>
        if x.1 = c%']' then put .endArr (done x.2)
        else if x.1 = c%',' then items fin n x.2
        else ([], some (.error (.syn "expected ']' or ',', got" (ws r))))

/-- The members of an object. -/
def members (fin : RErr) : Nat → Bytes → PRes
  | 0, _ => ([], none)
  | n + 1, r =>
    lift (string fin r) fun k =>
      put (.scalar { k.1 with key := true }) <|
      lift (chk fin (ws k.2)) fun x =>
        if x.1 ≠ c%':' then ([], some (.error (.syn "expected ':', got" (ws k.2))))
        else (value fin n x.2).then fun r =>
          lift (chk fin (ws r)) fun x =>
            if x.1 = c%'}' then put .endObj (done x.2)
            else if x.1 = c%',' then lift (chk fin (ws x.2)) fun _ => members fin n (ws x.2)
            else ([], some (.error (.syn "expected '}' or ',' got" (ws r))))

end

/-- A stream of values. -/
def produce (fin : RErr) (vfuel : Nat) : Nat → Bytes → PRes
  | 0, _ => ([], none)
  | n + 1, r =>
    match ws r with
    | [] => if fin = .eof then done [] else ([], some (.error (.io fin)))
    | b :: r' =>
      if b = eofByte then done (b :: r') else (value fin vfuel (b :: r')).then (produce fin vfuel n)

end Verif.Pure
