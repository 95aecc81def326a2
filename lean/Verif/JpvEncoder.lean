import Verif.JsonEncoder

/-!
# The JPV encoder

`/repo/encoding/jpv/encoder.go` as a program over iterators that makes calls to a printer.
-/

namespace Verif

/-- Go: `PrintSuccintScalar`, `/repo/internal/format/colorizer.go:28-40`.  The quotes are cut off by slicing, which panics
if there are fewer than two bytes. -/
def printSuccinct (c : Option Colorizer) (s : Scalar) : IProg POp Unit :=
  if s.alnum then
    if s.bytes.length < 2 then .fail .panic
    else IProg.putAll (printScalar c { s with bytes := (s.bytes.drop 1).dropLast })
  else IProg.putAll (printScalar c s)

/-- Go: `strconv.Itoa` for numbers that are not negative. -/
def itoa (n : Nat) : Bytes :=
  if n < 10 then [.ofNat (0x30 + n)] else itoa (n / 10) ++ [.ofNat (0x30 + n % 10)]

/-- Go: `Encoder`, `/repo/encoding/jpv/encoder.go:15-22`.  The path is an argument of the functions of the model: each of
them leaves it as it has found it if it returns.  (If the printer fails it is not reset, so that it would be wrong in a
later call to `Consume`; this is not modelled.) -/
structure JEncCfg where
  color : Option Colorizer
  quote : Bool

namespace JEnc
open IProg

/-- Go: one round of the loop of `writePath`, `/repo/encoding/jpv/encoder.go:109-118`. -/
def writeElem (cfg : JEncCfg) (k : Scalar) : IProg POp Unit :=
  if k.alnum && !cfg.quote then (put (.bytes b%".")).bind fun _ => printSuccinct cfg.color k
  else (put (.bytes b%"[")).bind fun _ => (putAll (printScalar cfg.color k)).bind fun _ => put (.bytes b%"]")

/-- The loop of `writePath`. -/
def writeElems (cfg : JEncCfg) : List Scalar → IProg POp Unit
  | [] => .ret ()
  | k :: l => (writeElem cfg k).bind fun _ => writeElems cfg l

/-- Go: `writePath`, `/repo/encoding/jpv/encoder.go:107-120`. -/
def writePath (cfg : JEncCfg) (path : List Scalar) : IProg POp Unit :=
  (put (.bytes b%"$")).bind fun _ => (writeElems cfg path).bind fun _ => put (.bytes b%" = ")

/-- Go: `writeScalar`, `/repo/encoding/jpv/encoder.go:101-105`. -/
def writeScalar (cfg : JEncCfg) (path : List Scalar) (s : Scalar) : IProg POp Unit :=
  (writePath cfg path).bind fun _ => (putAll (printScalar cfg.color s)).bind fun _ => put .newLine

/-- Go: the end of `writeObject` and `writeArray`, `/repo/encoding/jpv/encoder.go:66-76`, `:88-98`. -/
def writeRest (cfg : JEncCfg) (path : List Scalar) (empty elided : Bytes) (i count : Nat) : IProg POp Unit :=
  .op (.elided i) fun (e : Bool) =>
    if e || count == 0 then
      (writePath cfg path).bind fun _ =>
      (put (.bytes (if !e then empty else if count ≠ 0 then b%"..." else elided))).bind fun _ => put .newLine
    else .ret ()

/-- Go: one round of the loop of `writeObject`, `/repo/encoding/jpv/encoder.go:59-65`.  A nil key would be dereferenced by
`writePath`. -/
def writeMember (wv : List Scalar → Val → IProg POp Unit) (path : List Scalar) (count : Nat) (key : Option Scalar) (x : Val) :
    IProg POp Nat :=
  match key with
  | none => .fail .panic
  | some key => (wv (path ++ [key]) x).bind fun _ => .ret (count + 1)

/-- Go: `writeObject`, `/repo/encoding/jpv/encoder.go:57-77`. -/
def writeObject (cfg : JEncCfg) (wv : List Scalar → Val → IProg POp Unit) (path : List Scalar) (f i : Nat) : IProg POp Unit :=
  (forEach (writeMember wv path) i f 0).bind fun count =>
  writeRest cfg path b%"{}" b%"{...}" i count

/-- Go: `token.NewKey(token.Number, []byte(strconv.Itoa(index)))`, `/repo/encoding/jpv/encoder.go:82`. -/
def indexKey (n : Nat) : Scalar := { bytes := itoa n, type := .num, key := true }

/-- Go: `writeArray`, `/repo/encoding/jpv/encoder.go:79-99`. -/
def writeArray (cfg : JEncCfg) (wv : List Scalar → Val → IProg POp Unit) (path : List Scalar) (f i : Nat) : IProg POp Unit :=
  (forEach (fun (index : Nat) _ x => (wv (path ++ [indexKey index]) x).bind fun _ => .ret (index + 1)) i f 0).bind fun index =>
  writeRest cfg path b%"[]" b%"[...]" i index

/-- Go: `writeValue`, `/repo/encoding/jpv/encoder.go:44-55`. -/
def writeValue (cfg : JEncCfg) : Nat → List Scalar → Val → IProg POp Unit
  | 0, _, _ => .fail .fuel
  | f + 1, path, x =>
    match x with
    | .scalar s => writeScalar cfg path s
    | .coll .obj i => writeObject cfg (writeValue cfg f) path f i
    | .coll .arr i => writeArray cfg (writeValue cfg f) path f i
    | .coll .top _ => .fail .panic

/-- Go: `Consume`, `/repo/encoding/jpv/encoder.go:33-42`. -/
def consume (cfg : JEncCfg) (f : Nat) : IProg POp Unit :=
  forEach (fun (_ : Unit) _ x => (writeValue cfg f [] x).bind fun _ => put .reset) 0 f ()

/-- An encoder reading a stream of tokens and writing to a writer: the bytes taken by the writer and the outcome. -/
def encode (cfg : JEncCfg) (pc : PrinterCfg) (w : Sink) (ts : List Token) : Bytes × COut Unit :=
  (consume cfg (ts.length + 1)).runW Heap.mach pc w (Heap.init ts) 0 []

end JEnc
end Verif
