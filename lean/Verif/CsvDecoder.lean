import Verif.JsonDecoder
import Verif.JpvEncoder

/-!
# CSV decoder

Model of `/repo/encoding/csv/decoder.go`.  The reader of the Go library (`encoding/csv`) appears as the records it delivers and the error at their end; see
`CsvReader`.
-/

namespace Verif.Csv

/-- Go: `csv.Reader` (Go library): the records that its method `Read` delivers, and the error that follows. -/
structure Input where
  records : List (List Bytes)
  fin : RErr

/-- Go: `strings.NewReader`: a read delivers as much as there is room for; the end is reported by a read of its own. -/
def stringReader (field : Bytes) : Reader :=
  { rest := field, fin := .eof, sched := fun _ => (field.length + 1, false), idx := 0 }

/-- Go: the instances `trueInstance`, `falseInstance` and `nullInstance`, `/repo/encoding/csv/decoder.go:160-164`. -/
def trueInstance : Scalar := { bytes := b%"true", type := .bool }
@[inherit_doc trueInstance] def falseInstance : Scalar := { bytes := b%"false", type := .bool }
@[inherit_doc trueInstance] def nullInstance : Scalar := { bytes := b%"null", type := .null }

/-- Go: the loop of `fieldToScalar`, `/repo/encoding/csv/decoder.go:98-109`; `first` is `i == 0`.  Gives `fieldIsAlnum`,
`fieldCouldBeNumber` and `escapeCount`. -/
def scanField : Bool → Bool × Bool × Nat → Bytes → Bool × Bool × Nat
  | _, st, [] => st
  | first, (alnum, num, n), b :: bs =>
    let esc := b = c%'"' ∨ b = c%'\n' ∨ b = c%'\\'
    scanField false
      (if esc then alnum else if first then isAlpha b else alnum && isAlnum b,
       if num then isDigit b || b == c%'.' || b == c%'e' || b == c%'E' || b == c%'+' || b == c%'-' else num,
       if esc then n + 1 else n) bs

/-- Go: `simpleCSVFieldToStringScalar`, `/repo/encoding/csv/decoder.go:131-137`. -/
def simpleString (field : Bytes) : Scalar := { bytes := c%'"' :: (field ++ [c%'"']), type := .str }

/-- Go: the bytes written for a byte of the field, `/repo/encoding/csv/decoder.go:143-155`. -/
def escByte (b : Byte) : Bytes :=
  if b = c%'\\' ∨ b = c%'"' then [c%'\\', b] else if b = c%'\n' then [c%'\\', c%'n'] else [b]

/-- Go: `csvFieldToStringScalar`, `/repo/encoding/csv/decoder.go:139-158`.  The bytes are written into a slice that is filled with
zeros and has room for `escapeCount` escapes; `none` is the panic if it is too short. -/
def escapedString (field : Bytes) (escapeCount : Nat) : Option Scalar :=
  let size := field.length + escapeCount + 2
  let out := c%'"' :: (field.flatMap escByte ++ [c%'"'])
  if out.length ≤ size then some { bytes := out ++ List.replicate (size - out.length) 0, type := .str } else none

/-- Go: the attempt to read a number, `/repo/encoding/csv/decoder.go:113-120`.  `reader.Len()` is what the scanner has not yet
taken from the reader (not what is left of the input).  The outer `none` is a panic.  `size` is the size of its buffer. -/
def tryNumberWith (size : Nat) (field : Bytes) : Option (Option Scalar) :=
  match ((Json.parseNumber (field.length + 1)).run CScan.machine (CScan.new (stringReader field) size)).2 with
  | .ok s c => some (if c.reader.rest.length = 0 then some s else none)
  | .fail _ => some none
  | _ => none

/-- Go: `scanner.NewScanner`, `/repo/internal/scanner/scanner.go:45-47,239`: the buffer has 8192 bytes. -/
def tryNumber (field : Bytes) : Option (Option Scalar) := tryNumberWith 8192 field

/-- Go: the end of `fieldToScalar`, `/repo/encoding/csv/decoder.go:121-128`. -/
def finishString (field : Bytes) (isHeader alnum : Bool) : Scalar :=
  { simpleString field with alnum := alnum, key := isHeader }

/-- Go: `fieldToScalar`, `/repo/encoding/csv/decoder.go:84-129`.  `none` is a panic. -/
def fieldToScalar (field : Bytes) (isHeader : Bool) : Option Scalar :=
  if !isHeader && field == [] then some nullInstance
  else if !isHeader && field == b%"true" then some trueInstance
  else if !isHeader && field == b%"false" then some falseInstance
  else
    let (alnum, num, n) := scanField true (true, !isHeader, 0) field
    if n > 0 then escapedString field n
    else if num then
      match tryNumber field with
      | none => none
      | some (some s) => some s
      | some none => some (finishString field isHeader alnum)
    else some (finishString field isHeader alnum)

/-- The configuration of a `Decoder`, `/repo/encoding/csv/decoder.go:15-20`. -/
structure Cfg where
  hasHeader : Bool
  objects : Bool

/-- Go: `SetFieldNames`, `/repo/encoding/csv/decoder.go:52-56`: the names are appended to those there are. -/
def setFieldNames (names : List Scalar) : List Bytes → Option (List Scalar)
  | [] => some names
  | f :: fs => (fieldToScalar f true).bind fun k => setFieldNames (names ++ [k]) fs

/-- Go: the loop of `getFieldName`, `/repo/encoding/csv/decoder.go:76-80`, for `k` names to add. -/
def addNames (names : List Scalar) : Nat → Option (List Scalar)
  | 0 => some names
  | k + 1 => (fieldToScalar (b%"field_" ++ itoa (names.length + 1)) true).bind fun s => addNames (names ++ [s]) k

/-- Go: `getFieldName`, `/repo/encoding/csv/decoder.go:75-82`: the name and the new list of names. -/
def getFieldName (names : List Scalar) (i : Nat) : Option (Scalar × List Scalar) :=
  (addNames names (i + 1 - names.length)).bind fun names => names[i]?.map fun k => (k, names)

/-- Go: the loop over the fields of a record in object mode, `/repo/encoding/csv/decoder.go:61-64`. -/
def members (names : List Scalar) (i : Nat) : List Bytes → Option (List Token × List Scalar)
  | [] => some ([], names)
  | f :: fs => (getFieldName names i).bind fun (k, names) => (fieldToScalar f false).bind fun v =>
    (members names (i + 1) fs).map fun (ts, names) => (.scalar k :: .scalar v :: ts, names)

/-- Go: the loop over the fields of a record in array mode, `/repo/encoding/csv/decoder.go:68-70`. -/
def items : List Bytes → Option (List Token)
  | [] => some []
  | f :: fs => (fieldToScalar f false).bind fun v => (items fs).map (.scalar v :: ·)

/-- Go: `produceRecord`, `/repo/encoding/csv/decoder.go:58-73`: the tokens sent and the new list of names. -/
def produceRecord (cfg : Cfg) (names : List Scalar) (r : List Bytes) : Option (List Token × List Scalar) :=
  if cfg.objects then (members names 0 r).map fun (ts, names) => (.startObj :: (ts ++ [.endObj]), names)
  else (items r).map fun ts => (.startArr :: (ts ++ [.endArr]), names)

/-- Go: the loop of `Produce`, `/repo/encoding/csv/decoder.go:32-48`; `first` is `recordCount == 0`.  Gives the tokens sent, the
error returned and the list of names in the end; `none` is a panic. -/
def loop (cfg : Cfg) (fin : RErr) : Bool → List Scalar → List (List Bytes) → Option (List Token × Option RErr × List Scalar)
  | _, names, [] => some ([], if fin = .eof then none else some fin, names)
  | first, names, r :: rs =>
    if !first || !cfg.hasHeader then
      (produceRecord cfg names r).bind fun (ts, names) =>
        (loop cfg fin false names rs).map fun (us, e, names) => (ts ++ us, e, names)
    else (setFieldNames names r).bind fun names => loop cfg fin false names rs

/-- Go: `Produce`, `/repo/encoding/csv/decoder.go:31-49`, for a new decoder on which `SetFieldNames` has been called with the
given names. -/
def produce (cfg : Cfg) (preset : List Bytes) (inp : Input) : Option (List Token × Option RErr) :=
  (setFieldNames [] preset).bind fun names => (loop cfg inp.fin true names inp.records).map fun (ts, e, _) => (ts, e)

end Verif.Csv
