import Verif.CsvDecoder

/-!
# The reader of the Go library `encoding/csv`

Model of the parts of Go's packages `encoding/csv` and `bufio` that the CSV decoder uses: `csv.NewReader`, `/repo/encoding/csv/decoder.go:26`, and
`Read`, `:34`.  The source of the library is not part of `/repo`; the model follows its text as of Go 1.20 (`/repo/go.mod:3`), with the settings that
`NewReader` makes: the comma is `,`, there are no comments, `LazyQuotes` and `TrimLeadingSpace` are off, and `FieldsPerRecord` is 0.
-/

namespace Verif.Csv

/-! ## `bufio.Reader` -/

/-- Go: `bufio.Reader` with a buffer of `defaultBufSize` bytes: what is in the buffer and not yet read, and the error that waits. -/
structure BufReader where
  reader : Reader
  buf : Bytes := []
  err : Option RErr := none

/-- Go: `defaultBufSize` of `bufio`. -/
def bufSize : Nat := 4096

/-- Go: the loop of `fill` of `bufio.Reader`: at most 100 reads that deliver nothing. -/
def BufReader.fillLoop (b : BufReader) : Nat → BufReader
  | 0 => { b with err := some .noProgress }
  | i + 1 =>
    let (bs, e, r) := b.reader.read (bufSize - b.buf.length)
    let b := { b with reader := r, buf := b.buf ++ bs }
    match e with
    | some e => { b with err := some e }
    | none => if bs.length > 0 then b else b.fillLoop i

/-- Go: `fill`. -/
def BufReader.fill (b : BufReader) : BufReader := b.fillLoop 100

/-- How `ReadSlice` ends: with the delimiter, with an error of the reader, or with `ErrBufferFull`. -/
inductive Slice
  | found
  | err (e : RErr)
  | full
deriving DecidableEq

/-- Up to a line feed, with it. -/
def lineOf (s : Bytes) : Bytes := s.takeWhile (· ≠ c%'\n') ++ [c%'\n']

/-- Go: `ReadSlice('\n')` of `bufio.Reader`.  Each round but the last adds to the buffer or to `err`; the first argument bounds their number. -/
def BufReader.readSlice : Nat → BufReader → Bytes × Slice × BufReader
  | 0, b => ([], .err .noProgress, b)
  | f + 1, b =>
    if c%'\n' ∈ b.buf then (lineOf b.buf, .found, { b with buf := b.buf.drop (lineOf b.buf).length })
    else match b.err with
      | some e => (b.buf, .err e, { b with buf := [], err := none })
      | none =>
        if b.buf.length ≥ bufSize then (b.buf, .full, { b with buf := [] })
        else readSlice f b.fill

/-- Go: the first part of `readLine` of `encoding/csv`: a line of any length.  The first argument bounds the number of buffers. -/
def BufReader.rawLine : Nat → BufReader → Bytes × Option RErr × BufReader
  | 0, b => ([], some .noProgress, b)
  | f + 1, b =>
    match b.readSlice (bufSize + 2) with
    | (l, .found, b) => (l, none, b)
    | (l, .err e, b) => (l, some e, b)
    | (l, .full, b) => match rawLine f b with
      | (l', e, b) => (l ++ l', e, b)

/-- Go: the rest of `readLine` of `encoding/csv`: the end of the file ends a line, without a carriage return that it may have; at the end of a line,
`\r\n` becomes `\n`. -/
def finishLine (line : Bytes) (err : Option RErr) : Bytes × Option RErr :=
  let (line, err) :=
    if line.length > 0 ∧ err = some .eof then (if line.getLast? = some c%'\r' then line.dropLast else line, none) else (line, err)
  if [c%'\r', c%'\n'] <:+ line then (line.dropLast.dropLast ++ [c%'\n'], err) else (line, err)

/-- Go: `readLine` of `encoding/csv`. -/
def BufReader.readLine (f : Nat) (b : BufReader) : Bytes × Option RErr × BufReader :=
  let (line, err, b) := b.rawLine f
  ((finishLine line err).1, (finishLine line err).2, b)

/-! ## Records -/

/-- Go: the errors `ErrBareQuote`, `ErrQuote` and `ErrFieldCount` of `encoding/csv`.  Their positions are not modelled. -/
def errBareQuote : RErr := .other 1
@[inherit_doc errBareQuote] def errQuote : RErr := .other 2
@[inherit_doc errBareQuote] def errFieldCount : RErr := .other 3

/-- Go: `lengthNL` of `encoding/csv`. -/
def lengthNL (line : Bytes) : Nat := if line.getLast? = some c%'\n' then 1 else 0

section
variable {σ : Type} (readLine : σ → Bytes × Option RErr × σ)

/-- Go: the first loop of `readRecord` of `encoding/csv`: empty lines are skipped. -/
def skipLines : Nat → σ → Bytes × Option RErr × σ
  | 0, s => ([], some .noProgress, s)
  | f + 1, s =>
    match readLine s with
    | (line, err, s) => if err = none ∧ line.length = lengthNL line then skipLines f s else (line, err, s)

/-- Go: the loop `parseField` of `readRecord` of `encoding/csv`.  `cur` is `none` at the beginning of a field; in a quoted field it is what has been read of
it.  `errRead` is the variable of this name.  Gives the fields and the error.  The first argument bounds the number of rounds. -/
def parseFields : Nat → σ → Bytes → Option RErr → List Bytes → Option Bytes → List Bytes × Option RErr × σ
  | 0, s, _, _, acc, _ => (acc, some .noProgress, s)
  | f + 1, s, line, errRead, acc, none =>
    if line.head? ≠ some c%'"' then
      let field := line.takeWhile (· ≠ c%',')
      if c%',' ∈ line then
        if c%'"' ∈ field then (acc, some errBareQuote, s)
        else parseFields f s (line.drop (field.length + 1)) errRead (acc ++ [field]) none
      else
        let field := line.take (line.length - lengthNL line)
        if c%'"' ∈ field then (acc, some errBareQuote, s) else (acc ++ [field], errRead, s)
    else parseFields f s (line.drop 1) errRead acc (some [])
  | f + 1, s, line, errRead, acc, some cur =>
    if c%'"' ∈ line then
      let text := line.takeWhile (· ≠ c%'"')
      let rest := line.drop (text.length + 1)
      if rest.head? = some c%'"' then parseFields f s (rest.drop 1) errRead acc (some (cur ++ text ++ [c%'"']))
      else if rest.head? = some c%',' then parseFields f s (rest.drop 1) errRead (acc ++ [cur ++ text]) none
      else if lengthNL rest = rest.length then (acc ++ [cur ++ text], errRead, s)
      else (acc, some errQuote, s)
    else if line.length > 0 then
      if errRead ≠ none then (acc, errRead, s)
      else
        let (line', e, s) := readLine s
        parseFields f s line' (if e = some .eof then none else e) acc (some (cur ++ line))
    else if errRead = none then (acc, some errQuote, s)
    else (acc ++ [cur], errRead, s)

/-- Go: `Read` and `readRecord` of `encoding/csv`: a record or an error, and the new `FieldsPerRecord`.  (A record that comes with an error is not used by
the decoder, `/repo/encoding/csv/decoder.go:35-40`.) -/
def readRecord (f n : Nat) (s : σ) : Except RErr (List Bytes) × Nat × σ :=
  match skipLines readLine f s with
  | (line, errRead, s) =>
    if errRead = some .eof then (.error .eof, n, s)
    else match parseFields readLine f s line errRead [] none with
      | (fields, some e, s) => (.error e, if n = 0 then fields.length else n, s)
      | (fields, none, s) =>
        if n > 0 ∧ fields.length ≠ n then (.error errFieldCount, n, s) else (.ok fields, if n = 0 then fields.length else n, s)

/-- All records up to the first error, as the loop of `Produce` reads them, `/repo/encoding/csv/decoder.go:33-48`.  `f` bounds the loops of `readRecord`, the first argument the number
of records. -/
def readAll (f : Nat) : Nat → Nat → σ → Input
  | 0, _, _ => ⟨[], .noProgress⟩
  | k + 1, n, s =>
    match readRecord readLine f n s with
    | (.error e, _, _) => ⟨[], e⟩
    | (.ok r, n, s) => ⟨r :: (readAll f k n s).records, (readAll f k n s).fin⟩

end

/-- The records of a new `csv.Reader`, and the error at their end.  The bounds suffice (`readInput_eq`). -/
def readInput (r : Reader) : Input :=
  readAll (BufReader.readLine (r.rest.length + 1)) (r.rest.length + 2) (r.rest.length + 2) 0 { reader := r }

end Verif.Csv
