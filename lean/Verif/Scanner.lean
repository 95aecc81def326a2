import Verif.Token

/-!
# Scanner and scanner programs

The decoders use the input only through the methods of `/repo/internal/scanner/scanner.go`.
They are written here as programs (`Prog`) over these methods, and a program can be run

* on `CScan`, the buffered scanner as it is in the code, which reads from a reader that may cut
  the input in any way, and
* on `AScan`, an unbuffered scanner that holds the rest of the input.

`Verif.ScannerLemmas` shows that both give the same results.
-/

namespace Verif

/-- Go: `Pos`, `/repo/internal/scanner/scanner.go:8-11`. -/
structure Pos where
  line : Int
  col : Int
  deriving DecidableEq, Repr

/-- Errors a reader can give: `io.EOF`, `io.ErrNoProgress`, or some other error. -/
inductive RErr
  | eof
  | noProgress
  | other (n : Nat)
  deriving DecidableEq, Repr

/-- Errors returned by the decoders: errors of the reader (or `io.EOF`), syntax errors made by
`UnexpectedByte` (`/repo/encoding/json/decoder.go:218-229`; the position is kept as the scanner
counts it, from 0; `got` is `none` for "<EOF>"), and errors without a position. -/
inductive Err
  | io (e : RErr)
  | syn (pos : Pos) (msg : String) (got : Option Byte)
  | plain (msg : String)
  deriving DecidableEq, Repr

/-- Result of a scanner method that returns `(byte, error)`.  The byte returned with an error (0)
is never used by the decoders. -/
abbrev Rd := Except RErr Byte

/-- Programs over the methods of the scanner. -/
inductive Prog (α : Type)
  | ret (a : α)
  | fail (e : Err)
  /-- a `panic` of the decoder itself, e.g. an index out of range -/
  | crash
  /-- a loop of the decoder has run out of fuel (this does not exist in Go) -/
  | oof
  | emit (t : Token) (k : Prog α)
  | read (k : Rd → Prog α)
  | peek (k : Rd → Prog α)
  | skipPeek (k : Rd → Prog α)
  | skipRead (k : Rd → Prog α)
  | back (k : Prog α)
  | startToken (k : Prog α)
  | endToken (k : Bytes → Prog α)
  | currentPos (k : Pos → Prog α)

namespace Prog

/-- Sequencing. -/
def bind {α β : Type} : Prog α → (α → Prog β) → Prog β
  | ret a, f => f a
  | fail e, _ => fail e
  | crash, _ => crash
  | oof, _ => oof
  | emit t k, f => emit t (k.bind f)
  | read k, f => read fun r => (k r).bind f
  | peek k, f => peek fun r => (k r).bind f
  | skipPeek k, f => skipPeek fun r => (k r).bind f
  | skipRead k, f => skipRead fun r => (k r).bind f
  | back k, f => back (k.bind f)
  | startToken k, f => startToken (k.bind f)
  | endToken k, f => endToken fun b => (k b).bind f
  | currentPos k, f => currentPos fun p => (k p).bind f

instance : Monad Prog where
  pure := ret
  bind := bind

/-- Run to the end, giving the error (if any) as a value. -/
def catch_ {α : Type} : Prog α → Prog (Except Err α)
  | ret a => ret (.ok a)
  | fail e => ret (.error e)
  | crash => crash
  | oof => oof
  | emit t k => emit t k.catch_
  | read k => read fun r => (k r).catch_
  | peek k => peek fun r => (k r).catch_
  | skipPeek k => skipPeek fun r => (k r).catch_
  | skipRead k => skipRead fun r => (k r).catch_
  | back k => back k.catch_
  | startToken k => startToken k.catch_
  | endToken k => endToken fun b => (k b).catch_
  | currentPos k => currentPos fun p => (k p).catch_

end Prog

/-- A scanner, as seen by programs. -/
structure Machine (σ : Type) where
  read : σ → Rd × σ
  peek : σ → Rd × σ
  skipPeek : σ → Rd × σ
  skipRead : σ → Rd × σ
  /-- `Except.error true` is a panic; `Except.error false` means that the (abstract) scanner does
  not specify what happens. -/
  back : σ → Except Bool σ
  startToken : σ → Option σ
  endToken : σ → Option (Bytes × σ)
  currentPos : σ → Pos

/-- How a program ends. -/
inductive Out (σ α : Type)
  | ok (a : α) (s : σ)
  | fail (e : Err)
  | panic
  | stuck
  | oof

/-- The tokens emitted by a program and how it ends. -/
def Prog.run {σ α : Type} (M : Machine σ) : Prog α → σ → List Token × Out σ α
  | .ret a, s => ([], .ok a s)
  | .fail e, _ => ([], .fail e)
  | .crash, _ => ([], .panic)
  | .oof, _ => ([], .oof)
  | .emit t k, s => (t :: (k.run M s).1, (k.run M s).2)
  | .read k, s => (k (M.read s).1).run M (M.read s).2
  | .peek k, s => (k (M.peek s).1).run M (M.peek s).2
  | .skipPeek k, s => (k (M.skipPeek s).1).run M (M.skipPeek s).2
  | .skipRead k, s => (k (M.skipRead s).1).run M (M.skipRead s).2
  | .back k, s =>
    match M.back s with
    | .ok s => k.run M s
    | .error true => ([], .panic)
    | .error false => ([], .stuck)
  | .startToken k, s =>
    match M.startToken s with
    | some s => k.run M s
    | none => ([], .panic)
  | .endToken k, s =>
    match M.endToken s with
    | some (b, s) => (k b).run M s
    | none => ([], .panic)
  | .currentPos k, s => (k (M.currentPos s)).run M s

/-- The end of a run without the final state of the scanner. -/
def Out.erase {σ α : Type} : Out σ α → Out Unit α
  | .ok a _ => .ok a ()
  | .fail e => .fail e
  | .panic => .panic
  | .stuck => .stuck
  | .oof => .oof

/-- The observable result of a run. -/
def Prog.result {σ α : Type} (M : Machine σ) (p : Prog α) (s : σ) : List Token × Out Unit α :=
  ((p.run M s).1, (p.run M s).2.erase)

/-- The change of position when a byte is read.
Go: `/repo/internal/scanner/scanner.go:102-109`. -/
def Pos.adv (p : Pos) (b : Byte) : Pos :=
  if b = 10 then ⟨p.line + 1, 0⟩
  else if b < 0xC0 then ⟨p.line, p.col + 1⟩
  else p

/-! ## The buffered scanner -/

/-- A reader that delivers the bytes `rest` and then the error `fin`.  Its `i`-th read delivers at
most `(sched i).1` bytes; if `(sched i).2` is set, the error is returned together with the
last bytes. -/
structure Reader where
  rest : Bytes
  fin : RErr
  sched : Nat → Nat × Bool
  idx : Nat

/-- Specification of `io.Reader.Read` for a slice of length `cap`. -/
def Reader.read (r : Reader) (cap : Nat) : Bytes × Option RErr × Reader :=
  let r' := { r with idx := r.idx + 1 }
  match r.rest with
  | [] => ([], some r.fin, r')
  | _ =>
    let k := min (r.sched r.idx).1 cap
    (r.rest.take k,
      if (r.rest.drop k).isEmpty && (r.sched r.idx).2 then some r.fin else none,
      { r' with rest := r.rest.drop k })

/-- Go: `Scanner`, `/repo/internal/scanner/scanner.go:13-43`.  `buf` is the filled part of the
buffer, so `fillIndex` is its length; `size` is the length of the buffer; `tokenStartIndex` is
`none` for -1. -/
structure CScan where
  reader : Reader
  size : Nat
  buf : Bytes
  cur : Nat
  pos : Pos
  prevPos : Pos
  tokStart : Option Nat
  parts : List Bytes
  err : Option RErr
  eofCount : Nat

namespace CScan

/-- Go: `NewScannerSize`, `/repo/internal/scanner/scanner.go:49-56`. -/
def new (reader : Reader) (size : Nat) : CScan :=
  { reader, size, buf := [], cur := 0, pos := ⟨0, 0⟩, prevPos := ⟨-1, 0⟩, tokStart := none,
    parts := [], err := none, eofCount := 0 }

/-- First half of `fillBuf`: making room.  Go: `/repo/internal/scanner/scanner.go:59-80`. -/
def makeRoom (c : CScan) : CScan :=
  if c.buf.length = c.size then
    match c.tokStart with
    | some (t + 1) =>
      { c with tokStart := some 0, buf := c.buf.drop (t + 1), cur := c.cur - (t + 1) }
    | some 0 =>
      if c.cur ≥ 1 then
        { c with parts := c.parts ++ [c.buf.take (c.cur - 1)], buf := c.buf.drop (c.cur - 1),
                 cur := c.cur - (c.cur - 1) }
      else c
    | none =>
      if c.cur ≥ 1 then { c with buf := c.buf.drop (c.cur - 1), cur := c.cur - (c.cur - 1) }
      else c
  else c

/-- Second half of `fillBuf`: the loop that reads.  Go: `/repo/internal/scanner/scanner.go:81-92`. -/
def readLoop (c : CScan) : Nat → CScan
  | 0 => { c with err := some .noProgress }
  | i + 1 =>
    let (bs, e, r) := c.reader.read (c.size - c.buf.length)
    let c := { c with reader := r, buf := c.buf ++ bs }
    match e with
    | some e => { c with err := some e }
    | none => if bs.length > 0 then c else readLoop c i

/-- Go: `fillBuf`, `/repo/internal/scanner/scanner.go:58-93`. -/
def fillBuf (c : CScan) : CScan := c.makeRoom.readLoop 100

/-- Fill the buffer if it is used up.  Go: `/repo/internal/scanner/scanner.go:96-98,173-175`. -/
def ensure (c : CScan) : CScan := if c.cur ≥ c.buf.length then c.fillBuf else c

/-- Go: `errOrEOF`, `/repo/internal/scanner/scanner.go:182-187`.  (With a nil error the Go function
returns the byte 0.) -/
def errOrEOF (c : CScan) : Rd :=
  match c.err with
  | some .eof => .ok eofByte
  | some e => .error e
  | none => .ok 0

/-- Go: `Read`, `/repo/internal/scanner/scanner.go:95-118`. -/
def read (c : CScan) : Rd × CScan :=
  let c := c.ensure
  match c.buf[c.cur]? with
  | some b => (.ok b, { c with prevPos := c.pos, pos := c.pos.adv b, cur := c.cur + 1 })
  | none =>
    if c.err = some .eof then (.ok eofByte, { c with eofCount := c.eofCount + 1 })
    else (c.errOrEOF, c)

/-- Go: `Peek`, `/repo/internal/scanner/scanner.go:172-180`. -/
def peek (c : CScan) : Rd × CScan :=
  let c := c.ensure
  match c.buf[c.cur]? with
  | some b => (.ok b, c)
  | none => (c.errOrEOF, c)

/-- The inner loop of `SkipSpaceAndPeek`: the byte found (if any), the number of bytes skipped and
the position.  Go: `/repo/internal/scanner/scanner.go:191-202`. -/
def skipIn (p : Pos) : Bytes → Option Byte × Nat × Pos
  | [] => (none, 0, p)
  | b :: bs =>
    if b = 10 then
      let (r, n, q) := skipIn ⟨p.line + 1, 0⟩ bs
      (r, n + 1, q)
    else if b = 32 ∨ b = 9 ∨ b = 13 then
      let (r, n, q) := skipIn ⟨p.line, p.col + 1⟩ bs
      (r, n + 1, q)
    else (some b, 0, p)

/-- Go: `SkipSpaceAndPeek`, `/repo/internal/scanner/scanner.go:189-209`, with fuel for the loop. -/
def skipPeekLoop (c : CScan) : Nat → Rd × CScan
  | 0 => (.ok 0, c)
  | fuel + 1 =>
    match skipIn c.pos (c.buf.drop c.cur) with
    | (some b, n, p) => (.ok b, { c with cur := c.cur + n, pos := p })
    | (none, _, p) =>
      let c := ({ c with pos := p, cur := c.buf.length } : CScan).fillBuf
      if c.cur ≥ c.buf.length then (c.errOrEOF, c) else skipPeekLoop c fuel

/-- Each iteration of the loop that does not return takes at least one byte from the reader. -/
def skipPeek (c : CScan) : Rd × CScan := c.skipPeekLoop (c.reader.rest.length + 1)

/-- Go: `SkipSpaceAndRead`, `/repo/internal/scanner/scanner.go:211-234`, with fuel for the loop. -/
def skipReadLoop (c : CScan) : Nat → Rd × CScan
  | 0 => (.ok 0, c)
  | fuel + 1 =>
    match skipIn c.pos (c.buf.drop c.cur) with
    | (some b, n, p) =>
      (.ok b, { c with cur := c.cur + n + 1, pos := if b < 0xC0 then ⟨p.line, p.col + 1⟩ else p })
    | (none, _, p) =>
      let c := ({ c with pos := p, cur := c.buf.length } : CScan).fillBuf
      if c.cur ≥ c.buf.length then (c.errOrEOF, c) else skipReadLoop c fuel

/-- See `skipPeek`. -/
def skipRead (c : CScan) : Rd × CScan := c.skipReadLoop (c.reader.rest.length + 1)

/-- Go: `Back`, `/repo/internal/scanner/scanner.go:156-170`. -/
def back (c : CScan) : Except Bool CScan :=
  if c.cur = 0 ∨ (∃ t ∈ c.tokStart, c.cur ≤ t) then .error true
  else if c.prevPos.line < 0 then .error true
  else if c.eofCount > 0 then .ok { c with eofCount := c.eofCount - 1 }
  else .ok { c with cur := c.cur - 1, pos := c.prevPos, prevPos := ⟨-1, c.prevPos.col⟩ }

/-- Go: `StartToken`, `/repo/internal/scanner/scanner.go:120-126`. -/
def startToken (c : CScan) : Option CScan :=
  if c.tokStart.isSome then none else some { c with tokStart := some c.cur }

/-- Go: `EndToken`, `/repo/internal/scanner/scanner.go:132-154`. -/
def endToken (c : CScan) : Option (Bytes × CScan) :=
  match c.tokStart with
  | none => none
  | some t =>
    if c.parts = [] then some ((c.buf.take c.cur).drop t, { c with tokStart := none })
    else some (c.parts.flatten ++ (c.buf.take c.cur).drop t, { c with tokStart := none, parts := [] })

/-- The methods of the buffered scanner. -/
def machine : Machine CScan where
  read := read
  peek := peek
  skipPeek := skipPeek
  skipRead := skipRead
  back := back
  startToken := startToken
  endToken := endToken
  currentPos := CScan.pos

end CScan

/-! ## The unbuffered scanner -/

/-- Specification: a scanner that has the rest of the input, the last byte read (if it is known to
be still in the buffer), and the token recorded so far. -/
structure AScan where
  rest : Bytes
  fin : RErr
  hist : Option Byte
  tok : Option Bytes
  pos : Pos
  prevPos : Pos
  eofCount : Nat

namespace AScan

/-- The initial state. -/
def new (rest : Bytes) (fin : RErr) : AScan :=
  { rest, fin, hist := none, tok := none, pos := ⟨0, 0⟩, prevPos := ⟨-1, 0⟩, eofCount := 0 }

/-- What is returned at the end of the input. -/
def atEnd (a : AScan) : Rd := if a.fin = .eof then .ok eofByte else .error a.fin

/-- The state after a byte has been taken from the input, with the given positions. -/
def take1 (a : AScan) (b : Byte) (rest : Bytes) : AScan :=
  { a with rest, hist := some b, tok := a.tok.map (· ++ [b]), prevPos := a.pos, pos := a.pos.adv b }

/-- Read a byte. -/
def read (a : AScan) : Rd × AScan :=
  match a.rest with
  | b :: r => (.ok b, a.take1 b r)
  | [] => (a.atEnd, if a.fin = .eof then { a with eofCount := a.eofCount + 1 } else a)

/-- Look at the next byte. -/
def peek (a : AScan) : Rd × AScan :=
  match a.rest with
  | b :: _ => (.ok b, a)
  | [] => (a.atEnd, a)

/-- Skip white space; the previous position is not updated. -/
def skip (a : AScan) : Bytes → AScan
  | b :: r =>
    if isSpace b then
      skip { a with rest := r, hist := some b, tok := a.tok.map (· ++ [b]), pos := a.pos.adv b } r
    else a
  | [] => a

/-- Skip white space and look at the next byte. -/
def skipPeek (a : AScan) : Rd × AScan := (a.skip a.rest).peek

/-- Skip white space and read a byte; the previous position is not updated. -/
def skipRead (a : AScan) : Rd × AScan :=
  let a := a.skip a.rest
  match a.rest with
  | b :: r => (.ok b, { a.take1 b r with prevPos := a.prevPos })
  | [] => (a.atEnd, a)

/-- Unread the last byte, or the end of input. -/
def back (a : AScan) : Except Bool AScan :=
  if a.prevPos.line < 0 ∨ a.tok = some [] then .error true
  else
    match a.hist with
    | none => .error false
    | some b =>
      if a.eofCount > 0 then .ok { a with eofCount := a.eofCount - 1 }
      else .ok { a with rest := b :: a.rest, hist := none, tok := a.tok.map List.dropLast,
                        pos := a.prevPos, prevPos := ⟨-1, a.prevPos.col⟩ }

/-- Start recording. -/
def startToken (a : AScan) : Option AScan :=
  if a.tok.isSome then none else some { a with tok := some [], hist := none }

/-- Stop recording. -/
def endToken (a : AScan) : Option (Bytes × AScan) :=
  match a.tok with
  | none => none
  | some t => some (t, { a with tok := none })

/-- The methods of the unbuffered scanner. -/
def machine : Machine AScan where
  read := read
  peek := peek
  skipPeek := skipPeek
  skipRead := skipRead
  back := back
  startToken := startToken
  endToken := endToken
  currentPos := AScan.pos

end AScan

end Verif
