import Verif.CursorPool

/-!
# Read streams and cloning

Model of the read streams an iterator can have (`/repo/token/tokenstream.go`) and of
`CloneReadStream` (`/repo/token/cursor.go:202-208`).  There is one channel, the pools over it or over
slices, and the cursors of these pools.  Streams are identified by numbers: 0 is the channel, the
others are cursors in order of creation.
-/

namespace Verif

/-- All streams that exist. -/
structure Streams where
  /-- the tokens the channel has still to deliver; after these it is closed -/
  src : List Token
  pools : Nat → Pool
  /-- the pool's underlying stream is the channel (otherwise an empty `SliceReadStream`) -/
  onChan : Nat → Bool
  /-- number of pools -/
  np : Nat
  /-- pool of a cursor, and its number within the pool -/
  curs : Nat → Nat × Nat
  /-- next stream number -/
  nt : Nat

namespace Streams

/-- Only the channel. -/
def init (ts : List Token) : Streams :=
  { src := ts, pools := fun _ => Pool.new [], onChan := fun _ => false, np := 0,
    curs := fun _ => (0, 0), nt := 1 }

/-- A pool, with the tokens its underlying stream has to deliver. -/
def pool (s : Streams) (p : Nat) : Pool :=
  if s.onChan p then { s.pools p with stream := s.src } else s.pools p

/-- Write access to a pool. -/
def setPool (s : Streams) (p : Nat) (P : Pool) : Streams :=
  { s with pools := fun q => if q = p then P else s.pools q,
           src := if s.onChan p then P.stream else s.src }

/-- Go: `ChannelReadStream.Next`, `/repo/token/tokenstream.go:23-25` (a closed channel delivers `nil`), and
`Cursor.Next`, `/repo/token/cursor.go:182-187`.  The outer `none` is a panic. -/
def next (s : Streams) (t : Nat) : Option (Streams × Option Token) :=
  if t = 0 then
    match s.src with
    | [] => some (s, none)
    | x :: r => some ({ s with src := r }, some x)
  else do
    let (P, x) ← (s.pool (s.curs t).1).next (s.curs t).2
    pure (s.setPool (s.curs t).1 P, x)

/-- Go: `CloneReadStream`, `/repo/token/cursor.go:202-208`.  Gives the number of the stream that replaces
`t`, and the number of the clone. -/
def clone (s : Streams) (t : Nat) : Streams × Nat × Nat :=
  if t = 0 then
    let (P, c) := (Pool.new s.src).newCursor
    let (P, c') := P.clone c
    ({ s with pools := fun q => if q = s.np then P else s.pools q,
              onChan := fun q => if q = s.np then true else s.onChan q,
              np := s.np + 1,
              curs := fun i => if i = s.nt then (s.np, c) else if i = s.nt + 1 then (s.np, c') else s.curs i,
              nt := s.nt + 2 }, s.nt, s.nt + 1)
  else
    let p := (s.curs t).1
    let c := (s.curs t).2
    if ((s.pool p).cur c).attached then
      let (P, c') := (s.pool p).clone c
      ({ s.setPool p P with
          curs := fun i => if i = s.nt then (p, c') else s.curs i
          nt := s.nt + 1 }, t, s.nt)
    else (s, t, t)

/-- Go: `Cursor.Detach`, `/repo/token/cursor.go:196-200`.  `none` is a panic. -/
def detach (s : Streams) (t : Nat) : Option Streams := do
  let P ← (s.pool (s.curs t).1).detach (s.curs t).2
  pure (s.setPool (s.curs t).1 P)

/-- Go: `NewCursorFromData`, `/repo/token/cursor.go:40-49`. -/
def fromData (s : Streams) (ts : List Token) : Streams × Nat :=
  ({ s with pools := fun q => if q = s.np then Pool.fromData ts else s.pools q,
            onChan := fun q => if q = s.np then false else s.onChan q,
            np := s.np + 1,
            curs := fun i => if i = s.nt then (s.np, 0) else s.curs i,
            nt := s.nt + 1 }, s.nt)

end Streams
end Verif
