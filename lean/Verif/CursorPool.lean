import Verif.Token

/-!
# Cursor pools

Model of `/repo/token/cursor.go` for one pool over one stream.  Cursors are identified
by numbers (in Go: by their address).  The window is a list; sharing of its backing
array with other data is the subject of `Verif.CursorData`, and the choice between
reusing and reallocating the array in `advanceWindow` has no effect on the contents.
`debug` and `checkWindowSize` (empty without the `debug` build tag) are left out.
-/

namespace Verif

/-- Go: `Cursor`, `/repo/token/cursor.go:175-178`; `attached` is `pool != nil`. -/
structure Cur where
  attached : Bool
  pos : Int
  deriving Repr, DecidableEq

/-- Go: `CursorPool`, `/repo/token/cursor.go:22-30`, together with the cursor objects that exist
(`cur`, numbered below `nextId`). -/
structure Pool where
  /-- the tokens that the underlying stream has still to deliver -/
  stream : List Token
  window : List Token
  windowPos : Int
  catchup : Int
  cursors : List Nat
  cur : Nat → Cur
  nextId : Nat

namespace Pool

/-- Go: `NewCursorPool`, `/repo/token/cursor.go:32-38`, for a stream that is not a cursor. -/
def new (stream : List Token) : Pool :=
  { stream, window := [], windowPos := 0, catchup := 0, cursors := [],
    cur := fun _ => ⟨false, 0⟩, nextId := 0 }

/-- Body of the loop that looks for the smallest position (`none`: no cursor seen yet).
Go: `/repo/token/cursor.go:79-84`. -/
def minStep (pos : Int) : Option Int → Option Int
  | none => some pos
  | some m => if pos < m then some pos else some m

/-- Go: `NewCursorFromData`, `/repo/token/cursor.go:40-49`; the cursor is number 0. -/
def fromData (data : List Token) : Pool :=
  { stream := [], window := data, windowPos := 0, catchup := 0, cursors := [0],
    cur := fun i => if i = 0 then ⟨true, 0⟩ else ⟨false, 0⟩, nextId := 1 }

/-- Minimum of the positions of the registered cursors, if there are any.
Go: `/repo/token/cursor.go:78-84`. -/
def minPos (p : Pool) : Option Int :=
  p.cursors.foldl (fun m c => minStep (p.cur c).pos m) none

/-- Go: `advanceWindow`, `/repo/token/cursor.go:76-112`.  `none` is the panic "logic error". -/
def advanceWindow (p : Pool) : Option Pool :=
  match p.minPos with
  | none => some { p with windowPos := p.windowPos + p.window.length, window := [] }
  | some m =>
    let shiftRight := m - p.windowPos
    if shiftRight < 0 then none
    else if shiftRight = 0 then some p
    else some { p with windowPos := p.windowPos + shiftRight, window := p.window.drop shiftRight.toNat }

/-- Go: `updateCatchupCount`, `/repo/token/cursor.go:115-121`. -/
def updateCatchupCount (p : Pool) (n : Int) : Option Pool :=
  let p := { p with catchup := p.catchup + n }
  if p.catchup > 100 then advanceWindow { p with catchup := 0 } else some p

/-- Write access to a cursor object. -/
def setCur (p : Pool) (c : Nat) (v : Cur) : Pool :=
  { p with cur := fun i => if i = c then v else p.cur i }

/-- Go: `NewCursor`, `/repo/token/cursor.go:123-130`. -/
def newCursor (p : Pool) : Pool × Nat :=
  let c := p.nextId
  ({ p.setCur c ⟨true, p.windowPos + p.window.length⟩ with
      cursors := p.cursors ++ [c], nextId := c + 1 }, c)

/-- Go: `CloneCursor`, `/repo/token/cursor.go:132-139`, and `Cursor.Clone`,
`/repo/token/cursor.go:189-194` (a detached cursor is its own clone). -/
def clone (p : Pool) (c : Nat) : Pool × Nat :=
  if (p.cur c).attached then
    let c' := p.nextId
    ({ p.setCur c' (p.cur c) with cursors := p.cursors ++ [c'], nextId := c' + 1 }, c')
  else (p, c)

/-- Go: `DetachCursor`, `/repo/token/cursor.go:141-152`.  A cursor occurs at most once in
`cursors` (an invariant shown below), so the loop body is executed at most once. -/
def detachCursor (p : Pool) (c : Nat) : Option Pool := do
  let p ← if c ∈ p.cursors then do
      let p ← p.updateCatchupCount ((p.cur c).pos - p.windowPos)
      pure { p with cursors := p.cursors.erase c }
    else pure p
  pure (p.setCur c ⟨false, (p.cur c).pos⟩)

/-- Go: `Cursor.Detach`, `/repo/token/cursor.go:196-200`. -/
def detach (p : Pool) (c : Nat) : Option Pool :=
  if (p.cur c).attached then p.detachCursor c else some p

/-- Go: `AdvanceCursor`, `/repo/token/cursor.go:154-173`.  The outer `none` is a panic
("logic error", or an index out of range). -/
def advanceCursor (p : Pool) (c : Nat) : Option (Pool × Option Token) :=
  let i := (p.cur c).pos - p.windowPos
  if i < p.window.length then
    if i < 0 then none
    else do
      let tok ← p.window[i.toNat]?
      let p ← (p.setCur c ⟨true, (p.cur c).pos + 1⟩).updateCatchupCount 1
      pure (p, some tok)
  else if i > p.window.length then none
  else
    match p.stream with
    | tok :: rest =>
      some ({ p.setCur c ⟨true, (p.cur c).pos + 1⟩ with stream := rest, window := p.window ++ [tok] }, some tok)
    | [] => do
      let p ← p.detachCursor c
      pure (p, none)

/-- Go: `Cursor.Next`, `/repo/token/cursor.go:182-187`. -/
def next (p : Pool) (c : Nat) : Option (Pool × Option Token) :=
  if (p.cur c).attached then p.advanceCursor c else some (p, none)

end Pool

/-- What a client can do with the cursors of a pool. -/
inductive CurOp
  | newCursor
  | clone (c : Nat)
  | next (c : Nat)
  | detach (c : Nat)
  deriving Repr, DecidableEq

/-- What a client observes: the number of a cursor, or the result of `Next`. -/
inductive CurObs
  | cursor (c : Nat)
  | token (t : Option Token)
  | unit
  deriving Repr, DecidableEq

/-- One operation on the pool; `none` is a panic. -/
def Pool.step (p : Pool) : CurOp → Option (Pool × CurObs)
  | .newCursor => let (p, c) := p.newCursor; some (p, .cursor c)
  | .clone c => let (p, c) := p.clone c; some (p, .cursor c)
  | .next c => do let (p, t) ← p.next c; pure (p, .token t)
  | .detach c => do let p ← p.detach c; pure (p, .unit)

/-- A sequence of operations; `none` is a panic. -/
def Pool.run (p : Pool) : List CurOp → Option (Pool × List CurObs)
  | [] => some (p, [])
  | o :: os => do
    let (p, x) ← p.step o
    let (p, xs) ← p.run os
    pure (p, x :: xs)

end Verif
