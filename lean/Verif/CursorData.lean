import Verif.CursorPool

/-!
# Cursors over a slice owned by the caller

`NewCursorFromData` uses the caller's slice as the window, and `advanceWindow` may move the
tokens inside that slice.  Here the caller's array is explicit: several pools made from the same
slice read and write the same array.
-/

namespace Verif

/-- A pool whose window may be (the first `len` elements of) the caller's array.
In `pool` the field `window` is used only when the window is not shared. -/
structure DPool where
  shared : Bool
  len : Nat
  cap : Nat
  pool : Pool

/-- Go: `NewCursorFromData`, `/repo/token/cursor.go:40-49`, for a slice of capacity `cap`. -/
def DPool.fromData (len cap : Nat) : DPool :=
  { shared := true, len, cap, pool := Pool.fromData [] }

/-- The pool with its window filled in from the array. -/
def DPool.view (d : DPool) (arr : List Token) : Pool :=
  if d.shared then { d.pool with window := arr.take d.len } else d.pool

/-- One operation.  If `advanceWindow` moved the window (the position of the window changed) and the
window is in the caller's array, the moved tokens are written to the front of that array when
`cap <= 1024 || newLen*2 > cap`, and to a new array otherwise.
Go: `/repo/token/cursor.go:97-111`.  (An operation moves the window at most once, and never takes
the branch for a pool without cursors, since the cursor in use is still registered.) -/
def DPool.step (d : DPool) (arr : List Token) (o : CurOp) : Option (DPool × List Token × CurObs) := do
  let p := d.view arr
  let (p', x) ← p.step o
  if d.shared && p'.windowPos != p.windowPos then
    if d.cap ≤ 1024 || p'.window.length * 2 > d.cap then
      pure ({ d with len := p'.window.length, pool := p' },
        p'.window ++ arr.drop p'.window.length, x)
    else
      pure ({ shared := false, len := p'.window.length, cap := p'.window.length, pool := p' }, arr, x)
  else pure ({ d with pool := p' }, arr, x)

/-- A sequence of operations on one pool. -/
def DPool.run (d : DPool) (arr : List Token) : List CurOp → Option (DPool × List Token × List CurObs)
  | [] => some (d, arr, [])
  | o :: os => do
    let (d, arr, x) ← d.step arr o
    let (d, arr, xs) ← d.run arr os
    pure (d, arr, x :: xs)

end Verif
