import Verif.CursorPool

/-!
# Specification of cursor pools

Nothing here mentions windows: a cursor is a position in the list of all tokens.
-/

namespace Verif

/-- Specification: a pool is a token list `all`, a count of the tokens delivered by the
underlying stream so far, and one independent position for each cursor (`none`: detached). -/
structure APool where
  all : List Token
  frontier : Nat
  cur : Nat → Option Nat
  nextId : Nat

/-- Specification of the operations. -/
def APool.step (a : APool) : CurOp → APool × CurObs
  | .newCursor => ({ a with cur := fun i => if i = a.nextId then some a.frontier else a.cur i,
                            nextId := a.nextId + 1 }, .cursor a.nextId)
  | .clone c =>
    match a.cur c with
    | none => (a, .cursor c)
    | some n => ({ a with cur := fun i => if i = a.nextId then some n else a.cur i,
                          nextId := a.nextId + 1 }, .cursor a.nextId)
  | .next c =>
    match a.cur c with
    | none => (a, .token none)
    | some n =>
      match a.all[n]? with
      | some t => ({ a with cur := fun i => if i = c then some (n + 1) else a.cur i,
                            frontier := max a.frontier (n + 1) }, .token (some t))
      | none => ({ a with cur := fun i => if i = c then none else a.cur i }, .token none)
  | .detach c => ({ a with cur := fun i => if i = c then none else a.cur i }, .unit)

/-- Specification: a sequence of operations. -/
def APool.run (a : APool) : List CurOp → APool × List CurObs
  | [] => (a, [])
  | o :: os => let (a, x) := a.step o; let (a, xs) := a.run os; (a, x :: xs)

/-- Specification: what one reader that owns a list of remaining tokens (`none`: detached)
returns for a sequence of `next c` and `detach c`; operations on other cursors are ignored. -/
def soloReader (c : Nat) : Option (List Token) → List CurOp → List (Option Token)
  | _, [] => []
  | r, .next d :: os =>
    if d = c then
      match r with
      | some (t :: r') => some t :: soloReader c (some r') os
      | _ => none :: soloReader c none os
    else soloReader c r os
  | r, .detach d :: os => soloReader c (if d = c then none else r) os
  | r, .newCursor :: os => soloReader c r os
  | r, .clone _ :: os => soloReader c r os

/-- The results of the calls of `next c` in a history. -/
def seenBy (c : Nat) : List CurOp → List CurObs → List (Option Token)
  | .next d :: os, .token t :: xs => if d = c then t :: seenBy c os xs else seenBy c os xs
  | _ :: os, _ :: xs => seenBy c os xs
  | _, _ => []

end Verif
