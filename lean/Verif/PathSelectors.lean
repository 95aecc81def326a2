import Verif.Token

/-!
# JSONPath selectors

Model of `/repo/transform/jsonpath/selectorrunners.go` and of the compilation of slices
(`/repo/transform/jsonpath/compiler.go`).
-/

namespace Verif.JPath

/-- The result of an operation on `int64`: two's complement. -/
def i64 (x : Int) : Int := (x + 2 ^ 63) % 2 ^ 64 - 2 ^ 63

/-- Go: `math.MinInt64`, `math.MaxInt64`. -/
def minInt64 : Int := -2 ^ 63
@[inherit_doc minInt64] def maxInt64 : Int := 2 ^ 63 - 1

/-- Go: `Decision`, `/repo/transform/jsonpath/selectorrunners.go:302-329`: the three bits. -/
structure Decision where
  yes : Bool := false
  no : Bool := false
  more : Bool := true
deriving DecidableEq, Repr

/-- Go: the values of type `SelectorRunner`, `/repo/transform/jsonpath/selectorrunners.go:63-72`, with conditions of type `C`. -/
inductive Sel (C : Type)
  | default
  | name (n : Bytes)
  | wild
  | index (i : Int)
  | slice (start stop step : Int)
  | rslice (start stop step : Int)
  | filter (c : C)

namespace Sel

variable {C : Type}

/-- Go: `SelectsFromKey`, `/repo/transform/jsonpath/selectorrunners.go:91,112,131,288`. -/
def fromKey (key : Bytes) : Sel C → Decision
  | .name n => if key = n then { yes := true, more := false } else { no := true }
  | .wild => { yes := true }
  | .filter _ => {}
  | _ => { no := true, more := false }

/-- Go: `Lookahead`, `/repo/transform/jsonpath/selectorrunners.go:81,144,184,233`.  Negation wraps around. -/
def lookahead : Sel C → Int
  | .index i => if i < 0 then i64 (-i) else 0
  | .slice start stop _ =>
    let l := i64 (-start)
    let l := if i64 (-stop) > l then i64 (-stop) else l
    if l > 0 then l else 0
  | .rslice start stop step =>
    let l := i64 (-start)
    let l := if i64 (-stop) > l then i64 (-stop) else l
    let l := if start < 0 ∧ i64 (-stop) ≤ 0 ∧ step < -1 then maxInt64 else l
    if l > 0 then l else 0
  | _ => 0

/-- Go: the offsets from a bound, `/repo/transform/jsonpath/selectorrunners.go:152-156,198-207,261-270`. -/
def offset (bound index negIndex : Int) : Int := if bound < 0 then i64 (negIndex - bound) else i64 (index - bound)

/-- Go: `SelectsFromIndex`, `/repo/transform/jsonpath/selectorrunners.go:86,126,151,197,260,292`.  The remainder of Go truncates. -/
def fromIndex (index negIndex : Int) : Sel C → Decision
  | .wild => { yes := true }
  | .index i =>
    let o := offset i index negIndex
    if o > 0 then { no := true, more := false } else if o = 0 then { yes := true, more := false } else { no := true }
  | .slice start stop step =>
    if offset stop index negIndex ≥ 0 then { no := true, more := false }
    else if offset start index negIndex ≥ 0 ∧ (offset start index negIndex).tmod step = 0 then { yes := true }
    else { no := true }
  | .rslice start stop step =>
    if offset start index negIndex > 0 then { no := true, more := false }
    else if offset stop index negIndex > 0 ∧ (offset start index negIndex).tmod step = 0 then { yes := true }
    else { no := true }
  | .filter _ => {}
  | _ => { no := true, more := false }

/-- Go: `ReversesSelection`, `/repo/transform/jsonpath/selectorrunners.go:101,275`. -/
def reverses : Sel C → Bool
  | .rslice _ _ _ => true
  | _ => false

end Sel

/-- Go: `compileSliceSelector`, `/repo/transform/jsonpath/compiler.go:203-259`. -/
def compileSlice {C : Type} (start stop : Option Int) (step : Int) : Sel C :=
  if step = 0 then .default
  else if step < 0 then
    let s := start.getD (-1)
    let e := stop.getD minInt64
    if 0 ≤ s ∧ e ≥ s ∨ e < 0 ∧ s ≤ e then .default else .rslice s e step
  else
    let s := start.getD 0
    let e := stop.getD maxInt64
    if 0 ≤ e ∧ e ≤ s ∨ s < 0 ∧ s ≥ e then .default else .slice s e step

/-- Go: `SegmentRunner`, `/repo/transform/jsonpath/segmentrunner.go:16-30`: whether it is a descendant segment, and its selectors. -/
structure Seg (C : Type) where
  desc : Bool
  sels : List (Sel C)

/-- Go: `compileSegment`, `/repo/transform/jsonpath/compiler.go:121-133`: the look-ahead of the segment. -/
def segLookahead {C : Type} (sels : List (Sel C)) : Int :=
  sels.foldl (fun l s => if s.lookahead > l then s.lookahead else l) 0

/-- Go: the first loop over the clone `ahead`, `/repo/transform/jsonpath/segmentrunner.go:103-105`: the negative index, and what is
left of the clone, of which `n` items are left.  (`negIndex + lookahead` cannot overflow because `negIndex ≤ 0 ≤ lookahead`.) -/
def windowStart (lookahead negIndex : Int) : Nat → Int × Nat
  | 0 => (negIndex, 0)
  | n + 1 => if negIndex + lookahead ≥ 0 then windowStart lookahead (negIndex - 1) n else (negIndex, n + 1)

/-- Go: the update of the negative index, `/repo/transform/jsonpath/segmentrunner.go:131-134`; `ahead` is the number of items left in
the clone, if there is one. -/
def windowNext (negIndex : Int) : Option Nat → Int × Option Nat
  | none => (negIndex, none)
  | some 0 => (negIndex + 1, some 0)
  | some (n + 1) => (negIndex, some n)

/-- Go: the negative index at the start of an array with `n` items, `/repo/transform/jsonpath/segmentrunner.go:96-110`. -/
def windowInit (lookahead : Int) (n : Nat) : Int × Option Nat :=
  if lookahead > 0 then ((windowStart lookahead 0 n).1, some (windowStart lookahead 0 n).2) else (minInt64 + 1, none)

/-- The negative index with which the item `i` of `n` is tested. -/
def negIndexAt (lookahead : Int) (n : Nat) : Nat → Int × Option Nat
  | 0 => windowInit lookahead n
  | i + 1 => windowNext (negIndexAt lookahead n i).1 (negIndexAt lookahead n i).2

/-- What one selector selects from an array with `n` items, of which it has been offered `i`, when `k` are left
(`/repo/transform/jsonpath/segmentrunner.go:113-149`, `324-337`): it is asked about every item until it says that there is no more. -/
def scan {C : Type} (sel : Sel C) (lookahead : Int) (n i : Nat) : Nat → List Nat
  | 0 => []
  | k + 1 =>
    let d := sel.fromIndex i (negIndexAt lookahead n i).1
    (if d.yes then [i] else []) ++ if d.more then scan sel lookahead n (i + 1) k else []

/-- The items that one selector selects, in the order in which they are flushed (`/repo/transform/jsonpath/segmentrunner.go:408-429`). -/
def selected {C : Type} (sel : Sel C) (lookahead : Int) (n : Nat) : List Nat :=
  if sel.reverses then (scan sel lookahead n 0 n).reverse else scan sel lookahead n 0 n

end Verif.JPath
