import Verif.Token

/-!
# JSONPath selectors (specification)

RFC 9535, sections 2.3.3 and 2.3.4.
-/

namespace Verif.Rfc9535

/-- The integers of I-JSON (RFC 9535 section 2.1). -/
def IJson (i : Int) : Prop := -(2 ^ 53 - 1) ≤ i ∧ i ≤ 2 ^ 53 - 1

instance (i : Int) : Decidable (IJson i) := inferInstanceAs (Decidable (_ ∧ _))

/-- Section 2.3.3.2: the item that the index selector `i` selects from an array with `n` items. -/
def index (i : Int) (n : Nat) : Option Nat :=
  if 0 ≤ i ∧ i < n then some i.toNat else if i < 0 ∧ -i ≤ n then some (n + i).toNat else none

/-- Section 2.3.4.2.2: `Normalize(i, len)`. -/
def normalize (i : Int) (n : Nat) : Int := if 0 ≤ i then i else n + i

/-- Section 2.3.4.2.1: the default for `start`. -/
def startOf (start : Option Int) (step : Int) (n : Nat) : Int := start.getD (if step ≥ 0 then 0 else n - 1)

/-- Section 2.3.4.2.1: the default for `end`. -/
def endOf (stop : Option Int) (step : Int) (n : Nat) : Int := stop.getD (if step ≥ 0 then n else -n - 1)

/-- Section 2.3.4.2.2: `Bounds(start, end, step, len)`: lower and upper. -/
def bounds (start stop step : Int) (n : Nat) : Int × Int :=
  let s := normalize start n
  let e := normalize stop n
  if step ≥ 0 then (min (max s 0) n, min (max e 0) n) else (min (max e (-1)) (n - 1), min (max s (-1)) (n - 1))

/-- Section 2.3.4.2.2: the loop for positive steps, at most `fuel` times. -/
def upward (step upper : Int) : Nat → Int → List Nat
  | 0, _ => []
  | f + 1, i => if i < upper then i.toNat :: upward step upper f (i + step) else []

/-- Section 2.3.4.2.2: the loop for negative steps, at most `fuel` times. -/
def downward (step lower : Int) : Nat → Int → List Nat
  | 0, _ => []
  | f + 1, i => if lower < i then i.toNat :: downward step lower f (i + step) else []

/-- Section 2.3.4.2.2: the items that `[start:end:step]` selects from an array with `n` items, in order.  (There are at most `n`.) -/
def slice (start stop : Option Int) (step : Int) (n : Nat) : List Nat :=
  let (lower, upper) := bounds (startOf start step n) (endOf stop step n) step n
  if step > 0 then upward step upper n lower
  else if step < 0 then downward step lower n upper
  else []

example : slice (some 1) (some 5) 2 7 = [1, 3] ∧ slice (some 5) (some 1) (-2) 7 = [5, 3] ∧ slice none none (-1) 3 = [2, 1, 0] ∧
    slice (some (-5)) none 3 3 = [0] := by decide

end Verif.Rfc9535
