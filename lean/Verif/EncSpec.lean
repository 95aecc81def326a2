import Verif.Rfc8259

/-!
# Notions for stating properties of encoders (specification)
-/

namespace Verif.EncSpec

open Rfc8259

/-- The bytes of the scalar are the JSON text of a scalar of its type. -/
def SpelledScalar (S : Bytes → Prop) (s : Scalar) : Prop :=
  ∃ alnum unesc, Text S (.scalar { s with key := false, alnum := alnum, unesc := unesc }) s.bytes

/-- All scalars of the value are valid JSON literals of their type, keys are strings, and exactly the
keys are marked as keys.  The value may be elided. -/
inductive Spelled (S : Bytes → Prop) : JVal → Prop
  | scalar {s} : s.key = false → SpelledScalar S s → Spelled S (.scalar s)
  | arr {l e} : (∀ v ∈ l, Spelled S v) → Spelled S (.arr l e)
  | obj {l e} : (∀ m ∈ l, m.1.key = true ∧ m.1.type = .str ∧ SpelledScalar S m.1) → (∀ m ∈ l, Spelled S m.2) →
      Spelled S (.obj l e)

/-- No collection in the value is elided. -/
inductive Complete : JVal → Prop
  | scalar {s} : Complete (.scalar s)
  | arr {l} : (∀ v ∈ l, Complete v) → Complete (.arr l false)
  | obj {l} : (∀ m ∈ l, Complete m.2) → Complete (.obj l false)

/-- Apply a function to all scalars and keys. -/
def mapScalars (f : Scalar → Scalar) : JVal → JVal
  | .scalar s => .scalar (f s)
  | .arr l e => .arr (items l) e
  | .obj l e => .obj (members l) e
where
  items : List JVal → List JVal
    | [] => []
    | v :: l => mapScalars f v :: items l
  members : List (Scalar × JVal) → List (Scalar × JVal)
    | [] => []
    | (k, v) :: l => (f k, mapScalars f v) :: members l

/-- The flags `Alnum` and `Unescaped` are optimisation hints: two scalars denote the same if they
agree up to these flags. -/
def forgetFlags (s : Scalar) : Scalar := { s with alnum := false, unesc := false }

/-- Forget the hints of all scalars in a token. -/
def forgetTok : Token → Token
  | .scalar s => .scalar (forgetFlags s)
  | t => t

/-- All scalars of the value, keys included, carry the hints a decoder sets. -/
inductive Hinted (S : Bytes → Prop) : JVal → Prop
  | scalar {s} : Text S (.scalar s) s.bytes → Hinted S (.scalar s)
  | arr {l e} : (∀ v ∈ l, Hinted S v) → Hinted S (.arr l e)
  | obj {l e} : (∀ m ∈ l, Text S (.scalar { m.1 with key := false }) m.1.bytes) → (∀ m ∈ l, Hinted S m.2) →
      Hinted S (.obj l e)

@[simp] theorem mapScalars_scalar (f s) : mapScalars f (.scalar s) = .scalar (f s) := by simp [mapScalars]
@[simp] theorem mapScalars_arr (f l e) : mapScalars f (.arr l e) = .arr (l.map (mapScalars f)) e := by
  have : ∀ l, mapScalars.items f l = l.map (mapScalars f) := by
    intro l; induction l with
    | nil => simp [mapScalars.items]
    | cons v l ih => simp [mapScalars.items, ih]
  simp [mapScalars, this]
@[simp] theorem mapScalars_obj (f l e) :
    mapScalars f (.obj l e) = .obj (l.map fun m => (f m.1, mapScalars f m.2)) e := by
  have : ∀ l, mapScalars.members f l = l.map fun m => (f m.1, mapScalars f m.2) := by
    intro l; induction l with
    | nil => simp [mapScalars.members]
    | cons v l ih => obtain ⟨k, v⟩ := v; simp [mapScalars.members, ih]
  simp [mapScalars, this]

/-! ## Texts outside and inside string literals -/

/-- Where we are in a text. -/
inductive Mode | out | str | esc
  deriving DecidableEq, Repr

/-- Mark each byte of a text: `true` if it belongs to a string literal (quotes included). -/
def tag : Mode → Bytes → List (Bool × Byte)
  | _, [] => []
  | .out, b :: r => if b = 0x22 then (true, b) :: tag .str r else (false, b) :: tag .out r
  | .str, b :: r =>
    if b = 0x22 then (true, b) :: tag .out r
    else if b = 0x5C then (true, b) :: tag .esc r
    else (true, b) :: tag .str r
  | .esc, b :: r => (true, b) :: tag .str r

/-- White space of JSON. -/
def isWs (b : Byte) : Bool := b == 0x20 || b == 0x09 || b == 0x0A || b == 0x0D

/-- Remove white space outside string literals. -/
def squeeze (b : Bytes) : Bytes := ((tag .out b).filter fun x => x.1 || !isWs x.2).map (·.2)

/-- The minimal text of a value, with `...` for what is elided. -/
def minText : JVal → Bytes
  | .scalar s => s.bytes
  | .arr l e => 0x5B :: (items l ++ (if e then b%"..." else []) ++ [0x5D])
  | .obj l e => 0x7B :: (members l ++ (if e then b%"..." else []) ++ [0x7D])
where
  items : List JVal → Bytes
    | [] => []
    | [v] => minText v
    | v :: w :: l => minText v ++ 0x2C :: items (w :: l)
  members : List (Scalar × JVal) → Bytes
    | [] => []
    | [(k, v)] => k.bytes ++ 0x3A :: minText v
    | (k, v) :: m :: l => k.bytes ++ 0x3A :: (minText v ++ 0x2C :: members (m :: l))

/-- The depth of nesting after a byte of a text. -/
def depthAfter (d : Nat) (x : Bool × Byte) : Nat :=
  if x = (false, 0x5B) ∨ x = (false, 0x7B) then d + 1
  else if x = (false, 0x5D) ∨ x = (false, 0x7D) then d - 1
  else d

/-- The depth at which a line that starts with the given byte should stand: closing brackets stand
one step to the left. -/
def lineDepth (d : Nat) (x : Bool × Byte) : Nat :=
  if x = (false, 0x5D) ∨ x = (false, 0x7D) then d - 1 else d

/-- All lines of a text (but the first) are indented by exactly `n` times the depth of nesting, and
none is empty.  `d` is the depth of nesting so far; `nl` is the number of spaces seen since the
beginning of the line, if there was nothing else. -/
def linesIndented (n d : Nat) (nl : Option Nat) : List (Bool × Byte) → Bool
  | [] => nl.isNone
  | x :: r =>
    match nl with
    | none => if x = (false, 0x0A) then linesIndented n d (some 0) r else linesIndented n (depthAfter d x) none r
    | some k =>
      if x = (false, 0x20) then linesIndented n d (some (k + 1)) r
      else x != (false, 0x0A) && k == n * lineDepth d x && linesIndented n (depthAfter d x) none r

/-- All lines of a text but the first are indented by exactly `n` times the depth of nesting. -/
def Indented (n : Nat) (b : Bytes) : Prop := linesIndented n 0 none (tag .out b) = true

/-- There is no line break outside string literals. -/
def OneLine (b : Bytes) : Prop := ∀ x ∈ tag .out b, x ≠ (false, 0x0A)

end Verif.EncSpec
