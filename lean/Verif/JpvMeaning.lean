import Verif.JpvSpec
import Verif.Decimal

/-!
# What JPV lines mean (specification)

The values that a list of lines `$path = value` describes, from `/repo/README.md`, section "The JPV Format", and its "subset
property": consecutive lines that agree in the first key of their paths describe the same member (or item), and what they say
about it is said by the rest of their paths.  Indices do nothing else than separate items.  Independent of the decoder.
-/

namespace Verif.JpvSpec
open Rfc8259

/-- The key is the index `i` (the bytes of the key are the decoder's, which include the closing bracket). -/
def IndexIs (k : Scalar) (i : Nat) : Prop :=
  k.type = .num ∧ ∃ ds, IntPart ds ∧ k.bytes = ds ++ [0x5D] ∧ digitsVal ds = i

/-- The keys are the same string or the same index. -/
def Same (k n : Scalar) : Prop := (∃ s, StrIs k s ∧ StrIs n s) ∨ ∃ i, IndexIs k i ∧ IndexIs n i

/-- The key denotes a Unicode string, or it is an index as in JSON (without leading zeros) below 2^53. -/
def Plain (k : Scalar) : Prop := (∃ s, StrIs k s) ∨ ∃ i, i < 2 ^ 53 ∧ IndexIs k i

/-- A line from the first key of its path and a line with the rest of it. -/
def under (x : Scalar × (List Scalar × JVal)) : List Scalar × JVal := (x.1 :: x.2.1, x.2.2)

mutual
/-- The lines describe the value. -/
inductive Means : List (List Scalar × JVal) → JVal → Prop
  | leaf {v} : Means [([], v)] v
  | obj {l ls ms} : Parts .str (l :: ls) ms → Means (l :: ls) (.obj ms false)
  | arr {l ls ms} : Parts .num (l :: ls) ms → Means (l :: ls) (.arr (ms.map Prod.snd) false)

/-- The lines describe members (or items), with keys of the given type: the first ones, which have the same first key, describe
the first, and the next line starts with another key. -/
inductive Parts : SType → List (List Scalar × JVal) → List (Scalar × JVal) → Prop
  | nil {t} : Parts t [] []
  | cons {t k l v rest ms} {g : List (Scalar × (List Scalar × JVal))} : k.type = t → (∀ x ∈ g, Same k x.1) → Means (l :: g.map Prod.snd) v →
      (∀ n p w r, rest = (n :: p, w) :: r → ¬ Same k n) → Parts t rest ms →
      Parts t (under (k, l) :: (g.map under ++ rest)) ((k, v) :: ms)
end

/-- The lines describe a sequence of values: lines with the empty path, and a value described by all other lines. -/
inductive Describes : List (List Scalar × JVal) → List JVal → Prop
  | nil : Describes [] []
  | last {ls v} : Means ls v → Describes ls [v]
  | cons {v ls vs} : Describes ls vs → Describes (([], v) :: ls) (v :: vs)

/-- The value `w` is found at the path (an index leads to some item, since indices are counted anew). -/
inductive Found : JVal → List Scalar → JVal → Prop
  | here {v} : Found v [] v
  | member {ms e k u n p w} : (k, u) ∈ ms → Same k n → Found u p w → Found (.obj ms e) (n :: p) w
  | item {vs e u n p w} : u ∈ vs → n.type = .num → Found u p w → Found (.arr vs e) (n :: p) w

end Verif.JpvSpec
