import Verif.PathAst

/-!
# Types of function expressions (specification)

RFC 9535, sections 2.4.1 to 2.4.8: when the function expressions of a query are well typed.
-/

namespace Verif.Rfc9535
open JPath

/-- Section 2.4.1. -/
inductive FnType
  | value | logical | nodes
deriving DecidableEq

/-- Sections 2.4.4 to 2.4.8: the types of the parameters and of the result of each function. -/
def signatures : List (Bytes × List FnType × FnType) :=
  [(b%"length", [.value], .value), (b%"count", [.nodes], .value), (b%"match", [.value, .value], .logical),
    (b%"search", [.value, .value], .logical), (b%"value", [.nodes], .value)]

/-- Section 2.3.5.1: singular queries have one name or one index in each segment, and no descendant segments. -/
def Singular (segs : List Segment) : Prop := ∀ s ∈ segs, (∃ n, s = .mk false [.name n]) ∨ ∃ i, s = .mk false [.index i]

mutual
/-- The function expressions in a selector are well typed. -/
def SelTyped : Selector → Prop
  | .filter c => CondTyped c
  | _ => True
@[inherit_doc SelTyped] def SelsTyped : List Selector → Prop
  | [] => True
  | s :: l => SelTyped s ∧ SelsTyped l
@[inherit_doc SelTyped] def SegTyped : Segment → Prop
  | .mk _ sels => SelsTyped sels
@[inherit_doc SelTyped] def SegsTyped : List Segment → Prop
  | [] => True
  | s :: l => SegTyped s ∧ SegsTyped l
/-- Section 2.4.3: the function of a test has a logical result or a nodelist. -/
def CondTyped : Logical → Prop
  | .or l => CondsTyped l
  | .and l => CondsTyped l
  | .not c => CondTyped c
  | .cmp l _ r => ComparableTyped l ∧ ComparableTyped r
  | .query _ segs => SegsTyped segs
  | .func name args => ∃ ps r, (name, ps, r) ∈ signatures ∧ (r = .logical ∨ r = .nodes) ∧ ArgsTyped ps args
@[inherit_doc SelTyped] def CondsTyped : List Logical → Prop
  | [] => True
  | s :: l => CondTyped s ∧ CondsTyped l
/-- Section 2.4.3: the function of a comparison has a value as its result. -/
def ComparableTyped : Comparable → Prop
  | .lit _ => True
  | .sing _ => True
  | .func name args => ∃ ps r, (name, ps, r) ∈ signatures ∧ r = .value ∧ ArgsTyped ps args
/-- Section 2.4.3: an argument for a parameter. -/
def ArgTyped (ty : FnType) : Arg → Prop
  | .lit _ => ty = .value
  | .query _ segs => if ty = .value then Singular segs else SegsTyped segs
  | .logical c => ty = .logical ∧ CondTyped c
  | .func name args => ∃ ps r, (name, ps, r) ∈ signatures ∧ (r = ty ∨ r = .nodes ∧ ty = .logical) ∧ ArgsTyped ps args
/-- Section 2.4.3: as many arguments as there are parameters, each for its parameter. -/
def ArgsTyped : List FnType → List Arg → Prop
  | [], [] => True
  | ty :: tys, a :: l => ArgTyped ty a ∧ ArgsTyped tys l
  | _, _ => False
end

/-- The function expressions of a query are well typed. -/
def WellTyped (q : Query) : Prop := SegsTyped q.segs

end Verif.Rfc9535
