import Verif.Bytes

/-!
# Syntax trees of queries

Model of `/repo/internal/jsonpath/ast/ast.go`.
-/

namespace Verif.JPath

/-- Go: `ComparisonOp`, `/repo/internal/jsonpath/ast/ast.go:114-123`. -/
inductive CmpOp
  | eq | ne | le | ge | lt | gt
deriving DecidableEq, Repr

/-- Go: `Literal`, `/repo/internal/jsonpath/ast/ast.go:129-131`.  A `float64` is a rational number; there are no NaNs and infinities in
literals, and the sign of zero is dropped. -/
inductive Literal
  | str (s : Bytes)
  | num (q : Rat)
  | bool (b : Bool)
  | null
deriving DecidableEq

/-- Go: `SingularQuerySegment`, `/repo/internal/jsonpath/ast/ast.go:142-153`. -/
inductive SingSeg
  | name (n : Bytes)
  | index (i : Int)
deriving DecidableEq

/-- Go: `SingularQuery`, `/repo/internal/jsonpath/ast/ast.go:137-140`; `root` is `RootNode == RootNodeIdentifier`. -/
structure SingQuery where
  root : Bool
  segs : List SingSeg
deriving DecidableEq

mutual
/-- Go: `Selector`, `/repo/internal/jsonpath/ast/ast.go:54-81`. -/
inductive Selector
  | name (n : Bytes)
  | wild
  | index (i : Int)
  | slice (start stop : Option Int) (step : Int)
  | filter (c : Logical)
/-- Go: `Segment`, `/repo/internal/jsonpath/ast/ast.go:45-48`; `desc` is `Type == DescendantSegmentType`. -/
inductive Segment
  | mk (desc : Bool) (sels : List Selector)
/-- Go: `LogicalExpr`, `/repo/internal/jsonpath/ast/ast.go:87-112`.  The fields of `Query` and `FunctionExpr` are arguments here. -/
inductive Logical
  | or (args : List Logical)
  | and (args : List Logical)
  | not (arg : Logical)
  | cmp (left : Comparable) (op : CmpOp) (right : Comparable)
  | query (root : Bool) (segs : List Segment)
  | func (name : Bytes) (args : List Arg)
/-- Go: `Comparable`, `/repo/internal/jsonpath/ast/ast.go:108-112`. -/
inductive Comparable
  | lit (l : Literal)
  | sing (q : SingQuery)
  | func (name : Bytes) (args : List Arg)
/-- Go: `FunctionArgument`, `/repo/internal/jsonpath/ast/ast.go:169-181`. -/
inductive Arg
  | lit (l : Literal)
  | query (root : Bool) (segs : List Segment)
  | logical (c : Logical)
  | func (name : Bytes) (args : List Arg)
end

/-- Go: `Query`, `/repo/internal/jsonpath/ast/ast.go:14-17`. -/
structure Query where
  root : Bool
  segs : List Segment

/-- Go: `AsSingularQuery`, `/repo/internal/jsonpath/ast/ast.go:19-36`, the segments. -/
def asSingular : List Segment → Option (List SingSeg)
  | [] => some []
  | .mk desc sels :: segs =>
    if desc then none
    else match sels with
      | [.name n] => (asSingular segs).map (.name n :: ·)
      | [.index i] => (asSingular segs).map (.index i :: ·)
      | _ => none

mutual
/-- Go: `reflect.DeepEqual` on queries.  (An empty list of segments of a singular query may be nil or not, according to whether the query
was an argument of a function or not; this difference, which only makes an additional entry in a table, is dropped.) -/
def Selector.beq : Selector → Selector → Bool
  | .name a, .name b => a == b
  | .wild, .wild => true
  | .index a, .index b => a == b
  | .slice a b c, .slice a' b' c' => a == a' && b == b' && c == c'
  | .filter c, .filter c' => c.beq c'
  | _, _ => false
@[inherit_doc Selector.beq] def selectorsBeq : List Selector → List Selector → Bool
  | [], [] => true
  | a :: l, a' :: l' => a.beq a' && selectorsBeq l l'
  | _, _ => false
@[inherit_doc Selector.beq] def Segment.beq : Segment → Segment → Bool
  | .mk d l, .mk d' l' => d == d' && selectorsBeq l l'
@[inherit_doc Selector.beq] def segmentsBeq : List Segment → List Segment → Bool
  | [], [] => true
  | a :: l, a' :: l' => a.beq a' && segmentsBeq l l'
  | _, _ => false
@[inherit_doc Selector.beq] def Logical.beq : Logical → Logical → Bool
  | .or l, .or l' => logicalsBeq l l'
  | .and l, .and l' => logicalsBeq l l'
  | .not c, .not c' => c.beq c'
  | .cmp a o b, .cmp a' o' b' => a.beq a' && o == o' && b.beq b'
  | .query r l, .query r' l' => r == r' && segmentsBeq l l'
  | .func n l, .func n' l' => n == n' && argsBeq l l'
  | _, _ => false
@[inherit_doc Selector.beq] def logicalsBeq : List Logical → List Logical → Bool
  | [], [] => true
  | a :: l, a' :: l' => a.beq a' && logicalsBeq l l'
  | _, _ => false
@[inherit_doc Selector.beq] def Comparable.beq : Comparable → Comparable → Bool
  | .lit a, .lit b => a == b
  | .sing a, .sing b => a == b
  | .func n l, .func n' l' => n == n' && argsBeq l l'
  | _, _ => false
@[inherit_doc Selector.beq] def Arg.beq : Arg → Arg → Bool
  | .lit a, .lit b => a == b
  | .query r l, .query r' l' => r == r' && segmentsBeq l l'
  | .logical c, .logical c' => c.beq c'
  | .func n l, .func n' l' => n == n' && argsBeq l l'
  | _, _ => false
@[inherit_doc Selector.beq] def argsBeq : List Arg → List Arg → Bool
  | [], [] => true
  | a :: l, a' :: l' => a.beq a' && argsBeq l l'
  | _, _ => false
end

end Verif.JPath
