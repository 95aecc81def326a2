import Verif.PathAst
import Verif.PathSelectors

/-!
# From syntax trees to runners

Model of `/repo/transform/jsonpath/compiler.go`, with the function registry of `/repo/transform/jsonpath/function.go`.  Errors are `none`.
-/

namespace Verif.JPath

/-- Go: `DefaultFunctionRegistry`, `/repo/transform/jsonpath/function.go:64-98`. -/
inductive Fn
  | length | count | fmatch | search | value
deriving DecidableEq, Repr

/-- Go: `Type`, `/repo/transform/jsonpath/function.go:19-25`. -/
inductive Ty
  | value | logical | nodes
deriving DecidableEq, Repr

/-- Go: `GetFunctionDef`, `/repo/transform/jsonpath/function.go:60-62`. -/
def Fn.ofName (n : Bytes) : Option Fn :=
  if n = b%"length" then some .length
  else if n = b%"count" then some .count
  else if n = b%"match" then some .fmatch
  else if n = b%"search" then some .search
  else if n = b%"value" then some .value
  else none

/-- Go: `InputTypes`, `/repo/transform/jsonpath/function.go:70,76,82,88,94`. -/
def Fn.inputs : Fn → List Ty
  | .length => [.value]
  | .count => [.nodes]
  | .fmatch => [.value, .value]
  | .search => [.value, .value]
  | .value => [.nodes]

/-- Go: `OutputType`, `/repo/transform/jsonpath/function.go:71,77,83,89,95`. -/
def Fn.output : Fn → Ty
  | .length => .value
  | .count => .value
  | .fmatch => .logical
  | .search => .logical
  | .value => .value

/-- Go: `ConvertsTo`, `/repo/transform/jsonpath/function.go:27-29`. -/
def Ty.convertsTo (t u : Ty) : Bool := t == u || t == .nodes && u == .logical

mutual
/-- Go: `LogicalEvaluator`, `/repo/transform/jsonpath/logicalevaluators.go:9-76`.  The three flags of a comparison are `CheckEquals`,
`CheckLessThan` and `NegateResult`. -/
inductive CondR
  | or (args : List CondR)
  | and (args : List CondR)
  | not (arg : CondR)
  | cmp (left : CmpR) (eq lt neg : Bool) (right : CmpR)
  | query (q : QueryR)
  | func (f : Fn) (args : List ArgR)
/-- Go: `QueryEvaluator`, `/repo/transform/jsonpath/queryrunner.go:82-84`: a `QueryRunner` (lines 107-117) or an `InnerQueryRunner` (lines
164-177).  The chain of segments that starts with `firstSegment` is a list. -/
inductive QueryR
  | run (segs : List SegR)
  | inner (i : Nat)
/-- Go: `SegmentRunner`, `/repo/transform/jsonpath/segmentrunner.go:14-30`.  The look-ahead is `segLookahead` of the selectors
(`/repo/transform/jsonpath/compiler.go:121-133`); `strictMode`, which is the same everywhere, is left out, and the following
segment is the next one in the list. -/
inductive SegR
  | mk (desc : Bool) (sels : List (Sel CondR))
/-- Go: `ComparableEvaluator`, `/repo/transform/jsonpath/comparableevaluators.go:9-35`, `/repo/transform/jsonpath/queryrunner.go:179-185`. -/
inductive CmpR
  | lit (l : Literal)
  | sing (segs : List SingSeg)
  | inner (i : Nat)
  | func (f : Fn) (args : List ArgR)
/-- Go: `FunctionArgumentRunner`, `/repo/transform/jsonpath/functionrunnner.go:48-84`.  (No function has arguments of type `LogicalType`;
functions as arguments are values.) -/
inductive ArgR
  | value (c : CmpR)
  | nodes (q : QueryR)
end

/-- Go: `compiler`, `/repo/transform/jsonpath/compiler.go:44-62`: the entries for rooted singular queries and for rooted queries. -/
structure Tables where
  sing : List (List SingSeg) := []
  queries : List (List Segment × List SegR) := []

/-- Go: `compileSingularQuery`, `/repo/transform/jsonpath/compiler.go:323-346`.  The runners of the segments of singular queries are the segments
themselves. -/
def compileSing (tab : Tables) (root : Bool) (segs : List SingSeg) : Tables × CmpR :=
  if root then
    match tab.sing.findIdx? (· == segs) with
    | some i => (tab, .inner i)
    | none => ({ tab with sing := tab.sing ++ [segs] }, .inner tab.sing.length)
  else (tab, .sing segs)

/-- Go: `compileComparison`, `/repo/transform/jsonpath/compiler.go:280-303`. -/
def compileCmp (l : CmpR) (op : CmpOp) (r : CmpR) : CondR :=
  match op with
  | .eq => .cmp l true false false r
  | .ne => .cmp l true false true r
  | .le => .cmp l true true false r
  | .ge => .cmp r true true false l
  | .lt => .cmp l false true false r
  | .gt => .cmp r false true false l

/-- Go: `compileFunctionExpr`, `/repo/transform/jsonpath/compiler.go:360-370`: the checks before the arguments. -/
def checkFn (name : Bytes) (n : Nat) (ty : Ty) : Option Fn :=
  (Fn.ofName name).bind fun f => if f.output.convertsTo ty ∧ n = f.inputs.length then some f else none

mutual
/-- Go: `compileSelector`, `/repo/transform/jsonpath/compiler.go:144-164`. -/
def compileSel (tab : Tables) : Selector → Option (Tables × Sel CondR)
  | .name n => some (tab, .name n)
  | .wild => some (tab, .wild)
  | .index i => some (tab, .index i)
  | .filter c => (compileCond tab c).map fun (tab, c) => (tab, .filter c)
  | .slice a b c => some (tab, compileSlice a b c)
/-- Go: the loop of `/repo/transform/jsonpath/compiler.go:123-133`. -/
def compileSels (tab : Tables) : List Selector → Option (Tables × List (Sel CondR))
  | [] => some (tab, [])
  | s :: l => (compileSel tab s).bind fun (tab, s) => (compileSels tab l).map fun (tab, l) => (tab, s :: l)
/-- Go: `compileSegment`, `/repo/transform/jsonpath/compiler.go:119-142`. -/
def compileSeg (tab : Tables) : Segment → Option (Tables × SegR)
  | .mk desc sels => (compileSels tab sels).map fun (tab, sels) => (tab, .mk desc sels)
/-- Go: `compileQuery`, `/repo/transform/jsonpath/compiler.go:76-89`: from the last segment to the first. -/
def compileSegs (tab : Tables) : List Segment → Option (Tables × List SegR)
  | [] => some (tab, [])
  | s :: l => (compileSegs tab l).bind fun (tab, l) => (compileSeg tab s).map fun (tab, s) => (tab, s :: l)
/-- Go: `compileCondition`, `/repo/transform/jsonpath/compiler.go:166-198`, with `compileComparison`, lines 269-304, and `compileInnerQuery`, lines
91-117. -/
def compileCond (tab : Tables) : Logical → Option (Tables × CondR)
  | .or l => (compileConds tab l).map fun (tab, l) => (tab, .or l)
  | .and l => (compileConds tab l).map fun (tab, l) => (tab, .and l)
  | .not c => (compileCond tab c).map fun (tab, c) => (tab, .not c)
  | .cmp l op r => (compileComparable tab l).bind fun (tab, l) => (compileComparable tab r).map fun (tab, r) => (tab, compileCmp l op r)
  | .query root segs =>
    if root then
      match tab.queries.findIdx? (segmentsBeq ·.1 segs) with
      | some i => some (tab, .query (.inner i))
      | none => (compileSegs tab segs).map fun (tab, r) =>
        ({ tab with queries := tab.queries ++ [(segs, r)] }, .query (.inner tab.queries.length))
    else (compileSegs tab segs).map fun (tab, r) => (tab, .query (.run r))
  | .func name args => (checkFn name args.length .logical).bind fun f =>
    (compileArgs tab f.inputs args).map fun (tab, args) => (tab, .func f args)
/-- Go: `compileConditions`, `/repo/transform/jsonpath/compiler.go:200-210`. -/
def compileConds (tab : Tables) : List Logical → Option (Tables × List CondR)
  | [] => some (tab, [])
  | s :: l => (compileCond tab s).bind fun (tab, s) => (compileConds tab l).map fun (tab, l) => (tab, s :: l)
/-- Go: `compileComparable`, `/repo/transform/jsonpath/compiler.go:306-321`. -/
def compileComparable (tab : Tables) : Comparable → Option (Tables × CmpR)
  | .lit l => some (tab, .lit l)
  | .sing q => some (compileSing tab q.root q.segs)
  | .func name args => (checkFn name args.length .value).bind fun f =>
    (compileArgs tab f.inputs args).map fun (tab, args) => (tab, .func f args)
/-- Go: `compileFunctionArg`, `/repo/transform/jsonpath/compiler.go:385-431`, with `compileInnerQuery`, lines 91-117. -/
def compileArg (tab : Tables) (ty : Ty) : Arg → Option (Tables × ArgR)
  | .lit l => if ty = .value then some (tab, .value (.lit l)) else none
  | .query root segs =>
    if ty = .value then (asSingular segs).map fun segs => ((compileSing tab root segs).1, .value (compileSing tab root segs).2)
    else if root then
      match tab.queries.findIdx? (segmentsBeq ·.1 segs) with
      | some i => some (tab, .nodes (.inner i))
      | none => (compileSegs tab segs).map fun (tab, r) =>
        ({ tab with queries := tab.queries ++ [(segs, r)] }, .nodes (.inner tab.queries.length))
    else (compileSegs tab segs).map fun (tab, r) => (tab, .nodes (.run r))
  | .logical _ => none
  | .func name args => (checkFn name args.length ty).bind fun f =>
    (compileArgs tab f.inputs args).map fun (tab, args) => (tab, .value (.func f args))
/-- Go: the loop of `/repo/transform/jsonpath/compiler.go:371-378`. -/
def compileArgs (tab : Tables) : List Ty → List Arg → Option (Tables × List ArgR)
  | ty :: tys, s :: l => (compileArg tab ty s).bind fun (tab, s) => (compileArgs tab tys l).map fun (tab, l) => (tab, s :: l)
  | _, _ => some (tab, [])
end

/-- Go: `MainQueryRunner`, `/repo/transform/jsonpath/queryrunner.go:8-12`. -/
structure MainR where
  main : List SegR
  sing : List (List SingSeg)
  queries : List (List SegR)

/-- Go: `CompileQuery`, `/repo/transform/jsonpath/compiler.go:25-42`. -/
def compileQuery (q : Query) : Option MainR :=
  (compileSegs {} q.segs).map fun (tab, r) => ⟨r, tab.sing, tab.queries.map (·.2)⟩

end Verif.JPath
