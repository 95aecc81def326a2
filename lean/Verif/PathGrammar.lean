import Verif.PathAst
import Verif.QuotedLit
import Verif.Decimal

/-!
# From parse trees to syntax trees

Model of `/repo/internal/jsonpath/parser/grammar.go`.  How a parse tree is made from tokens is in `PathParser.lean`.  Tokens are
their texts; those that are always the same are left out.  Errors are `none`.
-/

namespace Verif.JPath

/-- Go: `StringLiteral`, `/repo/internal/jsonpath/parser/grammar.go:70-74`. -/
inductive PString
  | double (t : Bytes)
  | single (t : Bytes)

/-- Go: `Literal`, `/repo/internal/jsonpath/parser/grammar.go:375-381`.  A number is an `int` or a `number`. -/
inductive PLiteral
  | num (int : Bool) (t : Bytes)
  | str (s : PString)
  | bool (b : Bool)
  | null

/-- Go: `SingularQuerySegment`, `/repo/internal/jsonpath/parser/grammar.go:472-477`. -/
inductive PSingSeg
  | bracket (s : PString)
  | dot (t : Bytes)
  | index (t : Bytes)

/-- Go: `SingularQuery`, `/repo/internal/jsonpath/parser/grammar.go:413-417,430-434,451-455`. -/
structure PSingQuery where
  root : Bool
  segs : List PSingSeg

mutual
/-- Go: `Selector` and `SliceSelector`, `/repo/internal/jsonpath/parser/grammar.go:36-43,87-93,122-126`.  The step of a slice may be missing with or
without its colon. -/
inductive PSelector
  | name (s : PString)
  | wild
  | slice (start stop : Option Bytes) (step : Option (Option Bytes))
  | index (t : Bytes)
  | filter (e : PLogical)
/-- Go: `Segment`, `/repo/internal/jsonpath/parser/grammar.go:601-605` with `ChildSegment`, `DotSelection`, `DescendantSegment` and the
two kinds of bracketed selections. -/
inductive PSegment
  | bracketed (first : PSelector) (rest : List PSelector)
  | dotWild
  | dotName (t : Bytes)
  | descBracketed (first : PSelector) (rest : List PSelector)
  | descWild
  | descName (t : Bytes)
/-- Go: `LogicalExpr`, `LogicalAndExpr`, `BasicExpr`, `ParenExpr`, `TestExpr`, `BasicTestExpr`, `FilterQuery`, `ComparisonExpr`,
`/repo/internal/jsonpath/parser/grammar.go:142-322`, in one type; trees of the grammar alternate as the types there say.  The token
of a function includes the opening parenthesis (line 525). -/
inductive PLogical
  | or (first : PLogical) (rest : List PLogical)
  | and (first : PLogical) (rest : List PLogical)
  | paren (not : Bool) (e : PLogical)
  | cmp (left : PComparable) (op : CmpOp) (right : PComparable)
  | query (not : Bool) (root : Bool) (segs : List PSegment)
  | func (not : Bool) (name : Bytes) (args : List PArg)
/-- Go: `Comparable`, `/repo/internal/jsonpath/parser/grammar.go:355-360`. -/
inductive PComparable
  | lit (l : PLiteral)
  | sing (q : PSingQuery)
  | func (name : Bytes) (args : List PArg)
/-- Go: `FunctionArgument`, `/repo/internal/jsonpath/parser/grammar.go:574-580`. -/
inductive PArg
  | lit (l : PLiteral)
  | query (root : Bool) (segs : List PSegment)
  | logical (e : PLogical)
  | func (name : Bytes) (args : List PArg)
end

/-- Go: `CompileToString`, `/repo/internal/jsonpath/parser/grammar.go:76-85`. -/
def PString.compile : PString → Option Bytes
  | .double t => parseDouble t
  | .single t => parseSingle t

/-- Go: `CompileToLiteral`, `/repo/internal/jsonpath/parser/grammar.go:383-411`. -/
def PLiteral.compile : PLiteral → Option Literal
  | .num _ t => (GoJson.number t).map .num
  | .str s => s.compile.map .str
  | .bool b => some (.bool b)
  | .null => some .null

/-- Go: `CompileToSingularQuerySegment`, `/repo/internal/jsonpath/parser/grammar.go:479-521`. -/
def PSingSeg.compile : PSingSeg → Option SingSeg
  | .bracket s => s.compile.map .name
  | .dot t => some (.name (t.drop 1))
  | .index t => (parseInt t).map .index

/-- The loops of `/repo/internal/jsonpath/parser/grammar.go:437-444,458-465`. -/
def compileSingSegs : List PSingSeg → Option (List SingSeg)
  | [] => some []
  | s :: l => s.compile.bind fun s => (compileSingSegs l).map (s :: ·)

/-- Go: `CompileToSingularQuery`, `/repo/internal/jsonpath/parser/grammar.go:419-470`. -/
def PSingQuery.compile (q : PSingQuery) : Option SingQuery := (compileSingSegs q.segs).map (⟨q.root, ·⟩)

/-- A bound of a slice, `/repo/internal/jsonpath/parser/grammar.go:98-111`. -/
def compileBound : Option Bytes → Option (Option Int)
  | none => some none
  | some t => (parseInt t).map some

/-- The step of a slice, `/repo/internal/jsonpath/parser/grammar.go:97,112-118`. -/
def compileStep : Option (Option Bytes) → Option Int
  | some (some t) => parseInt t
  | _ => some 1

mutual
/-- Go: `CompileToSelector`, `/repo/internal/jsonpath/parser/grammar.go:45-68,95-120,134-140`. -/
def PSelector.compile : PSelector → Option Selector
  | .name s => s.compile.map .name
  | .wild => some .wild
  | .slice a b c => (compileBound a).bind fun a => (compileBound b).bind fun b => (compileStep c).map fun c => .slice a b c
  | .index t => (parseInt t).map .index
  | .filter e => e.compile.map .filter
/-- The loops of `/repo/internal/jsonpath/parser/grammar.go:682-697,707-722`. -/
def compileSelectors : List PSelector → Option (List Selector)
  | [] => some []
  | s :: l => s.compile.bind fun s => (compileSelectors l).map (s :: ·)
/-- Go: `CompileToSegment`, `/repo/internal/jsonpath/parser/grammar.go:607-672,736-748`.  An error in a bracketed selection after two dots is
dropped, together with the segment (line 666: `ast.Segment{}`, a child segment without selectors). -/
def PSegment.compile : PSegment → Option Segment
  | .bracketed f r => f.compile.bind fun f => (compileSelectors r).map fun r => .mk false (f :: r)
  | .dotWild => some (.mk false [.wild])
  | .dotName t => some (.mk false [.name (t.drop 1)])
  | .descBracketed f r =>
    match f.compile.bind fun f => (compileSelectors r).map (f :: ·) with
    | none => some (.mk false [])
    | some l => some (.mk true l)
  | .descWild => some (.mk true [.wild])
  | .descName t => some (.mk true [.name (t.drop 2)])
/-- The loops of `/repo/internal/jsonpath/parser/grammar.go:23-30,303-310`. -/
def compileSegments : List PSegment → Option (List Segment)
  | [] => some []
  | s :: l => s.compile.bind fun s => (compileSegments l).map (s :: ·)
/-- Go: `CompileToLogicalExpr`, `/repo/internal/jsonpath/parser/grammar.go:148-166,180-198,213-224,234-243,251-260,268-277,285-294,324-353`. -/
def PLogical.compile : PLogical → Option Logical
  | .or f r => f.compile.bind fun f => match r with
    | [] => some f
    | r => (compileLogicals r).map fun r => .or (f :: r)
  | .and f r => f.compile.bind fun f => match r with
    | [] => some f
    | r => (compileLogicals r).map fun r => .and (f :: r)
  | .paren n e => e.compile.map fun e => if n then .not e else e
  | .cmp l op r => l.compile.bind fun l => r.compile.map fun r => .cmp l op r
  | .query n root segs => (compileSegments segs).map fun segs => if n then .not (.query root segs) else .query root segs
  | .func n name args =>
    let f : Logical := match compilePArgs args with
      | none => .func [] []
      | some args => .func name.dropLast args
    some (if n then .not f else f)
/-- The loops of `/repo/internal/jsonpath/parser/grammar.go:158-164,190-196`. -/
def compileLogicals : List PLogical → Option (List Logical)
  | [] => some []
  | s :: l => s.compile.bind fun s => (compileLogicals l).map (s :: ·)
/-- Go: `CompileToComparable`, `/repo/internal/jsonpath/parser/grammar.go:362-373`. -/
def PComparable.compile : PComparable → Option Comparable
  | .lit l => l.compile.map .lit
  | .sing q => q.compile.map .sing
  | .func name args => some (match compilePArgs args with
      | none => .func [] []
      | some args => .func name.dropLast args)
/-- Go: `CompileToFunctionArgument`, `/repo/internal/jsonpath/parser/grammar.go:582-599`, and `CompileToFunctionExpr`, lines 530-540: an
error in an argument is dropped, together with the function (line 533: `ast.FunctionExpr{}`). -/
def PArg.compile : PArg → Option Arg
  | .lit l => l.compile.map .lit
  | .query root segs => (compileSegments segs).map (.query root)
  | .logical e => e.compile.map .logical
  | .func name args => some (match compilePArgs args with
      | none => .func [] []
      | some args => .func name.dropLast args)
/-- Go: `CompileToFunctionArguments`, `/repo/internal/jsonpath/parser/grammar.go:548-566`. -/
def compilePArgs : List PArg → Option (List Arg)
  | [] => some []
  | s :: l => s.compile.bind fun s => (compilePArgs l).map (s :: ·)
end

/-- Go: `Query.CompileToQuery`, `/repo/internal/jsonpath/parser/grammar.go:21-35`, on the segments. -/
def compileTree (segs : List PSegment) : Option Query := (compileSegments segs).map (⟨true, ·⟩)

end Verif.JPath
