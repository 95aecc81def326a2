import Verif.PathLexer
import Verif.PathGrammar

/-!
# From texts to parse trees

Model of the grammar that the types of `/repo/internal/jsonpath/parser/grammar.go` define, and of `/repo/internal/jsonpath/jsonpath.go`.  The parser
itself is `grammar.Parse` of `github.com/arnodel/grammar`, which is not part of the repository.  It is taken to work as follows.  A `Seq` parses its
fields in order; a field that is a pointer may be missing, a field that is a slice is parsed as often as possible.  A `OneOf` takes the first of its
fields that can be parsed.  When a field cannot be parsed, the tokens that it has read are given back; there is no further search.
-/

namespace Verif.JPath

/-- The result of a parser: an error, or a value and the remaining tokens.  `out` is for recursion that is too deep for the fuel. -/
inductive Res (α : Type)
  | out
  | fail
  | ok (a : α) (rest : List Tok)

/-- A parser. -/
abbrev Parser (α : Type) := List Tok → Res α

namespace Parser
variable {α β : Type}

/-- One parser after the other. -/
def bind (p : Parser α) (f : α → Parser β) : Parser β := fun s =>
  match p s with
  | .ok a r => f a r
  | .fail => .fail
  | .out => .out

/-- No tokens. -/
def pure (a : α) : Parser α := fun s => .ok a s

/-- Another type of results. -/
def map (f : α → β) (p : Parser α) : Parser β := p.bind fun a => pure (f a)

/-- The first parser that succeeds. -/
def or (p q : Parser α) : Parser α := fun s =>
  match p s with
  | .fail => q s
  | r => r

/-- A field that is a pointer. -/
def opt (p : Parser α) : Parser (Option α) := (p.map some).or (pure none)

/-- A field that is a slice, at most `n` elements. -/
def many : Nat → Parser α → Parser (List α)
  | 0, _ => fun _ => .out
  | n + 1, p => (p.bind fun a => (many n p).map (a :: ·)).or (pure [])

/-- A token with the tag `tok:"kind"`. -/
def kind (k : TokKind) : Parser Bytes
  | [] => .fail
  | t :: r => if t.kind = k then .ok t.text r else .fail

/-- A token with the tag `tok:"op,text"`. -/
def op (v : Bytes) : Parser Unit
  | [] => .fail
  | t :: r => if t.kind = .op ∧ t.text = v then .ok () r else .fail

end Parser
open Parser

/-- Go: `StringLiteral`, `/repo/internal/jsonpath/parser/grammar.go:70-74`. -/
def pString : Parser PString := ((kind .double).map .double).or ((kind .single).map .single)

/-- Go: `Literal`, `/repo/internal/jsonpath/parser/grammar.go:375-381`. -/
def pLiteral : Parser PLiteral :=
  (((kind .int).map (.num true)).or ((kind .num).map (.num false))).or <|
    (pString.map .str).or <| ((kind .bool).map fun t => .bool (t == b%"true")).or <| (kind .null).map fun _ => .null

/-- Go: `SliceStep`, `/repo/internal/jsonpath/parser/grammar.go:122-126`. -/
def pStep : Parser (Option Bytes) := (op b%":").bind fun _ => (kind .int).opt

/-- Go: `SliceSelector`, `/repo/internal/jsonpath/parser/grammar.go:87-93`. -/
def pSlice : Parser PSelector :=
  (kind .int).opt.bind fun a => (op b%":").bind fun _ => (kind .int).opt.bind fun b => pStep.opt.map fun c => .slice a b c

/-- Go: `SingularQuerySegment`, `BracketNameSegment`, `IndexSegment`, `/repo/internal/jsonpath/parser/grammar.go:472-477,493-498,508-513`. -/
def pSingSeg : Parser PSingSeg :=
  ((op b%"[").bind fun _ => pString.bind fun s => (op b%"]").map fun _ => .bracket s).or <|
    ((kind .dotName).map .dot).or <|
      (op b%"[").bind fun _ => (kind .int).bind fun t => (op b%"]").map fun _ => .index t

/-- Go: `SingularQuery`, `RelSingularQuery`, `AbsSingularQuery`, `/repo/internal/jsonpath/parser/grammar.go:413-417,430-434,451-455`. -/
def pSing (n : Nat) : Parser PSingQuery :=
  ((op b%"@").bind fun _ => (many n pSingSeg).map (⟨false, ·⟩)).or ((op b%"$").bind fun _ => (many n pSingSeg).map (⟨true, ·⟩))

/-- The operators, `/repo/internal/jsonpath/parser/grammar.go:325-339`. -/
def cmpOp (t : Bytes) : CmpOp :=
  if t = b%"==" then .eq
  else if t = b%"!=" then .ne
  else if t = b%"<=" then .le
  else if t = b%">=" then .ge
  else if t = b%"<" then .lt
  else if t = b%">" then .gt
  else .eq

mutual
/-- Go: `Segment`, `ChildSegment`, `DescendantSegment`, `BracketedSelection`, `DescendantBracketedSelection`, `SelectorRest`, `DotSelection`,
`/repo/internal/jsonpath/parser/grammar.go:601-605,618-622,644-649,674-680,699-705,724-728,730-734`. -/
def pSegment : Nat → Parser PSegment
  | 0 => fun _ => .out
  | n + 1 =>
    ((op b%"[").bind fun _ => (pSelector n).bind fun f => (many n ((op b%",").bind fun _ => pSelector n)).bind fun r =>
        (op b%"]").map fun _ => .bracketed f r).or <|
      ((op b%".*").map fun _ => .dotWild).or <|
      ((kind .dotName).map .dotName).or <|
      ((op b%"..[").bind fun _ => (pSelector n).bind fun f => (many n ((op b%",").bind fun _ => pSelector n)).bind fun r =>
        (op b%"]").map fun _ => .descBracketed f r).or <|
      ((op b%"..*").map fun _ => .descWild).or <|
      (kind .descName).map .descName
/-- Go: `Selector`, `FilterSelector`, `/repo/internal/jsonpath/parser/grammar.go:36-43,128-132`. -/
def pSelector : Nat → Parser PSelector
  | 0 => fun _ => .out
  | n + 1 =>
    (pString.map .name).or <| ((op b%"*").map fun _ => .wild).or <| pSlice.or <| ((kind .int).map .index).or <|
      ((op b%"?").bind fun _ => (pOr n).map .filter)
/-- Go: `LogicalExpr`, `LogicalOrRest`, `/repo/internal/jsonpath/parser/grammar.go:142-146,168-172`. -/
def pOr : Nat → Parser PLogical
  | 0 => fun _ => .out
  | n + 1 => (pAnd n).bind fun f => (many n ((op b%"||").bind fun _ => pAnd n)).map fun r => .or f r
/-- Go: `LogicalAndExpr`, `LogicalAndRest`, `/repo/internal/jsonpath/parser/grammar.go:174-178,200-204`. -/
def pAnd : Nat → Parser PLogical
  | 0 => fun _ => .out
  | n + 1 => (pBasic n).bind fun f => (many n ((op b%"&&").bind fun _ => pBasic n)).map fun r => .and f r
/-- Go: `BasicExpr`, `ParenExpr`, `TestExpr`, `BasicTestExpr`, `ComparisonExpr`, `/repo/internal/jsonpath/parser/grammar.go:206-211,226-232,245-249,262-266,317-322`. -/
def pBasic : Nat → Parser PLogical
  | 0 => fun _ => .out
  | n + 1 =>
    ((op b%"!").opt.bind fun o => (op b%"(").bind fun _ => (pOr n).bind fun e => (op b%")").map fun _ => .paren o.isSome e).or <|
      ((pComparable n).bind fun l => (kind .cmp).bind fun o => (pComparable n).map fun r => .cmp l (cmpOp o) r).or <|
      ((op b%"!").opt.bind fun o => ((pQueryIn n).map fun q => .query o.isSome q.1 q.2).or
        ((pFunc n).map fun f => .func o.isSome f.1 f.2))
/-- Go: `FilterQuery`, `RelQuery`, `Query`, `/repo/internal/jsonpath/parser/grammar.go:15-19,279-283,296-300`. -/
def pQueryIn : Nat → Parser (Bool × List PSegment)
  | 0 => fun _ => .out
  | n + 1 =>
    ((op b%"@").bind fun _ => (many n (pSegment n)).map fun l => (false, l)).or
      ((op b%"$").bind fun _ => (many n (pSegment n)).map fun l => (true, l))
/-- Go: `Comparable`, `/repo/internal/jsonpath/parser/grammar.go:355-360`. -/
def pComparable : Nat → Parser PComparable
  | 0 => fun _ => .out
  | n + 1 => (pLiteral.map .lit).or <| ((pSing n).map .sing).or <| (pFunc n).map fun f => .func f.1 f.2
/-- Go: `FunctionExpr`, `FunctionExprArguments`, `FunctionExprArgumentsRest`, `/repo/internal/jsonpath/parser/grammar.go:523-528,542-546,568-572`. -/
def pFunc : Nat → Parser (Bytes × List PArg)
  | 0 => fun _ => .out
  | n + 1 =>
    (kind .func).bind fun f =>
      ((pArg n).bind fun a => (many n ((op b%",").bind fun _ => pArg n)).map fun l => a :: l).opt.bind fun args =>
        (op b%")").map fun _ => (f, args.getD [])
/-- Go: `FunctionArgument`, `/repo/internal/jsonpath/parser/grammar.go:574-580`. -/
def pArg : Nat → Parser PArg
  | 0 => fun _ => .out
  | n + 1 =>
    (pLiteral.map .lit).or <| ((pQueryIn n).map fun q => .query q.1 q.2).or <| ((pFunc n).map fun f => .func f.1 f.2).or <|
      (pOr n).map .logical
end

/-- Go: `Query`, `/repo/internal/jsonpath/parser/grammar.go:15-19`. -/
def pQuery (n : Nat) : Parser (List PSegment) := (op b%"$").bind fun _ => many n (pSegment n)

/-- Fuel that is always enough. -/
def enough (s : List Tok) : Nat := 8 * s.length + 8

/-- Go: `ParseQueryString`, `/repo/internal/jsonpath/jsonpath.go:12-27`; `none` is an error.  If the text has no parse tree, then no error is returned (line
21: `err` is nil), but an empty query (whose `RootNode` is the root). -/
def parseQuery (s : Bytes) : Option Query :=
  match lex s with
  | none => none
  | some toks =>
    match pQuery (enough toks) toks with
    | .ok q [] => compileTree q
    | .ok _ (_ :: _) => none
    | .fail => some ⟨true, []⟩
    | .out => none

/-- Go: `ParseQueryStringStrict`, `/repo/internal/jsonpath/jsonpath.go:29-43`. -/
def parseQueryStrict (s : Bytes) : Option Query :=
  if s.head?.any isBlank then none else if s.getLast?.any isBlank then none else parseQuery s

end Verif.JPath
