import Verif.PathParser

/-!
# The tokens of parse trees
-/

namespace Verif.JPath

/-- The token of an operator. -/
def opTok (v : Bytes) : Tok := ⟨.op, v⟩

def PString.tok : PString → Tok
  | .double t => ⟨.double, t⟩
  | .single t => ⟨.single, t⟩

def PLiteral.tok : PLiteral → Tok
  | .num true t => ⟨.int, t⟩
  | .num false t => ⟨.num, t⟩
  | .str s => s.tok
  | .bool true => ⟨.bool, b%"true"⟩
  | .bool false => ⟨.bool, b%"false"⟩
  | .null => ⟨.null, b%"null"⟩

def PSingSeg.toks : PSingSeg → List Tok
  | .bracket s => [opTok b%"[", s.tok, opTok b%"]"]
  | .dot t => [⟨.dotName, t⟩]
  | .index t => [opTok b%"[", ⟨.int, t⟩, opTok b%"]"]

def singToks (l : List PSingSeg) : List Tok := l.flatMap PSingSeg.toks

/-- The identifier of a query. -/
def rootTok (root : Bool) : Tok := if root then opTok b%"$" else opTok b%"@"

def PSingQuery.toks (q : PSingQuery) : List Tok := rootTok q.root :: singToks q.segs

def boundToks : Option Bytes → List Tok
  | none => []
  | some t => [⟨.int, t⟩]

def stepToks : Option (Option Bytes) → List Tok
  | none => []
  | some t => opTok b%":" :: boundToks t

def opText : CmpOp → Bytes
  | .eq => b%"=="
  | .ne => b%"!="
  | .le => b%"<="
  | .ge => b%">="
  | .lt => b%"<"
  | .gt => b%">"

def notToks (n : Bool) : List Tok := if n then [opTok b%"!"] else []

mutual
def PSelector.toks : PSelector → List Tok
  | .name s => [s.tok]
  | .wild => [opTok b%"*"]
  | .slice a b c => boundToks a ++ (opTok b%":" :: (boundToks b ++ stepToks c))
  | .index t => [⟨.int, t⟩]
  | .filter e => opTok b%"?" :: e.toks
def selsToks : List PSelector → List Tok
  | [] => []
  | s :: l => opTok b%"," :: (s.toks ++ selsToks l)
def PSegment.toks : PSegment → List Tok
  | .bracketed f r => opTok b%"[" :: (f.toks ++ (selsToks r ++ [opTok b%"]"]))
  | .dotWild => [opTok b%".*"]
  | .dotName t => [⟨.dotName, t⟩]
  | .descBracketed f r => opTok b%"..[" :: (f.toks ++ (selsToks r ++ [opTok b%"]"]))
  | .descWild => [opTok b%"..*"]
  | .descName t => [⟨.descName, t⟩]
def segsToks : List PSegment → List Tok
  | [] => []
  | s :: l => s.toks ++ segsToks l
def PLogical.toks : PLogical → List Tok
  | .or f r => f.toks ++ orsToks r
  | .and f r => f.toks ++ andsToks r
  | .paren n e => notToks n ++ (opTok b%"(" :: (e.toks ++ [opTok b%")"]))
  | .cmp l op r => l.toks ++ (⟨.cmp, opText op⟩ :: r.toks)
  | .query n root segs => notToks n ++ (rootTok root :: segsToks segs)
  | .func n name args => notToks n ++ (⟨.func, name⟩ :: (argsToks args ++ [opTok b%")"]))
def orsToks : List PLogical → List Tok
  | [] => []
  | s :: l => opTok b%"||" :: (s.toks ++ orsToks l)
def andsToks : List PLogical → List Tok
  | [] => []
  | s :: l => opTok b%"&&" :: (s.toks ++ andsToks l)
def PComparable.toks : PComparable → List Tok
  | .lit l => [l.tok]
  | .sing q => q.toks
  | .func name args => ⟨.func, name⟩ :: (argsToks args ++ [opTok b%")"])
def PArg.toks : PArg → List Tok
  | .lit l => [l.tok]
  | .query root segs => rootTok root :: segsToks segs
  | .logical e => e.toks
  | .func name args => ⟨.func, name⟩ :: (argsToks args ++ [opTok b%")"])
def argsToks : List PArg → List Tok
  | [] => []
  | a :: l => a.toks ++ restToks l
def restToks : List PArg → List Tok
  | [] => []
  | a :: l => opTok b%"," :: (a.toks ++ restToks l)
end

mutual
/-- The levels of logical expressions alternate as the types of the grammar say.  Logical expressions as arguments are allowed if `lg`. -/
def PSelector.ok (lg : Bool) : PSelector → Prop
  | .filter e => e.okOr lg
  | _ => True
@[inherit_doc PSelector.ok] def selsOk (lg : Bool) : List PSelector → Prop
  | [] => True
  | s :: l => s.ok lg ∧ selsOk lg l
@[inherit_doc PSelector.ok] def PSegment.ok (lg : Bool) : PSegment → Prop
  | .bracketed f r => f.ok lg ∧ selsOk lg r
  | .descBracketed f r => f.ok lg ∧ selsOk lg r
  | _ => True
@[inherit_doc PSelector.ok] def segsOk (lg : Bool) : List PSegment → Prop
  | [] => True
  | s :: l => s.ok lg ∧ segsOk lg l
@[inherit_doc PSelector.ok] def PLogical.okOr (lg : Bool) : PLogical → Prop
  | .or f r => f.okAnd lg ∧ andsOk lg r
  | _ => False
@[inherit_doc PSelector.ok] def andsOk (lg : Bool) : List PLogical → Prop
  | [] => True
  | s :: l => s.okAnd lg ∧ andsOk lg l
@[inherit_doc PSelector.ok] def PLogical.okAnd (lg : Bool) : PLogical → Prop
  | .and f r => f.okBasic lg ∧ basicsOk lg r
  | _ => False
@[inherit_doc PSelector.ok] def basicsOk (lg : Bool) : List PLogical → Prop
  | [] => True
  | s :: l => s.okBasic lg ∧ basicsOk lg l
@[inherit_doc PSelector.ok] def PLogical.okBasic (lg : Bool) : PLogical → Prop
  | .paren _ e => e.okOr lg
  | .cmp l _ r => l.ok lg ∧ r.ok lg
  | .query _ _ segs => segsOk lg segs
  | .func _ _ args => argsOk lg args
  | _ => False
@[inherit_doc PSelector.ok] def PComparable.ok (lg : Bool) : PComparable → Prop
  | .func _ args => argsOk lg args
  | _ => True
@[inherit_doc PSelector.ok] def PArg.ok (lg : Bool) : PArg → Prop
  | .lit _ => True
  | .query _ segs => segsOk lg segs
  | .logical e => lg = true ∧ e.okOr lg
  | .func _ args => argsOk lg args
@[inherit_doc PSelector.ok] def argsOk (lg : Bool) : List PArg → Prop
  | [] => True
  | a :: l => a.ok lg ∧ argsOk lg l
end

end Verif.JPath
