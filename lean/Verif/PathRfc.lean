import Verif.Data
import Verif.PathAst
import Verif.PathSpec

/-!
# JSONPath queries (specification)

RFC 9535, sections 2.3 to 2.5: what a query selects, by recursion on its syntax tree.  Nodes are values of the stream; comparisons are about
the data that the values denote.
-/

namespace Verif.Rfc9535
open JPath

/-- The datum that a value denotes, if it denotes one; number literals have the values `val`. -/
noncomputable def dataOf (val : Bytes → Rat) (v : JVal) : Option Data :=
  open Classical in if h : ∃ d, DenBy val v d then some h.choose else none

/-! ## Comparisons -/

/-- Section 2.3.5.2.2: the order of strings is that of their sequences of Unicode scalar values. -/
def StrLt (s t : Bytes) : Prop := ∃ cs ds, Chars s cs ∧ Chars t ds ∧ cs < ds

/-- Section 2.3.5.2.2: `<`; `none` is the empty nodelist or `Nothing`. -/
def Less : Option Data → Option Data → Prop
  | some (.num p), some (.num q) => p < q
  | some (.str s), some (.str t) => StrLt s t
  | _, _ => False

/-- Section 2.3.5.2.2: the six operators. -/
def compare (op : CmpOp) (a b : Option Data) : Prop :=
  match op with
  | .eq => a = b
  | .ne => ¬ a = b
  | .lt => Less a b
  | .le => Less a b ∨ a = b
  | .gt => Less b a
  | .ge => Less b a ∨ a = b

/-- Section 2.3.5.1: literals. -/
def litData : Literal → Data
  | .str s => .str s
  | .num q => .num q
  | .bool b => .bool b
  | .null => .null

/-! ## Functions -/

/-- Section 2.4.4: `length`. -/
def LengthIs : Data → Nat → Prop
  | .str s, n => ∃ cs, Chars s cs ∧ cs.length = n
  | .arr l, n => l.length = n
  | .obj m, n => ∃ keys : List Bytes, keys.Nodup ∧ (∀ k, k ∈ keys ↔ (m k).isSome = true) ∧ keys.length = n
  | _, _ => False

/-- An argument of a function: a value or a nodelist. -/
inductive ArgData
  | value (d : Option Data)
  | nodes (l : List JVal)

/-- Section 2.4.3: an argument for a parameter of type `ValueType`. -/
noncomputable def ArgData.toValue (val : Bytes → Rat) : ArgData → Option Data
  | .value d => d
  | .nodes [v] => dataOf val v
  | .nodes _ => none

/-- What RFC 9535 takes from elsewhere. -/
structure Sem where
  /-- The strings that match a regular expression (RFC 9485); `none` if it is not valid. -/
  lang : Bytes → Option (Bytes → Prop)
  /-- The values of number literals of the input: the numbers themselves, or, since section 2.1 leaves the precision to I-JSON (RFC 7493,
  section 2.2), the nearest numbers of IEEE 754 double precision. -/
  val : Bytes → Rat

/-- Sections 2.4.4, 2.4.5, 2.4.8: functions with result type `ValueType`. -/
noncomputable def fnValue (val : Bytes → Rat) (name : Bytes) (args : List ArgData) : Option Data :=
  open Classical in
  if name = b%"length" then
    match args with
    | [a] => (ArgData.toValue val a).bind fun d => if h : ∃ n, LengthIs d n then some (.num (h.choose : Nat)) else none
    | _ => none
  else if name = b%"count" then
    match args with
    | [.nodes l] => some (.num (l.length : Nat))
    | _ => none
  else if name = b%"value" then
    match args with
    | [.nodes l] => ArgData.toValue val (.nodes l)
    | _ => none
  else none

/-- Sections 2.4.6, 2.4.7: functions with result type `LogicalType`. -/
def fnHolds (re : Sem) (name : Bytes) (args : List ArgData) : Prop :=
  ∃ a b s p L, args = [a, b] ∧ a.toValue re.val = some (.str s) ∧ b.toValue re.val = some (.str p) ∧ re.lang p = some L ∧
    (name = b%"match" ∧ L s ∨ name = b%"search" ∧ ∃ x y z, s = x ++ y ++ z ∧ L y)

/-! ## Selectors -/

/-- The children of a node, in order. -/
def children : JVal → List JVal
  | .scalar _ => []
  | .arr l _ => l
  | .obj ms _ => ms.map (·.2)

/-- Section 2.3.1.2: the name selector. -/
noncomputable def nameNodes (n : Bytes) : JVal → List JVal
  | .obj ms _ => open Classical in ms.flatMap fun m => if StrIs m.1 n then [m.2] else []
  | _ => []

/-- Section 2.3.3.2: the index selector. -/
def indexNodes (i : Int) : JVal → List JVal
  | .arr l _ => ((index i l.length).bind (l[·]?)).toList
  | _ => []

/-- Section 2.3.4.2: the array slice selector. -/
def sliceNodes (a b : Option Int) (c : Int) : JVal → List JVal
  | .arr l _ => (slice a b c l.length).filterMap (l[·]?)
  | _ => []

mutual
/-- Section 2.5.2.2: a node and its descendants. -/
def descendants : JVal → List JVal
  | .scalar k => [.scalar k]
  | .arr l e => .arr l e :: descendantsL l
  | .obj ms e => .obj ms e :: descendantsM ms
@[inherit_doc descendants] def descendantsL : List JVal → List JVal
  | [] => []
  | v :: l => descendants v ++ descendantsL l
@[inherit_doc descendants] def descendantsM : List (Scalar × JVal) → List JVal
  | [] => []
  | (_, v) :: l => descendants v ++ descendantsM l
end

/-- Section 2.3.5.1: singular queries. -/
noncomputable def singNodes : List SingSeg → JVal → List JVal
  | [], v => [v]
  | .name n :: segs, v => (nameNodes n v).flatMap (singNodes segs)
  | .index i :: segs, v => (indexNodes i v).flatMap (singNodes segs)

section
variable (re : Sem) (root : JVal)

mutual
/-- Section 2.3: what a selector selects from a node. -/
noncomputable def selNodes : Selector → JVal → List JVal
  | .name n, v => nameNodes n v
  | .wild, v => children v
  | .index i, v => indexNodes i v
  | .slice a b c, v => sliceNodes a b c v
  | .filter c, v => open Classical in (children v).filter fun w => decide (holds c w)
/-- Section 2.5.1.2: the selectors of a segment, one after the other. -/
noncomputable def selsNodes : List Selector → JVal → List JVal
  | [], _ => []
  | s :: l, v => selNodes s v ++ selsNodes l v
/-- Section 2.5: segments. -/
noncomputable def segNodes : Segment → JVal → List JVal
  | .mk desc sels, v => if desc then (descendants v).flatMap (selsNodes sels) else selsNodes sels v
/-- Section 2.1.2: queries, from a start node. -/
noncomputable def nodes : List Segment → JVal → List JVal
  | [], v => [v]
  | s :: l, v => (segNodes s v).flatMap (nodes l)
/-- Section 2.3.5.2: logical expressions. -/
noncomputable def holds : Logical → JVal → Prop
  | .or l, v => anyHolds l v
  | .and l, v => allHold l v
  | .not c, v => ¬ holds c v
  | .cmp a op b, v => compare op (value a v) (value b v)
  | .query r segs, v => nodes segs (if r then root else v) ≠ []
  | .func n args, v => fnHolds re n (argsData args v)
/-- Disjunctions. -/
noncomputable def anyHolds : List Logical → JVal → Prop
  | [], _ => False
  | c :: l, v => holds c v ∨ anyHolds l v
/-- Conjunctions. -/
noncomputable def allHold : List Logical → JVal → Prop
  | [], _ => True
  | c :: l, v => holds c v ∧ allHold l v
/-- Section 2.3.5.2.2: what is compared. -/
noncomputable def value : Comparable → JVal → Option Data
  | .lit l, _ => some (litData l)
  | .sing q, v => (ArgData.nodes (singNodes q.segs (if q.root then root else v))).toValue re.val
  | .func n args, v => fnValue re.val n (argsData args v)
/-- Arguments. -/
noncomputable def argsData : List Arg → JVal → List ArgData
  | [], _ => []
  | a :: l, v => argData a v :: argsData l v
/-- An argument. -/
noncomputable def argData : Arg → JVal → ArgData
  | .lit l, _ => .value (some (litData l))
  | .query r segs, v => .nodes (nodes segs (if r then root else v))
  | .func n args, v => .value (fnValue re.val n (argsData args v))
  | .logical _, _ => .value none
end

end

/-- Section 2.1.2: what a query selects from a value. -/
noncomputable def eval (re : Sem) (q : Query) (v : JVal) : List JVal := nodes re v q.segs v

end Verif.Rfc9535
