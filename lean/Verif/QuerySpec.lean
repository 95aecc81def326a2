import Verif.LitSpec
import Verif.PathSpec
import Verif.TypeSpec
import Verif.Rfc8259

/-!
# The syntax of queries (specification)

The grammar of RFC 9535 (appendix A) as predicates on byte strings (UTF-8), written independently of the lexer and the parser.  A derivation also relates
the text to the syntax tree that it denotes.

Function expressions are restricted to the functions of RFC 9535, sections 2.4.4 to 2.4.8, because queries with other functions are not valid.  None of them has
a parameter of type `LogicalType`, so a logical expression is not an argument.

If `lax`, then two things are allowed that the RFC does not allow: the form feed as a blank, and blanks inside the brackets of singular queries.
-/

namespace Verif.Rfc9535
open JPath Utf8

/-- `S`: optional blank space. -/
def Blanks (lax : Bool) (w : Bytes) : Prop := ∀ b ∈ w, b = 0x20 ∨ b = 0x09 ∨ b = 0x0A ∨ b = 0x0D ∨ (lax = true ∧ b = 0x0C)

/-- `string-literal`, and the string that it denotes (section 2.3.1). -/
def StrText (t s : Bytes) : Prop :=
  (∃ c, t = c%'"' :: (c ++ [c%'"']) ∧ Denotes c s) ∨ (∃ c, t = c%'\'' :: (c ++ [c%'\'']) ∧ Single c s)

/-- `int`, in the range of section 2.1. -/
def IntText (t : Bytes) (i : Int) : Prop := IntLit t i ∧ IJson i

/-- `name-first`. -/
def NameFirst (r : Nat) : Prop :=
  0x41 ≤ r ∧ r ≤ 0x5A ∨ 0x61 ≤ r ∧ r ≤ 0x7A ∨ r = 0x5F ∨ 0x80 ≤ r ∧ r ≤ 0xD7FF ∨ 0xE000 ≤ r ∧ r ≤ 0x10FFFF

/-- `name-char`. -/
def NameChar (r : Nat) : Prop := NameFirst r ∨ 0x30 ≤ r ∧ r ≤ 0x39

/-- `member-name-shorthand`. -/
def Name (n : Bytes) : Prop := ∃ (r : Nat) (cs : List Nat), n = encode r ++ cs.flatMap encode ∧ NameFirst r ∧ ∀ c ∈ cs, NameChar c

/-- `literal`.  A number denotes the nearest number of type binary64, if there is one. -/
inductive LitText : Bytes → Literal → Prop
  | num {t q} : Rfc8259.Number t → F64.round (decimal t) = some q → LitText t (.num q)
  | str {t s} : StrText t s → LitText t (.str s)
  | true : LitText b%"true" (.bool true)
  | false : LitText b%"false" (.bool false)
  | null : LitText b%"null" .null

/-- `comparison-op`. -/
inductive OpText : Bytes → CmpOp → Prop
  | eq : OpText b%"==" .eq
  | ne : OpText b%"!=" .ne
  | le : OpText b%"<=" .le
  | ge : OpText b%">=" .ge
  | lt : OpText b%"<" .lt
  | gt : OpText b%">" .gt

/-- A bound of a slice with the blanks after it, if it is there. -/
inductive BoundText (lax : Bool) : Bytes → Option Int → Prop
  | none : BoundText lax [] none
  | some {t i w} : IntText t i → Blanks lax w → BoundText lax (t ++ w) (some i)

/-- `[":" [S step ]]`; the default is 1. -/
inductive StepText (lax : Bool) : Bytes → Int → Prop
  | none : StepText lax [] 1
  | colon : StepText lax b%":" 1
  | some {w t i} : Blanks lax w → IntText t i → StepText lax (b%":" ++ (w ++ t)) i

/-- `singular-query-segments`. -/
inductive SingText (lax : Bool) : Bytes → List SingSeg → Prop
  | nil : SingText lax [] []
  | dot {w n t l} : Blanks lax w → Name n → SingText lax t l → SingText lax (w ++ (b%"." ++ (n ++ t))) (.name n :: l)
  | name {w v n s v' t l} : Blanks lax w → (lax = false → v = [] ∧ v' = []) → Blanks lax v → StrText n s → Blanks lax v' → SingText lax t l →
      SingText lax (w ++ (b%"[" ++ (v ++ (n ++ (v' ++ (b%"]" ++ t)))))) (.name s :: l)
  | index {w v n i v' t l} : Blanks lax w → (lax = false → v = [] ∧ v' = []) → Blanks lax v → IntText n i → Blanks lax v' → SingText lax t l →
      SingText lax (w ++ (b%"[" ++ (v ++ (n ++ (v' ++ (b%"]" ++ t)))))) (.index i :: l)

/-- The nonterminals that depend on each other.  `logical` is `logical-or-expr`, which is one of `ors` or several; `conj` is `logical-and-expr`, which is one
of `ands` or several. -/
inductive Phrase
  | segments | segment | brackets | selectors | selector | logical | ors | conj | ands | basic | test | query | comparable | call | args | arg

/-- What they denote. -/
abbrev Phrase.Tree : Phrase → Type
  | segments => List Segment
  | segment => Segment
  | brackets => List Selector
  | selectors => List Selector
  | selector => Selector
  | logical => Logical
  | ors => List Logical
  | conj => Logical
  | ands => List Logical
  | basic => Logical
  | test => Logical
  | query => Bool × List Segment
  | comparable => Comparable
  | call => Bytes × List Arg
  | args => List Arg
  | arg => Arg

/-- `Text lax p t x`: the text `t` is derived from the nonterminal `p`, and denotes `x`. -/
inductive Text (lax : Bool) : (p : Phrase) → Bytes → p.Tree → Prop
  /- segments = *(S segment) -/
  | nil : Text lax .segments [] []
  | cons {w t s t' l} : Blanks lax w → Text lax .segment t s → Text lax .segments t' l → Text lax .segments (w ++ (t ++ t')) (s :: l)
  /- child-segment -/
  | child {t l} : Text lax .brackets t l → Text lax .segment t (.mk false l)
  | dotWild : Text lax .segment b%".*" (.mk false [.wild])
  | dotName {n} : Name n → Text lax .segment (b%"." ++ n) (.mk false [.name n])
  /- descendant-segment -/
  | desc {t l} : Text lax .brackets t l → Text lax .segment (b%".." ++ t) (.mk true l)
  | descWild : Text lax .segment b%"..*" (.mk true [.wild])
  | descName {n} : Name n → Text lax .segment (b%".." ++ n) (.mk true [.name n])
  /- bracketed-selection -/
  | brackets {w t l w'} : Blanks lax w → Text lax .selectors t l → Blanks lax w' → Text lax .brackets (b%"[" ++ (w ++ (t ++ (w' ++ b%"]")))) l
  | oneSelector {t s} : Text lax .selector t s → Text lax .selectors t [s]
  | moreSelectors {t s w w' t' l} : Text lax .selector t s → Blanks lax w → Blanks lax w' → Text lax .selectors t' l →
      Text lax .selectors (t ++ (w ++ (b%"," ++ (w' ++ t')))) (s :: l)
  /- selector -/
  | name {t s} : StrText t s → Text lax .selector t (.name s)
  | wild : Text lax .selector b%"*" .wild
  | index {t i} : IntText t i → Text lax .selector t (.index i)
  | slice {t1 a w t2 b t3 c} : BoundText lax t1 a → Blanks lax w → BoundText lax t2 b → StepText lax t3 c →
      Text lax .selector (t1 ++ (b%":" ++ (w ++ (t2 ++ t3)))) (.slice a b c)
  | filter {w t c} : Blanks lax w → Text lax .logical t c → Text lax .selector (b%"?" ++ (w ++ t)) (.filter c)
  /- logical-or-expr -/
  | or1 {t c} : Text lax .ors t [c] → Text lax .logical t c
  | or2 {t c c' l} : Text lax .ors t (c :: c' :: l) → Text lax .logical t (.or (c :: c' :: l))
  | oneOr {t c} : Text lax .conj t c → Text lax .ors t [c]
  | moreOr {t c w w' t' l} : Text lax .conj t c → Blanks lax w → Blanks lax w' → Text lax .ors t' l →
      Text lax .ors (t ++ (w ++ (b%"||" ++ (w' ++ t')))) (c :: l)
  /- logical-and-expr -/
  | and1 {t c} : Text lax .ands t [c] → Text lax .conj t c
  | and2 {t c c' l} : Text lax .ands t (c :: c' :: l) → Text lax .conj t (.and (c :: c' :: l))
  | oneAnd {t c} : Text lax .basic t c → Text lax .ands t [c]
  | moreAnd {t c w w' t' l} : Text lax .basic t c → Blanks lax w → Blanks lax w' → Text lax .ands t' l →
      Text lax .ands (t ++ (w ++ (b%"&&" ++ (w' ++ t')))) (c :: l)
  /- paren-expr -/
  | paren {w t c w'} : Blanks lax w → Text lax .logical t c → Blanks lax w' → Text lax .basic (b%"(" ++ (w ++ (t ++ (w' ++ b%")")))) c
  | notParen {v w t c w'} : Blanks lax v → Blanks lax w → Text lax .logical t c → Blanks lax w' →
      Text lax .basic (b%"!" ++ (v ++ (b%"(" ++ (w ++ (t ++ (w' ++ b%")")))))) (.not c)
  /- comparison-expr -/
  | cmp {t l w o op w' t' r} : Text lax .comparable t l → Blanks lax w → OpText o op → Blanks lax w' → Text lax .comparable t' r →
      Text lax .basic (t ++ (w ++ (o ++ (w' ++ t')))) (.cmp l op r)
  /- test-expr -/
  | test {t c} : Text lax .test t c → Text lax .basic t c
  | notTest {w t c} : Blanks lax w → Text lax .test t c → Text lax .basic (b%"!" ++ (w ++ t)) (.not c)
  | testQuery {t q} : Text lax .query t q → Text lax .test t (.query q.1 q.2)
  | testCall {t f} : Text lax .call t f → Text lax .test t (.func f.1 f.2)
  /- filter-query -/
  | rel {t l} : Text lax .segments t l → Text lax .query (b%"@" ++ t) (false, l)
  | abs {t l} : Text lax .segments t l → Text lax .query (b%"$" ++ t) (true, l)
  /- comparable -/
  | lit {t l} : LitText t l → Text lax .comparable t (.lit l)
  | relSing {t l} : SingText lax t l → Text lax .comparable (b%"@" ++ t) (.sing ⟨false, l⟩)
  | absSing {t l} : SingText lax t l → Text lax .comparable (b%"$" ++ t) (.sing ⟨true, l⟩)
  | call {t f} : Text lax .call t f → Text lax .comparable t (.func f.1 f.2)
  /- function-expr -/
  | noArgs {n w} : n ∈ signatures.map Prod.fst → Blanks lax w → Text lax .call (n ++ (b%"(" ++ (w ++ b%")"))) (n, [])
  | withArgs {n w t l w'} : n ∈ signatures.map Prod.fst → Blanks lax w → Text lax .args t l → Blanks lax w' →
      Text lax .call (n ++ (b%"(" ++ (w ++ (t ++ (w' ++ b%")"))))) (n, l)
  | oneArg {t a} : Text lax .arg t a → Text lax .args t [a]
  | moreArgs {t a w w' t' l} : Text lax .arg t a → Blanks lax w → Blanks lax w' → Text lax .args t' l →
      Text lax .args (t ++ (w ++ (b%"," ++ (w' ++ t')))) (a :: l)
  /- function-argument -/
  | argLit {t l} : LitText t l → Text lax .arg t (.lit l)
  | argQuery {t q} : Text lax .query t q → Text lax .arg t (.query q.1 q.2)
  | argCall {t f} : Text lax .call t f → Text lax .arg t (.func f.1 f.2)

/-- `jsonpath-query`. -/
def QueryText (lax : Bool) (s : Bytes) (q : Query) : Prop := q.root = true ∧ ∃ t, s = b%"$" ++ t ∧ Text lax .segments t q.segs

mutual
/-- No segment is without selectors. -/
def SelFilled : Selector → Prop
  | .filter c => CondFilled c
  | _ => True
@[inherit_doc SelFilled] def SelsFilled : List Selector → Prop
  | [] => True
  | s :: l => SelFilled s ∧ SelsFilled l
@[inherit_doc SelFilled] def SegFilled : Segment → Prop
  | .mk _ sels => sels ≠ [] ∧ SelsFilled sels
@[inherit_doc SelFilled] def SegsFilled : List Segment → Prop
  | [] => True
  | s :: l => SegFilled s ∧ SegsFilled l
@[inherit_doc SelFilled] def CondFilled : Logical → Prop
  | .or l => CondsFilled l
  | .and l => CondsFilled l
  | .not c => CondFilled c
  | .cmp l _ r => ComparableFilled l ∧ ComparableFilled r
  | .query _ segs => SegsFilled segs
  | .func _ args => ArgsFilled args
@[inherit_doc SelFilled] def CondsFilled : List Logical → Prop
  | [] => True
  | s :: l => CondFilled s ∧ CondsFilled l
@[inherit_doc SelFilled] def ComparableFilled : Comparable → Prop
  | .func _ args => ArgsFilled args
  | _ => True
@[inherit_doc SelFilled] def ArgFilled : Arg → Prop
  | .lit _ => True
  | .query _ segs => SegsFilled segs
  | .logical c => CondFilled c
  | .func _ args => ArgsFilled args
@[inherit_doc SelFilled] def ArgsFilled : List Arg → Prop
  | [] => True
  | a :: l => ArgFilled a ∧ ArgsFilled l
end

/-- The text is UTF-8. -/
def IsUtf8 (s : Bytes) : Prop := ∃ cs, Chars s cs

end Verif.Rfc9535
