import Verif.PathGrammar
import Verif.PathCompiler
import Verif.PathSpec
import Verif.LitSpec

/-!
# The integers of a query
-/

namespace Verif

/-- The same number of elements, related one by one. -/
inductive Rel2 {α β : Type} (R : α → β → Prop) : List α → List β → Prop
  | nil : Rel2 R [] []
  | cons {a b l m} : R a b → Rel2 R l m → Rel2 R (a :: l) (b :: m)

theorem Rel2.append {α β : Type} {R : α → β → Prop} {l : List α} {m : List β} (h : Rel2 R l m) {l' : List α} {m' : List β} (h' : Rel2 R l' m') :
    Rel2 R (l ++ l') (m ++ m') := by
  induction h with
  | nil => exact h'
  | cons h _ ih => exact .cons h ih

theorem Rel2.single {α β : Type} {R : α → β → Prop} {a : α} {b : β} (h : R a b) : Rel2 R [a] [b] := .cons h .nil

end Verif

namespace Verif.JPath

/-- The integers of a segment of a singular query. -/
def PSingSeg.ints : PSingSeg → List Bytes
  | .index t => [t]
  | _ => []

/-- The text of the step of a slice: if there is none, it is 1 (RFC 9535, section 2.3.4.2.1). -/
def stepText : Option (Option Bytes) → Bytes
  | some (some t) => t
  | _ => b%"1"

mutual
/-- The texts of the integers of a query: indexes, bounds and steps of slices.  Those in brackets after two dots count only if `all` is
true. -/
def PSelector.ints (all : Bool) : PSelector → List Bytes
  | .name _ => []
  | .wild => []
  | .slice a b c => a.toList ++ b.toList ++ [stepText c]
  | .index t => [t]
  | .filter e => e.ints all
@[inherit_doc PSelector.ints] def selectorInts (all : Bool) : List PSelector → List Bytes
  | [] => []
  | s :: l => s.ints all ++ selectorInts all l
@[inherit_doc PSelector.ints] def PSegment.ints (all : Bool) : PSegment → List Bytes
  | .bracketed f r => f.ints all ++ selectorInts all r
  | .descBracketed f r => if all then f.ints all ++ selectorInts all r else []
  | _ => []
@[inherit_doc PSelector.ints] def segmentInts (all : Bool) : List PSegment → List Bytes
  | [] => []
  | s :: l => s.ints all ++ segmentInts all l
@[inherit_doc PSelector.ints] def PLogical.ints (all : Bool) : PLogical → List Bytes
  | .or f r => f.ints all ++ logicalInts all r
  | .and f r => f.ints all ++ logicalInts all r
  | .paren _ e => e.ints all
  | .cmp l _ r => l.ints all ++ r.ints all
  | .query _ _ segs => segmentInts all segs
  | .func _ _ args => argInts all args
@[inherit_doc PSelector.ints] def logicalInts (all : Bool) : List PLogical → List Bytes
  | [] => []
  | s :: l => s.ints all ++ logicalInts all l
@[inherit_doc PSelector.ints] def PComparable.ints (all : Bool) : PComparable → List Bytes
  | .lit _ => []
  | .sing q => q.segs.flatMap PSingSeg.ints
  | .func _ args => argInts all args
@[inherit_doc PSelector.ints] def PArg.ints (all : Bool) : PArg → List Bytes
  | .lit _ => []
  | .query _ segs => segmentInts all segs
  | .logical e => e.ints all
  | .func _ args => argInts all args
@[inherit_doc PSelector.ints] def argInts (all : Bool) : List PArg → List Bytes
  | [] => []
  | s :: l => s.ints all ++ argInts all l
end

/-- Every name in a singular query has a value. -/
def PSingSeg.fine : PSingSeg → Bool
  | .bracket s => s.compile.isSome
  | _ => true

mutual
/-- Every string and every number that is not an index, a bound or a step has a value. -/
def PSelector.fine : PSelector → Bool
  | .name s => s.compile.isSome
  | .filter e => e.fine
  | _ => true
@[inherit_doc PSelector.fine] def selectorsFine : List PSelector → Bool
  | [] => true
  | s :: l => s.fine && selectorsFine l
@[inherit_doc PSelector.fine] def PSegment.fine : PSegment → Bool
  | .bracketed f r => f.fine && selectorsFine r
  | .descBracketed f r => f.fine && selectorsFine r
  | _ => true
@[inherit_doc PSelector.fine] def segmentsFine : List PSegment → Bool
  | [] => true
  | s :: l => s.fine && segmentsFine l
@[inherit_doc PSelector.fine] def PLogical.fine : PLogical → Bool
  | .or f r => f.fine && logicalsFine r
  | .and f r => f.fine && logicalsFine r
  | .paren _ e => e.fine
  | .cmp l _ r => l.fine && r.fine
  | .query _ _ segs => segmentsFine segs
  | .func _ _ args => argsFine args
@[inherit_doc PSelector.fine] def logicalsFine : List PLogical → Bool
  | [] => true
  | s :: l => s.fine && logicalsFine l
@[inherit_doc PSelector.fine] def PComparable.fine : PComparable → Bool
  | .lit l => l.compile.isSome
  | .sing q => q.segs.all PSingSeg.fine
  | .func _ args => argsFine args
@[inherit_doc PSelector.fine] def PArg.fine : PArg → Bool
  | .lit l => l.compile.isSome
  | .query _ segs => segmentsFine segs
  | .logical e => e.fine
  | .func _ args => argsFine args
@[inherit_doc PSelector.fine] def argsFine : List PArg → Bool
  | [] => true
  | s :: l => s.fine && argsFine l
end

/-- The integers of a segment of a singular query. -/
def SingSeg.ints : SingSeg → List Int
  | .index i => [i]
  | _ => []

mutual
/-- The integers of a syntax tree. -/
def Selector.ints : Selector → List Int
  | .name _ => []
  | .wild => []
  | .index i => [i]
  | .slice a b c => a.toList ++ b.toList ++ [c]
  | .filter c => c.ints
@[inherit_doc Selector.ints] def selectorsInts : List Selector → List Int
  | [] => []
  | s :: l => s.ints ++ selectorsInts l
@[inherit_doc Selector.ints] def Segment.ints : Segment → List Int
  | .mk _ l => selectorsInts l
@[inherit_doc Selector.ints] def segmentsInts : List Segment → List Int
  | [] => []
  | s :: l => s.ints ++ segmentsInts l
@[inherit_doc Selector.ints] def Logical.ints : Logical → List Int
  | .or l => logicalsInts l
  | .and l => logicalsInts l
  | .not c => c.ints
  | .cmp l _ r => l.ints ++ r.ints
  | .query _ segs => segmentsInts segs
  | .func _ args => argsInts args
@[inherit_doc Selector.ints] def logicalsInts : List Logical → List Int
  | [] => []
  | s :: l => s.ints ++ logicalsInts l
@[inherit_doc Selector.ints] def Comparable.ints : Comparable → List Int
  | .lit _ => []
  | .sing q => q.segs.flatMap SingSeg.ints
  | .func _ args => argsInts args
@[inherit_doc Selector.ints] def Arg.ints : Arg → List Int
  | .lit _ => []
  | .query _ segs => segmentsInts segs
  | .logical c => c.ints
  | .func _ args => argsInts args
@[inherit_doc Selector.ints] def argsInts : List Arg → List Int
  | [] => []
  | s :: l => s.ints ++ argsInts l
end

mutual
/-- Every function has a name. -/
def Selector.named : Selector → Bool
  | .filter c => c.named
  | _ => true
@[inherit_doc Selector.named] def selectorsNamed : List Selector → Bool
  | [] => true
  | s :: l => s.named && selectorsNamed l
@[inherit_doc Selector.named] def Segment.named : Segment → Bool
  | .mk _ l => selectorsNamed l
@[inherit_doc Selector.named] def segmentsNamed : List Segment → Bool
  | [] => true
  | s :: l => s.named && segmentsNamed l
@[inherit_doc Selector.named] def Logical.named : Logical → Bool
  | .or l => logicalsNamed l
  | .and l => logicalsNamed l
  | .not c => c.named
  | .cmp l _ r => l.named && r.named
  | .query _ segs => segmentsNamed segs
  | .func n args => !n.isEmpty && argsNamed args
@[inherit_doc Selector.named] def logicalsNamed : List Logical → Bool
  | [] => true
  | s :: l => s.named && logicalsNamed l
@[inherit_doc Selector.named] def Comparable.named : Comparable → Bool
  | .func n args => !n.isEmpty && argsNamed args
  | _ => true
@[inherit_doc Selector.named] def Arg.named : Arg → Bool
  | .lit _ => true
  | .query _ segs => segmentsNamed segs
  | .logical c => c.named
  | .func n args => !n.isEmpty && argsNamed args
@[inherit_doc Selector.named] def argsNamed : List Arg → Bool
  | [] => true
  | s :: l => s.named && argsNamed l
end

end Verif.JPath
