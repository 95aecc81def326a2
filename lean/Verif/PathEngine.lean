import Verif.PathSelectors
import Verif.Equality

/-!
# Running the segments of a query

Model of `/repo/transform/jsonpath/segmentrunner.go`.  Conditions of filters are programs.  The chain of processors that a segment passes
its values to is a stack of dispatchers, innermost first, above a final processor `fin` with a state of type `φ`; what the dispatchers and the
final processor change is passed along.  Loops have fuel.  Deferred calls are written at the returns.
-/

namespace Verif.JPath
open IProg GoJson

variable {ε φ : Type}

/-- Conditions. -/
abbrev CondP (ε : Type) := Val → IProg ε Bool

/-- Go: `selectorState`, `/repo/transform/jsonpath/segmentrunner.go:413-419`. -/
structure SelSt (ε : Type) where
  sel : Sel (CondP ε)
  selected : Bool := false
  pending : List (Val × Option Nat) := []
  done : Bool := false

/-- Go: `itemDispatcher`, `/repo/transform/jsonpath/segmentrunner.go:287-291`, without `next`. -/
structure Disp (ε : Type) where
  shouldClone : Bool := false
  states : List (SelSt ε)

/-- The dispatchers, innermost first. -/
abbrev Stack (ε : Type) := List (Disp ε)

/-- Go: `newItemDispatcher`, `/repo/transform/jsonpath/segmentrunner.go:295-305`. -/
def newDisp (sels : List (Sel (CondP ε))) : Disp ε := { states := sels.map fun s => { sel := s } }

/-- Go: `cloneIf`, `/repo/transform/jsonpath/segmentrunner.go:405-411`. -/
def cloneIf (c : Bool) (x : Val) : IProg ε (Val × Option Nat) := if c then .op (.clone x) .ret else .ret (x, none)

/-- Go: the loop of `ProcessValue`, `/repo/transform/jsonpath/segmentrunner.go:384-401`, for the states after the first. -/
def appendAll (c : Bool) (x : Val) : List (SelSt ε) → IProg ε (List (SelSt ε))
  | [] => .ret []
  | st :: l =>
    if st.selected then (cloneIf c x).bind fun p =>
      (appendAll c x l).bind fun l => .ret ({ st with pending := st.pending ++ [p] } :: l)
    else (appendAll c x l).bind fun l => .ret (st :: l)

variable (fin : φ → Val → IProg ε (φ × Bool))

/-- Go: `ProcessValue`, `/repo/transform/jsonpath/segmentrunner.go:381-403`. -/
def process : Stack ε → φ → Val → IProg ε (Stack ε × φ × Bool)
  | [], q, x => (fin q x).bind fun r => .ret ([], r.1, r.2)
  | d :: ds, q, x =>
    match d.states with
    | [] => .ret (d :: ds, q, true)
    | st :: rest =>
      if st.selected then (cloneIf d.shouldClone x).bind fun p =>
        if st.sel.reverses then (appendAll d.shouldClone x rest).bind fun rest =>
          .ret ({ d with states := { st with pending := st.pending ++ [p] } :: rest } :: ds, q, true)
        else (process ds q p.1).bind fun r => (detachOpt p.2).bind fun _ =>
          if r.2.2 then (appendAll d.shouldClone x rest).bind fun rest => .ret ({ d with states := st :: rest } :: r.1, r.2.1, true)
          else .ret (d :: r.1, r.2.1, false)
      else (appendAll d.shouldClone x rest).bind fun rest => .ret ({ d with states := st :: rest } :: ds, q, true)

/-- Go: the loops of `flush`, `/repo/transform/jsonpath/segmentrunner.go:423-437`. -/
def flushVals : List (Val × Option Nat) → Bool → Stack ε → φ → IProg ε (Stack ε × φ × Bool)
  | [], r, ds, q => .ret (ds, q, r)
  | p :: l, true, ds, q => (process fin ds q p.1).bind fun r => (detachOpt p.2).bind fun _ => flushVals l r.2.2 r.1 r.2.1
  | p :: l, false, ds, q => (detachOpt p.2).bind fun _ => flushVals l false ds q

/-- Go: `(*selectorState).flush`, `/repo/transform/jsonpath/segmentrunner.go:421-440`; the caller clears `pending`.  What has no detach
function is not detached (`447-451`). -/
def flushSt (st : SelSt ε) : Bool → Stack ε → φ → IProg ε (Stack ε × φ × Bool) :=
  flushVals fin (if st.sel.reverses then st.pending.reverse else st.pending)

/-- Go: `(*itemDispatcher).flush`, `/repo/transform/jsonpath/segmentrunner.go:308-313`, and the loop of lines 351-353. -/
def flushAll : List (SelSt ε) → Bool → Stack ε → φ → IProg ε (Stack ε × φ × Bool)
  | [], r, ds, q => .ret (ds, q, r)
  | st :: l, r, ds, q => (flushSt fin st r ds q).bind fun r => flushAll l r.2.2 r.1 r.2.1

/-- Go: `SelectsFromValue`, `/repo/transform/jsonpath/selectorrunners.go:95,296`. -/
def fromValue (x : Val) : Sel (CondP ε) → IProg ε Bool
  | .filter c => c x
  | _ => .ret false

/-- Go: the first loop of `dispatchItem`, `/repo/transform/jsonpath/segmentrunner.go:326-347`, without the two counters. -/
def decideAll (decide : Sel (CondP ε) → Decision) (x : Val) : List (SelSt ε) → IProg ε (List (SelSt ε))
  | [] => .ret []
  | st :: l =>
    if st.done then (decideAll decide x l).bind fun l => .ret ({ st with selected := false } :: l)
    else
      let dec := decide st.sel
      (if dec.yes then .ret true else if dec.no then .ret false else fromValue x st.sel).bind fun b =>
        (decideAll decide x l).bind fun l => .ret ({ st with selected := b, done := !dec.more } :: l)

/-- A state before `firstLiveIndex`, `/repo/transform/jsonpath/segmentrunner.go:328-345`. -/
def SelSt.over (st : SelSt ε) : Bool := st.done && !st.selected

/-- Go: `dispatchItem` from the flush of the first state on, `/repo/transform/jsonpath/segmentrunner.go:360-378`; `follow` is what is done with a
selected value, given the stack with this dispatcher on top. -/
def dispatchLive (follow : Stack ε → φ → Val → IProg ε (Stack ε × φ × Bool)) (x : Val) (count : Nat) (c : Bool) :
    List (SelSt ε) → Stack ε → φ → IProg ε (Disp ε × Stack ε × φ × Bool)
  | [], ds, q => .ret (⟨c, []⟩, ds, q, true)
  | st :: rest, ds, q =>
    (if st.sel.reverses || st.pending.isEmpty then .ret (st, ds, q, true)
      else (flushSt fin st true ds q).bind fun r => .ret ({ st with pending := [] }, r.1, r.2.1, r.2.2)).bind fun r =>
    if r.2.2.2 then
      if count > 0 then
        (follow (⟨decide (count > 1) || !r.1.selected, r.1 :: rest⟩ :: r.2.1) r.2.2.1 x).bind fun r =>
          match r.1 with
          | [] => .fail .panic
          | d :: ds => .ret (d, ds, r.2.1, r.2.2)
      else .ret (⟨c, r.1 :: rest⟩, r.2.1, r.2.2.1, true)
    else .ret (⟨c, r.1 :: rest⟩, r.2.1, r.2.2.1, false)

/-- Go: `dispatchItem`, `/repo/transform/jsonpath/segmentrunner.go:315-379`. -/
def dispatchItem (follow : Stack ε → φ → Val → IProg ε (Stack ε × φ × Bool)) (decide : Sel (CondP ε) → Decision) (x : Val)
    (d : Disp ε) (ds : Stack ε) (q : φ) : IProg ε (Disp ε × Stack ε × φ × Bool) :=
  (decideAll decide x d.states).bind fun states =>
    (flushAll fin (states.takeWhile SelSt.over) true ds q).bind fun r =>
      if r.2.2 then
        dispatchLive fin follow x (states.filter (·.selected)).length d.shouldClone (states.dropWhile SelSt.over) r.1 r.2.1
      else .ret (⟨d.shouldClone, states.dropWhile SelSt.over⟩, r.1, r.2.1, false)

/-- `Clone` in a descendant segment. -/
def cloneDesc (desc : Bool) (x : Val) : IProg ε (Val × Option Nat) := if desc then .op (.clone x) .ret else .ret (x, none)

/-- The end of a round of a loop of the relaxed methods, `/repo/transform/jsonpath/segmentrunner.go:69-88,126-150`: `self` runs the segment on the
copy `p` of the current value; the Boolean says to go on. -/
def roundEnd (desc : Bool) (self : Stack ε → φ → Val → IProg ε (Stack ε × φ × Bool)) (p : Val × Option Nat)
    (r : Disp ε × Stack ε × φ × Bool) : IProg ε (Bool × Disp ε × Stack ε × φ × Bool) :=
  if r.2.2.2 then
    if desc then (self r.2.1 r.2.2.1 p.1).bind fun r' => (detachOpt p.2).bind fun _ => .ret (r'.2.2, r.1, r'.1, r'.2.1, r'.2.2)
    else .ret (!r.1.states.isEmpty, r)
  else (detachOpt p.2).bind fun _ => .ret (false, r)

/-- Go: the loop of `transformObjectRelaxed`, `/repo/transform/jsonpath/segmentrunner.go:57-90`. -/
def objRelaxed (desc : Bool) (follow self : Stack ε → φ → Val → IProg ε (Stack ε × φ × Bool)) (i : Nat) :
    Nat → Disp ε → Stack ε → φ → IProg ε (Disp ε × Stack ε × φ × Bool)
  | 0, _, _, _ => .fail .fuel
  | f + 1, d, ds, q => .op (.advance i) fun (more : Bool) =>
    if more then .op (.current i) fun (kv : Option Scalar × Option Val) =>
      match kv with
      | (some k, some x) => (cloneDesc desc x).bind fun p =>
        match toStr k with
        | none => .fail .panic
        | some key => (dispatchItem fin follow (·.fromKey key) x d ds q).bind fun r => (roundEnd desc self p r).bind fun r =>
          if r.1 then objRelaxed desc follow self i f r.2.1 r.2.2.1 r.2.2.2.1 else .ret r.2
      | _ => .fail .panic
    else .ret (d, ds, q, true)

/-- Go: `ahead != nil && !ahead.Advance()`, `/repo/transform/jsonpath/segmentrunner.go:135-137,242-244`: the next negative index. -/
def nextNeg (ahead : Option Nat) (neg : Int) : IProg ε Int :=
  match ahead with
  | none => .ret neg
  | some a => .op (.advance a) fun (more : Bool) => .ret (if more then neg else neg + 1)

/-- Go: the loop of `transformArrayRelaxed`, `/repo/transform/jsonpath/segmentrunner.go:115-151`. -/
def arrRelaxed (desc : Bool) (follow self : Stack ε → φ → Val → IProg ε (Stack ε × φ × Bool)) (i : Nat) (ahead : Option Nat) :
    Nat → Int → Int → Disp ε → Stack ε → φ → IProg ε (Disp ε × Stack ε × φ × Bool)
  | 0, _, _, _, _, _ => .fail .fuel
  | f + 1, index, neg, d, ds, q => .op (.advance i) fun (more : Bool) =>
    if more then .op (.current i) fun (kv : Option Scalar × Option Val) =>
      match kv.2 with
      | some x => (cloneDesc desc x).bind fun p => (dispatchItem fin follow (·.fromIndex index neg) x d ds q).bind fun r =>
        if r.2.2.2 then (nextNeg ahead neg).bind fun neg => (roundEnd desc self p r).bind fun r =>
          if r.1 then arrRelaxed desc follow self i ahead f (index + 1) neg r.2.1 r.2.2.1 r.2.2.2.1 else .ret r.2
        else (roundEnd desc self p r).bind fun r => .ret r.2
      | none => .fail .panic
    else .ret (d, ds, q, true)

/-- Go: the first loop of `transformObjectStrict`, `/repo/transform/jsonpath/segmentrunner.go:169-180`. -/
def objStrict (follow : Stack ε → φ → Val → IProg ε (Stack ε × φ × Bool)) (i : Nat) :
    Nat → Disp ε → Stack ε → φ → IProg ε (Disp ε × Stack ε × φ × Bool)
  | 0, _, _, _ => .fail .fuel
  | f + 1, d, ds, q => .op (.advance i) fun (more : Bool) =>
    if more then .op (.current i) fun (kv : Option Scalar × Option Val) =>
      match kv with
      | (some k, some x) =>
        match toStr k with
        | none => .fail .panic
        | some key => (dispatchItem fin follow (·.fromKey key) x d ds q).bind fun r =>
          if r.2.2.2 && !r.1.states.isEmpty then objStrict follow i f r.1 r.2.1 r.2.2.1 else .ret r
      | _ => .fail .panic
    else .ret (d, ds, q, true)

/-- Go: the first loop of `transformArrayStrict`, `/repo/transform/jsonpath/segmentrunner.go:228-249`. -/
def arrStrict (follow : Stack ε → φ → Val → IProg ε (Stack ε × φ × Bool)) (i : Nat) (ahead : Option Nat) :
    Nat → Int → Int → Disp ε → Stack ε → φ → IProg ε (Disp ε × Stack ε × φ × Bool)
  | 0, _, _, _, _, _ => .fail .fuel
  | f + 1, index, neg, d, ds, q => .op (.advance i) fun (more : Bool) =>
    if more then .op (.current i) fun (kv : Option Scalar × Option Val) =>
      match kv.2 with
      | some x => (dispatchItem fin follow (·.fromIndex index neg) x d ds q).bind fun r =>
        if r.2.2.2 then (nextNeg ahead neg).bind fun neg =>
          if r.1.states.isEmpty then .ret r else arrStrict follow i ahead f (index + 1) neg r.1 r.2.1 r.2.2.1
        else .ret r
      | none => .fail .panic
    else .ret (d, ds, q, true)

/-- Go: the second loops of the strict methods, `/repo/transform/jsonpath/segmentrunner.go:189-194,258-263`. -/
def descend (self : Stack ε → φ → Val → IProg ε (Stack ε × φ × Bool)) (i : Nat) : Nat → Stack ε → φ → IProg ε (Stack ε × φ × Bool)
  | 0, _, _ => .fail .fuel
  | f + 1, ds, q => .op (.advance i) fun (more : Bool) =>
    if more then .op (.current i) fun (kv : Option Scalar × Option Val) =>
      match kv.2 with
      | some x => (self ds q x).bind fun r => if r.2.2 then descend self i f r.1 r.2.1 else .ret r
      | none => .fail .panic
    else .ret (ds, q, true)

/-- Go: the deferred flush, `/repo/transform/jsonpath/segmentrunner.go:55,96,159,202`: its result is dropped. -/
def finish (r : Disp ε × Stack ε × φ × Bool) : IProg ε (Stack ε × φ × Bool) :=
  (flushAll fin r.1.states r.2.2.2 r.2.1 r.2.2.1).bind fun r' => .ret (r'.1, r'.2.1, r.2.2.2)

/-- Go: the loop over the clone, `/repo/transform/jsonpath/segmentrunner.go:105-107,211-213`. -/
def lookLoop (lookahead : Int) (a : Nat) : Nat → Int → IProg ε Int
  | 0, _ => .fail .fuel
  | f + 1, neg =>
    if neg + lookahead ≥ 0 then .op (.advance a) fun (more : Bool) => if more then lookLoop lookahead a f (neg - 1) else .ret neg
    else .ret neg

/-- Go: `/repo/transform/jsonpath/segmentrunner.go:101-113,207-219`: the clone, what detaches it, and the negative index. -/
def lookStart (lookahead : Int) (i f : Nat) : IProg ε (Option Nat × Option Nat × Int) :=
  if lookahead > 0 then .op (.clone (.coll .arr i)) fun (p : Val × Option Nat) =>
    match p.1 with
    | .coll _ a => (lookLoop lookahead a f 0).bind fun neg => .ret (some a, p.2, neg)
    | _ => .fail .panic
  else .ret (none, none, minInt64 + 1)

/-- Go: the second half of the strict methods, `/repo/transform/jsonpath/segmentrunner.go:188-196,257-266`, on the clone `p`. -/
def strictEnd (desc : Bool) (self : Stack ε → φ → Val → IProg ε (Stack ε × φ × Bool)) (p : Val × Option Nat) (f : Nat)
    (r : Disp ε × Stack ε × φ × Bool) : IProg ε (Disp ε × Stack ε × φ × Bool) :=
  if r.2.2.2 && desc then
    match p.1 with
    | .coll _ j => (descend self j f r.2.1 r.2.2.1).bind fun r' => .ret (r.1, r')
    | .scalar _ => .fail .panic
  else .ret r

/-- Go: `transformValue`, `/repo/transform/jsonpath/segmentrunner.go:32-50`, with the four methods it calls.  `F` is the fuel of loops, the
first number that of descents. -/
def segP (strict : Bool) (F : Nat) (seg : Seg (CondP ε)) (follow : Stack ε → φ → Val → IProg ε (Stack ε × φ × Bool)) :
    Nat → Stack ε → φ → Val → IProg ε (Stack ε × φ × Bool)
  | 0, _, _, _ => .fail .fuel
  | g + 1, ds, q, x =>
    match x with
    | .coll .obj i =>
      if strict then (cloneDesc seg.desc x).bind fun p => (objStrict fin follow i F (newDisp seg.sels) ds q).bind fun r =>
        (strictEnd seg.desc (segP strict F seg follow g) p F r).bind fun r => (detachOpt p.2).bind fun _ => finish fin r
      else (objRelaxed fin seg.desc follow (segP strict F seg follow g) i F (newDisp seg.sels) ds q).bind fun r => finish fin r
    | .coll .arr i =>
      (lookStart (segLookahead seg.sels) i F).bind fun la =>
        if strict then (cloneDesc seg.desc x).bind fun p => (arrStrict fin follow i la.1 F 0 la.2.2 (newDisp seg.sels) ds q).bind fun r =>
          (strictEnd seg.desc (segP strict F seg follow g) p F r).bind fun r => (detachOpt p.2).bind fun _ =>
            (detachOpt la.2.1).bind fun _ => finish fin r
        else (arrRelaxed fin seg.desc follow (segP strict F seg follow g) i la.1 F 0 la.2.2 (newDisp seg.sels) ds q).bind fun r =>
          (detachOpt la.2.1).bind fun _ => finish fin r
    | _ => .op (.discard x) fun _ => .ret (ds, q, true)

/-- Go: `(QueryRunner).MapValue`, `/repo/transform/jsonpath/queryrunner.go:112-117`, with `transformValue` and the following segments
(`/repo/transform/jsonpath/segmentrunner.go:372-376`). -/
def segsP (strict : Bool) (F : Nat) : List (Seg (CondP ε)) → Stack ε → φ → Val → IProg ε (Stack ε × φ × Bool)
  | [] => process fin
  | seg :: segs => segP fin strict F seg (segsP strict F segs) F

end Verif.JPath
