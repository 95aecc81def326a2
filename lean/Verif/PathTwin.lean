import Verif.PathSelectors
import Verif.GoJson
import Verif.IterLogic

/-!
# Running the segments of a query, on values

The same control flow as in `PathEngine`, with values in place of handles: nothing is cloned or consumed.  This is an intermediate
step of the proofs, not a specification.
-/

namespace Verif.JPath
open GoJson

variable {ψ : Type}

/-- See `SelSt`. -/
structure TSt where
  sel : Sel (JVal → Bool)
  selected : Bool := false
  pending : List JVal := []
  done : Bool := false

/-- See `Stack`. -/
abbrev TStack := List (List TSt)

/-- See `newDisp`. -/
def tnew (sels : List (Sel (JVal → Bool))) : List TSt := sels.map fun s => { sel := s }

/-- See `appendAll`. -/
def tappend (v : JVal) (l : List TSt) : List TSt := l.map fun st => if st.selected then { st with pending := st.pending ++ [v] } else st

variable (fin : ψ → JVal → ψ × Bool)

/-- See `process`. -/
def tprocess : TStack → ψ → JVal → TStack × ψ × Bool
  | [], q, v => ([], fin q v)
  | [] :: ds, q, _ => ([] :: ds, q, true)
  | (st :: rest) :: ds, q, v =>
    if st.selected then
      if st.sel.reverses then (({ st with pending := st.pending ++ [v] } :: tappend v rest) :: ds, q, true)
      else
        let r := tprocess ds q v
        if r.2.2 then ((st :: tappend v rest) :: r.1, r.2.1, true) else ((st :: rest) :: r.1, r.2.1, false)
    else ((st :: tappend v rest) :: ds, q, true)

/-- See `flushVals`. -/
def tflushVals : List JVal → Bool → TStack → ψ → TStack × ψ × Bool
  | [], r, ds, q => (ds, q, r)
  | v :: l, true, ds, q => let r := tprocess fin ds q v; tflushVals l r.2.2 r.1 r.2.1
  | _ :: l, false, ds, q => tflushVals l false ds q

/-- See `flushSt`. -/
def tflushSt (st : TSt) : Bool → TStack → ψ → TStack × ψ × Bool :=
  tflushVals fin (if st.sel.reverses then st.pending.reverse else st.pending)

/-- See `flushAll`. -/
def tflushAll : List TSt → Bool → TStack → ψ → TStack × ψ × Bool
  | [], r, ds, q => (ds, q, r)
  | st :: l, r, ds, q => let r := tflushSt fin st r ds q; tflushAll l r.2.2 r.1 r.2.1

/-- Whether a selector selects a value. -/
def tselects (dec : Decision) (v : JVal) : Sel (JVal → Bool) → Bool
  | .filter c => dec.yes || (!dec.no && c v)
  | _ => dec.yes

/-- See `decideAll`. -/
def tdecideAll (decide : Sel (JVal → Bool) → Decision) (v : JVal) (l : List TSt) : List TSt :=
  l.map fun st => if st.done then { st with selected := false }
    else { st with selected := tselects (decide st.sel) v st.sel, done := !(decide st.sel).more }

/-- See `SelSt.over`. -/
def TSt.over (st : TSt) : Bool := st.done && !st.selected

/-- See `dispatchLive`. -/
def tdispatchLive (follow : TStack → ψ → JVal → TStack × ψ × Bool) (v : JVal) (any : Bool) :
    List TSt → TStack → ψ → List TSt × TStack × ψ × Bool
  | [], ds, q => ([], ds, q, true)
  | st :: rest, ds, q =>
    let r := if st.sel.reverses || st.pending.isEmpty then (st, ds, q, true)
      else let r := tflushSt fin st true ds q; ({ st with pending := [] }, r.1, r.2.1, r.2.2)
    if r.2.2.2 then
      if any then
        let r := follow ((r.1 :: rest) :: r.2.1) r.2.2.1 v
        (r.1.headD [], r.1.tail, r.2.1, r.2.2)
      else (r.1 :: rest, r.2.1, r.2.2.1, true)
    else (r.1 :: rest, r.2.1, r.2.2.1, false)

/-- See `dispatchItem`. -/
def tdispatch (follow : TStack → ψ → JVal → TStack × ψ × Bool) (decide : Sel (JVal → Bool) → Decision) (v : JVal)
    (d : List TSt) (ds : TStack) (q : ψ) : List TSt × TStack × ψ × Bool :=
  let states := tdecideAll decide v d
  let r := tflushAll fin (states.takeWhile TSt.over) true ds q
  if r.2.2 then tdispatchLive fin follow v (states.any (·.selected)) (states.dropWhile TSt.over) r.1 r.2.1
  else (states.dropWhile TSt.over, r.1, r.2.1, false)

/-- See `roundEnd`. -/
def troundEnd (desc : Bool) (self : TStack → ψ → JVal → TStack × ψ × Bool) (v : JVal) (r : List TSt × TStack × ψ × Bool) :
    Bool × List TSt × TStack × ψ × Bool :=
  if r.2.2.2 then
    if desc then let r' := self r.2.1 r.2.2.1 v; (r'.2.2, r.1, r'.1, r'.2.1, r'.2.2)
    else (!r.1.isEmpty, r)
  else (false, r)

/-- The string of a key. -/
def tkey (k : Option Scalar) : Bytes := (k.bind toStr).getD []

/-- See `objRelaxed`. -/
def tobjRelaxed (desc : Bool) (follow self : TStack → ψ → JVal → TStack × ψ × Bool) :
    List (Option Scalar × JVal) → List TSt → TStack → ψ → List TSt × TStack × ψ × Bool
  | [], d, ds, q => (d, ds, q, true)
  | (k, v) :: l, d, ds, q =>
    let r := troundEnd desc self v (tdispatch fin follow (·.fromKey (tkey k)) v d ds q)
    if r.1 then tobjRelaxed desc follow self l r.2.1 r.2.2.1 r.2.2.2.1 else r.2

/-- See `arrRelaxed`. -/
def tarrRelaxed (desc : Bool) (follow self : TStack → ψ → JVal → TStack × ψ × Bool) :
    List (Option Scalar × JVal) → Int → Int × Option Nat → List TSt → TStack → ψ → List TSt × TStack × ψ × Bool
  | [], _, _, d, ds, q => (d, ds, q, true)
  | (_, v) :: l, index, w, d, ds, q =>
    let r := troundEnd desc self v (tdispatch fin follow (·.fromIndex index w.1) v d ds q)
    if r.1 then tarrRelaxed desc follow self l (index + 1) (windowNext w.1 w.2) r.2.1 r.2.2.1 r.2.2.2.1 else r.2

/-- See `objStrict`. -/
def tobjStrict (follow : TStack → ψ → JVal → TStack × ψ × Bool) :
    List (Option Scalar × JVal) → List TSt → TStack → ψ → List TSt × TStack × ψ × Bool
  | [], d, ds, q => (d, ds, q, true)
  | (k, v) :: l, d, ds, q =>
    let r := tdispatch fin follow (·.fromKey (tkey k)) v d ds q
    if r.2.2.2 && !r.1.isEmpty then tobjStrict follow l r.1 r.2.1 r.2.2.1 else r

/-- See `arrStrict`. -/
def tarrStrict (follow : TStack → ψ → JVal → TStack × ψ × Bool) :
    List (Option Scalar × JVal) → Int → Int × Option Nat → List TSt → TStack → ψ → List TSt × TStack × ψ × Bool
  | [], _, _, d, ds, q => (d, ds, q, true)
  | (_, v) :: l, index, w, d, ds, q =>
    let r := tdispatch fin follow (·.fromIndex index w.1) v d ds q
    if r.2.2.2 && !r.1.isEmpty then tarrStrict follow l (index + 1) (windowNext w.1 w.2) r.1 r.2.1 r.2.2.1 else r

/-- See `descend`. -/
def tdescend (self : TStack → ψ → JVal → TStack × ψ × Bool) : List (Option Scalar × JVal) → TStack → ψ → TStack × ψ × Bool
  | [], ds, q => (ds, q, true)
  | (_, v) :: l, ds, q => let r := self ds q v; if r.2.2 then tdescend self l r.1 r.2.1 else r

/-- See `finish`. -/
def tfinish (r : List TSt × TStack × ψ × Bool) : TStack × ψ × Bool :=
  let r' := tflushAll fin r.1 r.2.2.2 r.2.1 r.2.2.1
  (r'.1, r'.2.1, r.2.2.2)

/-- See `strictEnd`. -/
def tstrictEnd (desc : Bool) (self : TStack → ψ → JVal → TStack × ψ × Bool) (ms : List (Option Scalar × JVal))
    (r : List TSt × TStack × ψ × Bool) : List TSt × TStack × ψ × Bool :=
  if r.2.2.2 && desc then (r.1, tdescend self ms r.2.1 r.2.2.1) else r

/-- See `segP`. -/
def tseg (strict : Bool) (seg : Seg (JVal → Bool)) (follow : TStack → ψ → JVal → TStack × ψ × Bool) :
    Nat → TStack → ψ → JVal → TStack × ψ × Bool
  | 0, ds, q, _ => (ds, q, true)
  | g + 1, ds, q, v =>
    let self := tseg strict seg follow g
    match v with
    | .scalar _ => (ds, q, true)
    | .obj _ _ =>
      tfinish fin (if strict then tstrictEnd seg.desc self v.members (tobjStrict fin follow v.members (tnew seg.sels) ds q)
        else tobjRelaxed fin seg.desc follow self v.members (tnew seg.sels) ds q)
    | .arr _ _ =>
      let w := windowInit (segLookahead seg.sels) v.members.length
      tfinish fin (if strict then tstrictEnd seg.desc self v.members (tarrStrict fin follow v.members 0 w (tnew seg.sels) ds q)
        else tarrRelaxed fin seg.desc follow self v.members 0 w (tnew seg.sels) ds q)

/-- See `segsP`. -/
def tsegs (strict : Bool) (F : Nat) : List (Seg (JVal → Bool)) → TStack → ψ → JVal → TStack × ψ × Bool
  | [] => tprocess fin
  | seg :: segs => tseg fin strict seg (tsegs strict F segs) F

end Verif.JPath
