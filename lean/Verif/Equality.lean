import Verif.GoJson
import Verif.Decimal
import Verif.IterProg

/-!
# Equality of values

Model of `Equal` for scalars (`/repo/token/tokens.go:149-176`) and for iterated values
(`/repo/iterator/streamiterator.go`).  Loops have fuel.  Deferred calls are written at the returns; they
matter only for runs that return, since a panic is not recovered anywhere.
-/

namespace Verif
open IProg GoJson

variable {ε : Type}

/-- Go: `(*token.Scalar).Equal`, `/repo/token/tokens.go:149-176`; `none` is a panic.  Pointers are not nil in
the model.  `parseJsonLiteralBytes` (`:193-`) is the Go library on a literal of the type of the scalar. -/
def scalarEqual (a b : Scalar) : Option Bool :=
  if a.type ≠ b.type then some false
  else match a.type with
    | .null => some true
    | .bool =>
      match a.bytes, b.bytes with
      | x :: _, y :: _ => some (decide (x = y))
      | _, _ => none
    | .str =>
      if a.bytes = b.bytes then some true
      else if a.unesc && b.unesc then some false
      else match unquote a.bytes, unquote b.bytes with
        | some s, some t => some (decide (s = t))
        | _, _ => none
    | .num =>
      if a.bytes = b.bytes then some true
      else match number a.bytes, number b.bytes with
        | some p, some q => some (decide (p = q))
        | _, _ => none

/-- Call a detach function if there is one. -/
def detachOpt : Option Nat → IProg ε Unit
  | none => .ret ()
  | some t => .op (.detach t) fun _ => .ret ()

/-- Go: `SafeValuesEqual`, `/repo/iterator/streamiterator.go:416-431`, for values that are not nil.  Deferred
calls run in reverse order. -/
def safeEqual (eq : Val → Val → IProg ε Bool) (x y : Val) : IProg ε Bool :=
  .op (.clone x) fun (xd : Val × Option Nat) => .op (.clone y) fun (yd : Val × Option Nat) =>
    (eq xd.1 yd.1).bind fun b =>
      (detachOpt yd.2).bind fun _ => (detachOpt xd.2).bind fun _ => .ret b

/-- Go: `(*Array).Equal`, `/repo/iterator/streamiterator.go:372-387`. -/
def arrEqual (eq : Val → Val → IProg ε Bool) (i j : Nat) : Nat → IProg ε Bool
  | 0 => .fail .fuel
  | f + 1 => .op (.advance i) fun (a : Bool) =>
    if a then .op (.advance j) fun (b : Bool) =>
      if b then .op (.current i) fun (x : Option Scalar × Option Val) =>
        .op (.current j) fun (y : Option Scalar × Option Val) =>
          match x.2, y.2 with
          | some x, some y => (eq x y).bind fun c => if c then arrEqual eq i j f else .ret false
          | _, _ => .fail .panic
      else .ret false
    else .op (.advance j) fun (b : Bool) => .ret (!b)

/-- Go: `kvPair`, `/repo/iterator/streamiterator.go:271-275`. -/
structure Pend where
  key : Scalar
  val : Val
  det : Option Nat

/-- Go: the search in `pending`, `/repo/iterator/streamiterator.go:290-293`; the outer `none` is a panic. -/
def findPend (key : Scalar) : List Pend → Option (Option Nat)
  | [] => some none
  | p :: l =>
    match scalarEqual key p.key with
    | none => none
    | some true => some (some 0)
    | some false => (findPend key l).map (·.map (· + 1))

/-- Go: the loop over the right object, `/repo/iterator/streamiterator.go:305-321`: the value for `key` is found and
equal, or not; and the items pending. -/
def seekRight (eq : Val → Val → IProg ε Bool) (key : Scalar) (val : Val) (j : Nat) :
    Nat → List Pend → IProg ε (Bool × List Pend)
  | 0, _ => .fail .fuel
  | f + 1, ps => .op (.advance j) fun (b : Bool) =>
    if b then .op (.current j) fun (kv : Option Scalar × Option Val) =>
      match kv with
      | (some key', some val') =>
        match scalarEqual key key' with
        | none => .fail .panic
        | some true => (safeEqual eq val val').bind fun c => .ret (c, ps)
        | some false => .op (.clone val') fun (yd : Val × Option Nat) => seekRight eq key val j f (ps ++ [⟨key', yd.1, yd.2⟩])
      | _ => .fail .panic
    else .ret (false, ps)

/-- Go: the loop over the left object and the return after it, `/repo/iterator/streamiterator.go:287-326`; gives the
answer and the items pending.  `slices.Delete` removes one item. -/
def objLoop (eq : Val → Val → IProg ε Bool) (i j : Nat) (g : Nat) : Nat → List Pend → IProg ε (Bool × List Pend)
  | 0, _ => .fail .fuel
  | f + 1, ps => .op (.advance i) fun (a : Bool) =>
    if a then .op (.current i) fun (kv : Option Scalar × Option Val) =>
      match kv with
      | (some key, some val) =>
        match findPend key ps with
        | none => .fail .panic
        | some (some n) =>
          match ps[n]? with
          | none => .fail .panic
          | some p => (safeEqual eq val p.val).bind fun c =>
              if c then (detachOpt p.det).bind fun _ => objLoop eq i j g f (ps.eraseIdx n)
              else .ret (false, ps)
        | some none => (seekRight eq key val j g ps).bind fun r =>
            if r.1 then objLoop eq i j g f r.2 else .ret (false, r.2)
      | _ => .fail .panic
    else if ps.isEmpty then .op (.advance j) fun (b : Bool) => .ret (!b, ps)
    else .ret (false, ps)

/-- Go: the deferred function, `/repo/iterator/streamiterator.go:279-285`. -/
def detachAll : List Pend → IProg ε Unit
  | [] => .ret ()
  | p :: l => (detachOpt p.det).bind fun _ => detachAll l

/-- Go: `(*Object).Equal`, `/repo/iterator/streamiterator.go:259-327`. -/
def objEqual (eq : Val → Val → IProg ε Bool) (i j : Nat) (f : Nat) : IProg ε Bool :=
  (objLoop eq i j f f []).bind fun r => (detachAll r.2).bind fun _ => .ret r.1

/-- Go: `Equal` of the interface `Value`. -/
def valEqual : Nat → Val → Val → IProg ε Bool
  | 0, _, _ => .fail .fuel
  | f + 1, x, y =>
    match x, y with
    | .scalar a, .scalar b => match scalarEqual a b with
      | none => .fail .panic
      | some c => .ret c
    | .coll .arr i, .coll .arr j => arrEqual (valEqual f) i j (f + 1)
    | .coll .obj i, .coll .obj j => objEqual (valEqual f) i j (f + 1)
    | _, _ => .ret false

end Verif
