import Verif.ParseToks
import Verif.IterProg

/-!
# Iterators as they are meant

The same operations without streams: a handle knows the members it has not yet produced.  A "thread"
stands for a stream; all it is used for is that detaching a clone ends every handle that came from it.
The specification makes no statement (`stuck`) about

* handles that do not exist,
* cloning an iterator over the input channel itself,
* `Copy` of a collection that was finished without being started,
* detach functions that were not returned by a `Clone`,
* data that is not a well-formed stream.
-/

namespace Verif

open JVal.toks

/-- A handle. -/
structure AColl where
  kind : Kind
  thr : Nat
  started : Bool
  done : Bool
  elided : Bool
  key : Option Scalar
  cur : Option Val
  /-- members not yet produced; keys for objects only -/
  rest : List (Option Scalar × JVal)
  /-- an elision mark follows the members -/
  e : Bool

/-- All handles. -/
structure AState where
  coll : Nat → AColl
  n : Nat
  /-- number of threads -/
  nt : Nat
  dead : Nat → Bool
  /-- a detach function for the thread exists -/
  det : Nat → Bool

/-- Tokens of members. -/
def bodyToks : List (Option Scalar × JVal) → List Token
  | [] => []
  | (some k, v) :: l => .scalar k :: (v.toks ++ bodyToks l)
  | (none, v) :: l => v.toks ++ bodyToks l

/-- The token starting a collection. -/
def openTok : Kind → Token
  | .obj => .startObj
  | _ => .startArr

/-- Last token of a collection; an iterator has none. -/
def endToks : Kind → List Token
  | .arr => [.endArr]
  | .obj => [.endObj]
  | .top => []

namespace AState

/-- One iterator over the values `vs`. -/
def init (vs : List JVal) : AState :=
  { coll := fun _ => ⟨.top, 0, false, false, false, none, none, vs.map (none, ·), false⟩
    n := 1
    nt := 1
    dead := fun _ => false
    det := fun _ => false }

/-- Write access. -/
def set (s : AState) (i : Nat) (c : AColl) : AState :=
  { s with coll := fun j => if j = i then c else s.coll j }

/-- Allocation. -/
def alloc (s : AState) (c : AColl) : AState := { s.set s.n c with n := s.n + 1 }

/-- A fresh handle on a value. -/
def handle (s : AState) (v : JVal) (t : Nat) : AState × Val :=
  match v with
  | .scalar k => (s, .scalar k)
  | .arr items e => (s.alloc ⟨.arr, t, false, false, false, none, none, items.map (none, ·), e⟩, .coll .arr s.n)
  | .obj ms e =>
    (s.alloc ⟨.obj, t, false, false, false, none, none, ms.map fun m => (some m.1, m.2), e⟩, .coll .obj s.n)

/-- Finish a value and everything open inside it. -/
def discard : Nat → AState → Val → AState
  | 0, s, _ => s
  | _ + 1, s, .scalar _ => s
  | f + 1, s, .coll _ i =>
    if (s.coll i).done then s
    else
      let s := match (s.coll i).cur with
        | none => s
        | some v => discard f s v
      s.set i { s.coll i with done := true }

/-- Finish the current value of a handle. -/
def discardCur (s : AState) (i : Nat) : AState :=
  match (s.coll i).cur with
  | none => s
  | some v => discard s.n s v

/-- Produce the next member of `i`, whose current value is finished. -/
def advance' (s : AState) (i : Nat) : Except Stop (AState × Bool) :=
  let c := s.coll i
  if s.dead c.thr then
    if c.kind = .top then .ok (s.set i { c with cur := none }, false) else .error .panic
  else
    match c.rest with
    | [] =>
      if c.kind = .top then
        .ok ({ s.set i { c with cur := none } with
                dead := fun t => if t = c.thr ∧ t ≠ 0 then true else s.dead t }, false)
      else .ok (s.set i { c with done := true, elided := c.elided || c.e }, false)
    | (k, v) :: r =>
      let (s, x) := s.handle v c.thr
      .ok (s.set i { c with started := c.kind ≠ .top, key := k, cur := some x, rest := r }, true)

/-- Produce the next member. -/
def advance (s : AState) (i : Nat) : Except Stop (AState × Bool) :=
  if s.n ≤ i then .error .stuck
  else if (s.coll i).kind ≠ .top ∧ (s.coll i).done = true then .ok (s, false)
  else (s.discardCur i).advance' i

/-- The current member. -/
def current (s : AState) (i : Nat) : Except Stop (Option Scalar × Option Val) :=
  if s.n ≤ i then .error .stuck
  else if (s.coll i).kind ≠ .top ∧ (s.coll i).done = true then .error .panic
  else .ok ((s.coll i).key, (s.coll i).cur)

/-- The handle has produced something. -/
def begun (c : AColl) : Bool := if c.kind = .top then c.cur.isSome else c.started

/-- An independent handle on the same value. -/
def clone (s : AState) (v : Val) : Except Stop (AState × Val × Option Nat) :=
  match v with
  | .scalar k => .ok (s, .scalar k, none)
  | .coll k i =>
    let c := s.coll i
    if s.n ≤ i ∨ c.kind ≠ k then .error .stuck
    else if begun c then .error .panic
    else if s.dead c.thr then .ok (s.alloc { c with key := none }, .coll k s.n, some c.thr)
    else if c.thr = 0 then
      if k = .top then .error .stuck
      else
        .ok ({ (s.set i { c with thr := s.nt }).alloc { c with thr := s.nt + 1, key := none } with
                nt := s.nt + 2
                det := fun t => if t = s.nt + 1 then true else s.det t }, .coll k s.n, some (s.nt + 1))
    else
      .ok ({ s.alloc { c with thr := s.nt, key := none } with
              nt := s.nt + 1
              det := fun t => if t = s.nt then true else s.det t }, .coll k s.n, some s.nt)

/-- The tokens of a value, which is finished by this. -/
def copy (s : AState) (v : Val) : Except Stop (AState × List Token) :=
  match v with
  | .scalar k => .ok (s, [.scalar k])
  | .coll k i =>
    let c := s.coll i
    if s.n ≤ i ∨ c.kind ≠ k ∨ k = .top then .error .stuck
    else if c.started then .error .panic
    else if c.done then .error .stuck
    else
      let s' := s.set i { c with done := true }
      if s.dead c.thr then
        .ok (s', [openTok k])
      else
        .ok (s', openTok k ::
          (bodyToks c.rest ++ elisionToks c.e ++ endToks k))

/-- The operations. -/
def step (s : AState) : (o : IOp) → Except Stop (AState × o.Res)
  | .advance i => s.advance i
  | .current i => (s.current i).map fun r => (s, r)
  | .elided i => if s.n ≤ i then .error .stuck else .ok (s, (s.coll i).elided)
  | .clone v => (s.clone v).map fun (s, v, t) => (s, (v, t))
  | .discard v =>
    match v with
    | .scalar _ => .ok (s, ())
    | .coll k i =>
      if s.n ≤ i ∨ (s.coll i).kind ≠ k ∨ k = .top then .error .stuck else .ok (discard s.n s v, ())
  | .copy v => s.copy v
  | .detach t =>
    if t < s.nt ∧ (s.det t || s.dead t) then .ok ({ s with dead := fun u => if u = t then true else s.dead u }, ())
    else .error .stuck
  | .data ts =>
    match parseToks ts with
    | none => .error .stuck
    | some vs =>
      .ok ({ s.alloc ⟨.top, s.nt, false, false, false, none, none, vs.map (none, ·), false⟩ with
              nt := s.nt + 1 }, s.n)
  | .reject _ _ => .error .stuck

/-- The specification. -/
def mach : IMach AState := ⟨step⟩

end AState
end Verif
