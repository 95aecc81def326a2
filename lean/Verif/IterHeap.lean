import Verif.Streams
import Verif.IterProg

/-!
# Iterators as the program implements them

Model of `/repo/iterator/streamiterator.go`: a heap of collections and iterators that read from the
streams of `Verif.Streams`.  Loops carry fuel; running out of it is a separate outcome, and the proofs
show that it does not happen.
-/

namespace Verif

/-- Go: `Iterator` (`/repo/iterator/streamiterator.go:10-13`), `collectionBase` (`:103-112`), `Object`
(`:199-202`), `Array` (`:329-331`).  `startItem` follows from the kind; an `Iterator` has only `stream`
and `currentValue`. -/
structure Coll where
  kind : Kind
  stream : Nat
  started : Bool
  done : Bool
  elided : Bool
  key : Option Scalar
  cur : Option Val
deriving DecidableEq

/-- The token a collection starts with. -/
def startTok : Kind → Token
  | .obj => .startObj
  | _ => .startArr

/-- All collections and streams, and the patterns for which the cache of `/repo/internal/jsonpath/iregexp/iregexp.go:56` has nil (it has nothing
else).  Simplification: the cache is shared by all queries of a process; in the model each query has its own. -/
structure Heap where
  st : Streams
  coll : Nat → Coll
  n : Nat
  bad : List Bytes := []

namespace Heap

/-- Go: `New`, `/repo/iterator/streamiterator.go:15-17`, on a channel that delivers `ts`. -/
def init (ts : List Token) : Heap :=
  { st := Streams.init ts
    coll := fun _ => ⟨.top, 0, false, false, false, none, none⟩
    n := 1 }

/-- Write access. -/
def set (h : Heap) (i : Nat) (c : Coll) : Heap :=
  { h with coll := fun j => if j = i then c else h.coll j }

/-- Allocation. -/
def alloc (h : Heap) (c : Coll) : Heap × Nat := ({ h.set h.n c with n := h.n + 1 }, h.n)

/-- `stream.Next()`. -/
def next (h : Heap) (t : Nat) : Except Stop (Heap × Option Token) :=
  match h.st.next t with
  | none => .error .panic
  | some (st, x) => .ok ({ h with st := st }, x)

/-- Bound on the number of tokens a stream can deliver. -/
def avail (h : Heap) (t : Nat) : Nat := h.st.src.length + (h.st.pool (h.st.curs t).1).window.length

/-- Go: `nextStreamedValue`, `/repo/iterator/streamiterator.go:389-404`. -/
def streamedValue (h : Heap) (tok : Token) (t : Nat) : Except Stop (Heap × Val) :=
  match tok with
  | .startArr =>
    let (h, i) := h.alloc ⟨.arr, t, false, false, false, none, none⟩
    .ok (h, .coll .arr i)
  | .startObj =>
    let (h, i) := h.alloc ⟨.obj, t, false, false, false, none, none⟩
    .ok (h, .coll .obj i)
  | .scalar s => .ok (h, .scalar s)
  | _ => .error .panic

/-- Depth after a token: the `switch` of the loops in `Discard` and `Copy`. -/
def depthAfter (d : Int) (t : Token) : Int := if t.isStart then d + 1 else if t.isEnd then d - 1 else d

/-- Go: the loops of `Discard` (`/repo/iterator/streamiterator.go:133-148`) and `Copy` (`:157-173`).
Gives the tokens read. -/
def readToEnd : Nat → Heap → Nat → Int → Except Stop (Heap × List Token)
  | 0, _, _, _ => .error .fuel
  | f + 1, h, t, d => do
    let (h, x) ← h.next t
    match x with
    | none => .ok (h, [])
    | some x =>
      if depthAfter d x < 0 then .ok (h, [x])
      else
        let (h, l) ← readToEnd f h t (depthAfter d x)
        .ok (h, x :: l)

/-- Go: `Scalar.Discard` and `collectionBase.Discard`, `/repo/iterator/streamiterator.go:65`, `:125-149`. -/
def discard : Nat → Heap → Val → Except Stop Heap
  | 0, _, _ => .error .fuel
  | _ + 1, h, .scalar _ => .ok h
  | f + 1, h, .coll _ i =>
    if (h.coll i).done then .ok h
    else do
      let h ← if (h.coll i).started then
          match (h.coll i).cur with
          | none => .error .panic
          | some v => discard f h v
        else .ok h
      let t := (h.coll i).stream
      let h := h.set i { h.coll i with done := true }
      let (h, _) ← readToEnd (h.avail t + 1) h t 0
      .ok h

/-- Go: `Iterator.Advance` (`/repo/iterator/streamiterator.go:19-30`), `Object.Advance` (`:222-253`),
`Array.Advance` (`:342-366`).  Fuel is for the recursion after an elision. -/
def advance : Nat → Heap → Nat → Except Stop (Heap × Bool)
  | 0, _, _ => .error .fuel
  | f + 1, h, i =>
    match (h.coll i).kind with
    | .top => do
      let h ← match (h.coll i).cur with
        | some v => discard h.n h v
        | none => .ok h
      let (h, x) ← h.next (h.coll i).stream
      match x with
      | none => .ok (h.set i { h.coll i with cur := none }, false)
      | some x =>
        let (h, v) ← h.streamedValue x (h.coll i).stream
        .ok (h.set i { h.coll i with cur := some v }, true)
    | .obj =>
      if (h.coll i).done then .ok (h, false)
      else do
        let h ← if (h.coll i).started then
            match (h.coll i).cur with
            | none => .error .panic
            | some v => discard h.n h v
          else .ok h
        let (h, x) ← h.next (h.coll i).stream
        match x with
        | none => .error .panic
        | some (.scalar k) =>
          let h := h.set i { h.coll i with started := true, key := some k }
          let (h, y) ← h.next (h.coll i).stream
          match y with
          | none => .error .panic
          | some y =>
            let (h, v) ← h.streamedValue y (h.coll i).stream
            .ok (h.set i { h.coll i with cur := some v }, true)
        | some .endObj => .ok (h.set i { h.coll i with done := true }, false)
        | some .elision => advance f (h.set i { h.coll i with elided := true }) i
        | some _ => .error .panic
    | .arr =>
      if (h.coll i).done then .ok (h, false)
      else do
        let h ← if (h.coll i).started then
            match (h.coll i).cur with
            | none => .error .panic
            | some v => discard h.n h v
          else .ok h
        let (h, x) ← h.next (h.coll i).stream
        match x with
        | none => .error .panic
        | some .endArr => .ok (h.set i { h.coll i with done := true }, false)
        | some .elision => advance f (h.set i { h.coll i with elided := true }) i
        | some x =>
          let h := h.set i { h.coll i with started := true }
          let (h, v) ← h.streamedValue x (h.coll i).stream
          .ok (h.set i { h.coll i with cur := some v }, true)

/-- Go: `CurrentKeyVal` and `CurrentValue`, `/repo/iterator/streamiterator.go:32-34`, `:180-185`,
`:215-220`. -/
def current (h : Heap) (i : Nat) : Except Stop (Option Scalar × Option Val) :=
  let c := h.coll i
  if c.kind ≠ .top ∧ c.done = true then .error .panic else .ok (c.key, c.cur)

/-- Go: `Clone`, `/repo/iterator/streamiterator.go:36-45`, `:61-63`, `:114-123`, `:204-213`, `:333-340`.
The clone of an object has no current key. -/
def clone (h : Heap) (v : Val) : Except Stop (Heap × Val × Option Nat) :=
  match v with
  | .scalar s => .ok (h, .scalar s, none)
  | .coll k i =>
    let c := h.coll i
    if (if c.kind = .top then c.cur.isSome else c.started) then .error .panic
    else
      let (st, t, t') := h.st.clone c.stream
      let h : Heap := { h with st := st }.set i { c with stream := t }
      let (h, j) := h.alloc { c with stream := t', key := none }
      .ok (h, .coll k j, some t')

/-- Go: `Copy`, `/repo/iterator/streamiterator.go:67-69`, `:151-174`. -/
def copy (h : Heap) (v : Val) : Except Stop (Heap × List Token) :=
  match v with
  | .scalar s => .ok (h, [.scalar s])
  | .coll _ i =>
    if (h.coll i).started then .error .panic
    else do
      let t := (h.coll i).stream
      let h := h.set i { h.coll i with done := true }
      let (h, l) ← readToEnd (h.avail t + 1) h t 0
      .ok (h, startTok (h.coll i).kind :: l)

/-- Go: `Cursor.Detach`. -/
def detach (h : Heap) (t : Nat) : Except Stop Heap :=
  match h.st.detach t with
  | none => .error .panic
  | some st => .ok { h with st := st }

/-- Go: `New(NewCursorFromData(ts))`. -/
def data (h : Heap) (ts : List Token) : Heap × Nat :=
  let (st, t) := h.st.fromData ts
  { h with st := st }.alloc ⟨.top, t, false, false, false, none, none⟩

/-- Go: `Compile`, `/repo/internal/jsonpath/iregexp/iregexp.go:43-54`, for a pattern that `regexp.Compile` rejects: found in the cache (as nil),
or entered under its translation. -/
def reject (h : Heap) (p q : Bytes) : Heap × Bool := if h.bad.contains p then (h, true) else ({ h with bad := q :: h.bad }, false)

/-- The operations. -/
def step (h : Heap) : (o : IOp) → Except Stop (Heap × o.Res)
  | .advance i => h.advance (h.avail (h.coll i).stream + 2) i
  | .current i => (h.current i).map fun r => (h, r)
  | .elided i => .ok (h, (h.coll i).elided)
  | .clone v => (h.clone v).map fun (h, v, t) => (h, (v, t))
  | .discard v => (discard h.n h v).map fun h => (h, ())
  | .copy v => h.copy v
  | .detach t => (h.detach t).map fun h => (h, ())
  | .data ts => .ok (h.data ts)
  | .reject p q => .ok (h.reject p q)

/-- The implementation. -/
def mach : IMach Heap := ⟨step⟩

end Heap
end Verif
