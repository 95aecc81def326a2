import Verif.PathCompiler
import Verif.PathEngine
import Verif.JpvEncoder
import Verif.IRegexp

/-!
# Running queries

Model of the rest of `/repo/transform/jsonpath`: conditions, comparables, functions, the context with the results of rooted subqueries, and
the main loop.  Runners become programs over the operations of the iterator package.  Loops have fuel.  Deferred calls are written at the
returns.  The Go library's formatting of `float64` and its regular expressions are parameters.
-/

namespace Verif
open GoJson

/-- Go library: the hexadecimal digits of `encoding/json`. -/
def hexDigit (n : Nat) : Byte := if n < 10 then .ofNat (0x30 + n) else .ofNat (0x61 + (n - 10))

/-- Go library: `appendString` of `encoding/json` with HTML escaping, for one character below U+0080. -/
def quoteAscii (b : Byte) : Bytes :=
  if b = 0x22 ∨ b = 0x5C then [0x5C, b]
  else if b = 0x08 then [0x5C, 0x62]
  else if b = 0x0C then [0x5C, 0x66]
  else if b = 0x0A then [0x5C, 0x6E]
  else if b = 0x0D then [0x5C, 0x72]
  else if b = 0x09 then [0x5C, 0x74]
  else if b < 0x20 ∨ b = 0x3C ∨ b = 0x3E ∨ b = 0x26 then [0x5C, 0x75, 0x30, 0x30, hexDigit (b.toNat / 16), hexDigit (b.toNat % 16)]
  else [b]

/-- Go library: the loop of `appendString` of `encoding/json`; fuel is the length. -/
def quoteBody : Nat → Bytes → Bytes
  | _, [] => []
  | 0, _ :: _ => []
  | f + 1, b :: r =>
    if b < 0x80 then quoteAscii b ++ quoteBody f r
    else match Utf8.decode (b :: r) with
      | none => b%"\\ufffd" ++ quoteBody f r
      | some (c, n) =>
        (if c = 0x2028 ∨ c = 0x2029 then b%"\\u202" ++ [hexDigit (c % 16)] else (b :: r).take n) ++ quoteBody f ((b :: r).drop n)

/-- Go: `StringScalar`, `/repo/token/tokens.go:233-242`. -/
def stringScalar (s : Bytes) : Scalar := { bytes := 0x22 :: (quoteBody s.length s ++ [0x22]), type := .str }

/-- Go: `Int64Scalar`, `/repo/token/tokens.go:248-250`, for numbers that are not negative. -/
def natScalar (n : Nat) : Scalar := { bytes := itoa n, type := .num }

namespace JPath
open IProg

/-- What is used of the Go library: `FormatFloat(x, 'g', -1, 64)`, and `iregexp.Compile` with `FindIndex` (none for an error). -/
structure Lib where
  fmt : Rat → Bytes
  regex : Bytes → Option (Bytes → Option (Nat × Nat))

/-- Go: `ToScalar`, `/repo/token/tokens.go:259-277`, for literals of queries. -/
def litScalar (lib : Lib) : Literal → Scalar
  | .str s => stringScalar s
  | .num q => { bytes := lib.fmt q, type := .num }
  | .bool b => { bytes := if b then b%"true" else b%"false", type := .bool }
  | .null => { bytes := b%"null", type := .null }

/-- Go: `RunContext`, `/repo/transform/jsonpath/queryrunner.go:73-76`; the iterators are handles.  The slices are as long as the part of them that
is set. -/
structure Ctx where
  sing : List Val := []
  queries : List Nat := []

/-- What does not change during the run of a query on a value: the library, `strictMode`, the fuel of loops, the context. -/
structure Env where
  lib : Lib
  strict : Bool
  fuel : Nat
  ctx : Ctx

variable {ε φ : Type}

/-! ## Singular queries -/

/-- Go: `SelectFromObject`, `/repo/transform/jsonpath/comparableevaluators.go:78-86`. -/
def singName (n : Bytes) (i : Nat) : Nat → IProg ε (Option Val)
  | 0 => .fail .fuel
  | f + 1 => .op (.advance i) fun (more : Bool) =>
    if more then .op (.current i) fun (kv : Option Scalar × Option Val) =>
      match kv with
      | (some k, some x) =>
        match toStr k with
        | none => .fail .panic
        | some key => if ((.name n : Sel Unit).fromKey key).yes then .ret (some x) else singName n i f
      | _ => .fail .panic
    else .ret none

/-- Go: the second loop of `SelectFromArray`, `/repo/transform/jsonpath/comparableevaluators.go:110-119`. -/
def singIndexLoop (j : Int) (i : Nat) (ahead : Option Nat) : Nat → Int → Int → IProg ε (Option Val)
  | 0, _, _ => .fail .fuel
  | f + 1, index, neg => .op (.advance i) fun (more : Bool) =>
    if more then .op (.current i) fun (kv : Option Scalar × Option Val) =>
      match kv.2 with
      | none => .fail .panic
      | some x =>
        if ((.index j : Sel Unit).fromIndex index neg).yes then .ret (some x)
        else (nextNeg ahead neg).bind fun neg => singIndexLoop j i ahead f (index + 1) neg
    else .ret none

/-- Go: `SelectFromArray`, `/repo/transform/jsonpath/comparableevaluators.go:93-120`. -/
def singIndex (j : Int) (i f : Nat) : IProg ε (Option Val) :=
  if (.index j : Sel Unit).lookahead > 0 then
    (lookStart (.index j : Sel Unit).lookahead i f).bind fun la =>
      (singIndexLoop j i la.1 f 0 la.2.2).bind fun r => (detachOpt la.2.1).bind fun _ => .ret r
  else singIndexLoop j i none f 0 minInt64

/-- Go: `(SingularQueryRunner).Evaluate`, `/repo/transform/jsonpath/comparableevaluators.go:37-52`. -/
def singEval (f : Nat) : List SingSeg → Val → IProg ε (Option Val)
  | [], x => .ret (some x)
  | seg :: segs, x =>
    (match seg, x with
      | .name n, .coll .obj i => singName n i f
      | .index j, .coll .arr i => singIndex j i f
      | _, _ => .ret none).bind fun r =>
    match r with
    | none => .ret none
    | some y => singEval f segs y

/-! ## Comparisons -/

/-- Comparables. -/
abbrev CmpP (ε : Type) := Val → IProg ε (Option Val)

/-- Go: `<` on strings. -/
def bytesLt : Bytes → Bytes → Bool
  | _, [] => false
  | [], _ :: _ => true
  | a :: l, b :: r => if a < b then true else if b < a then false else bytesLt l r

/-- Go: `checkLessThan`, `/repo/transform/jsonpath/logicalevaluators.go:113-142`; `none` is a panic. -/
def checkLess : Option Val → Option Val → Option Bool
  | some (.scalar a), some (.scalar b) =>
    if a.type ≠ b.type then some false
    else match a.type with
      | .num =>
        match number a.bytes, number b.bytes with
        | some p, some q => some (decide (p < q))
        | _, _ => none
      | .str =>
        match unquote a.bytes, unquote b.bytes with
        | some s, some t => some (bytesLt s t)
        | _, _ => none
      | _ => some false
  | _, _ => some false

/-- Go: `checkEqual`, `/repo/transform/jsonpath/logicalevaluators.go:106-111`. -/
def checkEqual (f : Nat) : Option Val → Option Val → IProg ε Bool
  | some x, some y => valEqual f x y
  | none, none => .ret true
  | _, _ => .ret false

/-- A value that is not nil is cloned, `/repo/transform/jsonpath/logicalevaluators.go:80-86,88-94`. -/
def cloneOpt : Option Val → IProg ε (Option Val × Option Nat)
  | none => .ret (none, none)
  | some x => .op (.clone x) fun (p : Val × Option Nat) => .ret (some p.1, p.2)

/-- Go: `/repo/transform/jsonpath/logicalevaluators.go:96-103`. -/
def compareVals (f : Nat) (eq lt neg : Bool) (x y : Option Val) : IProg ε Bool :=
  (if eq then checkEqual f x y else .ret false).bind fun r =>
    if !r && lt then
      match checkLess x y with
      | none => .fail .panic
      | some r => .ret (r != neg)
    else .ret (r != neg)

/-- Go: `(ComparisonEvaluator).EvaluateTruth`, `/repo/transform/jsonpath/logicalevaluators.go:70-104`. -/
def comparison (f : Nat) (left : CmpP ε) (eq lt neg : Bool) (right : CmpP ε) (x : Val) : IProg ε Bool :=
  .op (.clone x) fun (p1 : Val × Option Nat) => .op (.clone x) fun (p2 : Val × Option Nat) =>
    (left p1.1).bind fun l => (cloneOpt l).bind fun l => (right p2.1).bind fun r => (cloneOpt r).bind fun r =>
      (compareVals f eq lt neg l.1 r.1).bind fun b =>
        (detachOpt r.2).bind fun _ => (detachOpt l.2).bind fun _ => (detachOpt p2.2).bind fun _ => (detachOpt p1.2).bind fun _ => .ret b

/-! ## Queries in conditions -/

/-- Go: `QueryEvaluator`, `/repo/transform/jsonpath/queryrunner.go:82-84`, as a program. -/
inductive QueryP (ε : Type)
  | run (segs : List (Seg (CondP ε)))
  | inner (i : Nat)

/-- Go: the loop of `/repo/transform/jsonpath/queryrunner.go:171-175`. -/
def innerLoop (fin : φ → Val → IProg ε (φ × Bool)) (i : Nat) : Nat → φ → IProg ε (φ × Bool)
  | 0, _ => .fail .fuel
  | f + 1, q => .op (.advance i) fun (more : Bool) =>
    if more then .op (.current i) fun (kv : Option Scalar × Option Val) =>
      match kv.2 with
      | none => .fail .panic
      | some x => (fin q x).bind fun r => if r.2 then innerLoop fin i f r.1 else .ret r
    else .ret (q, true)

/-- Go: `MapValue`, `/repo/transform/jsonpath/queryrunner.go:112-117,168-177`, with a processor that is not a dispatcher. -/
def mapValue (e : Env) (fin : φ → Val → IProg ε (φ × Bool)) : QueryP ε → φ → Val → IProg ε (φ × Bool)
  | .run segs, q, x => (segsP fin e.strict e.fuel segs [] q x).bind fun r => .ret r.2
  | .inner i, q, _ =>
    match e.ctx.queries[i]? with
    | none => .fail .panic
    | some h => .op (.clone (.coll .top h)) fun (p : Val × Option Nat) =>
      match p.1 with
      | .coll _ a => (innerLoop fin a e.fuel q).bind fun r => (detachOpt p.2).bind fun _ => .ret r
      | .scalar _ => .fail .panic

/-- Go: `haltingProcessor`, `/repo/transform/jsonpath/queryrunner.go:158-162`. -/
def haltFin : Unit → Val → IProg ε (Unit × Bool) := fun q _ => .ret (q, false)

/-- Go: `(QueryEvaluator).EvaluateTruth`, `/repo/transform/jsonpath/queryrunner.go:90-97`. -/
def queryTruth (e : Env) (q : QueryP ε) (x : Val) : IProg ε Bool :=
  .op (.clone x) fun (p : Val × Option Nat) => (mapValue e haltFin q () p.1).bind fun r => (detachOpt p.2).bind fun _ => .ret (!r.2)

/-! ## Functions -/

/-- An argument. -/
inductive ArgP (ε : Type)
  | value (c : CmpP ε)
  | nodes (q : QueryP ε)

/-- What a function is given: a value, or a `NodesResult` (`/repo/transform/jsonpath/queryrunner.go:123-135`). -/
inductive ArgV (ε : Type)
  | value (x : Option Val)
  | nodes (q : QueryP ε) (x : Val)

/-- What a function returns. -/
inductive FnRes
  | bool (b : Bool)
  | value (x : Option Val)

/-- Go: the loops of `run_length`, `/repo/transform/jsonpath/function.go:104-112`. -/
def countMembers (i : Nat) : Nat → Nat → IProg ε Nat
  | 0, _ => .fail .fuel
  | f + 1, n => .op (.advance i) fun (more : Bool) => if more then countMembers i f (n + 1) else .ret n

/-- Go: `run_length`, `/repo/transform/jsonpath/function.go:100-122`.  For objects another variable is incremented. -/
def runLength (f : Nat) : Option Val → IProg ε FnRes
  | some (.coll .arr i) => (countMembers i f 0).bind fun n => .ret (.value (some (.scalar (natScalar n))))
  | some (.coll .obj i) => (countMembers i f 0).bind fun _ => .ret (.value (some (.scalar (natScalar 0))))
  | some (.scalar k) =>
    if k.type ≠ .str then .ret (.value none)
    else match toStr k with
      | none => .fail .panic
      | some s => .ret (.value (some (.scalar (natScalar (Utf8.count s.length s)))))
  | _ => .ret (.value none)

/-- Go: the callback of `run_count`, `/repo/transform/jsonpath/function.go:126-129`. -/
def countFin : Nat → Val → IProg ε (Nat × Bool) := fun n _ => .ret (n + 1, true)

/-- Go: the callback of `run_value`, `/repo/transform/jsonpath/function.go:177-184`. -/
def valueFin : Option Val → Val → IProg ε (Option Val × Bool)
  | some _, _ => .ret (none, false)
  | none, x => .ret (some x, true)

/-- Go: the part of `matchIndex` after compiling, `/repo/transform/jsonpath/function.go:162-171`: the location, its end counted from the end of
the string; the outer `none` is a panic. -/
def findIndex (find : Bytes → Option (Nat × Nat)) (a : Scalar) : Option (Option (Int × Int)) :=
  (if a.unesc then some ((a.bytes.drop 1).dropLast) else unquote a.bytes).map fun s =>
    (find s).map fun l => ((l.1 : Int), (l.2 : Int) - s.length)

/-- Go: `matchIndex`, `/repo/transform/jsonpath/function.go:143-173`.  A pattern that the library rejects gives nothing; but if the cache has nil
for it (see C48), the methods `FindIndex` and `FindStringIndex` of nil panic, as does the conversion before them, if that fails. -/
def matchIndex (lib : Lib) : Option Val → Option Val → IProg ε (Option (Int × Int))
  | some (.scalar a), some (.scalar b) =>
    if a.type ≠ .str ∨ b.type ≠ .str then .ret none
    else match unquote b.bytes with
      | none => .fail .panic
      | some p =>
        match lib.regex p with
        | none => .op (.reject p (iregexpString p)) fun (known : Bool) => if known then .fail .panic else .ret none
        | some find =>
          match findIndex find a with
          | none => .fail .panic
          | some l => .ret l
  | _, _ => .ret none

/-- Go: `run_match`, `run_search`, `/repo/transform/jsonpath/function.go:133-141`. -/
def runMatch (lib : Lib) (whole : Bool) (x y : Option Val) : IProg ε FnRes :=
  (matchIndex lib x y).bind fun l => .ret (.bool (if whole then decide (l = some (0, 0)) else l.isSome))

/-- Go: `Run` of the functions, `/repo/transform/jsonpath/function.go:64-98`.  A wrong kind of argument is a failed type assertion. -/
def runFn (e : Env) : Fn → List (ArgV ε) → IProg ε FnRes
  | .length, [.value x] => runLength e.fuel x
  | .count, [.nodes q x] => (mapValue e countFin q 0 x).bind fun r => .ret (.value (some (.scalar (natScalar r.1))))
  | .fmatch, [.value x, .value y] => runMatch e.lib true x y
  | .search, [.value x, .value y] => runMatch e.lib false x y
  | .value, [.nodes q x] => (mapValue e valueFin q none x).bind fun r => .ret (.value r.1)
  | _, _ => .fail .panic

/-- Go: `(FunctionRunner).run`, `/repo/transform/jsonpath/functionrunnner.go:10-29`; `vs` are the arguments evaluated so far. -/
def runArgs (e : Env) (f : Fn) (x : Val) : List (ArgP ε) → List (ArgV ε) → IProg ε FnRes
  | [], vs => runFn e f vs
  | .value c :: l, vs => .op (.clone x) fun (p : Val × Option Nat) => (c p.1).bind fun y =>
      (runArgs e f x l (vs ++ [.value y])).bind fun r => (detachOpt p.2).bind fun _ => .ret r
  | .nodes q :: l, vs => runArgs e f x l (vs ++ [.nodes q x])

/-- Go: `EvaluateTruth`, `/repo/transform/jsonpath/functionrunnner.go:31-33`. -/
def fnTruth (e : Env) (f : Fn) (args : List (ArgP ε)) (x : Val) : IProg ε Bool :=
  (runArgs e f x args []).bind fun r =>
    match r with
    | .bool b => .ret b
    | .value _ => .fail .panic

/-- Go: `Evaluate`, `/repo/transform/jsonpath/functionrunnner.go:35-41`. -/
def fnValue (e : Env) (f : Fn) (args : List (ArgP ε)) (x : Val) : IProg ε (Option Val) :=
  (runArgs e f x args []).bind fun r =>
    match r with
    | .bool _ => .fail .panic
    | .value y => .ret y

/-! ## Runners as programs -/

/-- Go: `(LogicalOrEvaluator).EvaluateTruth`, `/repo/transform/jsonpath/logicalevaluators.go:26-33`. -/
def orP : List (CondP ε) → CondP ε
  | [], _ => .ret false
  | c :: l, x => (c x).bind fun b => if b then .ret true else orP l x

/-- Go: `(LogicalAndEvaluator).EvaluateTruth`, `/repo/transform/jsonpath/logicalevaluators.go:39-46`. -/
def andP : List (CondP ε) → CondP ε
  | [], _ => .ret true
  | c :: l, x => (c x).bind fun b => if b then andP l x else .ret false

mutual
/-- Go: `EvaluateTruth` of the runners, `/repo/transform/jsonpath/logicalevaluators.go`. -/
def condP (e : Env) : CondR → CondP ε
  | .or l => orP (condsP e l)
  | .and l => andP (condsP e l)
  | .not c => fun x => (condP e c x).bind fun b => .ret (!b)
  | .cmp l eq lt neg r => comparison e.fuel (cmpP e l) eq lt neg (cmpP e r)
  | .query q => queryTruth e (queryP e q)
  | .func f args => fnTruth e f (argsP e args)
/-- Lists of conditions. -/
def condsP (e : Env) : List CondR → List (CondP ε)
  | [] => []
  | c :: l => condP e c :: condsP e l
/-- Queries. -/
def queryP (e : Env) : QueryR → QueryP ε
  | .run segs => .run (segsR e segs)
  | .inner i => .inner i
/-- Segments. -/
def segsR (e : Env) : List SegR → List (Seg (CondP ε))
  | [] => []
  | s :: l => segR e s :: segsR e l
/-- A segment. -/
def segR (e : Env) : SegR → Seg (CondP ε)
  | .mk desc sels => ⟨desc, selsR e sels⟩
/-- Selectors. -/
def selsR (e : Env) : List (Sel CondR) → List (Sel (CondP ε))
  | [] => []
  | s :: l => selR e s :: selsR e l
/-- A selector. -/
def selR (e : Env) : Sel CondR → Sel (CondP ε)
  | .default => .default
  | .name n => .name n
  | .wild => .wild
  | .index i => .index i
  | .slice a b c => .slice a b c
  | .rslice a b c => .rslice a b c
  | .filter c => .filter (condP e c)
/-- Go: `Evaluate` of the runners, `/repo/transform/jsonpath/comparableevaluators.go`, `/repo/transform/jsonpath/queryrunner.go:183-185`. -/
def cmpP (e : Env) : CmpR → CmpP ε
  | .lit l => fun _ => .ret (some (.scalar (litScalar e.lib l)))
  | .sing segs => singEval e.fuel segs
  | .inner i => fun _ =>
    match e.ctx.sing[i]? with
    | none => .fail .panic
    | some x => .ret (some x)
  | .func f args => fnValue e f (argsP e args)
/-- Arguments. -/
def argsP (e : Env) : List ArgR → List (ArgP ε)
  | [] => []
  | a :: l => argP e a :: argsP e l
/-- An argument. -/
def argP (e : Env) : ArgR → ArgP ε
  | .value c => .value (cmpP e c)
  | .nodes q => .nodes (queryP e q)
end

/-! ## The main loop -/

/-- `detach()` of a value that may be a scalar, for which there is no detach function. -/
def mustDetach : Option Nat → IProg ε Unit
  | none => .fail .panic
  | some t => .op (.detach t) fun _ => .ret ()

/-- Go: the loop of `/repo/transform/jsonpath/queryrunner.go:28-45`. -/
def singCtx (fuel : Nat) (x : Val) : List (List SingSeg) → List Val → IProg ε (List Val)
  | [], vs => .ret vs
  | segs :: l, vs => .op (.clone x) fun (p : Val × Option Nat) => (singEval fuel segs p.1).bind fun y =>
    match y with
    | none => .fail .panic
    | some (.scalar k) => (mustDetach p.2).bind fun _ => singCtx fuel x l (vs ++ [.scalar k])
    | some (.coll c i) => .op (.copy (.coll c i)) fun (ts : List Token) => .op (.data ts) fun (it : Nat) =>
      .op (.advance it) fun (_ : Bool) => .op (.current it) fun (kv : Option Scalar × Option Val) =>
        match kv.2 with
        | none => .fail .panic
        | some y => (mustDetach p.2).bind fun _ => singCtx fuel x l (vs ++ [y])

/-- Go: `streamWritingProcessor` on an accumulator, `/repo/transform/jsonpath/queryrunner.go:149-156`. -/
def collectFin : List Token → Val → IProg ε (List Token × Bool) := fun acc x => .op (.copy x) fun (ts : List Token) => .ret (acc ++ ts, true)

/-- Go: the loop of `/repo/transform/jsonpath/queryrunner.go:46-57`. -/
def queryCtx (lib : Lib) (strict : Bool) (fuel : Nat) (x : Val) : List (List SegR) → Ctx → IProg ε Ctx
  | [], ctx => .ret ctx
  | segs :: l, ctx => .op (.clone x) fun (p : Val × Option Nat) =>
    (mapValue ⟨lib, strict, fuel, ctx⟩ collectFin (queryP ⟨lib, strict, fuel, ctx⟩ (.run segs)) [] p.1).bind fun r =>
      .op (.data r.1) fun (it : Nat) => (mustDetach p.2).bind fun _ =>
        queryCtx lib strict fuel x l { ctx with queries := ctx.queries ++ [it] }

/-- Go: `computeRunContext`, `/repo/transform/jsonpath/queryrunner.go:23-59`. -/
def runContext (lib : Lib) (strict : Bool) (fuel : Nat) (r : MainR) (x : Val) : IProg ε Ctx :=
  (singCtx fuel x r.sing []).bind fun vs => queryCtx lib strict fuel x r.queries ⟨vs, []⟩

/-- Go: `streamWritingProcessor`, `/repo/transform/jsonpath/queryrunner.go:149-156`. -/
def writeFin : Unit → Val → IProg Token (Unit × Bool) := fun q x => .op (.copy x) fun (ts : List Token) => (putAll ts).bind fun _ => .ret (q, true)

/-- Go: `(MainQueryRunner).TransformValue`, `/repo/transform/jsonpath/queryrunner.go:61-63`. -/
def runValue (lib : Lib) (strict : Bool) (fuel : Nat) (r : MainR) (x : Val) : IProg Token Unit :=
  (runContext lib strict fuel r x).bind fun ctx =>
    (mapValue ⟨lib, strict, fuel, ctx⟩ writeFin (queryP ⟨lib, strict, fuel, ctx⟩ (.run r.main)) () x).bind fun _ => .ret ()

/-- Go: `(MainQueryRunner).Transform`, `/repo/transform/jsonpath/queryrunner.go:14-21`. -/
def runQuery (lib : Lib) (strict : Bool) (fuel : Nat) (r : MainR) : Nat → IProg Token Unit
  | 0 => .fail .fuel
  | f + 1 => .op (.advance 0) fun (more : Bool) =>
    if more then .op (.current 0) fun (kv : Option Scalar × Option Val) =>
      match kv.2 with
      | none => .fail .panic
      | some x => (runValue lib strict fuel r x).bind fun _ => runQuery lib strict fuel r f
    else .ret ()

end JPath
end Verif
