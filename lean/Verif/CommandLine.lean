import Verif.Program

/-!
# The command line

Model of the options that `main` defines, `/repo/cmd/jp/main.go:44-141`, and of the Go package `flag`, which reads them (Go 1.21, the first with `flag.BoolFunc`: `flag.FlagSet.Parse`,
`flag.FlagSet.parseOne`, `strconv.ParseBool`, `strconv.ParseInt` with base 0).  The texts of messages and help texts are not modelled.
-/

namespace Verif.Cmd

/-- The variables that are set by options, `/repo/cmd/jp/main.go:30`, `:45-57`, `:96`, with their defaults, lines 67-97. -/
structure Vars where
  indent : Int := 2
  compact : Bool := false
  width : Int := 60
  outFormat : Bytes := b%"json"
  inFormat : Bytes := b%"auto"
  quoteKeys : Bool := false
  csvHeader : Bytes := []
  colorMode : Bytes := b%"auto"
  strict : Bool := false
  helpInput : Bool := false
  helpOutput : Bool := false
  helpTransforms : Bool := false
  helpCookbook : Bool := false
  file : Bytes := []
deriving DecidableEq

/-- An option: its type, and what it does. -/
inductive Flag
  | bool (set : Bool → Vars → Vars)
  | int (set : Int → Vars → Vars)
  | str (set : Bytes → Vars → Vars)
  /-- Go: `flag.BoolFunc`. -/
  | func (set : Bytes → Vars → Vars)

/-- The options, `/repo/cmd/jp/main.go:67-97`. -/
def flags : List (Bytes × Flag) :=
  [(b%"help-input", .bool fun x v => { v with helpInput := x }),
   (b%"help-output", .bool fun x v => { v with helpOutput := x }),
   (b%"help-transforms", .bool fun x v => { v with helpTransforms := x }),
   (b%"help-cookbook", .bool fun x v => { v with helpCookbook := x }),
   (b%"json-indent", .int fun x v => { v with indent := x }),
   (b%"json-compact", .bool fun x v => { v with compact := x }),
   (b%"json-lines", .bool fun x v => { v with compact := x }),
   (b%"json-compact-width", .int fun x v => { v with width := x }),
   (b%"jpv-quote-keys", .bool fun x v => { v with quoteKeys := x }),
   (b%"color", .str fun x v => { v with colorMode := x }),
   (b%"out", .str fun x v => { v with outFormat := x }),
   (b%"in", .str fun x v => { v with inFormat := x }),
   (b%"csv-header", .str fun x v => { v with csvHeader := x }),
   (b%"jsonpath-strict", .bool fun x v => { v with strict := x }),
   (b%"indent", .int fun x v => { v with indent := x }),
   (b%"compactwidth", .int fun x v => { v with width := x }),
   (b%"quotekeys", .bool fun x v => { v with quoteKeys := x }),
   (b%"colors", .func fun _ v => { v with colorMode := b%"always" }),
   (b%"nocolors", .func fun _ v => { v with colorMode := b%"never" }),
   (b%"file", .str fun x v => { v with file := x })]

/-- Go: the lookup `f.formal[name]`, in `flag.FlagSet.parseOne`. -/
def findFlag (name : Bytes) : Option Flag := (flags.find? fun f => f.1 == name).map (·.2)

/-- Go: `strconv.ParseBool`. -/
def parseBool (s : Bytes) : Option Bool :=
  if s ∈ [b%"1", b%"t", b%"T", b%"true", b%"TRUE", b%"True"] then some true
  else if s ∈ [b%"0", b%"f", b%"F", b%"false", b%"FALSE", b%"False"] then some false
  else none

/-- Go: `lower` of the package `strconv`. -/
def lower (b : Byte) : Byte := b ||| 0x20

/-- Go: the digit of a byte, in `strconv.ParseUint`. -/
def digitVal (b : Byte) : Option Nat :=
  if 0x30 ≤ b ∧ b ≤ 0x39 then some (b.toNat - 0x30)
  else if 0x61 ≤ lower b ∧ lower b ≤ 0x7A then some ((lower b).toNat - 0x61 + 10)
  else none

/-- Go: the loop of `strconv.ParseUint` with base 0, without the check of the range (see `parseInt0`): underscores are skipped. -/
def uintLoop (base : Nat) : Nat → Bytes → Option Nat
  | n, [] => some n
  | n, b :: s =>
    if b = c%'_' then uintLoop base n s
    else match digitVal b with
      | none => none
      | some d => if base ≤ d then none else uintLoop base (base * n + d) s

/-- Go: what `strconv.underscoreOK` has seen. -/
inductive Saw
  | begin | digit | underscore | other
deriving DecidableEq

/-- Go: the loop of `strconv.underscoreOK`. -/
def underscoreLoop (hex : Bool) : Saw → Bytes → Bool
  | saw, [] => saw != .underscore
  | saw, b :: s =>
    if (0x30 ≤ b ∧ b ≤ 0x39) ∨ (hex = true ∧ 0x61 ≤ lower b ∧ lower b ≤ 0x66) then underscoreLoop hex .digit s
    else if b = c%'_' then if saw = .digit then underscoreLoop hex .underscore s else false
    else if saw = .underscore then false
    else underscoreLoop hex .other s

/-- Go: `strconv.underscoreOK`, without the sign, which `strconv.ParseInt` has removed. -/
def underscoreOK (s : Bytes) : Bool :=
  match s with
  | 0x30 :: c :: r =>
    if lower c = c%'b' ∨ lower c = c%'o' ∨ lower c = c%'x' then underscoreLoop (lower c = c%'x') .digit r else underscoreLoop false .begin s
  | _ => underscoreLoop false .begin s

/-- Go: the choice of the base in `strconv.ParseUint` with base 0, and the rest of the word. -/
def chooseBase (s : Bytes) : Nat × Bytes :=
  match s with
  | 0x30 :: c :: d :: r =>
    if lower c = c%'b' then (2, d :: r) else if lower c = c%'o' then (8, d :: r) else if lower c = c%'x' then (16, d :: r) else (8, c :: d :: r)
  | 0x30 :: r => (8, r)
  | _ => (10, s)

/-- Go: `strconv.ParseUint(s, 0, 64)`, without the check of the range. -/
def parseUint0 (s : Bytes) : Option Nat :=
  if s = [] then none
  else (uintLoop (chooseBase s).1 0 (chooseBase s).2).bind fun n => if c%'_' ∈ (chooseBase s).2 ∧ ¬ underscoreOK s then none else some n

/-- Go: `strconv.ParseInt(s, 0, 64)`; `none` is an error.  (That a number is out of the range is found here and not in the loop.) -/
def parseInt0 (s : Bytes) : Option Int :=
  match s with
  | [] => none
  | b :: r =>
    if b = c%'-' then (parseUint0 r).bind fun n => if n ≤ 2 ^ 63 then some (-(n : Int)) else none
    else (parseUint0 (if b = c%'+' then r else b :: r)).bind fun n => if n < 2 ^ 63 then some (n : Int) else none

/-- What a word is for `flag.FlagSet.parseOne`. -/
inductive Word
  /-- Not an option: the arguments begin here. -/
  | arg
  /-- `--`: the arguments begin behind it. -/
  | stop
  | bad
  | flag (name : Bytes) (value : Option Bytes)
deriving DecidableEq

/-- Go: the search for `=` in `flag.FlagSet.parseOne`: it cannot be first. -/
def cutValue (name : Bytes) : Bytes × Option Bytes :=
  match name with
  | [] => ([], none)
  | b :: r => (b :: r.takeWhile (· != c%'='), if c%'=' ∈ r then some ((r.dropWhile (· != c%'=')).drop 1) else none)

/-- Go: the first part of `flag.FlagSet.parseOne`. -/
def classify (s : Bytes) : Word :=
  match s with
  | 0x2D :: c :: r =>
    let name := if c = c%'-' then r else c :: r
    if c = c%'-' ∧ r = [] then .stop
    else match name with
      | [] => .bad
      | b :: _ => if b = c%'-' ∨ b = c%'=' then .bad else .flag (cutValue name).1 (cutValue name).2
  | _ => .arg

/-- How `flag.Parse` ends: with the variables and the arguments; with a help text and status 0; or with an error and status 2 (`flag.ExitOnError`). -/
inductive Parsed
  | ok (v : Vars) (args : List Bytes)
  | help
  | bad
deriving DecidableEq

/-- Go: `flag.FlagSet.Parse` and the second part of `flag.FlagSet.parseOne`. -/
def parseFlags : List Bytes → Vars → Parsed
  | [], v => .ok v []
  | s :: rest, v =>
    match classify s with
    | .arg => .ok v (s :: rest)
    | .stop => .ok v rest
    | .bad => .bad
    | .flag name value =>
      match findFlag name with
      | none => if name = b%"help" ∨ name = b%"h" then .help else .bad
      | some (.bool set) =>
        match parseBool (value.getD b%"true") with
        | none => .bad
        | some x => parseFlags rest (set x v)
      | some (.func set) => parseFlags rest (set (value.getD b%"true") v)
      | some (.str set) =>
        match value with
        | some x => parseFlags rest (set x v)
        | none =>
          match rest with
          | [] => .bad
          | x :: rest => parseFlags rest (set x v)
      | some (.int set) =>
        match value with
        | some x =>
          match parseInt0 x with
          | none => .bad
          | some x => parseFlags rest (set x v)
        | none =>
          match rest with
          | [] => .bad
          | x :: rest =>
            match parseInt0 x with
            | none => .bad
            | some x => parseFlags rest (set x v)

/-- The options for the rest of the program. -/
def Vars.options (v : Vars) (terminal : Bool) (color : Option Colorizer) (args : List Bytes) : Options where
  inFormat := v.inFormat
  outFormat := v.outFormat
  indent := v.indent
  compact := v.compact
  width := v.width
  quoteKeys := v.quoteKeys
  csvHeader := v.csvHeader
  strict := v.strict
  color := color
  terminal := terminal
  args := args

/-- The program with its command line, `/repo/cmd/jp/main.go:33-256`.  Help texts go to the standard error output. -/
inductive Program (env : Env) (terminal : Bool) (words : List Bytes) (r : Reader) : Result → Prop
  | usage : parseFlags words {} = .help → Program env terminal words r ⟨[], 0, false⟩
  | bad : parseFlags words {} = .bad → Program env terminal words r ⟨[], 2, true⟩
  | info {v args} : parseFlags words {} = .ok v args → (v.helpInput || v.helpOutput || v.helpTransforms || v.helpCookbook) = true →
      Program env terminal words r ⟨[], 0, false⟩
  | color {v args} : parseFlags words {} = .ok v args → (v.helpInput || v.helpOutput || v.helpTransforms || v.helpCookbook) = false →
      chooseColor v.colorMode terminal = none → Program env terminal words r ⟨[], 1, true⟩
  | file {v args color} : parseFlags words {} = .ok v args → (v.helpInput || v.helpOutput || v.helpTransforms || v.helpCookbook) = false →
      chooseColor v.colorMode terminal = some color → v.file ≠ [] → Program env terminal words r ⟨[], 1, true⟩
  | main {v args color x} : parseFlags words {} = .ok v args → (v.helpInput || v.helpOutput || v.helpTransforms || v.helpCookbook) = false →
      chooseColor v.colorMode terminal = some color → v.file = [] → Main env (v.options terminal color args) r x → Program env terminal words r x

end Verif.Cmd
