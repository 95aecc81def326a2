import Verif.Formats
import Verif.JsonDecoder
import Verif.JpvDecoder
import Verif.CsvReader
import Verif.JsonEncoder
import Verif.JpvEncoder
import Verif.Transforms
import Verif.IterTransforms
import Verif.PathParser
import Verif.PathOut

/-!
# The program

Model of `main` and `parseTransformer`, `/repo/cmd/jp/main.go:33-291`.  The options are given as a record here; the command line is in
`CommandLine`.  Not modelled: the help texts, the texts of messages, and failures of the standard output (see C13 for the encoder, C67 for the program).  Goroutines are run one after the other (see
C33, C66).
-/

namespace Verif.Cmd

/-- The options, `/repo/cmd/jp/main.go:45-99`, and the arguments, `/repo/cmd/jp/main.go:200`.  `color` is the colorizer that is chosen on lines 59-61 and
119-129; `terminal` says whether the standard output is a terminal. -/
structure Options where
  inFormat : Bytes := b%"auto"
  outFormat : Bytes := b%"json"
  indent : Int := 2
  compact : Bool := false
  width : Int := 60
  quoteKeys : Bool := false
  csvHeader : Bytes := []
  strict : Bool := false
  color : Option Colorizer := none
  terminal : Bool := false
  args : List Bytes := []

/-- Go: an escape sequence, `/repo/cmd/jp/main.go:327-356`. -/
def escape (code : Bytes) : Bytes := [0x1B, c%'['] ++ code ++ [c%'m']

/-- Go: `defaultColorizer`, `/repo/cmd/jp/main.go:359-363`; the order of the types of scalars is that of `/repo/token/tokens.go:208-211`. -/
def defaultColorizer : Colorizer where
  keyCode := escape b%"34;1"
  codes
    | .null => escape b%"37;2"
    | .bool => escape b%"33"
    | .num => escape b%"37"
    | .str => escape b%"32"
  resetCode := escape b%"0"

/-- The choice of the colorizer, `/repo/cmd/jp/main.go:59-61`, `:119-129`; `none` is a fatal error. -/
def chooseColor (mode : Bytes) (terminal : Bool) : Option (Option Colorizer) :=
  if mode = b%"always" then some (some defaultColorizer)
  else if mode = b%"never" then some none
  else if mode = b%"auto" then some (if terminal then some defaultColorizer else none)
  else none

/-- What is not modelled: the libraries that queries use. -/
structure Env where
  lib : JPath.Lib

/-- Go: the transformers that `parseTransformer` gives. -/
inductive Transform
  | split
  | join
  | trace
  | depth (m : Int)
  | query (q : JPath.Query)

/-- Go: `parseTransformer`, `/repo/cmd/jp/main.go:258-291`; `none` is an error. -/
def parseTransformer (arg : Bytes) : Option Transform :=
  if arg = b%"split" then some .split
  else if arg = b%"join" then some .join
  else if arg = b%"trace" then some .trace
  else if b%"..." <+: arg then none
  else if b%"." <+: arg then none
  else if b%"depth=" <+: arg then (JPath.parseInt64 (arg.drop 6)).map .depth
  else if b%"$" <+: arg then
    match JPath.parseQuery arg with
    | none => none
    | some q => if (JPath.compileQuery q).isSome then some (.query q) else none
  else none

/-- The loop over the arguments, `/repo/cmd/jp/main.go:200-206`. -/
def parseArgs : List Bytes → Option (List Transform)
  | [] => some []
  | a :: l => (parseTransformer a).bind fun t => (parseArgs l).map (t :: ·)

/-- Go: `strings.Split(s, ",")`, `/repo/cmd/jp/main.go:178`. -/
def splitCommas : Bytes → List Bytes
  | [] => [[]]
  | b :: s =>
    match splitCommas s with
    | [] => []
    | f :: fs => if b = c%',' then [] :: f :: fs else (b :: f) :: fs

/-- Go: `io.MultiReader(bytes.NewReader(start), input)`, `/repo/cmd/jp/main.go:160`.  The first read delivers all of `start`, because the
readers (8192 bytes for the scanner, 4096 for `encoding/csv`) have room for it. -/
def multiReader (start : Bytes) (r : Reader) : Reader :=
  { rest := start ++ r.rest, fin := r.fin
    sched := fun i => if start = [] then r.sched (i + r.idx) else if i = 0 then (start.length, false) else r.sched (i - 1 + r.idx)
    idx := 0 }

/-- The choice of the input format, `/repo/cmd/jp/main.go:145-161`; `none` is a fatal error. -/
def chooseFormat (format : Bytes) (r : Reader) : Option (Bytes × Reader) :=
  if format = b%"auto" then
    match r.read 40 with
    | (_, some _, _) => none
    | (start, none, r) => if guessFormat start = [] then none else some (guessFormat start, multiReader start r)
  else some (format, r)

/-- The decoders, `/repo/cmd/jp/main.go:168-189`. -/
inductive Source
  | json (r : Reader)
  | jpv (r : Reader)
  | csv (cfg : Csv.Cfg) (names : List Bytes) (r : Reader)

/-- The choice of the decoder, `/repo/cmd/jp/main.go:163-189`; `none` is a fatal error. -/
def chooseSource (header : Bytes) (format : Bytes) (r : Reader) : Option Source :=
  if header ≠ [] ∧ (format = b%"csv-with-header" ∨ format = b%"csvh") then none
  else if format = b%"json" then some (.json r)
  else if format = b%"jpv" ∨ format = b%"path" then some (.jpv r)
  else if format = b%"csv" then
    some (if header ≠ [] then .csv ⟨false, true⟩ (splitCommas header) r else .csv ⟨false, false⟩ [] r)
  else if format = b%"csv-with-header" ∨ format = b%"csvh" ∨ format = b%"csv-header" then some (.csv ⟨true, true⟩ [] r)
  else none

/-- What a goroutine did: the tokens that it sent, and whether an error was reported; or it panicked, which ends the program. -/
def outcome {σ : Type} : List Token × Out σ Unit → Option (List Token × Bool)
  | (ts, .ok _ _) => some (ts, false)
  | (ts, .fail _) => some (ts, true)
  | _ => none

/-- Go: `token.StartStream`, `/repo/cmd/jp/main.go:192-197`. -/
def Source.tokens (_ : Env) : Source → Option (List Token × Bool)
  | .json r => outcome (Json.decodeFrom r)
  | .jpv r => outcome (Jpv.decodeFrom r)
  | .csv cfg names r => (Csv.produce cfg names (Csv.readInput r)).map fun (ts, e) => (ts, e.isSome)

/-- A transformer makes `out` of `ts` and does not panic (`token.TransformStream`, `/repo/cmd/jp/main.go:205`). -/
def Transform.Does (env : Env) (strict : Bool) : Transform → List Token → List Token → Prop
  | .split, ts, out => runTransform explodeArray ts = some out
  | .join, ts, out => joinStream ts = out
  | .trace, ts, out => traceStream ts = out
  | .depth m, ts, out => maxDepthFilter m ts = out
  | .query q, ts, out => JPath.Outcome env.lib strict q ts out (.ok ())

/-- Transformers one after the other. -/
inductive DoAll (env : Env) (strict : Bool) : List Transform → List Token → List Token → Prop
  | nil {ts} : DoAll env strict [] ts ts
  | cons {t l ts mid out} : t.Does env strict ts mid → DoAll env strict l mid out → DoAll env strict (t :: l) ts out

/-- The output, `/repo/cmd/jp/main.go:208-245`; `none` is a fatal error.  The encoder gets tokens and gives bytes, and says how it ends. -/
def chooseSink (o : Options) : Option (List Token → Bytes × COut Unit) :=
  let pc : PrinterCfg := ⟨if o.compact then -1 else o.indent, o.terminal⟩
  if o.outFormat = b%"json" then some (Enc.encode ⟨o.color, o.width, 2⟩ pc Enc.goodSink)
  else if o.outFormat = b%"jpv" ∨ o.outFormat = b%"path" then some (JEnc.encode ⟨o.color, o.quoteKeys⟩ pc Enc.goodSink)
  else none

/-- How the program ends: the bytes written to the standard output, the exit status, and whether an error was reported on the standard error output. -/
structure Result where
  stdout : Bytes
  status : Nat
  reported : Bool
deriving DecidableEq

/-- Everything before the pipeline runs; `none` is a fatal error.  (The decoder runs while the arguments are read, but cannot write to the standard
output.) -/
def prepare (o : Options) (r : Reader) : Option (Source × List Transform × (List Token → Bytes × COut Unit)) :=
  (chooseFormat o.inFormat r).bind fun (format, r) => (chooseSource o.csvHeader format r).bind fun source =>
    (parseArgs o.args).bind fun ts => (chooseSink o).map fun sink => (source, ts, sink)

/-- Go: `main`, `/repo/cmd/jp/main.go:33-256`, with the standard input `r`.  A fatal error (`fatalError`, `/repo/cmd/jp/main.go:321-324`) ends the program
with status 1.  An error of the decoder is reported, and the program goes on with the tokens that it has sent (lines 192-197); when the encoder
returns, the program ends with status 0.  If the encoder panics, what it has written is flushed (line 210), the panic is reported (lines 38-42), and the program
ends with status 0 as well.  If another goroutine panics, the program has no result in this model. -/
inductive Main (env : Env) (o : Options) (r : Reader) : Result → Prop
  | fatal : prepare o r = none → Main env o r ⟨[], 1, true⟩
  | run {source ts sink toks bad out bytes} : prepare o r = some (source, ts, sink) → source.tokens env = some (toks, bad) →
      DoAll env o.strict ts toks out → sink out = (bytes, .ok ()) → Main env o r ⟨bytes, 0, bad⟩
  | panic {source ts sink toks bad out bytes} : prepare o r = some (source, ts, sink) → source.tokens env = some (toks, bad) →
      DoAll env o.strict ts toks out → sink out = (bytes, .stop .panic) → Main env o r ⟨bytes, 0, true⟩

end Verif.Cmd
