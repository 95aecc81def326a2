import Verif.Printer
import Verif.IterLogic

/-!
# The JSON encoder

`/repo/encoding/json/encoder.go` as a program over iterators that makes calls to a printer.
-/

namespace Verif

/-- Go: `Colorizer`, `/repo/internal/format/colorizer.go:5-9`. -/
structure Colorizer where
  keyCode : Bytes
  codes : SType → Bytes
  resetCode : Bytes

/-- Go: `ScalarColorCode`, `/repo/internal/format/colorizer.go:11-16`. -/
def Colorizer.code (c : Colorizer) (s : Scalar) : Bytes := if s.key then c.keyCode else c.codes s.type

/-- Go: `PrintScalar`, `/repo/internal/format/colorizer.go:18-26`; the colorizer may be nil. -/
def printScalar (c : Option Colorizer) (s : Scalar) : List POp :=
  match c with
  | none => [.bytes s.bytes]
  | some c => [.bytes (c.code s), .bytes s.bytes, .bytes c.resetCode]

/-- Go: `Encoder`, `/repo/encoding/json/encoder.go:13-18`.  Simplification: `int` is unbounded. -/
structure EncCfg where
  color : Option Colorizer
  widthLimit : Int
  maxItems : Int

namespace Enc

/-- Go: `/repo/encoding/json/encoder.go:261-270`. -/
def elisionOp : POp := .bytes b%"..."
def openObj : POp := .bytes b%"{"
def closeObj : POp := .bytes b%"}"
def openArr : POp := .bytes b%"["
def closeArr : POp := .bytes b%"]"
def itemSep : POp := .bytes b%","
def compactSep : POp := .bytes b%", "
def keySep : POp := .bytes b%": "

open IProg

/-- The key of a member; a nil key would be dereferenced. -/
def writeKey (c : Option Colorizer) (key : Option Scalar) : IProg POp Unit :=
  match key with
  | none => .fail .panic
  | some k => putAll (printScalar c k ++ [keySep])

/-- Go: `writeObject`, `/repo/encoding/json/encoder.go:60-86`.  `wv` is `writeValue`. -/
def writeObject (c : Option Colorizer) (wv : Val → IProg POp Unit) (f i : Nat) : IProg POp Unit :=
  (put openObj).bind fun _ =>
  (forEach (fun (first : Bool) key x =>
    (putAll (if first then [.indent] else [itemSep, .newLine])).bind fun _ =>
    (writeKey c key).bind fun _ =>
    (wv x).bind fun _ => .ret false) i f true).bind fun first =>
  .op (.elided i) fun (e : Bool) =>
  (putAll (if e then (if first then [] else [.newLine]) ++ [elisionOp] else [])).bind fun _ =>
  (putAll (if first then [] else [.dedent])).bind fun _ =>
  put closeObj

/-- Go: the first loop of `writeObjectCompact`, `/repo/encoding/json/encoder.go:93-104`: the flag
`compact` and the pending items.  (After a member that is not a scalar or is too much, the loop ends
before the next call to `Advance`.) -/
def pendingLoop (cfg : EncCfg) (i : Nat) : Nat → List (Scalar × Val) → Int → IProg POp (Bool × List (Scalar × Val))
  | 0, _, _ => .fail .fuel
  | f + 1, l, w => .op (.advance i) fun (more : Bool) =>
    if more then .op (.current i) fun (kv : Option Scalar × Option Val) =>
      match kv with
      | (some key, some (.scalar s)) =>
        let w := w + (key.bytes.length + s.bytes.length + 4)
        let l := l ++ [(key, .scalar s)]
        if (l.length : Int) ≤ cfg.maxItems ∧ w ≤ cfg.widthLimit then pendingLoop cfg i f l w else .ret (false, l)
      | (some key, some (.coll k j)) => .ret (false, l ++ [(key, .coll k j)])
      | _ => .fail .panic
    else .ret (true, l)

/-- Go: `for i, item := range pendingItems`, `/repo/encoding/json/encoder.go:109-116`, `:122-129`. -/
def writePending (c : Option Colorizer) (wv : Val → IProg POp Unit) (sep : List POp) :
    Bool → List (Scalar × Val) → IProg POp Unit
  | _, [] => .ret ()
  | first, (key, x) :: l =>
    (putAll ((if first then [] else sep) ++ (printScalar c key ++ [keySep]))).bind fun _ =>
    (wv x).bind fun _ => writePending c wv sep false l

/-- Go: `writeObjectCompact`, `/repo/encoding/json/encoder.go:88-150`. -/
def writeObjectCompact (cfg : EncCfg) (wv : Val → IProg POp Unit) (f i : Nat) : IProg POp Unit :=
  (pendingLoop cfg i f [] (-2)).bind fun (compact, pending) =>
  (put openObj).bind fun _ =>
  (if compact then
    (writePending cfg.color wv [compactSep] true pending).bind fun _ =>
    .op (.elided i) fun (e : Bool) => putAll (if e then [elisionOp] else [])
  else
    (put .indent).bind fun _ =>
    (writePending cfg.color wv [itemSep, .newLine] true pending).bind fun _ =>
    (forEach (fun (_ : Unit) key x =>
      (putAll [itemSep, .newLine]).bind fun _ =>
      (writeKey cfg.color key).bind fun _ =>
      (wv x).bind fun _ => .ret ()) i f ()).bind fun _ =>
    .op (.elided i) fun (e : Bool) =>
    (putAll (if e then [.newLine, elisionOp] else [])).bind fun _ =>
    put .dedent).bind fun _ =>
  put closeObj

/-- Go: `writeArray`, `/repo/encoding/json/encoder.go:152-177`. -/
def writeArray (wv : Val → IProg POp Unit) (f i : Nat) : IProg POp Unit :=
  (put openArr).bind fun _ =>
  (forEach (fun (first : Bool) _ x =>
    (putAll (if first then [.indent] else [itemSep, .newLine])).bind fun _ =>
    (wv x).bind fun _ => .ret false) i f true).bind fun first =>
  .op (.elided i) fun (e : Bool) =>
  (putAll (if e then (if first then [] else [.newLine]) ++ [elisionOp] else [])).bind fun _ =>
  (putAll (if first then [] else [.dedent])).bind fun _ =>
  put closeArr

/-- Go: the variables of the loop of `writeArrayCompact`; `compactItems` holds scalars only. -/
structure ACState where
  items : List Scalar
  width : Int
  first : Bool

/-- Go: `for i, item := range compactItems`, `/repo/encoding/json/encoder.go:217-223`, `:242-247`. -/
def writeItems (wv : Val → IProg POp Unit) : Bool → List Scalar → IProg POp Unit
  | _, [] => .ret ()
  | first, s :: l =>
    (putAll (if first then [] else [compactSep])).bind fun _ =>
    (wv (.scalar s)).bind fun _ => writeItems wv false l

/-- Go: one round of the loop of `writeArrayCompact`, `/repo/encoding/json/encoder.go:199-235`.  The
`goto` is taken at most once, because the list of compact items is empty afterwards. -/
def arrayCompactStep (cfg : EncCfg) (wv : Val → IProg POp Unit) (st : ACState) (x : Val) : IProg POp ACState :=
  let sep : Bool → List POp := fun first => if first then [.indent] else [itemSep, .newLine]
  match x with
  | .scalar s =>
    let w := st.width + (s.bytes.length + 2)
    if w ≤ cfg.widthLimit then .ret { st with items := st.items ++ [s], width := w }
    else
      (putAll (sep st.first)).bind fun _ =>
      if st.items = [] then (wv x).bind fun _ => .ret ⟨[], w, false⟩
      else
        (writeItems wv true st.items).bind fun _ =>
        if (s.bytes.length : Int) ≤ cfg.widthLimit then .ret ⟨[s], s.bytes.length, false⟩
        else
          (putAll (sep false)).bind fun _ =>
          (wv x).bind fun _ => .ret ⟨[], s.bytes.length, false⟩
  | .coll _ _ =>
    (putAll (sep st.first)).bind fun _ =>
    if st.items = [] then (wv x).bind fun _ => .ret ⟨[], st.width, false⟩
    else
      (writeItems wv true st.items).bind fun _ =>
      (putAll (sep false)).bind fun _ =>
      (wv x).bind fun _ => .ret ⟨[], -2, false⟩

/-- Go: `writeArrayCompact`, `/repo/encoding/json/encoder.go:194-259`. -/
def writeArrayCompact (cfg : EncCfg) (wv : Val → IProg POp Unit) (f i : Nat) : IProg POp Unit :=
  (put openArr).bind fun _ =>
  (forEach (fun st _ x => arrayCompactStep cfg wv st x) i f ⟨[], -2, true⟩).bind fun st =>
  (if st.items = [] then .ret ()
  else
    (putAll (if st.first then [] else [itemSep, .newLine])).bind fun _ =>
    writeItems wv true st.items).bind fun _ =>
  .op (.elided i) fun (e : Bool) =>
  (putAll (if e then (if st.first then [] else [.newLine]) ++ [elisionOp] else [])).bind fun _ =>
  (putAll (if st.first then [] else [.dedent])).bind fun _ =>
  put closeArr

/-- Go: `writeValue`, `/repo/encoding/json/encoder.go:39-58`.  The first argument bounds depth and
length of what is written (the model's loops need a bound). -/
def writeValue (cfg : EncCfg) : Nat → Val → IProg POp Unit
  | 0, _ => .fail .fuel
  | f + 1, x =>
    match x with
    | .scalar s => putAll (printScalar cfg.color s)
    | .coll .obj i =>
      if 0 < cfg.maxItems then writeObjectCompact cfg (writeValue cfg f) f i
      else writeObject cfg.color (writeValue cfg f) f i
    | .coll .arr i =>
      if 0 < cfg.widthLimit then writeArrayCompact cfg (writeValue cfg f) f i
      else writeArray (writeValue cfg f) f i
    | .coll .top _ => .fail .panic

/-- Go: `Consume`, `/repo/encoding/json/encoder.go:29-37`.  The deferred `CatchPrinterError` is part
of `IProg.runW`. -/
def consume (cfg : EncCfg) (f : Nat) : IProg POp Unit :=
  forEach (fun (_ : Unit) _ x => (writeValue cfg f x).bind fun _ => put .reset) 0 f ()

/-- An encoder reading a stream of tokens and writing to a writer: the bytes taken by the writer and
the outcome.  The bound for the loops suffices for all well-formed streams (`encode_eq`). -/
def encode (cfg : EncCfg) (pc : PrinterCfg) (w : Sink) (ts : List Token) : Bytes × COut Unit :=
  (consume cfg (ts.length + 1)).runW Heap.mach pc w (Heap.init ts) 0 []

/-- A writer that never fails. -/
def goodSink : Sink := fun _ _ => none

end Enc
end Verif
