import Verif.Bytes

/-!
# I-Regexp

Model of `/repo/internal/jsonpath/iregexp/iregexp.go`.
-/

namespace Verif.JPath

/-- The state of the loop: Go: `inClass`, `escape`, `lastIndex`, `builder`, `/repo/internal/jsonpath/iregexp/iregexp.go:9-12`. -/
structure IState where
  inClass : Bool := false
  escape : Bool := false
  last : Nat := 0
  out : Bytes := []

/-- Go: `[^\n\r]`, `/repo/internal/jsonpath/iregexp/iregexp.go:28`. -/
def notNewline : Bytes := b%"[^\\n\\r]"

/-- Go: one round of the loop, `/repo/internal/jsonpath/iregexp/iregexp.go:14-32`, at the byte `b` with index `i`.  Simplification: the
loop of the program is over characters; the bytes of characters that are not ASCII are at least `0x80`, so they are never special, and
when the first of them is escaped, so are, in effect, the others. -/
def istep (ptn : Bytes) (s : IState) (i : Nat) (b : Byte) : IState :=
  if s.escape then { s with escape := false }
  else if b = c%'\\' then { s with escape := true }
  else if b = c%'[' then { s with inClass := true }
  else if b = c%']' then { s with inClass := false }
  else if b = c%'.' ∧ s.inClass = false then
    { s with out := s.out ++ (ptn.drop s.last).take (i - s.last) ++ notNewline, last := i + 1 }
  else s

/-- Go: the loop, `/repo/internal/jsonpath/iregexp/iregexp.go:13-33`. -/
def iloop (ptn : Bytes) : IState → Nat → Bytes → IState
  | s, _, [] => s
  | s, i, b :: r => iloop ptn (istep ptn s i b) (i + 1) r

/-- Go: `iregexpString`, `/repo/internal/jsonpath/iregexp/iregexp.go:8-41`. -/
def iregexpString (ptn : Bytes) : Bytes :=
  let s := iloop ptn {} 0 ptn
  if s.last = 0 then ptn
  else if s.last < ptn.length then s.out ++ ptn.drop s.last
  else s.out

/-- Go: `knownIRegexps`, `/repo/internal/jsonpath/iregexp/iregexp.go:56`: for the patterns in the cache the regular expression or nil. -/
abbrev ICache (R : Type) := Bytes → Option (Option R)

/-- Go: `Compile`, `/repo/internal/jsonpath/iregexp/iregexp.go:43-54`, with the compiler `re` of the package `regexp`, for which `none` is
(nil, error).  The result `none` is an error, and `some none` is a nil regular expression without an error. -/
def icompile {R : Type} (re : Bytes → Option R) (cache : ICache R) (ptn : Bytes) : ICache R × Option (Option R) :=
  match cache ptn with
  | some r => (cache, some r)
  | none =>
    let p := iregexpString ptn
    match re p with
    | none => (fun q => if q = p then some none else cache q, none)
    | some r => (cache, some (some r))

/-- The cache after compiling some patterns one after the other. -/
def icompileAll {R : Type} (re : Bytes → Option R) (cache : ICache R) : List Bytes → ICache R
  | [] => cache
  | p :: tl => icompileAll re (icompile re cache p).1 tl

/-- The cache at the start. -/
def iempty (R : Type) : ICache R := fun _ => none

end Verif.JPath
