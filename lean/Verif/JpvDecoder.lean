import Verif.JsonDecoder
import Verif.Equality

/-!
# The JPV decoder

Model of `/repo/encoding/jpv/decoder.go` as programs over the scanner, in the same way as the JSON
decoder.
-/

namespace Verif

namespace Jpv
open Prog

/-- The end of a path element after `[`.  Go: `/repo/encoding/jpv/decoder.go:208-210`. -/
def closeElem (b : Byte) (key : Scalar) : Prog Scalar :=
  if b ≠ c%']' then .fail (.plain "syntax error: expected ']'") else .ret key

/-- An element in brackets, after the bracket: a string, or digits.  `ReadDigits` reads the byte after the digits,
so the bytes of an index key include the closing bracket (such a key is never sent).
Go: `/repo/encoding/jpv/decoder.go:179-210`. -/
def bracket (fuel : Nat) : Prog Scalar :=
  pk.bind fun b => (Json.checkEOF b).bind fun b =>
    if b = c%'"' then
      (Json.parseString fuel).bind fun s => Json.rdChk.bind fun b => closeElem b { s with key := true }
    else
      start.bind fun _ => (Json.readDigits fuel 0).bind fun r =>
        if r.2 = 0 then goBack.bind fun _ => Json.unexpected "expected digit, got"
        else finish.bind fun bs => closeElem r.1 { bytes := bs, type := .num, key := true }

/-- The loop over the characters of a dotted key.  Go: `/repo/encoding/jpv/decoder.go:221-234`. -/
def dottedLoop : Nat → Prog Scalar
  | 0 => .oof
  | fuel + 1 => Json.rdChk.bind fun b =>
    if isAlnum b then dottedLoop fuel
    else goBack.bind fun _ => finish.bind fun bs =>
      .ret { bytes := c%'"' :: (bs ++ [c%'"']), type := .str, alnum := true, key := true }

/-- A dotted key, after the dot.  Go: `/repo/encoding/jpv/decoder.go:211-235`. -/
def dotted (fuel : Nat) : Prog Scalar :=
  start.bind fun _ => Json.rdChk.bind fun b =>
    if isAlpha b then dottedLoop fuel
    else goBack.bind fun _ => Json.unexpected "expected a-z/A-Z/_, got"

/-- Go: `parsePath`, `/repo/encoding/jpv/decoder.go:171-241`, with the path so far. -/
def parsePath : Nat → List Scalar → Prog (List Scalar)
  | 0, _ => .oof
  | fuel + 1, path => Json.rdChk.bind fun b =>
    if b = c%'[' then (bracket (fuel + 1)).bind fun k => parsePath fuel (path ++ [k])
    else if b = c%'.' then (dotted (fuel + 1)).bind fun k => parsePath fuel (path ++ [k])
    else goBack.bind fun _ => .ret path

/-- The token that closes the collection a key belongs to.  Go: `/repo/encoding/jpv/decoder.go:124-131`.  (Keys that
are neither strings nor numbers do not occur in paths; Go panics.) -/
def closer (k : Scalar) : Token := if k.type = .str then .endObj else .endArr

/-- Go: `unwindPath`, `/repo/encoding/jpv/decoder.go:121-134`: the tokens sent, from the last key to the first, which
is left out if `inCollection`. -/
def unwind (path : List Scalar) (inCollection : Bool) : List Token :=
  ((if inCollection then path.tail else path).map closer).reverse

/-- Go: `followPath`, `/repo/encoding/jpv/decoder.go:136-153`: the tokens sent. -/
def follow : List Scalar → Bool → List Token
  | [], _ => []
  | k :: ks, inCollection =>
    (if inCollection then [] else [if k.type = .str then .startObj else .startArr]) ++
      ((if k.type = .str then [.scalar k] else []) ++ follow ks false)

/-- The loop of `updatePath` that looks for the first difference; gives what is left of the paths from there.
`newPath[i]` is read before `i` is compared with the length.  Go: `/repo/encoding/jpv/decoder.go:93-110`. -/
def diverge : List Scalar → List Scalar → Prog (List Scalar × List Scalar)
  | [], _ => .fail (.plain "inconsistent path: cannot extend previous path")
  | _ :: _, [] => .crash
  | k :: ks, n :: ns =>
    match scalarEqual k n with
    | none => .crash
    | some true => diverge ks ns
    | some false =>
      if k.type ≠ n.type then .fail (.plain "inconsistent path: key types differ") else .ret (k :: ks, n :: ns)

/-- Send tokens. -/
def sendAll : List Token → Prog Unit
  | [] => .ret ()
  | t :: ts => .emit t (sendAll ts)

/-- Go: `updatePath`, `/repo/encoding/jpv/decoder.go:87-119`.  The caller replaces `lastPath`. -/
def updatePath (last new : List Scalar) : Prog Unit :=
  if last = [] then sendAll (follow new false)
  else (diverge last new).bind fun d => sendAll (unwind d.1 true ++ follow d.2 true)

/-- Go: `parseLine`, `/repo/encoding/jpv/decoder.go:63-82`, up to the value.  Gives the new path. -/
def lineHead (fuel : Nat) (last : List Scalar) : Prog (List Scalar) :=
  (Json.expectByte c%'$').bind fun _ => (parsePath fuel []).bind fun path =>
  skRd.bind fun b => (Json.checkEOF b).bind fun b =>
    if b ≠ c%'=' then goBack.bind fun _ => Json.unexpected "expected '=', got"
    else (updatePath last path).bind fun _ => .ret path

/-- The deferred function of `Produce`: if `p` returns an error, the current path is closed.  It is written at each
place where an error can occur because `lastPath` changes; a panic is not recovered, what is sent while panicking
is not modelled.  Go: `/repo/encoding/jpv/decoder.go:47-49`. -/
def guarded {α : Type} (last : List Scalar) (p : Prog α) : Prog α :=
  p.catch_.bind fun
    | .ok a => .ret a
    | .error e => (sendAll (unwind last false)).bind fun _ => .fail e

/-- Go: `Produce`, `/repo/encoding/jpv/decoder.go:46-61`, and the value at the end of `parseLine`, `:83-85`;
`last` is `lastPath`. -/
def produce (vfuel : Nat) : Nat → List Scalar → Prog Unit
  | 0, _ => .oof
  | fuel + 1, last => (guarded last skPk).bind fun b =>
    if b = eofByte then sendAll (unwind last false)
    else (guarded last (lineHead vfuel last)).bind fun path =>
      (guarded path (Json.parseValue vfuel)).bind fun _ => produce vfuel fuel path

/-- A run of the JPV decoder on a reader, with a buffer of the given size (8192 in Go). -/
def decodeFrom (r : Reader) (size : Nat := 8192) : List Token × Out Unit Unit :=
  (produce (Json.fuelFor r.rest.length) (Json.fuelFor r.rest.length) []).result CScan.machine (CScan.new r size)

end Jpv
end Verif
