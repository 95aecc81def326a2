import Verif.Bytes

/-!
# Guessing the input format

Model of `/repo/cmd/jp/main.go:285-319`.
-/

namespace Verif.Cmd

/-- Regular expressions over bytes. -/
inductive Re
  | never
  | eps
  | cls (p : Byte → Bool)
  | seq (a b : Re)
  | alt (a b : Re)
  | star (a : Re)

namespace Re

/-- Does it match the empty string? -/
def nullable : Re → Bool
  | .never => false
  | .eps => true
  | .cls _ => false
  | .seq a b => a.nullable && b.nullable
  | .alt a b => a.nullable || b.nullable
  | .star _ => true

/-- What is left to match after a byte. -/
def deriv (c : Byte) : Re → Re
  | .never => .never
  | .eps => .never
  | .cls p => if p c then .eps else .never
  | .seq a b => if a.nullable then .alt (.seq (a.deriv c) b) (b.deriv c) else .seq (a.deriv c) b
  | .alt a b => .alt (a.deriv c) (b.deriv c)
  | .star a => .seq (a.deriv c) (.star a)

/-- Does it match the whole string? -/
def full (r : Re) : Bytes → Bool
  | [] => r.nullable
  | b :: s => (r.deriv b).full s

/-- One or more. -/
def plus (r : Re) : Re := .seq r (.star r)
/-- Zero or one. -/
def opt (r : Re) : Re := .alt r .eps
/-- A byte. -/
def lit (b : Byte) : Re := .cls (· == b)
/-- Anything. -/
def any : Re := .star (.cls fun _ => true)

end Re

open Re

/-- `[a-zA-Z][a-zA-Z_0-9-]*`. -/
def colRe : Re := .seq (.cls fun b => (c%'a' ≤ b && b ≤ c%'z') || (c%'A' ≤ b && b ≤ c%'Z'))
  (.star (.cls fun b => (c%'a' ≤ b && b ≤ c%'z') || (c%'A' ≤ b && b ≤ c%'Z') || b == c%'_' || (c%'0' ≤ b && b ≤ c%'9') || b == c%'-'))

/-- `(\n|,?$)`, followed by anything where the pattern does not say that it is the end. -/
def lineEnd : Re := .alt (.seq (lit 10) any) (opt (lit c%','))

/-- `[^,"\n]*`. -/
def bareRe : Re := .star (.cls fun b => !(b == c%',' || b == c%'"' || b == 10))
/-- `("[^"]*")`. -/
def quotedRe : Re := .seq (lit c%'"') (.seq (.star (.cls fun b => !(b == c%'"'))) (lit c%'"'))

/-- Go: `formatGuessers`, `/repo/cmd/jp/main.go:305-310`.  The patterns are anchored at the start only; so they are completed with
`any` where they do not end with `$`.  (In negated classes, a character that is not ASCII is matched as several bytes.) -/
def guessers : List (Bytes × Re) :=
  [(b%"jpv", .eps),
   (b%"json", .seq (.cls fun b => b == c%'{' || b == c%'[') any),
   (b%"csv-with-header", .seq colRe (.seq (plus (.seq (lit c%',') colRe)) lineEnd)),
   (b%"csv", .seq (.alt bareRe quotedRe) (.seq (plus (.alt (.seq (lit c%',') bareRe) (.seq (lit c%',') quotedRe))) lineEnd))]

/-- Go: `guessFormat`, `/repo/cmd/jp/main.go:312-319`; empty if no format fits. -/
def guessFormat (start : Bytes) : Bytes :=
  match guessers.find? (fun g => g.2.full start) with
  | some g => g.1
  | none => []

/-- Go: the choice of the input format, `/repo/cmd/jp/main.go:145-161`, with the bytes that the first read gives (at most 40);
`none` is the end with an error. -/
def inputFormat (first : Bytes) : Option Bytes :=
  if first = [] then none else if guessFormat first = [] then none else some (guessFormat first)

end Verif.Cmd
