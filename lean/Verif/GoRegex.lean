import Verif.IRegexp
import Verif.GoJson

/-!
# Regular expressions of Go

Model of the part of the standard library that `/repo/internal/jsonpath/iregexp/iregexp.go:51` and
`/repo/transform/jsonpath/function.go:162-171` call: `regexp.Compile` (the parser of `regexp/syntax` with the flags `Perl`), and
`FindIndex`, `FindStringIndex` (leftmost-first matching).  The library is not in the repository; the model follows its documentation and its
published source.  What is not modelled ends in `unmodelled`: flags `(?`, repetitions that are not greedy, escapes with digits, `\x`, `\d`,
`\s`, `\w`, `\b` and the like, `[:name:]`.  The library also rewrites the expressions that it reads (common prefixes of alternatives, and so
on), which is supposed to keep their meaning.
-/

namespace Verif.GoRe

/-- Go: `syntax.Regexp`.  A class is a list of sets of characters.  `bot` and `eot` are the start and the end of the text. -/
inductive Re
  | set (neg : Bool) (items : List (Nat → Bool))
  | bot
  | eot
  | eps
  | cat (a b : Re)
  | alt (a b : Re)
  | rep (lo : Nat) (hi : Option Nat) (r : Re)

/-- An error of the library, or something that is not modelled. -/
inductive Err
  | rejected
  | unmodelled
  deriving DecidableEq

/-- The characters from `lo` to `hi`. -/
def rng (lo hi : Nat) : Nat → Bool := fun c => decide (lo ≤ c) && decide (c ≤ hi)

/-- A literal. -/
def lit (c : Nat) : Re := .set false [rng c c]

/-- Go: `isalnum`. -/
def alnum (c : Nat) : Bool := (0x30 ≤ c && c ≤ 0x39) || (0x41 ≤ c && c ≤ 0x5A) || (0x61 ≤ c && c ≤ 0x7A)

/-- Go: `parseEscape`, after the backslash. -/
def parseEscape : List Nat → Except Err (Nat × List Nat)
  | [] => .error .rejected
  | c :: t =>
    if c < 0x80 && !alnum c then .ok (c, t)
    else if c = 0x6E then .ok (0x0A, t)
    else if c = 0x72 then .ok (0x0D, t)
    else if c = 0x74 then .ok (0x09, t)
    else if c = 0x61 then .ok (0x07, t)
    else if c = 0x66 then .ok (0x0C, t)
    else if c = 0x76 then .ok (0x0B, t)
    else if c = 0x78 || (0x30 ≤ c && c ≤ 0x37) then .error .unmodelled
    else .error .rejected

/-- Go: `parseUnicodeClass`, after `\p` or `\P`; `tab` is `unicodeTable`. -/
def parseProp (tab : List Nat → Option (Nat → Bool)) (neg : Bool) : List Nat → Except Err ((Nat → Bool) × List Nat)
  | [] => .error .rejected
  | c :: t =>
    let (name, rest) := if c = 0x7B then (t.takeWhile (· ≠ 0x7D), t.dropWhile (· ≠ 0x7D)) else ([c], 0x7D :: t)
    match rest with
    | [] => .error .rejected
    | _ :: rest =>
      let (neg, name) := if name.head? = some 0x5E then (!neg, name.tail) else (neg, name)
      match tab name with
      | none => .error .rejected
      | some f => .ok (fun c => f c != neg, rest)

/-- Go: `parseClassChar`. -/
def parseClassChar : List Nat → Except Err (Nat × List Nat)
  | [] => .error .rejected
  | c :: t => if c = 0x5C then parseEscape t else .ok (c, t)

/-- The classes `\d`, `\s`, `\w` and their complements. -/
def perlClass (c : Nat) : Bool := c = 0x64 || c = 0x73 || c = 0x77 || c = 0x44 || c = 0x53 || c = 0x57

/-- Go: `parsePerlClassEscape`, `parseUnicodeClass`, single characters and ranges in `parseClass`. -/
def parseItem (tab : List Nat → Option (Nat → Bool)) (t : List Nat) : Except Err ((Nat → Bool) × List Nat) :=
  match t with
  | 0x5C :: 0x70 :: u => parseProp tab false u
  | 0x5C :: 0x50 :: u => parseProp tab true u
  | t =>
    if t.head? = some 0x5C && t.tail.head?.any perlClass then .error .unmodelled
    else if t.head? = some 0x5B && t.tail.head? = some 0x3A then .error .unmodelled
    else match parseClassChar t with
      | .error e => .error e
      | .ok (lo, u) =>
        if u.head? = some 0x2D && u.tail.head?.any (· ≠ 0x5D) then
          match parseClassChar u.tail with
          | .error e => .error e
          | .ok (hi, v) => if hi < lo then .error .rejected else .ok (rng lo hi, v)
        else .ok (rng lo lo, u)

/-- Go: the loop of `parseClass`; the first number bounds the rounds. -/
def classLoop (tab : List Nat → Option (Nat → Bool)) : Nat → Bool → List Nat → Except Err (List (Nat → Bool) × List Nat)
  | 0, _, _ => .error .unmodelled
  | f + 1, first, t =>
    if t.head? = some 0x5D && !first then .ok ([], t.tail)
    else match parseItem tab t with
      | .error e => .error e
      | .ok (i, u) =>
        match classLoop tab f false u with
        | .error e => .error e
        | .ok (l, v) => .ok (i :: l, v)

/-- Go: `parseClass`, after `[`.  With the flag `ClassNL`, which `Perl` contains, complements have the line feed. -/
def parseClass (tab : List Nat → Option (Nat → Bool)) (t : List Nat) : Except Err (Re × List Nat) :=
  let neg := t.head? = some 0x5E
  let u := if neg then t.tail else t
  match classLoop tab (u.length + 1) true u with
  | .error e => .error e
  | .ok (l, v) => .ok (.set neg l, v)

/-- A decimal digit. -/
def digit (c : Nat) : Bool := 0x30 ≤ c && c ≤ 0x39

/-- Go: `parseInt`: the digits are not empty, and do not begin with 0 unless that is the only one.  Numbers that are too big are -1 in the
library; here they are as they are (both are rejected later). -/
def parseInt (t : List Nat) : Option (Nat × List Nat) :=
  match t.takeWhile digit with
  | [] => none
  | d :: ds => if d = 0x30 && !ds.isEmpty then none else some ((d :: ds).foldl (fun n d => 10 * n + (d - 0x30)) 0, t.dropWhile digit)

/-- Go: `parseRepeat`, after `{`. -/
def parseRepeat (t : List Nat) : Option (Nat × Option Nat × List Nat) :=
  match parseInt t with
  | none => none
  | some (lo, u) =>
    if u.head? = some 0x7D then some (lo, some lo, u.tail)
    else if u.head? = some 0x2C then
      if u.tail.head? = some 0x7D then some (lo, none, u.tail.tail)
      else match parseInt u.tail with
        | none => none
        | some (hi, v) => if v.head? = some 0x7D then some (lo, some hi, v.tail) else none
    else none

/-- Go: `repeatIsValid`. -/
def repeatValid : Nat → Re → Bool
  | n, .cat a b => repeatValid n a && repeatValid n b
  | n, .alt a b => repeatValid n a && repeatValid n b
  | n, .rep lo hi r =>
    let m := hi.getD lo
    if hi = some 0 then true
    else if n < m then false
    else repeatValid (if 0 < m then n / m else n) r
  | _, _ => true

/-- What is between two parentheses, as far as it was read: the branches before, and the pieces of this branch, the last ones first. -/
structure Frame where
  alts : List Re := []
  cur : List Re := []

/-- Go: `concat`. -/
def Frame.branch (f : Frame) : Re := f.cur.foldl (fun acc r => .cat r acc) .eps

/-- Go: `alternate`. -/
def Frame.done (f : Frame) : Re := f.alts.foldl (fun acc r => .alt r acc) f.branch

/-- One more piece. -/
def Frame.push (f : Frame) (r : Re) : Frame := { f with cur := r :: f.cur }

/-- The escapes with special meanings outside of classes: `\A`, `\b`, `\B`, `\C`, `\Q`, `\z`. -/
def special (c : Nat) : Bool := c = 0x41 || c = 0x62 || c = 0x42 || c = 0x43 || c = 0x51 || c = 0x7A

/-- Go: `repeat`. -/
def repeatLast (fr : Frame) (last : Bool) (lo : Nat) (hi : Option Nat) (t : List Nat) : Except Err Frame :=
  if t.head? = some 0x3F then .error .unmodelled
  else if last then .error .rejected
  else match fr.cur with
    | [] => .error .rejected
    | r :: l => if repeatValid 1000 (.rep lo hi r) then .ok { fr with cur := .rep lo hi r :: l } else .error .rejected

/-- The state of the loop of `parse`: the current frame, those of the open parentheses, and whether a repetition was read last. -/
structure State where
  fr : Frame := {}
  st : List Frame := []
  last : Bool := false

/-- One more piece was read. -/
def State.push (s : State) (r : Re) : State := { s with fr := s.fr.push r, last := false }

/-- A repetition was read, and `t` follows. -/
def State.repeat (s : State) (lo : Nat) (hi : Option Nat) (t : List Nat) : Except Err (State × List Nat) :=
  match repeatLast s.fr s.last lo hi t with
  | .error e => .error e
  | .ok fr => .ok ({ s with fr := fr, last := true }, t)

/-- Go: one round of the loop of `parse` at the character `c`, before `t`. -/
def step (tab : List Nat → Option (Nat → Bool)) (s : State) (c : Nat) (t : List Nat) : Except Err (State × List Nat) :=
  if c = 0x28 then
    if t.head? = some 0x3F then .error .unmodelled else .ok (⟨{}, s.fr :: s.st, false⟩, t)
  else if c = 0x7C then .ok (⟨⟨s.fr.branch :: s.fr.alts, []⟩, s.st, false⟩, t)
  else if c = 0x29 then
    match s.st with
    | [] => .error .rejected
    | g :: st => .ok (⟨g.push s.fr.done, st, false⟩, t)
  else if c = 0x5E then .ok (s.push .bot, t)
  else if c = 0x24 then .ok (s.push .eot, t)
  else if c = 0x2E then .ok (s.push (.set true [rng 0x0A 0x0A]), t)
  else if c = 0x5B then
    match parseClass tab t with
    | .error e => .error e
    | .ok (r, u) => .ok (s.push r, u)
  else if c = 0x2A then s.repeat 0 none t
  else if c = 0x2B then s.repeat 1 none t
  else if c = 0x3F then s.repeat 0 (some 1) t
  else if c = 0x7B then
    match parseRepeat t with
    | none => .ok (s.push (lit c), t)
    | some (lo, hi, u) => if 1000 < lo || hi.any (1000 < ·) || hi.any (· < lo) then .error .rejected else s.repeat lo hi u
  else if c = 0x5C then
    if t.head?.any fun d => special d || perlClass d then .error .unmodelled
    else if t.head? = some 0x70 || t.head? = some 0x50 then
      match parseProp tab (t.head? = some 0x50) t.tail with
      | .error e => .error e
      | .ok (i, u) => .ok (s.push (.set false [i]), u)
    else match parseEscape t with
      | .error e => .error e
      | .ok (d, u) => .ok (s.push (lit d), u)
  else .ok (s.push (lit c), t)

/-- Go: the loop of `parse`; the first number bounds the rounds. -/
def loop (tab : List Nat → Option (Nat → Bool)) : Nat → State → List Nat → Except Err Re
  | 0, _, _ => .error .unmodelled
  | _ + 1, s, [] => if s.st.isEmpty then .ok s.fr.done else .error .rejected
  | f + 1, s, c :: t =>
    match step tab s c t with
    | .error e => .error e
    | .ok (s, t) => loop tab f s t

/-- Go: `syntax.Parse`. -/
def parse (tab : List Nat → Option (Nat → Bool)) (t : List Nat) : Except Err Re := loop tab (t.length + 1) {} t

/-! ## Matching -/

section
variable (m : List Nat → List (List Nat))

/-- The rest after `n` copies. -/
def copies : Nat → List Nat → List (List Nat)
  | 0, s => [s]
  | n + 1, s => (m s).flatMap (copies n)

/-- The rest after at most `n` copies; more are preferred. -/
def atMost : Nat → List Nat → List (List Nat)
  | 0, s => [s]
  | n + 1, s => (m s).flatMap (atMost n) ++ [s]

/-- The rest after one or more copies; more are preferred, but a copy of the empty string is the last one.  The number bounds the copies. -/
def plus : Nat → List Nat → List (List Nat)
  | 0, _ => []
  | f + 1, s => (m s).flatMap fun s' => (if s'.length < s.length then plus f s' else []) ++ [s']

end

/-- What is left of the text after a match at its start, the preferred ones first; `n` is the length of the whole text.  This is the meaning of
leftmost-first matching in the documentation of `regexp/syntax`: "prefer x over y", "prefer more".  `x{n,}` is `x…x` with `x+` for the last
one, and `x{n,m}` is `n` copies followed by nested `x?`. -/
def ends (n : Nat) : Re → List Nat → List (List Nat)
  | .set neg items, s =>
    match s with
    | [] => []
    | c :: s => if (items.any fun i => i c) != neg then [s] else []
  | .bot, s => if s.length = n then [s] else []
  | .eot, s => if s.isEmpty then [s] else []
  | .eps, s => [s]
  | .cat a b, s => (ends n a s).flatMap (ends n b)
  | .alt a b, s => ends n a s ++ ends n b s
  | .rep lo (some hi) r, s => (copies (ends n r) lo s).flatMap (atMost (ends n r) (hi - lo))
  | .rep 0 none r, s => plus (ends n r) (s.length + 1) s ++ [s]
  | .rep (lo + 1) none r, s => (copies (ends n r) lo s).flatMap fun s => plus (ends n r) (s.length + 1) s

/-- The leftmost match: the characters before its start and before its end. -/
def findFrom (r : Re) (n : Nat) : List Nat → Option (Nat × Nat)
  | [] => (ends n r []).head?.map fun e => (n, n - e.length)
  | c :: s =>
    match ends n r (c :: s) with
    | e :: _ => some (n - (c :: s).length, n - e.length)
    | [] => findFrom r n s

/-- The characters of a text with their sizes; a byte that is not part of a valid sequence is U+FFFD.  The number bounds the characters. -/
def runes : Nat → Bytes → List (Nat × Nat)
  | 0, _ => []
  | _ + 1, [] => []
  | f + 1, b :: r =>
    let x := (Utf8.decode (b :: r)).getD (0xFFFD, 1)
    x :: runes f ((b :: r).drop x.2)

/-- Go: `FindIndex`, `FindStringIndex`. -/
def find (r : Re) (s : Bytes) : Option (Nat × Nat) :=
  let l := runes s.length s
  let off := fun i => ((l.take i).map (·.2)).sum
  (findFrom r l.length (l.map (·.1))).map fun p => (off p.1, off p.2)

/-- The characters of a pattern; `none` if it is not UTF-8.  The number bounds the characters. -/
def pattern : Nat → Bytes → Option (List Nat)
  | _, [] => some []
  | 0, _ :: _ => none
  | f + 1, b :: r =>
    match Utf8.decode (b :: r) with
    | none => none
    | some (c, n) => (pattern f ((b :: r).drop n)).map (c :: ·)

/-- Go: `iregexp.Compile` with an empty cache, `/repo/internal/jsonpath/iregexp/iregexp.go:43-54`, and `FindIndex`.  The parameters are the
tables of Unicode, which expressions are small enough for the library, and what it does with patterns that are not modelled. -/
def regex (tab : List Nat → Option (Nat → Bool)) (small : Re → Bool) (other : Bytes → Option (Bytes → Option (Nat × Nat))) (p : Bytes) :
    Option (Bytes → Option (Nat × Nat)) :=
  let q := JPath.iregexpString p
  match pattern q.length q with
  | none => none
  | some t =>
    match parse tab t with
    | .error .rejected => none
    | .error .unmodelled => other p
    | .ok r => if small r then some (find r) else none

end Verif.GoRe
