import Verif.StrSpec

/-!
# I-Regexp: grammar and meaning (specification)

RFC 9485.  Patterns and strings are lists of characters (Unicode scalar values).
-/

namespace Verif

open Lean in
/-- The code of an ASCII character, as a numeral. -/
macro:max "n%" c:char : term => do
  let n := c.getChar.toNat
  `(($(quote n) : Nat))

open Lean in
/-- The codes of the characters of a string, as a list of numerals. -/
macro:max "u%" s:str : term => do
  let cs := s.getString.toList.map (fun c => c.toNat)
  let elems ← cs.mapM (fun n => `(($(quote n) : Nat)))
  let arr := elems.toArray
  `(([$arr,*] : List Nat))

namespace Rfc9485

/-- A part of a character class: the characters from `lo` to `hi`, or those of a general category of Unicode (with `neg`: the others). -/
inductive Item
  | range (lo hi : Nat)
  | cat (neg : Bool) (name : List Nat)

/-- Regular expressions: one character of a class (with `neg`: one that is not in it), the empty string, concatenation, alternatives,
repetitions. -/
inductive Re
  | set (neg : Bool) (items : List Item)
  | eps
  | cat (a b : Re)
  | alt (a b : Re)
  | rep (lo : Nat) (hi : Option Nat) (r : Re)

section Meaning
-- The general categories of Unicode: the characters of the category with a name.
variable (gc : List Nat → Nat → Prop)

/-- The characters of a part of a class. -/
def Item.Has : Item → Nat → Prop
  | .range lo hi, c => lo ≤ c ∧ c ≤ hi
  | .cat neg n, c => gc n c ↔ neg = false

/-- The strings that match. -/
def Lang : Re → List Nat → Prop
  | .set neg items, s => ∃ c, s = [c] ∧ ((∃ i ∈ items, i.Has gc c) ↔ neg = false)
  | .eps, s => s = []
  | .cat a b, s => ∃ x y, s = x ++ y ∧ Lang a x ∧ Lang b y
  | .alt a b, s => Lang a s ∨ Lang b s
  | .rep lo hi r, s => ∃ ws : List (List Nat), s = ws.flatten ∧ lo ≤ ws.length ∧ (∀ m, hi = some m → ws.length ≤ m) ∧ ∀ w ∈ ws, Lang r w

end Meaning

/-! ## Grammar -/

/-- `NormalChar` -/
def NormalChar (c : Nat) : Prop :=
  c ≤ 0x27 ∨ c = n%',' ∨ c = n%'-' ∨ (0x2F ≤ c ∧ c ≤ 0x3E) ∨ (0x40 ≤ c ∧ c ≤ 0x5A) ∨ (0x5E ≤ c ∧ c ≤ 0x7A) ∨ (0x7E ≤ c ∧ c ≤ 0xD7FF) ∨
    (0xE000 ≤ c ∧ c ≤ 0x10FFFF)

/-- `SingleCharEsc`, after the backslash, and the character. -/
def SingleEsc (e c : Nat) : Prop :=
  (((0x28 ≤ e ∧ e ≤ 0x2B) ∨ e = n%'-' ∨ e = n%'.' ∨ e = n%'?' ∨ (0x5B ≤ e ∧ e ≤ 0x5E) ∨ (0x7B ≤ e ∧ e ≤ 0x7D)) ∧ c = e) ∨
    (e = n%'n' ∧ c = 0x0A) ∨ (e = n%'r' ∧ c = 0x0D) ∨ (e = n%'t' ∧ c = 0x09)

/-- `IsCategory` -/
def categories : List (List Nat) :=
  [u%"L", u%"Ll", u%"Lm", u%"Lo", u%"Lt", u%"Lu", u%"M", u%"Mc", u%"Me", u%"Mn", u%"N", u%"Nd", u%"Nl", u%"No",
    u%"P", u%"Pc", u%"Pd", u%"Pe", u%"Pf", u%"Pi", u%"Po", u%"Ps", u%"Z", u%"Zl", u%"Zp", u%"Zs",
    u%"S", u%"Sc", u%"Sk", u%"Sm", u%"So", u%"C", u%"Cc", u%"Cf", u%"Cn", u%"Co"]

/-- `charClassEsc` -/
inductive CatEsc : List Nat → Item → Prop
  | cat {n} : n ∈ categories → CatEsc (u%"\\p{" ++ n ++ u%"}") (.cat false n)
  | compl {n} : n ∈ categories → CatEsc (u%"\\P{" ++ n ++ u%"}") (.cat true n)

/-- `CCchar` -/
inductive CCchar : List Nat → Nat → Prop
  | plain {c} : c ≤ 0x2C ∨ (0x2E ≤ c ∧ c ≤ 0x5A) ∨ (0x5E ≤ c ∧ c ≤ 0xD7FF) ∨ (0xE000 ≤ c ∧ c ≤ 0x10FFFF) → CCchar [c] c
  | esc {e c} : SingleEsc e c → CCchar [n%'\\', e] c

/-- `CCE1`.  The end of a range is not before its start. -/
inductive CCE1 : List Nat → Item → Prop
  | char {t c} : CCchar t c → CCE1 t (.range c c)
  | range {t u lo hi} : CCchar t lo → CCchar u hi → lo ≤ hi → CCE1 (t ++ n%'-' :: u) (.range lo hi)
  | cat {t i} : CatEsc t i → CCE1 t i

/-- `*CCE1 [ "-" ]` -/
inductive CCE1s : List Nat → List Item → Prop
  | nil : CCE1s [] []
  | dash : CCE1s [n%'-'] [.range n%'-' n%'-']
  | cons {t i u l} : CCE1 t i → CCE1s u l → CCE1s (t ++ u) (i :: l)

/-- `( "-" / CCE1 ) *CCE1 [ "-" ]` -/
inductive ClassBody : List Nat → List Item → Prop
  | dash {u l} : CCE1s u l → ClassBody (n%'-' :: u) (.range n%'-' n%'-' :: l)
  | item {t i u l} : CCE1 t i → CCE1s u l → ClassBody (t ++ u) (i :: l)

/-- `charClassExpr`.  The grammar of the RFC is ambiguous for classes that begin with `^`; as in XML Schema regular expressions the `^` then
stands for the complement. -/
inductive ClassExpr : List Nat → Re → Prop
  | pos {t l} : ClassBody t l → t.head? ≠ some n%'^' → ClassExpr (n%'[' :: (t ++ [n%']'])) (.set false l)
  | neg {t l} : ClassBody t l → ClassExpr (n%'[' :: n%'^' :: (t ++ [n%']'])) (.set true l)

/-- `QuantExact` and its value. -/
def QuantExact (ds : List Nat) (n : Nat) : Prop :=
  ds ≠ [] ∧ (∀ d ∈ ds, 0x30 ≤ d ∧ d ≤ 0x39) ∧ n = ds.foldl (fun n d => 10 * n + (d - 0x30)) 0

/-- `quantifier`: the least and the greatest number of repetitions. -/
inductive Quantifier : List Nat → Nat → Option Nat → Prop
  | star : Quantifier u%"*" 0 none
  | plus : Quantifier u%"+" 1 none
  | opt : Quantifier u%"?" 0 (some 1)
  | exact {ds n} : QuantExact ds n → Quantifier (n%'{' :: (ds ++ u%"}")) n (some n)
  | atLeast {ds n} : QuantExact ds n → Quantifier (n%'{' :: (ds ++ u%",}")) n none
  | between {ds n es m} : QuantExact ds n → QuantExact es m → Quantifier (n%'{' :: (ds ++ n%',' :: (es ++ u%"}"))) n (some m)

/-- A literal character. -/
def Re.char (c : Nat) : Re := .set false [.range c c]

/-- The dot: all characters except line feed and carriage return. -/
def Re.dot : Re := .set true [.range 0x0A 0x0A, .range 0x0D 0x0D]

mutual
/-- `i-regexp` -/
inductive IRegexp : List Nat → Re → Prop
  | one {t r} : Branch t r → IRegexp t r
  | more {t r u r'} : Branch t r → IRegexp u r' → IRegexp (t ++ n%'|' :: u) (.alt r r')
/-- `branch` -/
inductive Branch : List Nat → Re → Prop
  | nil : Branch [] .eps
  | cons {t r u r'} : Piece t r → Branch u r' → Branch (t ++ u) (.cat r r')
/-- `piece` -/
inductive Piece : List Nat → Re → Prop
  | atom {t r} : Atom t r → Piece t r
  | quant {t r q lo hi} : Atom t r → Quantifier q lo hi → Piece (t ++ q) (.rep lo hi r)
/-- `atom` -/
inductive Atom : List Nat → Re → Prop
  | normal {c} : NormalChar c → Atom [c] (.char c)
  | dot : Atom u%"." .dot
  | esc {e c} : SingleEsc e c → Atom [n%'\\', e] (.char c)
  | cat {t i} : CatEsc t i → Atom t (.set false [i])
  | cls {t r} : ClassExpr t r → Atom t r
  | group {t r} : IRegexp t r → Atom (n%'(' :: (t ++ u%")")) r
end

/-! ## Deterministic patterns -/

section
variable (gc : List Nat → Nat → Prop)

/-- The empty string matches. -/
def Nullable (r : Re) : Prop := Lang gc r []

/-- A string that starts with this character matches. -/
def First (r : Re) (c : Nat) : Prop := ∃ w, Lang gc r (c :: w)

/-- The next character decides which alternative is taken, and whether something is repeated once more, when only the characters `F` follow. -/
def Deterministic : Re → (F : Nat → Prop) → Prop
  | .set _ _, _ => True
  | .eps, _ => True
  | .cat a b, F => Deterministic a (fun c => First gc b c ∨ Nullable gc b ∧ F c) ∧ Deterministic b F
  | .alt a b, F => ¬ Nullable gc a ∧ (∀ c, First gc a c → ¬ (First gc b c ∨ Nullable gc b ∧ F c)) ∧ Deterministic a F ∧ Deterministic b F
  | .rep lo hi r, F => (hi ≠ some lo → ¬ Nullable gc r ∧ ∀ c, First gc r c → ¬ F c) ∧ Deterministic r fun c => First gc r c ∨ F c

end

/-- The repetitions are `*`, `+` and `?` only (or the same with numbers), and the names of categories are known. -/
def Uncounted (known : List Nat → Prop) : Re → Prop
  | .set _ items => ∀ neg n, Item.cat neg n ∈ items → known n
  | .eps => True
  | .cat a b => Uncounted known a ∧ Uncounted known b
  | .alt a b => Uncounted known a ∧ Uncounted known b
  | .rep lo hi r => (lo = 0 ∧ hi = none ∨ lo = 1 ∧ hi = none ∨ lo = 0 ∧ hi = some 1) ∧ Uncounted known r

/-! ## Portable patterns -/

/-- Where a character of a pattern is. -/
inductive Place
  | out | escaped | cls | clsEscaped | braces

/-- A number with a zero before other digits. -/
def leadingZero : List Nat → Bool
  | 0x30 :: d :: _ => decide (0x30 ≤ d ∧ d ≤ 0x39)
  | _ => false

/-- The pattern has no characters `^` and `$` that stand for themselves outside of classes, and no repetition has a number with leading
zeros.  (Section 5 of the RFC: in other dialects the two characters are anchors.) -/
def portable : Place → List Nat → Bool
  | _, [] => true
  | .out, c :: t =>
    if c = n%'\\' then portable .escaped t
    else if c = n%'[' then portable .cls t
    else if c = n%'{' then !leadingZero t && portable .braces t
    else c ≠ n%'^' && c ≠ n%'$' && portable .out t
  | .escaped, _ :: t => portable .out t
  | .cls, c :: t =>
    if c = n%'\\' then portable .clsEscaped t
    else if c = n%']' then portable .out t
    else portable .cls t
  | .clsEscaped, _ :: t => portable .cls t
  | .braces, c :: t =>
    if c = n%'}' then portable .out t
    else !(c = n%',' && leadingZero t) && portable .braces t

/-- The strings, in UTF-8, that match an I-Regexp in UTF-8; `none` if it is none. -/
noncomputable def iregexp (gc : List Nat → Nat → Prop) (p : Bytes) : Option (Bytes → Prop) :=
  open Classical in
  if ∃ t r, Chars p t ∧ IRegexp t r then some fun s => ∃ t r cs, Chars p t ∧ IRegexp t r ∧ Chars s cs ∧ Lang gc r cs else none

end Rfc9485
end Verif
