import Verif.StrSpec
import Verif.JsonLex
import Verif.JsonGrammar
import Verif.Scanner

/-!
# The JPV format (specification)

Lines `$path = value`, as described in the section "The JPV Format" of `/repo/README.md`, as predicates on byte strings,
independent of the decoder.
-/

namespace Verif.JpvSpec
open Rfc8259

/-- An element of a path, with the key it stands for: a string literal in brackets, an index in brackets (the bytes of
the key are the decoder's, which include the bracket), or a name after a dot. -/
inductive Elem : Scalar → Bytes → Prop
  | quoted {c} : LaxChars c → Elem { strScalar c with key := true } (0x5B :: 0x22 :: (c ++ [0x22, 0x5D]))
  | index {ds} : ds ≠ [] → (∀ d ∈ ds, Digit d) →
      Elem { bytes := ds ++ [0x5D], type := .num, key := true } (0x5B :: (ds ++ [0x5D]))
  | dotted {a as} : isAlpha a = true → (∀ x ∈ as, isAlnum x = true) →
      Elem { bytes := 0x22 :: (a :: as ++ [0x22]), type := .str, alnum := true, key := true } (0x2E :: a :: as)

/-- A path. -/
inductive Path : List Scalar → Bytes → Prop
  | nil : Path [] []
  | cons {k b p bs} : Elem k b → Path p bs → Path (k :: p) (b ++ bs)

/-- The start of a line, up to and including the equal sign. -/
def Head (p : List Scalar) (h : Bytes) : Prop :=
  ∃ b w, Path p b ∧ Ws w ∧ h = 0x24 :: (b ++ (w ++ [0x3D]))

/-- A line: a path and a value. -/
def Line (p : List Scalar) (v : JVal) (l : Bytes) : Prop :=
  ∃ h w t, Head p h ∧ Ws w ∧ Text LaxChars v t ∧ l = h ++ (w ++ t)

/-- Lines (with white space before each of them). -/
inductive Lines : List (List Scalar × JVal) → Bytes → Prop
  | nil : Lines [] []
  | cons {w p v l ls b} : Ws w → Line p v l → Lines ls b → Lines ((p, v) :: ls) (w ++ (l ++ b))

/-- The path of the last line. -/
def lastPath (ls : List (List Scalar × JVal)) : List Scalar := (ls.getLast?.map Prod.fst).getD []

/-- The keys may be the same (string keys are the same if they denote the same string). -/
def SameKey (k n : Scalar) : Prop := k.type = n.type ∧ ∀ s t, StrIs k s → StrIs n t → s = t

/-- The path `p` leads to a container of the place where `last` leads. -/
def Above (p last : List Scalar) : Prop :=
  ∃ a b, last = a ++ b ∧ b ≠ [] ∧ a.length = p.length ∧ ∀ kn ∈ a.zip p, SameKey kn.1 kn.2

/-- A string key denotes a Unicode string; an index has at most fifteen digits. -/
def Sane (k : Scalar) : Prop := (k.type = .str → ∃ s, StrIs k s) ∧ (k.type = .num → k.bytes.length ≤ 16)

/-- No (separated) JSON text is found behind a line head. -/
def InValue (fin : RErr) (D : Bytes) : Prop :=
  ∃ ls d w p h b, Lines ls d ∧ Ws w ∧ Head p h ∧ D = d ++ (w ++ (h ++ b)) ∧
    ∀ w' v t r, Ws w' → Text LaxChars v t → b = w' ++ (t ++ r) → ¬ (isNum v → NumEnd fin r)

/-- The known reasons for a panic. -/
def Panics (D : Bytes) : Prop :=
  ∃ ls d w p pb w' x rest, Lines ls d ∧ Ws w ∧ Path p pb ∧ Ws w' ∧ isSpace x = false ∧
    D = d ++ (w ++ 0x24 :: (pb ++ (w' ++ x :: rest))) ∧
    (x ≠ 0x3D ∨ (Above p (lastPath ls) ∨ ∃ k ∈ lastPath ls ++ p, ¬ Sane k))

/-- Only lines have been accepted. -/
def Accepted (fin : RErr) (D : Bytes) : Prop :=
  ∃ ls d w r, Lines ls d ∧ Ws w ∧ D = d ++ (w ++ r) ∧ (r = [] ∧ fin = .eof ∨ ∃ r', r = eofByte :: r')

theorem Lines.snoc {ls : List (List Scalar × JVal)} {d w l : Bytes} {p : List Scalar} {v : JVal} (h : Lines ls d)
    (hw : Ws w) (hl : Line p v l) : Lines (ls ++ [(p, v)]) (d ++ (w ++ l)) := by
  induction h with
  | nil => simpa using Lines.cons hw hl .nil
  | cons h1 h2 _ ih => simpa using Lines.cons h1 h2 ih

theorem lastPath_snoc (ls : List (List Scalar × JVal)) (p : List Scalar) (v : JVal) : lastPath (ls ++ [(p, v)]) = p := by
  simp [lastPath]

end Verif.JpvSpec
