import Verif.Bytes

/-!
# Tokens and values

Model of `/repo/token/tokens.go` (token types, scalar flags), and the values that
well-formed token streams denote.
-/

namespace Verif

/-- Go: `ScalarType`, `/repo/token/tokens.go:205-212`. -/
inductive SType | null | bool | num | str
  deriving DecidableEq, Repr

/-- Go: `Scalar`, `/repo/token/tokens.go:95-105`.  The packed field `TypeAndFlags` is
represented by its type and its three flags (see `Verif.Flags` for the packed form). -/
structure Scalar where
  bytes : Bytes
  type : SType
  key : Bool := false
  alnum : Bool := false
  unesc : Bool := false
  deriving DecidableEq, Repr

/-- Go: the implementations of `Token`, `/repo/token/tokens.go:32-105`.  Tokens are
pointers in Go; the model identifies tokens with equal contents. -/
inductive Token
  | startObj | endObj | startArr | endArr | elision
  | scalar (s : Scalar)
  deriving DecidableEq, Repr

namespace Token
/-- `StartArray` or `StartObject`. -/
def isStart : Token → Bool
  | startObj | startArr => true
  | _ => false
/-- `EndArray` or `EndObject`. -/
def isEnd : Token → Bool
  | endObj | endArr => true
  | _ => false
end Token

/-- Specification: JSON values, with collections possibly elided at their end.
Object keys are scalars. -/
inductive JVal where
  | scalar (s : Scalar)
  | arr (items : List JVal) (elided : Bool)
  | obj (members : List (Scalar × JVal)) (elided : Bool)
  deriving Repr

/-- Specification: the token that marks an elided tail, if any. -/
def elisionToks (e : Bool) : List Token := if e then [.elision] else []

/-- Specification: the token sequence of a value. -/
def JVal.toks : JVal → List Token
  | .scalar s => [.scalar s]
  | .arr items e => .startArr :: (itemToks items ++ elisionToks e ++ [.endArr])
  | .obj ms e => .startObj :: (memberToks ms ++ elisionToks e ++ [.endObj])
where
  /-- Token sequence of a list of values. -/
  itemToks : List JVal → List Token
    | [] => []
    | v :: vs => v.toks ++ itemToks vs
  /-- Token sequence of a list of object members. -/
  memberToks : List (Scalar × JVal) → List Token
    | [] => []
    | (k, v) :: ms => .scalar k :: (v.toks ++ memberToks ms)

/-- Specification: the token sequence of a stream of values. -/
def streamToks (vs : List JVal) : List Token := JVal.toks.itemToks vs

open JVal.toks

@[simp] theorem itemToks_nil : itemToks [] = [] := by simp [itemToks]
@[simp] theorem itemToks_cons (v vs) : itemToks (v :: vs) = v.toks ++ itemToks vs := by
  simp [itemToks]
@[simp] theorem memberToks_nil : memberToks [] = [] := by simp [memberToks]
@[simp] theorem memberToks_cons (k v ms) :
    memberToks ((k, v) :: ms) = .scalar k :: (v.toks ++ memberToks ms) := by simp [memberToks]
@[simp] theorem toks_scalar (s) : (JVal.scalar s).toks = [.scalar s] := by simp [JVal.toks]
@[simp] theorem toks_arr (l e) :
    (JVal.arr l e).toks = .startArr :: (itemToks l ++ elisionToks e ++ [.endArr]) := by
  simp [JVal.toks]
@[simp] theorem toks_obj (l e) :
    (JVal.obj l e).toks = .startObj :: (memberToks l ++ elisionToks e ++ [.endObj]) := by
  simp [JVal.toks]

theorem itemToks_append (l m) : itemToks (l ++ m) = itemToks l ++ itemToks m := by
  induction l <;> simp_all
theorem memberToks_append (l m) : memberToks (l ++ m) = memberToks l ++ memberToks m := by
  induction l with
  | nil => simp
  | cons a l ih => obtain ⟨k, v⟩ := a; simp_all
@[simp] theorem streamToks_nil : streamToks [] = [] := by simp [streamToks]
@[simp] theorem streamToks_cons (v vs) : streamToks (v :: vs) = v.toks ++ streamToks vs := by
  simp [streamToks]
theorem streamToks_append (l m) : streamToks (l ++ m) = streamToks l ++ streamToks m :=
  itemToks_append l m

/-- Specification: a well-formed stream is a concatenation of complete values. -/
def WellFormed (ts : List Token) : Prop := ∃ vs, ts = streamToks vs

/-- Induction over values: a motive for values follows from its truth for scalars, and
for collections all of whose children satisfy it. -/
theorem JVal.induct {motive : JVal → Prop}
    (scalar : ∀ s, motive (.scalar s))
    (arr : ∀ items e, (∀ v ∈ items, motive v) → motive (.arr items e))
    (obj : ∀ ms e, (∀ m ∈ ms, motive m.2) → motive (.obj ms e)) : ∀ v, motive v := by
  intro v
  refine JVal.rec (motive_1 := motive) (motive_2 := fun l => ∀ v ∈ l, motive v)
    (motive_3 := fun l => ∀ m ∈ l, motive m.2) (motive_4 := fun m => motive m.2)
    scalar (fun items e h => arr items e h) (fun ms e h => obj ms e h) ?_ ?_ ?_ ?_ ?_ v
  · simp
  · intro a l h1 h2; simpa using ⟨h1, h2⟩
  · simp
  · intro a l h1 h2
    intro m hm
    rcases List.mem_cons.1 hm with h | h
    · subst h; exact h1
    · exact h2 m h
  · intro k v h; exact h

/-- A value's token sequence is never empty. -/
theorem toks_ne_nil (v : JVal) : v.toks ≠ [] := by cases v <;> simp

end Verif
