import Verif.EncSpec
import Verif.StrSpec

/-!
# Values and their leaves (specification)

For the properties of JPV: a line of JPV stands for a leaf of a value, a scalar or an empty collection.
-/

namespace Verif.JpvSpec
open EncSpec

/-- The elements of a list selected by a mask. -/
def select {α : Type} : List α → List Bool → List α
  | x :: l, b :: m => if b then x :: select l m else select l m
  | _, _ => []

/-- The number of leaves of a value. -/
def leafCount : JVal → Nat
  | .scalar _ => 1
  | .arr l _ => if l.isEmpty then 1 else items l
  | .obj l _ => if l.isEmpty then 1 else members l
where
  items : List JVal → Nat
    | [] => 0
    | v :: l => leafCount v + items l
  members : List (Scalar × JVal) → Nat
    | [] => 0
    | (_, v) :: l => leafCount v + members l

/-- The value with the leaves that are not selected removed, together with the collections that become empty. -/
def prune : JVal → List Bool → Option JVal
  | .scalar s, m => if m.head? = some true then some (.scalar s) else none
  | .arr l e, m =>
    if l.isEmpty then if m.head? = some true then some (.arr l e) else none
    else if (items l m).isEmpty then none else some (.arr (items l m) e)
  | .obj l e, m =>
    if l.isEmpty then if m.head? = some true then some (.obj l e) else none
    else if (members l m).isEmpty then none else some (.obj (members l m) e)
where
  items : List JVal → List Bool → List JVal
    | [], _ => []
    | v :: l, m => (prune v m).toList ++ items l (m.drop (leafCount v))
  members : List (Scalar × JVal) → List Bool → List (Scalar × JVal)
    | [], _ => []
    | (k, v) :: l, m => ((prune v m).map fun v => (k, v)).toList ++ members l (m.drop (leafCount v))

/-- The string denoted by a key. -/
def KeyStr (k : Scalar) (s : Bytes) : Prop := ∃ c, k.bytes = 0x22 :: (c ++ [0x22]) ∧ Denotes c s

/-- The keys of each object denote strings that are different from each other. -/
inductive DistinctKeys : JVal → Prop
  | scalar {s} : DistinctKeys (.scalar s)
  | arr {l e} : (∀ v ∈ l, DistinctKeys v) → DistinctKeys (.arr l e)
  | obj {l : List (Scalar × JVal)} {e} : (∀ m ∈ l, ∃ s, KeyStr m.1 s) →
      l.Pairwise (fun m n => ∀ s t, KeyStr m.1 s → KeyStr n.1 t → s ≠ t) → (∀ m ∈ l, DistinctKeys m.2) →
      DistinctKeys (.obj l e)

/-- No array has more than 2^53 items. -/
inductive Short : JVal → Prop
  | scalar {s} : Short (.scalar s)
  | arr {l e} : l.length ≤ 2 ^ 53 → (∀ v ∈ l, Short v) → Short (.arr l e)
  | obj {l e} : (∀ m ∈ l, Short m.2) → Short (.obj l e)

/-- A key is a letter or underscore followed by letters, underscores and digits. -/
def Ident (k : Scalar) : Prop :=
  ∃ a as, isAlpha a = true ∧ (∀ x ∈ as, isAlnum x = true) ∧ k.bytes = 0x22 :: (a :: as ++ [0x22])

/-- All keys marked as alphanumeric are identifiers. -/
inductive TrueAlnum : JVal → Prop
  | scalar {s} : TrueAlnum (.scalar s)
  | arr {l e} : (∀ v ∈ l, TrueAlnum v) → TrueAlnum (.arr l e)
  | obj {l : List (Scalar × JVal)} {e} : (∀ m ∈ l, m.1.alnum = true → Ident m.1) → (∀ m ∈ l, TrueAlnum m.2) →
      TrueAlnum (.obj l e)

theorem select_append {α : Type} : ∀ (a b : List α) (m : List Bool),
    select (a ++ b) m = select a m ++ select b (m.drop a.length) := by
  intro a
  induction a with
  | nil => intro b m; simp [select]
  | cons x a ih =>
    intro b m
    cases m with
    | nil => cases b <;> simp [select]
    | cons c m =>
      simp only [List.cons_append, select, ih]
      split <;> simp

theorem select_map {α β : Type} (f : α → β) : ∀ (l : List α) (m : List Bool), select (l.map f) m = (select l m).map f := by
  intro l
  induction l with
  | nil => intro m; simp [select]
  | cons x l ih =>
    intro m
    cases m with
    | nil => simp [select]
    | cons c m =>
      simp only [List.map_cons, select, ih]
      split <;> simp

theorem select_all {α : Type} : ∀ (l : List α) (n : Nat), l.length ≤ n → select l (List.replicate n true) = l := by
  intro l
  induction l with
  | nil => intro n _; simp [select]
  | cons x l ih =>
    intro n hn
    obtain ⟨n, rfl⟩ : ∃ k, n = k + 1 := ⟨n - 1, by simp at hn; omega⟩
    simp [List.replicate_succ, select, ih n (by simp at hn; omega)]

end Verif.JpvSpec
