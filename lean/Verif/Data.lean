import Verif.StrSpec
import Verif.Decimal

/-!
# JSON data

Specification: the data denoted by a value, without its representation: escapes in strings, the
notation of numbers, the order of the members of an object.
-/

namespace Verif

/-- JSON data; an object is a finite map. -/
inductive Data
  | null
  | bool (b : Bool)
  | num (q : Rat)
  | str (s : Bytes)
  | arr (items : List Data)
  | obj (m : Bytes → Option Data)

/-- The map given by a list of members. -/
def assoc : List (Bytes × Data) → Bytes → Option Data
  | [], _ => none
  | (k, d) :: l, x => if x = k then some d else assoc l x

mutual
/-- The value denotes the data, if number literals have the values `val`.  Keys are different from each other as strings.  Elision marks
are ignored. -/
inductive DenBy (val : Bytes → Rat) : JVal → Data → Prop
  | null {k} : k.type = .null → DenBy val (.scalar k) .null
  | bool {k b} : k.type = .bool → k.bytes = (if b then b%"true" else b%"false") → DenBy val (.scalar k) (.bool b)
  | num {k} : k.type = .num → Rfc8259.Number k.bytes → DenBy val (.scalar k) (.num (val k.bytes))
  | str {k s} : StrIs k s → DenBy val (.scalar k) (.str s)
  | arr {l e ds} : DenLBy val l ds → DenBy val (.arr l e) (.arr ds)
  | obj {ms e kds} : DenMBy val ms kds → (kds.map Prod.fst).Nodup → DenBy val (.obj ms e) (.obj (assoc kds))
/-- Lists of values. -/
inductive DenLBy (val : Bytes → Rat) : List JVal → List Data → Prop
  | nil : DenLBy val [] []
  | cons {v d l ds} : DenBy val v d → DenLBy val l ds → DenLBy val (v :: l) (d :: ds)
/-- Lists of members. -/
inductive DenMBy (val : Bytes → Rat) : List (Scalar × JVal) → List (Bytes × Data) → Prop
  | nil : DenMBy val [] []
  | cons {k s v d ms kds} : StrIs k s → DenBy val v d → DenMBy val ms kds → DenMBy val ((k, v) :: ms) ((s, d) :: kds)
end

/-- The value denotes the data; number literals denote the numbers that they are the decimal notation of. -/
abbrev Den : JVal → Data → Prop := DenBy decimal
@[inherit_doc Den] abbrev DenL : List JVal → List Data → Prop := DenLBy decimal
@[inherit_doc Den] abbrev DenM : List (Scalar × JVal) → List (Bytes × Data) → Prop := DenMBy decimal

theorem assoc_append (A B : List (Bytes × Data)) (x : Bytes) : assoc (A ++ B) x = (assoc A x).or (assoc B x) := by
  induction A with
  | nil => rfl
  | cons a A ih =>
    obtain ⟨k, d⟩ := a
    simp only [List.cons_append, assoc, ih]
    split <;> rfl

theorem assoc_none {A : List (Bytes × Data)} {x : Bytes} : assoc A x = none ↔ x ∉ A.map Prod.fst := by
  induction A with
  | nil => simp [assoc]
  | cons a A ih =>
    obtain ⟨k, d⟩ := a
    simp only [assoc, List.map_cons, List.mem_cons, not_or]
    by_cases h : x = k
    · simp [h]
    · simp [h, ih]

/-- Removing the same member on both sides. -/
theorem assoc_remove {k : Bytes} {d : Data} {L A B : List (Bytes × Data)} (h1 : (((k, d) :: L).map Prod.fst).Nodup)
    (h2 : ((A ++ (k, d) :: B).map Prod.fst).Nodup) :
    assoc ((k, d) :: L) = assoc (A ++ (k, d) :: B) ↔ assoc L = assoc (A ++ B) := by
  simp only [List.map_cons, List.nodup_cons] at h1
  have hA : k ∉ A.map Prod.fst ∧ k ∉ B.map Prod.fst := by
    simp only [List.map_append, List.map_cons, List.nodup_append, List.nodup_cons] at h2
    refine ⟨fun h => ?_, h2.2.1.1⟩
    exact h2.2.2 k h k (by simp) rfl
  have e1 := assoc_none.2 h1.1
  have e2 := assoc_none.2 hA.1
  have e3 := assoc_none.2 hA.2
  constructor
  · intro h
    funext x
    have hx := congrFun h x
    simp only [assoc_append, assoc] at hx ⊢
    by_cases e : x = k
    · subst e; simp [e1, e2, e3]
    · simpa [e] using hx
  · intro h
    funext x
    have hx := congrFun h x
    simp only [assoc_append, assoc] at hx ⊢
    by_cases e : x = k
    · subst e; simp [e2]
    · simpa [e] using hx

theorem assoc_nil {Q : List (Bytes × Data)} : assoc [] = assoc Q ↔ Q = [] := by
  constructor
  · intro h
    cases Q with
    | nil => rfl
    | cons a Q =>
      have := congrFun h a.1
      simp [assoc] at this
  · rintro rfl; rfl

/-- A value denotes at most one datum. -/
theorem strIs_unique {k : Scalar} {s t : Bytes} (h : StrIs k s) (h' : StrIs k t) : s = t := by
  have := toStr_ok h
  rw [toStr_ok h'] at this
  exact (Option.some.inj this).symm

end Verif
