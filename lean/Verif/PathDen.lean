import Verif.PathRfc
import Verif.EqualLogic

/-!
# Data denoted by values are determined
-/

set_option linter.unusedSimpArgs false
set_option linter.unusedVariables false

namespace Verif
open Rfc9535

mutual
theorem DenBy.unique {val : Bytes → Rat} : ∀ {v : JVal} {d d' : Data}, DenBy val v d → DenBy val v d' → d = d'
  | .scalar k, _, _, h, h' => by
    cases h with
    | null h1 => cases h' <;> simp_all [StrIs]
    | bool h1 h2 =>
      rename_i b
      cases h' with
      | bool h3 h4 =>
        rename_i b'
        rw [h2] at h4
        cases b <;> cases b' <;> first | rfl | cases h4
      | _ => simp_all [StrIs]
    | num h1 _ => cases h' <;> simp_all [StrIs]
    | str h1 =>
      cases h' with
      | str h2 => rw [strIs_unique h1 h2]
      | _ => simp_all [StrIs]
  | .arr l e, _, _, h, h' => by
    cases h with
    | arr h1 => cases h' with
      | arr h2 => rw [DenLBy.unique h1 h2]
  | .obj l e, _, _, h, h' => by
    cases h with
    | obj h1 _ => cases h' with
      | obj h2 _ => rw [DenMBy.unique h1 h2]
theorem DenLBy.unique {val : Bytes → Rat} : ∀ {l : List JVal} {d d' : List Data}, DenLBy val l d → DenLBy val l d' → d = d'
  | [], _, _, h, h' => by cases h; cases h'; rfl
  | v :: l, _, _, h, h' => by
    cases h with
    | cons h1 h2 => cases h' with
      | cons h3 h4 => rw [DenBy.unique h1 h3, DenLBy.unique h2 h4]
theorem DenMBy.unique {val : Bytes → Rat} : ∀ {l : List (Scalar × JVal)} {d d' : List (Bytes × Data)}, DenMBy val l d → DenMBy val l d' → d = d'
  | [], _, _, h, h' => by cases h; cases h'; rfl
  | (k, v) :: l, _, _, h, h' => by
    cases h with
    | cons h0 h1 h2 => cases h' with
      | cons h0' h3 h4 => rw [DenBy.unique h1 h3, DenMBy.unique h2 h4, strIs_unique h0 h0']
end

theorem DenBy.dataOf {val : Bytes → Rat} {v : JVal} {d : Data} (h : DenBy val v d) : Rfc9535.dataOf val v = some d := by
  have : ∃ d, DenBy val v d := ⟨d, h⟩
  unfold Rfc9535.dataOf
  rw [dif_pos this, this.choose_spec.unique h]

theorem DenLBy.mem {val : Bytes → Rat} {l : List JVal} {ds : List Data} (h : DenLBy val l ds) : ∀ v ∈ l, ∃ d, DenBy val v d := by
  induction l generalizing ds with
  | nil => intro v hv; cases hv
  | cons a l ih =>
    cases h with
    | cons h1 h2 =>
      intro v hv
      rcases List.mem_cons.1 hv with rfl | hv
      · exact ⟨_, h1⟩
      · exact ih h2 v hv

theorem DenMBy.mem {val : Bytes → Rat} {l : List (Scalar × JVal)} {ds : List (Bytes × Data)} (h : DenMBy val l ds) :
    ∀ m ∈ l, (∃ s, StrIs m.1 s) ∧ ∃ d, DenBy val m.2 d := by
  induction l generalizing ds with
  | nil => intro v hv; cases hv
  | cons a l ih =>
    cases h with
    | cons h0 h1 h2 =>
      intro v hv
      rcases List.mem_cons.1 hv with rfl | hv
      · exact ⟨⟨_, h0⟩, _, h1⟩
      · exact ih h2 v hv

theorem DenLBy.length {val : Bytes → Rat} {l : List JVal} {ds : List Data} (h : DenLBy val l ds) : l.length = ds.length := by
  induction l generalizing ds with
  | nil => cases h; rfl
  | cons a l ih => cases h with
    | cons _ h2 => simp [ih h2]

mutual
/-- Whether a value denotes a datum does not depend on the values of the literals. -/
theorem DenBy.change {val : Bytes → Rat} (val' : Bytes → Rat) : ∀ {v : JVal} {d : Data}, DenBy val v d → ∃ d', DenBy val' v d'
  | .scalar k, _, h => by
    cases h with
    | null h => exact ⟨_, .null h⟩
    | bool h h' => exact ⟨_, .bool h h'⟩
    | num h h' => exact ⟨_, .num h h'⟩
    | str h => exact ⟨_, .str h⟩
  | .arr l e, _, h => by
    cases h with
    | arr h => obtain ⟨_, h'⟩ := DenLBy.change val' h; exact ⟨_, .arr h'⟩
  | .obj l e, _, h => by
    cases h with
    | obj h hn => obtain ⟨_, h', e⟩ := DenMBy.change val' h; exact ⟨_, .obj h' (by rw [e]; exact hn)⟩
@[inherit_doc DenBy.change] theorem DenLBy.change {val : Bytes → Rat} (val' : Bytes → Rat) : ∀ {l : List JVal} {d : List Data}, DenLBy val l d → ∃ d', DenLBy val' l d'
  | [], _, h => ⟨_, .nil⟩
  | v :: l, _, h => by
    cases h with
    | cons h1 h2 =>
      obtain ⟨_, h1⟩ := DenBy.change val' h1
      obtain ⟨_, h2⟩ := DenLBy.change val' h2
      exact ⟨_, .cons h1 h2⟩
@[inherit_doc DenBy.change] theorem DenMBy.change {val : Bytes → Rat} (val' : Bytes → Rat) : ∀ {l : List (Scalar × JVal)} {d : List (Bytes × Data)}, DenMBy val l d →
    ∃ d', DenMBy val' l d' ∧ d'.map Prod.fst = d.map Prod.fst
  | [], _, h => by cases h; exact ⟨_, .nil, rfl⟩
  | (k, v) :: l, _, h => by
    cases h with
    | cons h0 h1 h2 =>
      obtain ⟨_, h1⟩ := DenBy.change val' h1
      obtain ⟨_, h2, e⟩ := DenMBy.change val' h2
      exact ⟨_, .cons h0 h1 h2, by simp [e]⟩
end

end Verif
