import Verif.PathTextOk
import Verif.PathTextSound

/-!
# The first and last characters of texts of the grammar
-/

namespace Verif.JPath
open Rfc9535 Utf8 GoJson

/-- The text does not end with a blank. -/
def Ends (t : Bytes) : Prop := ∃ u b, t = u ++ [b] ∧ isBlank b = false

theorem Ends.append {t : Bytes} (h : Ends t) (u : Bytes) : Ends (u ++ t) := by
  obtain ⟨v, b, rfl, hb⟩ := h
  exact ⟨u ++ v, b, by simp, hb⟩

set_option maxRecDepth 10000 in
theorem nameChar_notBlank {b : Byte} (h : isNameChar b = true) : isBlank b = false := by
  revert b; apply forall_byte; decide

theorem name_ends {n : Bytes} (h : Name n) : Ends n := by
  obtain ⟨b, l, rfl, hb, hl⟩ := name_bytes h
  have : ∀ x ∈ b :: l, isNameChar x = true := by
    intro x hx
    rcases List.mem_cons.1 hx with rfl | hx
    · simp [isNameChar, hb]
    · exact hl x hx
  exact ⟨(b :: l).dropLast, (b :: l).getLast (by simp), (List.dropLast_concat_getLast _).symm, nameChar_notBlank (this _ (List.getLast_mem _))⟩

/-- Where the nonterminal ends with something that is not a blank. -/
def EndsAs : (p : Phrase) → Bytes → Prop
  | .segments, t => t = [] ∨ Ends t
  | .segment, t => Ends t
  | .brackets, t => Ends t
  | _, _ => True

theorem text_ends {lax : Bool} {p : Phrase} {t : Bytes} {v : p.Tree} (h : Text lax p t v) : EndsAs p t := by
  induction h with
  | nil => exact .inl rfl
  | cons _ _ _ ih1 ih2 =>
    rcases ih2 with rfl | h
    · rw [List.append_nil]
      exact .inr (Ends.append ih1 _)
    · exact .inr ((h.append _).append _)
  | child _ ih => exact ih
  | dotWild => exact ⟨b%".", _, rfl, by decide⟩
  | dotName h => exact (name_ends h).append _
  | desc _ ih => exact Ends.append ih _
  | descWild => exact ⟨b%"..", _, rfl, by decide⟩
  | descName h => exact (name_ends h).append _
  | brackets =>
    have h : Ends b%"]" := ⟨[], _, rfl, by decide⟩
    exact (((h.append _).append _).append _).append _
  | _ => trivial

/-- A query begins and ends with something that is not a blank. -/
theorem query_ends {lax : Bool} {s : Bytes} {q : Query} (h : QueryText lax s q) : (∃ t, s = b%"$" ++ t) ∧ Ends s := by
  obtain ⟨-, t, rfl, ht⟩ := h
  refine ⟨⟨t, rfl⟩, ?_⟩
  rcases text_ends ht with rfl | h
  · exact ⟨[], _, rfl, by decide⟩
  · exact h.append _

theorem strict_iff {s : Bytes} {q : Query} : parseQueryStrict s = some q ↔
    (∀ b t, s = b :: t → isBlank b = false) ∧ (∀ b t, s = t ++ [b] → isBlank b = false) ∧ parseQuery s = some q := by
  have h1 : (s.head?.any isBlank = true) ↔ ∃ b t, s = b :: t ∧ isBlank b = true := by
    cases s <;> simp
  have h2 : (s.getLast?.any isBlank = true) ↔ ∃ b t, s = t ++ [b] ∧ isBlank b = true := by
    rw [Option.any_eq_true]
    constructor
    · rintro ⟨b, hb, h⟩
      obtain ⟨t, ht⟩ := List.getLast?_eq_some_iff.1 hb
      exact ⟨b, t, ht, h⟩
    · rintro ⟨b, t, rfl, h⟩
      exact ⟨b, by simp, h⟩
  unfold parseQueryStrict
  by_cases k1 : s.head?.any isBlank = true
  · rw [if_pos k1]
    obtain ⟨b, t, e, h⟩ := h1.1 k1
    refine ⟨fun h => (by cases h), fun k => ?_⟩
    rw [k.1 b t e] at h
    cases h
  rw [if_neg k1]
  have n1 : ∀ b t, s = b :: t → isBlank b = false := by
    intro b t e
    cases hb : isBlank b with
    | false => rfl
    | true => exact absurd (h1.2 ⟨b, t, e, hb⟩) k1
  by_cases k2 : s.getLast?.any isBlank = true
  · rw [if_pos k2]
    obtain ⟨b, t, e, h⟩ := h2.1 k2
    refine ⟨fun h => (by cases h), fun k => ?_⟩
    rw [k.2.1 b t e] at h
    cases h
  rw [if_neg k2]
  have n2 : ∀ b t, s = t ++ [b] → isBlank b = false := by
    intro b t e
    cases hb : isBlank b with
    | false => rfl
    | true => exact absurd (h2.2 ⟨b, t, e, hb⟩) k2
  exact ⟨fun h => ⟨n1, n2, h⟩, fun h => h.2.2⟩

theorem parseStrict_ok {lax : Bool} {s : Bytes} {q : Query} (h : QueryText lax s q) : parseQueryStrict s = some q := by
  obtain ⟨⟨t, e⟩, u, b, e', hb⟩ := query_ends h
  refine strict_iff.2 ⟨?_, ?_, ?_⟩
  · intro b t e'
    rw [e] at e'
    cases e'
    decide
  · intro b' u' e''
    rw [e'] at e''
    have := List.append_inj_right' e'' rfl
    cases this
    exact hb
  · have := parseQuery_ok h (blanks_nil (lax := lax)) (blanks_nil (lax := lax))
    simpa using this

theorem parseStrict_spelled {s : Bytes} {q : Query} (hu : IsUtf8 s) (h : parseQueryStrict s = some q) (h0 : q.segs ≠ [] ∨ ∃ t, s = b%"$" ++ t)
    (ht : WellTyped q) (hf : SegsFilled q.segs) : QueryText true s q := by
  obtain ⟨h1, h2, h⟩ := strict_iff.1 h
  obtain ⟨w, t, w', e, hw, hq, hw'⟩ := parseQuery_spelled hu h (h0.imp id fun ⟨t, e⟩ => ⟨[], t, blanks_nil, e⟩) ht hf
  have ew : w = [] := by
    cases w with
    | nil => rfl
    | cons b w => exact absurd (blanks_isBlank hw b (by simp)) (by simp [h1 b _ e])
  have ew' : w' = [] := by
    rcases List.eq_nil_or_concat w' with h | ⟨v, b, h⟩
    · exact h
    · rw [h, List.concat_eq_append, ← List.append_assoc, ← List.append_assoc] at e
      exact absurd (blanks_isBlank hw' b (by simp [h])) (by simp [h2 b _ e])
  subst ew ew'
  simpa [e] using hq

/-! ## Texts that are not in the grammar -/

/-- After blanks, the first byte that is not one. -/
theorem blanks_byte {lax : Bool} {w r s : Bytes} {b c : Byte} (hw : Blanks lax w) (hc : ¬ (c = 0x20 ∨ c = 0x09 ∨ c = 0x0A ∨ c = 0x0D ∨ (lax = true ∧ c = 0x0C)))
    (h : w ++ (b :: r) = c :: s) : w = [] ∧ b = c ∧ r = s := by
  cases w with
  | nil => cases h; exact ⟨rfl, rfl, rfl⟩
  | cons x w =>
    cases h
    exact absurd (hw c (by simp)) hc

theorem segment_head {lax : Bool} {t : Bytes} {s : Segment} (h : Text lax .segment t s) : ∃ b r, t = b :: r ∧ (b = c%'[' ∨ b = c%'.') := by
  cases h with
  | child h => cases h with | brackets => exact ⟨_, _, rfl, .inl rfl⟩
  | dotWild => exact ⟨_, _, rfl, .inr rfl⟩
  | dotName => exact ⟨_, _, rfl, .inr rfl⟩
  | desc => exact ⟨_, _, rfl, .inr rfl⟩
  | descWild => exact ⟨_, _, rfl, .inr rfl⟩
  | descName => exact ⟨_, _, rfl, .inr rfl⟩

end Verif.JPath
