import Verif.CsvRecords

/-!
# C21: CSV fields keep their content
-/

namespace Verif
open Rfc8259 CsvSpec Csv

/-- C21 is false: a date becomes the number of its year. -/
theorem C21_violated : fieldToScalar b%"2024-01-15" false = some { bytes := b%"2024", type := .num } ∧
    ¬ Cell b%"2024-01-15" { bytes := b%"2024", type := .num } := by
  refine ⟨by decide +kernel, fun h => ?_⟩
  have hn : ¬ Number b%"2024-01-15" := by
    intro hn
    exact absurd (h.2.2.1 hn).2 (by decide)
  exact absurd (h.2.2.2 (by decide) (by decide) (by decide) hn).1 (by decide)

/-- C21 is false: a tab is copied into the literal, which then is not a JSON string. -/
theorem C21_violated_control : fieldToScalar [0x61, 0x09] false = some { bytes := [0x22, 0x61, 0x09, 0x22], type := .str } ∧
    ¬ Cell [0x61, 0x09] { bytes := [0x22, 0x61, 0x09, 0x22], type := .str } := by
  refine ⟨by decide +kernel, fun h => ?_⟩
  have hn : ¬ Number [0x61, 0x09] := by
    intro hn
    exact absurd (h.2.2.1 hn).1 (by decide)
  obtain ⟨_, c, hc, hd, _⟩ := h.2.2.2 (by decide) (by decide) (by decide) hn
  have : c = [0x61, 0x09] := (List.append_cancel_right (List.cons.inj hc).2).symm
  subst this
  exact absurd (denotes_ctrl hd 0x09 (by simp)) (by decide)

/-- C21 for fields without control characters that are not misread.
Missing: control characters other than line feeds, and fields like dates (`Misread`), for which the claim is false. -/
theorem C21_content_partial (f : Bytes) (hu : Utf8 f) (hc : Clean f) (hm : ¬ Misread f) :
    ∃ s, fieldToScalar f false = some s ∧ Cell f s := ⟨_, cell_eq f, cell_cell hu hc hm⟩

/-- The claim holds for a field (as long as the buffer of the scanner, in UTF-8) exactly if it has no control characters other
than line feeds and is not misread.  Missing: longer fields. -/
theorem C21_exactly_when_partial (f : Bytes) (hu : Utf8 f) (hl : f.length ≤ 8192) :
    (∃ s, fieldToScalar f false = some s ∧ Cell f s) ↔ Clean f ∧ ¬ Misread f := by
  refine ⟨?_, fun ⟨h1, h2⟩ => C21_content_partial f hu h1 h2⟩
  rintro ⟨s, e, h1, h2, h3, h4⟩
  obtain ⟨s', e', _, _, h⟩ := data_spec f
  rw [e, Option.some.injEq] at e'
  subst e'
  have nm : ¬ (∀ b ∈ f, NumChar b) → ¬ Misread f := fun h h' => h h'.1
  rcases h with ⟨rfl, _⟩ | ⟨h, _⟩ | ⟨g1, g2, g3, h⟩
  · refine ⟨by simp [Clean], ?_⟩
    rintro ⟨_, p, b, r, h, _⟩; simp at h
  · rcases h with rfl | rfl
    · refine ⟨by unfold Clean; decide, nm ?_⟩
      unfold NumChar; decide
    · refine ⟨by unfold Clean; decide, nm ?_⟩
      unfold NumChar; decide
  · rcases h with ⟨hn, hm, _⟩ | ⟨hn, ht, hb, hm⟩ | ⟨hn, hm, ht, _⟩
    · exact ⟨number_clean hn, hm⟩
    · obtain ⟨_, c, hc, hd, _⟩ := h4 g1 g2 g3 hn
      refine ⟨clean_of_quoted ?_, fun h => absurd (hm h) (by omega)⟩
      rw [← quoted_inj (hb.symm.trans hc)]
      exact denotes_ctrl hd
    · have := (h4 g1 g2 g3 hn).1
      rw [ht] at this; simp at this

/-- A field as long as the buffer that is misread becomes a number: a proper part of the field.  (The result of a theorem about
wrong behaviour: the claim is false of exactly these fields.) -/
theorem C21_misread_violated (f : Bytes) (hl : f.length ≤ 8192) (hm : Misread f) :
    ∃ s, fieldToScalar f false = some s ∧ s.type = .num ∧ Number s.bytes ∧ s.bytes <+: f ∧ s.bytes ≠ f ∧ ¬ Cell f s := by
  obtain ⟨s, e, _, _, h⟩ := data_spec f
  refine ⟨s, e, ?_⟩
  rcases h with ⟨rfl, _⟩ | ⟨h, _⟩ | ⟨g1, g2, g3, h⟩
  · obtain ⟨_, p, b, r, h, _⟩ := hm; simp at h
  · exfalso
    have := hm.1
    rcases h with rfl | rfl <;> (revert this; unfold NumChar; decide)
  · rcases h with ⟨_, h, _⟩ | ⟨_, _, _, h⟩ | ⟨hn, _, ht, h1, h2, h3⟩
    · exact (h hm).elim
    · exact absurd (h hm) (by omega)
    · refine ⟨ht, h1, h2, h3, fun h => ?_⟩
      have := (h.2.2.2 g1 g2 g3 hn).1
      rw [ht] at this; simp at this

/-- Names of columns keep their content too.  Missing: control characters. -/
theorem C21_header_partial (f : Bytes) (hu : Utf8 f) (hc : Clean f) : ∃ s, fieldToScalar f true = some s ∧ StrIs s f :=
  ⟨_, hdr_eq f, hdr_str hu hc⟩

/-- No field makes the decoder panic. -/
theorem C21_no_panic (f : Bytes) (isHeader : Bool) : fieldToScalar f isHeader ≠ none := by
  cases isHeader
  · rw [cell_eq]; simp
  · rw [hdr_eq]; simp

/-- Non-vacuity: a phone number is not misread, a version is. -/
example : ¬ Misread b%"+49-30" ∧ Misread b%"1.2.3" := by
  constructor
  · rintro ⟨_, p, b, r, h, ⟨m, i, fr, e, hm, hi, _, _, rfl⟩, _⟩
    rcases hm with rfl | rfl
    · rcases hi with rfl | ⟨d, ds, h1, h2, _, rfl⟩
      · simp at h
      · simp at h; rw [← h.1] at h1; exact absurd h1 (by decide)
    · simp at h
  · refine ⟨by unfold NumChar; decide, b%"1.2", c%'.', b%"3", rfl,
      ⟨[], b%"1", b%".2", [], .inl rfl, .inr ⟨c%'1', [], by decide, by decide, by simp, rfl⟩, .inr ⟨b%"2", by decide, by unfold Digit; decide, rfl⟩,
        .inl rfl, rfl⟩, ?_⟩
    exact NumPrefix.stop_final (l := b%"1.2.3") (s := { bytes := b%"1.2", type := .num }) (by rfl)

end Verif
