import Verif.FormatsLemmas

/-!
# C49: input format detection

Violated: JPV is never recognised, and JSON only if the text starts with an opening bracket.
-/

namespace Verif

open Cmd

/-- JSON is guessed exactly if the first byte is an opening bracket. -/
theorem C49_json_exactly (start : Bytes) : guessFormat start = b%"json" ↔ ∃ r, start = c%'{' :: r ∨ start = c%'[' :: r := by
  have hjson : ∀ b r, (Re.seq (.cls fun b => b == c%'{' || b == c%'[') Re.any).full (b :: r) = (b == c%'{' || b == c%'[') := by
    intro b r
    show (Re.seq (if (b == c%'{' || b == c%'[') = true then Re.eps else .never) Re.any).full r = _
    split
    · rename_i h; rw [full_eps_seq, full_any, h]
    · rename_i h; rw [full_never_seq]; simpa using h
  constructor
  · intro h
    unfold guessFormat at h
    split at h
    · rename_i g hg
      have hp := List.find?_some hg
      have hm := List.mem_of_find?_eq_some hg
      simp only [guessers, List.mem_cons, List.not_mem_nil, or_false] at hm
      rcases hm with rfl | rfl | rfl | rfl
      · exact absurd h (by decide)
      · cases start with
        | nil => cases hp
        | cons b r =>
          rw [hjson] at hp
          simp only [Bool.or_eq_true, beq_iff_eq] at hp
          rcases hp with rfl | rfl
          · exact ⟨r, .inl rfl⟩
          · exact ⟨r, .inr rfl⟩
      · exact absurd h (by decide)
      · exact absurd h (by decide)
    · exact absurd h (by decide)
  · rintro ⟨r, hr⟩
    obtain ⟨b, hb, rfl⟩ : ∃ b, (b = c%'{' ∨ b = c%'[') ∧ start = b :: r := by
      rcases hr with rfl | rfl
      · exact ⟨_, .inl rfl, rfl⟩
      · exact ⟨_, .inr rfl, rfl⟩
    unfold guessFormat guessers
    rw [List.find?_cons_of_neg, List.find?_cons_of_pos]
    · show (Re.seq (.cls fun b => b == c%'{' || b == c%'[') Re.any).full (b :: r) = true
      rw [hjson]; rcases hb with rfl | rfl <;> rfl
    · show ¬ Re.never.full r = true
      rw [full_never]; simp

/-- A JSON array or object without white space before it is recognised, whatever the rest and however much of it was read.
Missing (false): JSON values after white space, scalars, JPV. -/
theorem C49_json_partial (b : Byte) (r : Bytes) (h : b = c%'{' ∨ b = c%'[') : inputFormat (b :: r) = some b%"json" := by
  have hg : guessFormat (b :: r) = b%"json" := (C49_json_exactly _).2 ⟨r, by rcases h with rfl | rfl <;> simp⟩
  unfold inputFormat
  rw [if_neg (by simp), hg, if_neg (by decide)]

/-- JPV is never recognised. -/
theorem C49_violated_jpv (first : Bytes) : inputFormat first ≠ some b%"jpv" := by
  unfold inputFormat
  split
  · simp
  · rename_i hne
    split
    · simp
    · simp only [ne_eq, Option.some.injEq]
      unfold guessFormat
      split
      · rename_i g hg
        have hp := List.find?_some hg
        have hm := List.mem_of_find?_eq_some hg
        simp only [guessers, List.mem_cons, List.not_mem_nil, or_false] at hm
        rcases hm with rfl | rfl | rfl | rfl
        · intro _
          cases first with
          | nil => exact hne rfl
          | cons b s =>
            have : Re.never.full s = true := hp
            rw [full_never] at this
            cases this
        · decide
        · decide
        · decide
      · decide

/-- A JSON array after a space is taken for CSV, and a JSON number is not recognised. -/
theorem C49_violated_json : inputFormat b%" [1, 2]" = some b%"csv" ∧ inputFormat b%"12" = none := by decide

/-- What the program prints with `-out jpv`, read again without `-in jpv`: an error. -/
theorem C49_violated_pipeline : inputFormat b%"$.name = \"Alice\"\n" = none := by decide

example : inputFormat b%"name,age\nAlice,30\n" = some b%"csv-with-header" := by decide
example : inputFormat b%"1,\"x\"\n" = some b%"csv" := by decide
example : inputFormat b%"[1, 2]" = some b%"json" := by decide

end Verif
