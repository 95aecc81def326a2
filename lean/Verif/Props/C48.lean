import Verif.IRegexpLemmas

/-!
# C48: I-Regexp

The translation is right.  Violated: patterns that the library rejects are cached as nil regular expressions, so the second compilation
succeeds with nil.
-/

namespace Verif

open JPath Rfc9485

/-- The translation replaces the unescaped dots outside of character classes, and nothing else. -/
theorem C48_translation {p q : Bytes} : Dots p q ↔ iregexpString p = q := by
  rw [iregexpString_eq]
  refine ⟨dots_tr, fun h => ?_⟩
  obtain ⟨q', hq⟩ := dots_total p.length p (Nat.le_refl _)
  rw [← h, dots_tr hq]
  exact hq

/-- What compiling a pattern gives after any other compilations: what it gives the first time, unless the pattern is the translation of a
pattern that was compiled before and is not valid; then it is nil without an error. -/
theorem C48_compile_exactly {R : Type} (re : Bytes → Option R) (hist : List Bytes) (p : Bytes) :
    (icompile re (icompileAll re (iempty R) hist) p).2 =
      if ∃ q ∈ hist, iregexpString q = p ∧ re p = none then some none else (icompile re (iempty R) p).2 := by
  have h := icache_eq re hist [] (iempty R) (by simp [iempty]) p
  rw [List.nil_append] at h
  split at h
  · rename_i hx
    rw [if_pos hx]
    unfold icompile
    rw [h]
  · rename_i hx
    rw [if_neg hx]
    unfold icompile
    rw [h]
    simp only [iempty]
    rcases re (iregexpString p) with _ | r <;> rfl

/-- Patterns that the library accepts compile to the same regular expression after any other compilations.
Missing (false): patterns that it rejects. -/
theorem C48_compile_partial {R : Type} (re : Bytes → Option R) (hist : List Bytes) (p : Bytes) (r : R) (h : re (iregexpString p) = some r) :
    (icompile re (icompileAll re (iempty R) hist) p).2 = some (some r) := by
  rw [C48_compile_exactly, if_neg]
  · simp [icompile, iempty, h]
  · rintro ⟨q, -, h1, h2⟩
    rw [← h1, iregexpString_eq, iregexpString_eq, tr_idem, ← iregexpString_eq, h1, h2] at h
    cases h

/-- Compiling the pattern `(` gives an error the first time, and nil without an error the second time. -/
theorem C48_violated {R : Type} (re : Bytes → Option R) (h : re b%"(" = none) :
    (icompile re (iempty R) b%"(").2 = none ∧ (icompile re (icompile re (iempty R) b%"(").1 b%"(").2 = some none := by
  have h1 : iregexpString b%"(" = b%"(" := by decide
  constructor <;> simp [icompile, iempty, h1, h]

example : iregexpString b%"a.[.\\].]\\.b." = b%"a[^\\n\\r][.\\].]\\.b[^\\n\\r]" := by decide
example : Dots b%"[.].\\." b%"[.][^\\n\\r]\\." := .cls (c := b%".") (.char (by decide) (by decide) .nil) (.dot (.esc .nil))

end Verif
