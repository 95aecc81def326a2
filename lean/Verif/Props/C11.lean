import Verif.JsonText

/-!
# C11: formatting options only change whitespace
-/

namespace Verif
open Rfc8259 EncSpec Enc

/-- Whatever the options, removing white space outside strings from the output gives the minimal
JSON texts of the values.  (Elided collections are allowed.) -/
theorem C11_minimal_text (vs : List JVal) (hs : ∀ v ∈ vs, Spelled LaxChars v) (widthLimit maxItems : Int) (pc : PrinterCfg) :
    squeeze (encode ⟨none, widthLimit, maxItems⟩ pc goodSink (streamToks vs)).1 = vs.flatMap minText := by
  rw [encode_good]
  exact (layoutAll_sq pc (cfg := ⟨none, widthLimit, maxItems⟩) rfl vs hs).2

/-- Outputs under two settings differ in white space outside strings only. -/
theorem C11_only_whitespace (vs : List JVal) (hs : ∀ v ∈ vs, Spelled LaxChars v) (w₁ w₂ m₁ m₂ : Int) (pc₁ pc₂ : PrinterCfg) :
    squeeze (encode ⟨none, w₁, m₁⟩ pc₁ goodSink (streamToks vs)).1 =
      squeeze (encode ⟨none, w₂, m₂⟩ pc₂ goodSink (streamToks vs)).1 := by
  rw [C11_minimal_text vs hs, C11_minimal_text vs hs]

/-- Non-vacuity: white space in strings is kept, elided tails are shown. -/
example : squeeze b%"[1 , \"a \\\" b\" ]" = b%"[1,\"a \\\" b\"]" ∧
    minText (.arr [.scalar { bytes := b%"1", type := .num }, .obj [({ bytes := b%"\"k\"", type := .str, key := true },
      .scalar { bytes := b%"null", type := .null })] false] true) = b%"[1,{\"k\":null}...]" := by
  constructor <;> decide

end Verif
