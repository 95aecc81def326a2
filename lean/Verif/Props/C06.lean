import Verif.JsonStream
import Verif.JpvRun

/-!
# C06: decoding does not depend on how the input arrives 
-/

namespace Verif

/-- The result depends only on the bytes delivered and on the final error of the reader, not on
how the reader cuts the input, nor on the size of the buffer. -/
theorem C06_json_independent_of_reads (r₁ r₂ : Reader) (size₁ size₂ : Nat) (h₁ : 2 ≤ size₁) (h₂ : 2 ≤ size₂)
    (hf₁ : Fair r₁.sched) (hf₂ : Fair r₂.sched) (hr : r₁.rest = r₂.rest) (he : r₁.fin = r₂.fin) :
    Json.decodeFrom r₁ size₁ = Json.decodeFrom r₂ size₂ := by
  rw [decodeFrom_fair r₁ size₁ h₁ hf₁, decodeFrom_fair r₂ size₂ h₂ hf₂, hr, he]

/-- The same for JPV. -/
theorem C06_jpv_independent_of_reads (r₁ r₂ : Reader) (size₁ size₂ : Nat) (h₁ : 2 ≤ size₁) (h₂ : 2 ≤ size₂)
    (hf₁ : Fair r₁.sched) (hf₂ : Fair r₂.sched) (hr : r₁.rest = r₂.rest) (he : r₁.fin = r₂.fin) :
    Jpv.decodeFrom r₁ size₁ = Jpv.decodeFrom r₂ size₂ := by
  rw [jpvDecodeFrom_fair r₁ size₁ h₁ hf₁, jpvDecodeFrom_fair r₂ size₂ h₂ hf₂, hr, he]

/-- Non-vacuity: readers that deliver one byte at a time, with an empty read in between, and
readers that return all data together with the end of input. -/
example : Fair (fun i => (i % 2, false)) ∧ Fair (fun _ => (100, true)) :=
  ⟨fun i => ⟨if i % 2 = 0 then 1 else 0, by split <;> omega, by simp only; split <;> omega⟩, fun i => ⟨0, by omega, by simp⟩⟩

/-- Non-vacuity: a JPV text of two lines is decoded to an object. -/
example (r : Reader) (hf : Fair r.sched) (hr : r.rest = b%"$.a = 1\n$.b = true\n") (he : r.fin = .eof) :
    Jpv.decodeFrom r = ([.startObj, .scalar { bytes := b%"\"a\"", type := .str, alnum := true, key := true },
      .scalar { bytes := b%"1", type := .num }, .scalar { bytes := b%"\"b\"", type := .str, alnum := true, key := true },
      .scalar { bytes := b%"true", type := .bool }, .endObj], .ok () ()) := by
  rw [jpvDecodeFrom_fair r _ (by decide) hf, hr, he]
  rfl

end Verif
