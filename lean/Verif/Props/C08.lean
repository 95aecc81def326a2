import Verif.Prefix

/-!
# C08: streaming, tokens emitted so far never change
-/

namespace Verif
open Rfc8259

/-- Specification: the tokens that are emitted before the decoder needs to look past the bytes
`D`: those emitted if the reader fails after `D`. -/
def emittedWithin (D : Bytes) : List Token :=
  (Json.decodeFrom { rest := D, fin := .other 0, sched := fun _ => (1, false), idx := 0 }).1

theorem emittedWithin_eq (D : Bytes) : emittedWithin D = (Pure.decode (.other 0) D).1 := by
  unfold emittedWithin
  rw [decodeFrom_fair _ _ (by decide) (fun i => ⟨0, by omega, by simp⟩), outOf_fst]

/-- The tokens emitted within `D` are determined by `D`: they are a prefix of the output for every
input that starts with `D`. -/
theorem C08_output_extends (D E : Bytes) (r : Reader) (size : Nat) (hs : 2 ≤ size) (hf : Fair r.sched)
    (hr : r.rest = D ++ E) : emittedWithin D <+: (Json.decodeFrom r size).1 := by
  rw [emittedWithin_eq, decodeFrom_fair r size hs hf, hr, ← outOf_fst D (.other 0)]
  rcases outOf_prefix D E r.fin (e := .other 0) (by simp) with h | h
  · exact h.1
  · rw [h]; exact List.prefix_refl _

/-- What has been emitted grows with the input. -/
theorem C08_monotone (D E : Bytes) : emittedWithin D <+: emittedWithin (D ++ E) :=
  C08_output_extends D E _ _ (by decide) (fun i => ⟨0, by omega, by simp⟩) rfl

/-- Outputs for two inputs with a common prefix agree on everything emitted within it. -/
theorem C08_common_prefix (D E₁ E₂ : Bytes) (r₁ r₂ : Reader) (size₁ size₂ : Nat) (h₁ : 2 ≤ size₁) (h₂ : 2 ≤ size₂)
    (hf₁ : Fair r₁.sched) (hf₂ : Fair r₂.sched) (hr₁ : r₁.rest = D ++ E₁) (hr₂ : r₂.rest = D ++ E₂) :
    ∃ m₁ m₂, (Json.decodeFrom r₁ size₁).1 = emittedWithin D ++ m₁ ∧ (Json.decodeFrom r₂ size₂).1 = emittedWithin D ++ m₂ := by
  obtain ⟨m₁, h1⟩ := C08_output_extends D E₁ r₁ size₁ h₁ hf₁ hr₁
  obtain ⟨m₂, h2⟩ := C08_output_extends D E₂ r₂ size₂ h₂ hf₂ hr₂
  exact ⟨m₁, m₂, h1.symm, h2.symm⟩

/-- Values are emitted without delay: once a complete value has been read (a number also needs the
byte behind it), all its tokens have been emitted, and nothing that follows is waited for. -/
theorem C08_prompt (vs : List JVal) (b : Bytes) (x : Byte) (rest : Bytes) (h : SepStream RfcChars vs b) (hx : ¬ NumCont x) :
    emittedWithin (b ++ x :: rest) = streamToks vs ++ emittedWithin (x :: rest) := by
  rw [emittedWithin_eq, emittedWithin_eq, decode_append _ (h.mono fun _ => rfc_lax) _ (.inr ⟨x, rest, rfl, hx⟩)]

/-- Non-vacuity: within `[1,` the first two tokens are emitted, within `[1` only the first. -/
example : emittedWithin b%"[1," = [.startArr, .scalar { bytes := b%"1", type := .num }] ∧ emittedWithin b%"[1" = [.startArr] := by
  constructor <;> rw [emittedWithin_eq] <;> rfl

end Verif
