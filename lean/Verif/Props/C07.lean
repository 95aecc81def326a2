import Verif.Prefix

/-!
# C07: reader failures are reported and truncate (JSON)
-/

namespace Verif

/-- If the reader fails after delivering `D`, the tokens emitted are a prefix of the tokens
emitted for every input that extends `D`, however that input ends. -/
theorem C07_failure_truncates (r₁ r₂ : Reader) (size₁ size₂ : Nat) (h₁ : 2 ≤ size₁) (h₂ : 2 ≤ size₂)
    (hf₁ : Fair r₁.sched) (hf₂ : Fair r₂.sched) (he : r₁.fin ≠ .eof) (E : Bytes) (hr : r₂.rest = r₁.rest ++ E) :
    (Json.decodeFrom r₁ size₁).1 <+: (Json.decodeFrom r₂ size₂).1 := by
  rw [decodeFrom_fair r₁ size₁ h₁ hf₁, decodeFrom_fair r₂ size₂ h₂ hf₂, hr]
  rcases outOf_prefix r₁.rest E r₂.fin he with h | h
  · exact h.1
  · rw [h]; exact List.prefix_refl _

/-- The same for a reader that stops making progress: what is emitted is a prefix of what a reader
that delivers all its bytes would give. -/
theorem C07_stall_truncates (r₁ r₂ : Reader) (size₁ size₂ : Nat) (h₁ : 2 ≤ size₁) (h₂ : 2 ≤ size₂)
    (hf₂ : Fair r₂.sched) (hr : r₂.rest = r₁.rest) (he : r₂.fin = r₁.fin) :
    (Json.decodeFrom r₁ size₁).1 <+: (Json.decodeFrom r₂ size₂).1 := by
  obtain ⟨D, fin, hd, hx⟩ := decodeFrom_decode r₁ size₁ h₁
  rw [hx, decodeFrom_fair r₂ size₂ h₂ hf₂, hr, he]
  rcases hd with ⟨rfl, rfl⟩ | ⟨_, rfl, x, _, h⟩
  · exact List.prefix_refl _
  · rw [h]
    rcases outOf_prefix D x r₁.fin (e := .noProgress) (by simp) with h | h
    · exact h.1
    · rw [h]; exact List.prefix_refl _

/-- The error of the reader is returned, unless there is a syntax error in the bytes delivered
(which is then reported for every extension of these bytes as well).

Missing: inputs with the byte 0xFF (`C07_violated`). -/
theorem C07_failure_reported_partial (r₁ : Reader) (size₁ : Nat) (h₁ : 2 ≤ size₁) (hf₁ : Fair r₁.sched)
    (he : r₁.fin ≠ .eof) (hff : 0xFF ∉ r₁.rest) :
    (Json.decodeFrom r₁ size₁).2 = .fail (.io r₁.fin) ∨
    ∃ p m g, (Json.decodeFrom r₁ size₁).2 = .fail (.syn p m g) ∧
      ∀ (r₂ : Reader) (size₂ : Nat) (E : Bytes), 2 ≤ size₂ → Fair r₂.sched → r₂.rest = r₁.rest ++ E →
        Json.decodeFrom r₂ size₂ = Json.decodeFrom r₁ size₁ := by
  rw [decodeFrom_fair r₁ size₁ h₁ hf₁]
  rcases outOf_kinds r₁.rest he hff with h | ⟨p, m, g, h⟩
  · exact .inl h
  · refine .inr ⟨p, m, g, h, fun r₂ size₂ E h₂ hf₂ hr => ?_⟩
    rw [decodeFrom_fair r₂ size₂ h₂ hf₂, hr]
    rcases outOf_prefix r₁.rest E r₂.fin he with h' | h'
    · rw [h'.2] at h; cases h
    · exact h'.symm

/-- The property fails for inputs with the byte 0xFF: the failure of the reader goes unnoticed. -/
theorem C07_violated (r : Reader) (size : Nat) (hs : 2 ≤ size) (hf : Fair r.sched)
    (hr : r.rest = [0x31, 0xFF]) (he : r.fin = .other 0) :
    (Json.decodeFrom r size).2 = .ok () () := by
  rw [decodeFrom_fair r size hs hf, hr, he]
  rfl

/-- Non-vacuity: a failing reader, and a syntax error before the failure. -/
example (r : Reader) (hf : Fair r.sched) (hr : r.rest = b%"[1,2") (he : r.fin = .other 3) :
    Json.decodeFrom r = ([.startArr, .scalar { bytes := b%"1", type := .num }], .fail (.io (.other 3))) := by
  rw [decodeFrom_fair r _ (by decide) hf, hr, he]
  rfl

example (r : Reader) (hf : Fair r.sched) (hr : r.rest = b%"[1}2") (he : r.fin = .other 3) :
    (Json.decodeFrom r).2 = .fail (.syn ⟨0, 2⟩ "expected ']' or ',', got" (some c%'}')) := by
  rw [decodeFrom_fair r _ (by decide) hf, hr, he]
  rfl

end Verif
