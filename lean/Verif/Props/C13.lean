import Verif.JsonColl

/-!
# C13: write failures are reported and leave a prefix
-/

namespace Verif
open Enc

/-- For each stream and each setting there is a sequence of writes and flushes that a run without
failures makes, and every run with any writer starts to make the same: if the writer accepts them
all, everything is written and the encoder returns no error; otherwise, what comes before the first
failing one has been written, at most a part of the failing one, and the encoder returns the error of
the writer. -/
theorem C13_write_failures (cfg : EncCfg) (pc : PrinterCfg) (vs : List JVal) :
    ∃ evs, encode cfg pc goodSink (streamToks vs) = (evBytes evs, .ok ()) ∧ ∀ w : Sink,
      (encode cfg pc w (streamToks vs) = (evBytes evs, .ok ()) ∧ ∀ l e l', evs = l ++ e :: l' → w l e = none) ∨
      ∃ l e l' k err, evs = l ++ e :: l' ∧ w l e = some (k, err) ∧ (∀ m x m', l = m ++ x :: m' → w m x = none) ∧
        encode cfg pc w (streamToks vs) = (evBytes l ++ e.payload.take k, .printerError err) := by
  refine ⟨(pc.execAll 0 (layoutAll cfg vs)).1, encode_good cfg pc vs, fun w => ?_⟩
  rw [encode_eq]
  rcases w.feed_spec (pc.execAll 0 (layoutAll cfg vs)).1 [] with ⟨h1, h2⟩ | ⟨l1, e, l2, k, err, h1, h2, h3, h4⟩
  · exact .inl ⟨by rw [h1], h2⟩
  · exact .inr ⟨l1, e, l2, k, err, h1, h2, h3, by rw [h4]⟩

/-- In particular: the encoder never ends in another way, what is written is a prefix of what is
written without failures, and all of it if no error is returned. -/
theorem C13_prefix (cfg : EncCfg) (pc : PrinterCfg) (vs : List JVal) (w : Sink) :
    (encode cfg pc w (streamToks vs)).1 <+: (encode cfg pc goodSink (streamToks vs)).1 ∧
    (encode cfg pc w (streamToks vs) = encode cfg pc goodSink (streamToks vs) ∨
      ∃ err, (encode cfg pc w (streamToks vs)).2 = .printerError err) := by
  obtain ⟨evs, h, hw⟩ := C13_write_failures cfg pc vs
  rcases hw w with ⟨h1, _⟩ | ⟨l, e, l', k, err, h1, _, _, h4⟩
  · rw [h, h1]; exact ⟨List.prefix_refl _, .inl rfl⟩
  · rw [h, h4]
    refine ⟨?_, .inr ⟨err, rfl⟩⟩
    rw [h1]
    simp only [evBytes, List.flatMap_append, List.flatMap_cons]
    exact (List.prefix_append_right_inj _).2 ((List.take_prefix _ _).trans (List.prefix_append _ _))

/-- Non-vacuity: a writer that fails at its third call, having taken nothing of it. -/
example : encode ⟨none, 0, 0⟩ ⟨0, false⟩ (fun h _ => if h.length = 2 then some (0, 7) else none)
    (streamToks [.arr [.scalar { bytes := b%"1", type := .num }] false]) = (b%"[\n", .printerError 7) := by
  decide

end Verif
