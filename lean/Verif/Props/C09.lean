import Verif.JsonStream

/-!
# C09: every byte of the input counts
-/

namespace Verif
open Rfc8259

/-- The property fails: the byte 0xFF is taken for the end of input, so that what follows is not
read.  The input is `1`, 0xFF, `x`. -/
theorem C09_violated (r : Reader) (size : Nat) (hs : 2 ≤ size) (hf : Fair r.sched)
    (hr : r.rest = [0x31, 0xFF, 0x78]) (he : r.fin = .eof) :
    Json.decodeFrom r size = ([.scalar { bytes := b%"1", type := .num }], .ok () ()) := by
  rw [decodeFrom_fair r size hs hf, hr, he]
  rfl

/-- If the input does not contain the byte 0xFF and decoding succeeds, then the reader has been
read to its end and the whole input is made of the texts of the values delivered.

Missing: inputs with the byte 0xFF (`C09_violated`). -/
theorem C09_every_byte_counts_partial (r : Reader) (size : Nat) (hs : 2 ≤ size) (ts : List Token)
    (h : Json.decodeFrom r size = (ts, .ok () ())) (hff : 0xFF ∉ r.rest) :
    r.fin = .eof ∧ ∃ vs, Stream LaxChars vs r.rest ∧ ts = streamToks vs :=
  decodeFrom_success hs h hff

/-- The exact extent of the problem: on success the input is read up to its end or up to the first
0xFF after a complete value. -/
theorem C09_read_up_to_FF_partial (r : Reader) (size : Nat) (hs : 2 ≤ size) (hf : Fair r.sched) (ts : List Token)
    (h : Json.decodeFrom r size = (ts, .ok () ())) :
    ∃ vs b rest, Stream LaxChars vs b ∧ ts = streamToks vs ∧ r.rest = b ++ rest ∧
      ((rest = [] ∧ r.fin = .eof) ∨ ∃ rest', rest = 0xFF :: rest') := by
  obtain ⟨D, fin, hd, hx⟩ := decodeFrom_spec r size hs
  rw [h] at hx
  rcases hd with ⟨rfl, rfl⟩ | ⟨h, _⟩
  · exact hx
  · exact absurd hf h

/-- Non-vacuity. -/
example (r : Reader) (hf : Fair r.sched) (hr : r.rest = b%"1 [2] ") (he : r.fin = .eof) :
    (Json.decodeFrom r).2 = .ok () () := by
  rw [decodeFrom_fair r _ (by decide) hf, hr, he]
  rfl

end Verif
