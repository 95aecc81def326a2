import Verif.JsonStream

/-!
# C03: the JSON decoder accepts all JSON, with the right tokens
-/

namespace Verif
open Rfc8259

/-- Every stream of RFC 8259 texts, in which numbers are separated from what follows, is decoded
to the tokens of its values, for every reader and every size of the buffer. -/
theorem C03_accepts_all_json (vs : List JVal) (r : Reader) (size : Nat) (hs : 2 ≤ size) (hf : Fair r.sched)
    (he : r.fin = .eof) (h : SepStream RfcChars vs r.rest) :
    Json.decodeFrom r size = (streamToks vs, .ok () ()) := by
  rw [decodeFrom_fair r size hs hf, he, decode_complete (h.mono fun _ => rfc_lax)]
  rfl

/-- A single text, with white space around it. -/
theorem C03_single_text (v : JVal) (w b w' : Bytes) (r : Reader) (size : Nat) (hs : 2 ≤ size) (hf : Fair r.sched)
    (he : r.fin = .eof) (hw : Ws w) (hv : Text RfcChars v b) (hw' : Ws w') (hr : r.rest = w ++ (b ++ w')) :
    Json.decodeFrom r size = (v.toks, .ok () ()) := by
  have := C03_accepts_all_json [v] r size hs hf he (by
    rw [hr]
    refine .cons hw hv ?_ (.nil hw')
    intro _ x r' hx
    have hm := hw' x (by rw [hx]; simp)
    rcases hm with rfl | rfl | rfl | rfl <;> (unfold NumCont Digit; decide))
  simpa using this

/-- Non-vacuity: the text `[1,"a"]`. -/
example : SepStream RfcChars [.arr [.scalar { bytes := b%"1", type := .num }, .scalar (strScalar b%"a")] false] b%"[1,\"a\"]" :=
  .cons (w := []) (b := b%"[1,\"a\"]") (r := []) (by intro x h; simp at h)
    (.arr (b := b%"1,\"a\"") (.more (w := []) (b := b%"1") (w' := []) (r := b%"\"a\"") (by intro x h; simp at h)
      (.num ⟨[], b%"1", [], [], .inl rfl, .inr ⟨0x31, [], by decide, by decide, by simp, rfl⟩, .inl rfl, .inl rfl, rfl⟩)
      (by intro x h; simp at h)
      (.one (w := []) (b := b%"\"a\"") (w' := []) (by intro x h; simp at h)
        (.str (c := b%"a") (.plain (c := b%"a") (r := []) ⟨0x61, .inl (by decide), by decide, by decide, by decide, rfl⟩ .nil))
        (by intro x h; simp at h))))
    (by rintro ⟨s, h, _⟩; cases h) (.nil (by intro x h; simp at h))

end Verif
