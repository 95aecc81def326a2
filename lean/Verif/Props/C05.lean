import Verif.JsonStream

/-!
# C05: JSON decoding never panics
-/

namespace Verif

/-- Whatever the reader delivers and however it ends (also if it makes no progress), decoding ends
with success or an error: no panic, and no loop exceeds a bound linear in the length of the
input. -/
theorem C05_json_decoding_never_panics (r : Reader) (size : Nat) (hs : 2 ≤ size) :
    (Json.decodeFrom r size).2 = .ok () () ∨ ∃ e, (Json.decodeFrom r size).2 = .fail e := by
  obtain ⟨D, fin, _, hx⟩ := decodeFrom_spec r size hs
  revert hx
  generalize Json.decodeFrom r size = x
  obtain ⟨ts, o⟩ := x
  cases o with
  | ok _ _ => intro _; exact .inl rfl
  | fail e => intro _; exact .inr ⟨e, rfl⟩
  | panic => exact False.elim
  | stuck => exact False.elim
  | oof => exact False.elim

/-- Non-vacuity: panics exist in the model, e.g. going back twice. -/
example (r : Reader) (hr : r.rest = b%"ab") :
    (Prog.read fun _ => .read fun _ => .back (.back (.ret ()))).result AScan.machine (AScan.new r.rest r.fin) = ([], .panic) := by
  rw [hr]; rfl

/-- Non-vacuity: a reader that never delivers anything. -/
example : (Json.decodeFrom ⟨b%"1", .eof, fun _ => (0, false), 0⟩).2 = .fail (.io .noProgress) := rfl

end Verif
