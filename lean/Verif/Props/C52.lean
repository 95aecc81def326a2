import Verif.JpvWell

/-!
# C52: the JPV decoder accepts only JPV
-/

namespace Verif
open JpvSpec JpvWell

/-- C52 is false: a byte `0xFF` is taken for the end, so that anything is accepted behind it. -/
theorem C52_violated (r : Reader) (size : Nat) (hs : 2 ≤ size) (hf : Fair r.sched) (he : r.fin = .eof)
    (hr : r.rest = b%"$ = 1\n" ++ 0xFF :: b%"garbage") : (Jpv.decodeFrom r size).2 = .ok () () := by
  rw [jpvDecodeFrom_fair r _ hs hf, hr, he]; rfl

/-- C52 apart from this: if decoding succeeds, the input consists of lines `$path = value`, up to the first byte `0xFF`
between lines.
Missing: what follows such a byte; and the escapes and the encoding of strings are not checked (as in C02). -/
theorem C52_accepts_only_lines_partial (r : Reader) (size : Nat) (hs : 2 ≤ size) (ts : List Token)
    (h : Jpv.decodeFrom r size = (ts, .ok () ())) : ∃ D fin, Delivers r D fin ∧ Accepted fin D := by
  obtain ⟨D, fin, hd, hx⟩ := jpvDecodeFrom_eq r size hs
  refine ⟨D, fin, hd, ?_⟩
  have hl := hd.le
  have hsp := produce_spec (fin := fin) (vfuel := Json.fuelFor r.rest.length) (Json.fuelFor r.rest.length) (last := []) (ls := [])
    (d := []) (r := D) (s := ⟨[], []⟩) .nil rfl (by simp) (by unfold Json.fuelFor; omega) (by unfold Json.fuelFor; omega)
    trivial ⟨by simp, by simp⟩
  rw [h] at hx
  generalize JpvPure.produce fin (Json.fuelFor r.rest.length) (Json.fuelFor r.rest.length) [] D = x at hsp hx
  obtain ⟨us, o⟩ := x
  match o, hsp with
  | some (.ok _), h => exact h.2
  | some (.error (.perr _)), h => exact absurd (congrArg Prod.snd hx) (by simp [outOfJ])
  | some (.error (.plain _)), h => exact absurd (congrArg Prod.snd hx) (by simp [outOfJ])
  | some (.error .panic), h => exact absurd (congrArg Prod.snd hx) (by simp [outOfJ])

/-- Non-vacuity: a text of two lines is accepted, and a line without value is not. -/
example (r : Reader) (hf : Fair r.sched) (hr : r.rest = b%"$.x[0] = 1\n$.y = {}") (he : r.fin = .eof) :
    (Jpv.decodeFrom r).2 = .ok () () := by
  rw [jpvDecodeFrom_fair r _ (by decide) hf, hr, he]; rfl

example (r : Reader) (hf : Fair r.sched) (hr : r.rest = b%"$[0].x =") (he : r.fin = .eof) :
    (Jpv.decodeFrom r).2 = .fail (.io .eof) := by
  rw [jpvDecodeFrom_fair r _ (by decide) hf, hr, he]; rfl

end Verif
