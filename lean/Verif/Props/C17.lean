import Verif.JpvWell

/-!
# C17: JPV decoding never panics
-/

namespace Verif
open JpvSpec JpvWell

/-- Whether the outcome is a panic. -/
def isPanic : Out Unit Unit → Bool
  | .panic => true
  | _ => false

theorem isPanic_eq {o : Out Unit Unit} (h : isPanic o = true) : o = .panic := by
  cases o <;> simp [isPanic] at h ⊢

/-- C17 is false: decoding panics if a path is not followed by an equal sign (the decoder puts the byte back and then asks
for its position), -/
theorem C17_violated (r : Reader) (size : Nat) (hs : 2 ≤ size) (hf : Fair r.sched) (he : r.fin = .eof)
    (hr : r.rest = b%"$.a : 1") : (Jpv.decodeFrom r size).2 = .panic := by
  rw [jpvDecodeFrom_fair r _ hs hf, hr, he]; rfl

/-- if the path of a line leads to a container of the previous one, -/
theorem C17_violated_shorter (r : Reader) (size : Nat) (hs : 2 ≤ size) (hf : Fair r.sched) (he : r.fin = .eof)
    (hr : r.rest = b%"$.a = 1\n$ = 2") : (Jpv.decodeFrom r size).2 = .panic := by
  rw [jpvDecodeFrom_fair r _ hs hf, hr, he]; rfl

/-- if keys with invalid escapes are compared, -/
theorem C17_violated_escape (r : Reader) (size : Nat) (hs : 2 ≤ size) (hf : Fair r.sched) (he : r.fin = .eof)
    (hr : r.rest = b%"$[\"\\q\"] = 1\n$[\"a\"] = 2") : (Jpv.decodeFrom r size).2 = .panic := by
  rw [jpvDecodeFrom_fair r _ hs hf, hr, he]; rfl

/-- and if indices beyond the range of `float64` are compared. -/
theorem C17_violated_index (r : Reader) (size : Nat) (hs : 2 ≤ size) (hf : Fair r.sched) (he : r.fin = .eof)
    (hr : r.rest = b%"$[0] = 1\n$[" ++ List.replicate 310 0x39 ++ b%"] = 2") : (Jpv.decodeFrom r size).2 = .panic := by
  rw [jpvDecodeFrom_fair r _ hs hf, hr, he]
  refine isPanic_eq ?_
  decide +kernel

/-- C17 apart from these: decoding returns, unless the input starts with lines after which there is a path that is not
followed by an equal sign, or that leads to a container of the previous one, or that or the previous one has a string key
that denotes no Unicode string or an index of more than fifteen digits.
Missing: in these cases the decoder may panic. -/
theorem C17_returns_partial (r : Reader) (size : Nat) (hs : 2 ≤ size) :
    ∃ D fin, Delivers r D fin ∧ ((∃ ts, Jpv.decodeFrom r size = (ts, .ok () ())) ∨
      (∃ ts e, Jpv.decodeFrom r size = (ts, .fail e)) ∨ ((Jpv.decodeFrom r size).2 = .panic ∧ Panics D)) := by
  obtain ⟨D, fin, hd, hx⟩ := jpvDecodeFrom_eq r size hs
  refine ⟨D, fin, hd, ?_⟩
  have hl := hd.le
  have hsp := produce_spec (fin := fin) (vfuel := Json.fuelFor r.rest.length) (Json.fuelFor r.rest.length) (last := []) (ls := [])
    (d := []) (r := D) (s := ⟨[], []⟩) .nil rfl (by simp) (by unfold Json.fuelFor; omega) (by unfold Json.fuelFor; omega)
    trivial ⟨by simp, by simp⟩
  rw [hx]
  generalize JpvPure.produce fin (Json.fuelFor r.rest.length) (Json.fuelFor r.rest.length) [] D = x at hsp
  obtain ⟨ts, o⟩ := x
  match o, hsp with
  | some (.ok _), _ => exact .inl ⟨ts, rfl⟩
  | some (.error (.perr _)), _ => exact .inr (.inl ⟨ts, _, rfl⟩)
  | some (.error (.plain _)), _ => exact .inr (.inl ⟨ts, _, rfl⟩)
  | some (.error .panic), h => exact .inr (.inr ⟨rfl, h⟩)

/-- Non-vacuity: there are inputs for which a panic is excluded. -/
example : ¬ Panics b%"[1]" := by
  rintro ⟨ls, d, w, p, pb, w', x, rest, hl, hw, _, _, _, e, _⟩
  have h24 : (0x24 : Byte) ∈ b%"[1]" := by rw [e]; simp
  exact absurd h24 (by decide)

end Verif
