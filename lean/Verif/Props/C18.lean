import Verif.JpvWell

/-!
# C18: JPV decoding emits well-formed streams
-/

namespace Verif
open JpvSpec JpvWell

/-- C18 is false: if a value is cut, the deferred function closes the collections of the path, but not those of the value. -/
theorem C18_violated (r : Reader) (size : Nat) (hs : 2 ≤ size) (hf : Fair r.sched) (he : r.fin = .eof)
    (hr : r.rest = b%"$.a = [1,") :
    (∃ e, (Jpv.decodeFrom r size).2 = .fail e) ∧ ¬ WellFormed (Jpv.decodeFrom r size).1 := by
  rw [jpvDecodeFrom_fair r _ hs hf, hr, he]
  refine ⟨⟨_, rfl⟩, ?_⟩
  rw [wellFormed_iff]
  simp only [Bool.not_eq_true]
  rfl

/-- If a value is missing, so is it in the stream. -/
theorem C18_violated_missing (r : Reader) (size : Nat) (hs : 2 ≤ size) (hf : Fair r.sched) (he : r.fin = .eof)
    (hr : r.rest = b%"$.a = ") :
    (∃ e, (Jpv.decodeFrom r size).2 = .fail e) ∧ ¬ WellFormed (Jpv.decodeFrom r size).1 := by
  rw [jpvDecodeFrom_fair r _ hs hf, hr, he]
  refine ⟨⟨_, rfl⟩, ?_⟩
  rw [wellFormed_iff]
  simp only [Bool.not_eq_true]
  rfl

theorem Closes.values {ts : List Token} (h : Closes ⟨[], []⟩ ts) : ∃ vs : List JVal, (∀ v ∈ vs, v.Proper) ∧ ts = streamToks vs := by
  obtain ⟨s', h1, h2, h3⟩ := h
  refine ⟨s'.top.reverse, fun v hv => h3.2 v (List.mem_reverse.1 hv), ?_⟩
  have := PState.run_read h1 (by simp [PState.Ok])
  simpa [PState.read, h2, PState.toksOf] using this.symm

/-- C18 apart from these: the tokens of a run that returns are those of a sequence of complete values, unless the input
starts with lines after which there is a line whose value is not JSON; on success always.
Missing: runs that end with an error inside a value. -/
theorem C18_well_formed_partial (r : Reader) (size : Nat) (hs : 2 ≤ size) :
    ∃ D fin, Delivers r D fin ∧
      (∀ ts, Jpv.decodeFrom r size = (ts, .ok () ()) → ∃ vs : List JVal, (∀ v ∈ vs, v.Proper) ∧ ts = streamToks vs) ∧
      (∀ ts e, Jpv.decodeFrom r size = (ts, .fail e) →
        (∃ vs : List JVal, (∀ v ∈ vs, v.Proper) ∧ ts = streamToks vs) ∨ InValue fin D) := by
  obtain ⟨D, fin, hd, hx⟩ := jpvDecodeFrom_eq r size hs
  refine ⟨D, fin, hd, ?_⟩
  have hl := hd.le
  have hsp := produce_spec (fin := fin) (vfuel := Json.fuelFor r.rest.length) (Json.fuelFor r.rest.length) (last := []) (ls := [])
    (d := []) (r := D) (s := ⟨[], []⟩) .nil rfl (by simp) (by unfold Json.fuelFor; omega) (by unfold Json.fuelFor; omega)
    trivial ⟨by simp, by simp⟩
  rw [hx]
  generalize JpvPure.produce fin (Json.fuelFor r.rest.length) (Json.fuelFor r.rest.length) [] D = x at hsp
  obtain ⟨us, o⟩ := x
  match o, hsp with
  | some (.ok _), h =>
    refine ⟨?_, by intro ts e h; cases h⟩
    rintro ts h'
    cases h'
    exact Closes.values h.1
  | some (.error (.perr _)), h =>
    refine ⟨by intro ts h; (have := congrArg Prod.snd h; cases this), ?_⟩
    rintro ts e h'
    cases h'
    exact h.imp (Closes.values ·) id
  | some (.error (.plain _)), h =>
    refine ⟨by intro ts h; (have := congrArg Prod.snd h; cases this), ?_⟩
    rintro ts e h'
    cases h'
    exact .inl (Closes.values h)
  | some (.error .panic), h =>
    exact ⟨by intro ts h; (have := congrArg Prod.snd h; cases this), by intro ts e h; (have := congrArg Prod.snd h; cases this)⟩

/-- Non-vacuity: an error after which the object is closed. -/
example (r : Reader) (hf : Fair r.sched) (hr : r.rest = b%"$.a = 1\n$[0] = 2\n") (he : r.fin = .eof) :
    Jpv.decodeFrom r = ([.startObj, .scalar { bytes := b%"\"a\"", type := .str, alnum := true, key := true },
      .scalar { bytes := b%"1", type := .num }, .endObj], .fail (.plain "inconsistent path: key types differ")) := by
  rw [jpvDecodeFrom_fair r _ (by decide) hf, hr, he]
  rfl

end Verif
