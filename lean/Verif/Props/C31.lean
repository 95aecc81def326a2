import Verif.IterTransforms

/-!
# C31: split and join are inverse
-/

namespace Verif
open IProg AState JVal.toks

/-- The transform `split` on a stream. -/
def split (ts : List Token) : Option (List Token) := runTransform explodeArray ts

/-- Specification: the values a value is split into. -/
def JVal.parts : JVal → List JVal
  | .arr items _ => items
  | v => [v]

theorem explodeArray_visits (v : JVal) (f : Nat) (hf : v.toks.length < f) :
    Visits (explodeArray f) v (streamToks v.parts) () := by
  have hb := members_bound v
  intro s x hl hfr
  cases v with
  | scalar sc =>
    have hx : x = .scalar sc := hfr
    subst hx
    obtain ⟨s', e1, e2, e3⟩ := copyOut_visits (.scalar sc) s _ hl hfr
    exact ⟨s', by simp only [explodeArray]; rw [e1]; simp [JVal.parts], e2, e3⟩
  | obj ms e =>
    obtain ⟨i, t, h1, h⟩ := id hfr
    subst h1
    obtain ⟨s', e1, e2, e3⟩ := copyOut_visits (.obj ms e) s _ hl hfr
    exact ⟨s', by simp only [explodeArray, JVal.kind] at e1 ⊢; rw [e1]; simp [JVal.parts], e2, e3⟩
  | arr items e =>
    obtain ⟨i, t, h1, h⟩ := id hfr
    subst h1
    obtain ⟨s', e1, e2, e3⟩ := members_visits (body := fun _ y => copyOut y) (out := fun _ v => v.toks) (f := f)
      (by simp) (by omega) (fun m _ => copyOut_visits m.2) hl hfr
    refine ⟨s', ?_, e2, e3⟩
    simp only [explodeArray, JVal.kind]
    rw [e1]
    have : ∀ l : List JVal, l.flatMap JVal.toks = streamToks l := fun l => by
      induction l with
      | nil => rfl
      | cons v l ih => simp [ih]
    simp [JVal.members, JVal.parts, List.flatMap_map, this]

/-- C31: splitting gives the items of arrays and passes everything else unchanged. -/
theorem C31_split (vs : List JVal) : split (streamToks vs) = some (streamToks (vs.flatMap JVal.parts)) :=
  runTransform_eq fun v _ f hf => explodeArray_visits v f hf

/-- C31: joining gives one array with the values of the stream. -/
theorem C31_join (vs : List JVal) : joinStream (streamToks vs) = streamToks [.arr vs false] := by
  simp [joinStream, streamToks, elisionToks]

/-- C31: split after join is the identity on streams of values. -/
theorem C31_split_join (ts : List Token) (h : WellFormed ts) : split (joinStream ts) = some ts := by
  obtain ⟨vs, rfl⟩ := h
  rw [C31_join, C31_split]
  simp [JVal.parts]

/-- C31: join after split is the identity on a stream that is a single array without elision mark.
Missing: arrays with the mark, for which it is false (`C31_violated`). -/
theorem C31_join_split_partial (items : List JVal) :
    (split (streamToks [.arr items false])).map joinStream = some (streamToks [.arr items false]) := by
  rw [C31_split]
  simp only [Option.map_some, C31_join]
  simp [JVal.parts]

/-- C31: the elision mark of an array (as left by the depth limit) does not survive splitting and joining. -/
theorem C31_elided (items : List JVal) :
    (split (streamToks [.arr items true])).map joinStream = some (streamToks [.arr items false]) := by
  rw [C31_split]
  simp only [Option.map_some, C31_join]
  simp [JVal.parts]

/-- C31 is false for arrays with an elision mark: for the stream `[...]`, join after split gives `[]`. -/
theorem C31_violated : (split (streamToks [.arr [] true])).map joinStream = some (streamToks [.arr [] false]) ∧
    streamToks [.arr [] false] ≠ streamToks [.arr [] true] :=
  ⟨C31_elided [], by decide⟩

section NonVacuity

private def num (b : Bytes) : Scalar := ⟨b, .num, false, false, false⟩

example : split [.startArr, .scalar (num b%"1"), .startArr, .endArr, .endArr, .scalar (num b%"2")] =
    some [.scalar (num b%"1"), .startArr, .endArr, .scalar (num b%"2")] := by
  have := C31_split [.arr [.scalar (num b%"1"), .arr [] false] false, .scalar (num b%"2")]
  simpa [streamToks, JVal.parts, elisionToks] using this

example : joinStream [.scalar (num b%"1")] = [.startArr, .scalar (num b%"1"), .endArr] := rfl

end NonVacuity

end Verif
