import Verif.PathSamples
import Verif.PathBack

/-!
# C39: descendant segments
-/

set_option linter.unusedSimpArgs false

namespace Verif.JPath

open Rfc9535

/-- A descendant segment has at most one selector. -/
def Segment.Narrow : Segment → Prop
  | .mk desc sels => desc = true → sels.length ≤ 1

/-- In strict mode the nodelist of the specification is written, in its order (a node before its descendants, items in order).  Missing: descendant
segments with several selectors; what is excluded by `Plain` (see C38). -/
theorem C39_strict_partial {lib : Lib} {re : Sem} {S : Bytes → Prop} {q : Query} (hc : (compileQuery q).isSome = true)
    (hq : ∀ seg ∈ q.segs, seg.Narrow) {vs : List JVal} (h : ∀ v ∈ vs, Plain lib re S q v) :
    Outcome lib true q (streamToks vs) (streamToks (vs.flatMap (eval re q))) (.ok ()) :=
  outcome_exact hc h fun seg hs => by
    have := hq seg hs
    obtain ⟨d, sels⟩ := seg
    cases d with
    | false => exact .inl rfl
    | true => exact .inr ⟨rfl, this rfl⟩

/-- In both modes, for each value of the stream the nodes of the specification are written, in some order.  Missing: what is excluded by `Plain`. -/
theorem C39_multiset_partial {lib : Lib} {re : Sem} {S : Bytes → Prop} {q : Query} (strict : Bool) (hc : (compileQuery q).isSome = true)
    {vs : List JVal} (h : ∀ v ∈ vs, Plain lib re S q v) :
    ∃ Ls : List (List JVal), Outcome lib strict q (streamToks vs) (streamToks Ls.flatten) (.ok ()) ∧
      Rel2 (fun v L => L.Perm (eval re q v)) vs Ls := by
  obtain ⟨Ls, h1, h2⟩ := outcome_stream (strict := strict) hc h
  exact ⟨Ls, h1, rel2_imp h2 fun _ _ h => h.1⟩

/-- Slices of the segments may also go backward, by one or from the end or from a negative index, if the nodes are scalars.  Missing (false): other
nodes and other starts (C38, C36); slices that go backward in the queries of filters. -/
theorem C39_backward_partial {lib : Lib} {re : Sem} {S : Bytes → Prop} {q : Query} (strict : Bool) (hc : (compileQuery q).isSome = true)
    {vs : List JVal} (h : ∀ v ∈ vs, PlainBack lib re S q v) :
    ∃ Ls : List (List JVal), Outcome lib strict q (streamToks vs) (streamToks Ls.flatten) (.ok ()) ∧
      Rel2 (fun v L => L.Perm (eval re q v)) vs Ls := by
  obtain ⟨Ls, h1, h2⟩ := outcome_back (strict := strict) hc h
  exact ⟨Ls, h1, rel2_imp h2 fun _ _ h => h.1⟩

/-- `[[7],[8]]` -/
private def pair : JVal := .arr [.arr [num b%"7"] false, .arr [num b%"8"] false] false

/-- C39 is false: with several selectors the order in strict mode is that of no selector after the other: `$..[1,0]` on `[[7],[8]]` writes [8], 7, 8,
[7] instead of [8], [7], 7, 8. -/
theorem C39_violated (re : Sem) :
    let q : Query := ⟨true, [.mk true [.index 1, .index 0]]⟩
    Outcome noLib true q (streamToks [pair]) (streamToks [.arr [num b%"8"] false, num b%"7", num b%"8", .arr [num b%"7"] false]) (.ok ()) ∧
    eval re q pair = [.arr [num b%"8"] false, .arr [num b%"7"] false, num b%"7", num b%"8"] ∧
    ¬ Outcome noLib true q (streamToks [pair]) (streamToks (eval re q pair)) (.ok ()) := by
  have h : Outcome noLib true ⟨true, [.mk true [.index 1, .index 0]]⟩ (streamToks [pair])
      (streamToks [.arr [num b%"8"] false, num b%"7", num b%"8", .arr [num b%"7"] false]) (.ok ()) := .of_run 10 (by decide +kernel)
  have e : eval re ⟨true, [.mk true [.index 1, .index 0]]⟩ pair = [.arr [num b%"8"] false, .arr [num b%"7"] false, num b%"7", num b%"8"] := by
    simp [eval, nodes, Rfc9535.segNodes, selsNodes, selNodes, pair, num, descendants, descendantsL, indexNodes, show index 1 2 = some 1 from by decide,
      show index 0 2 = some 0 from by decide, show index 1 1 = none from by decide, show index 0 1 = some 0 from by decide]
  refine ⟨h, e, fun h' => ?_⟩
  rw [e] at h'
  exact absurd (h.unique h').1 (by decide)

/-- `[[3,4],1,2]` -/
private def nested : JVal := .arr [.arr [num b%"3", num b%"4"] false, num b%"1", num b%"2"] false

/-- C39 is false with one selector as well: a slice that goes backward keeps its nodes until those of the descendants are written: `$..[:0:-1]` on
`[[3,4],1,2]` writes 4, 2, 1 instead of 2, 1, 4, in strict mode too. -/
theorem C39_violated_backward (re : Sem) (strict : Bool) :
    let q : Query := ⟨true, [.mk true [.slice none (some 0) (-1)]]⟩
    Outcome noLib strict q (streamToks [nested]) (streamToks [num b%"4", num b%"2", num b%"1"]) (.ok ()) ∧
    eval re q nested = [num b%"2", num b%"1", num b%"4"] := by
  refine ⟨.of_run 10 (by cases strict <;> decide +kernel), ?_⟩
  simp [eval, nodes, Rfc9535.segNodes, selsNodes, selNodes, nested, num, descendants, descendantsL, sliceNodes,
    show slice none (some 0) (-1) 3 = [2, 1] from by decide, show slice none (some 0) (-1) 2 = [1] from by decide]

section NonVacuity

private theorem den_pair : ∃ d, Den pair d :=
  ⟨_, .arr (.cons (.arr (.cons (den_digit (by decide)) .nil)) (.cons (.arr (.cons (den_digit (by decide)) .nil)) .nil))⟩

private theorem basic : ∀ seg ∈ ([.mk true [.wild]] : List Segment), seg.Basic := by
  intro seg hs
  simp only [List.mem_singleton] at hs
  subst hs
  intro s hs
  simp only [List.mem_singleton] at hs
  subst hs
  trivial

/-- In strict mode `$..*` on `[[7],[8]]` writes [7], [8], 7, 8. -/
example (lib : Lib) (re : Sem) : Outcome lib true ⟨true, [.mk true [.wild]]⟩ (streamToks [pair])
    (streamToks [.arr [num b%"7"] false, .arr [num b%"8"] false, num b%"7", num b%"8"]) (.ok ()) := by
  have := C39_strict_partial (lib := lib) (re := re) (q := ⟨true, [.mk true [.wild]]⟩) (basic_compiles basic)
    (fun seg hs => by simp only [List.mem_singleton] at hs; subst hs; exact fun _ => by simp) (vs := [pair])
    (fun v hv => by
      simp only [List.mem_singleton] at hv; subst hv
      exact basic_plain basic den_pair (by decide))
  simpa [eval, nodes, Rfc9535.segNodes, selsNodes, selNodes, pair, num, descendants, descendantsL, children] using this

/-- In the other mode the order is different. -/
example : Outcome noLib false ⟨true, [.mk true [.wild]]⟩ (streamToks [pair])
    (streamToks [.arr [num b%"7"] false, num b%"7", .arr [num b%"8"] false, num b%"8"]) (.ok ()) := .of_run 10 (by decide +kernel)

private theorem den_nested : ∃ d, Den nested d :=
  ⟨_, .arr (.cons (.arr (.cons (den_digit (by decide)) (.cons (den_digit (by decide)) .nil))) (.cons (den_digit (by decide)) (.cons (den_digit (by decide)) .nil)))⟩

/-- `$..[:0:-1]` on `[[3,4],1,2]` writes 2, 1 and 4 in some order. -/
example (lib : Lib) (re : Sem) (strict : Bool) : ∃ Ls : List (List JVal),
    Outcome lib strict ⟨true, [.mk true [.slice none (some 0) (-1)]]⟩ (streamToks [nested]) (streamToks Ls.flatten) (.ok ()) ∧
      Rel2 (fun v L => L.Perm (eval re ⟨true, [.mk true [.slice none (some 0) (-1)]]⟩ v)) [nested] Ls :=
  C39_backward_partial (S := fun _ => True) strict rfl fun v hv => by
    simp only [List.mem_singleton] at hv
    subst hv
    refine ⟨den_nested, fun _ _ _ => trivial, by decide, ?_, ?_⟩
    · intro seg hs
      simp only [List.mem_singleton] at hs
      subst hs
      intro s hs
      simp only [List.mem_singleton] at hs
      subst hs
      exact .inr ⟨(fun _ h => nomatch h), (fun _ h => by cases h; decide), by decide, by decide, .inl rfl⟩
    · intro w hw
      have hw : w ∈ eval re ⟨true, [.mk true [.slice none (some 0) (-1)]]⟩ nested := hw
      rw [(C39_violated_backward re strict).2] at hw
      simp only [List.mem_cons, List.not_mem_nil, or_false] at hw
      rcases hw with rfl | rfl | rfl <;> exact ⟨_, rfl⟩

end NonVacuity

end Verif.JPath
