import Verif.PathSamples

/-!
# C40: existence tests
-/

set_option linter.unusedSimpArgs false

namespace Verif.JPath

open Rfc9535

/-- `$[?q]` writes exactly the children for which the query `q` (relative or rooted) selects at least one node.  (Existence tests in
other places of a query: C38, C39.)  Missing: relative queries that have a segment with several selectors; rooted queries on a
scalar; what is excluded by `Plain` otherwise. -/
theorem C40_existence_partial {lib : Lib} {re : Sem} {S : Bytes → Prop} {root : Bool} {segs : List Segment} (strict : Bool)
    (hc : (compileCond {} (.query root segs)).isSome = true) {vs : List JVal} (h : ∀ v ∈ vs, Plain lib re S (filterQuery (.query root segs)) v) :
    Outcome lib strict (filterQuery (.query root segs)) (streamToks vs)
      (streamToks (vs.flatMap fun v => keep (fun w => nodes re v segs (if root then v else w) ≠ []) (children v))) (.ok ()) := by
  have := outcome_filter strict hc h
  rw [show holds re = fun v c w => holds re v c w from rfl] at this
  simpa only [holds] using this

/-- Without filters inside the tests, and with the conditions of C38 for slices and integers, the conditions are: a segment of a relative query has one
selector, and with a rooted query the values of the stream are collections. -/
theorem C40_basic_partial (lib : Lib) (re : Sem) {root : Bool} {segs : List Segment} (strict : Bool) (hq : ∀ seg ∈ segs, seg.Basic)
    (hs : root = false → ∀ seg ∈ segs, seg.Single) {vs : List JVal} (hr : root = true → ∀ v ∈ vs, IsColl v)
    (h : ∀ v ∈ vs, (∃ d, Den v d) ∧ (v.toks.length : Int) ≤ maxInt64) :
    Outcome lib strict (filterQuery (.query root segs)) (streamToks vs)
      (streamToks (vs.flatMap fun v => keep (fun w => nodes re v segs (if root then v else w) ≠ []) (children v))) (.ok ()) := by
  refine C40_existence_partial (S := fun _ => True) strict ?_ fun v hv => ⟨(h v hv).1, fun _ _ _ => trivial, (h v hv).2, safe_filter.2 ?_⟩
  · obtain ⟨r, e⟩ := basic_compileSegs {} hq
    rw [compileCond]
    cases root <;> simp [e]
  · rw [safeCond]
    refine ⟨basic_safeSegs hq, ?_⟩
    cases root with
    | true => exact hr rfl v hv
    | false => exact hs rfl

/-- `[{"b":1}]` -/
private def sample : JVal := .arr [.obj [(str b%"\"b\"", num b%"1")] false] false

/-- C40 is false: `$[?@["a","b"]]` selects nothing from `[{"b":1}]`, because the result of the last selectors is dropped. -/
theorem C40_violated (re : Sem) (strict : Bool) :
    let q := filterQuery (.query false [.mk false [.name b%"a", .name b%"b"]])
    Outcome noLib strict q (streamToks [sample]) [] (.ok ()) ∧ eval re q sample = children sample ∧
    ¬ Outcome noLib strict q (streamToks [sample]) (streamToks (eval re q sample)) (.ok ()) := by
  have h : Outcome noLib strict (filterQuery (.query false [.mk false [.name b%"a", .name b%"b"]])) (streamToks [sample]) [] (.ok ()) :=
    .of_run 10 (by cases strict <;> decide +kernel)
  have e : eval re (filterQuery (.query false [.mk false [.name b%"a", .name b%"b"]])) sample = children sample := by
    rw [eval_filter]
    simp [keep, sample, children, holds, nodes, Rfc9535.segNodes, selsNodes, selNodes, nameNodes, is_b]
  refine ⟨h, e, fun h' => ?_⟩
  rw [e] at h'
  exact absurd (h.unique h').1 (by decide)

section NonVacuity

private theorem basic : ∀ seg ∈ ([.mk false [.name b%"b"]] : List Segment), seg.Basic := by
  intro seg hs
  simp only [List.mem_singleton] at hs
  subst hs
  intro s hs
  simp only [List.mem_singleton] at hs
  subst hs
  trivial

/-- `[{"b":1},1]` -/
private def two : JVal := .arr [.obj [(str b%"\"b\"", num b%"1")] false, num b%"1"] false

/-- `$[?@.b]` on `[{"b":1},1]` writes `{"b":1}`. -/
example (lib : Lib) (re : Sem) (strict : Bool) : Outcome lib strict (filterQuery (.query false [.mk false [.name b%"b"]])) (streamToks [two])
    (streamToks [.obj [(str b%"\"b\"", num b%"1")] false]) (.ok ()) := by
  have := C40_basic_partial lib re (root := false) strict basic (fun _ seg hs => by simp only [List.mem_singleton] at hs; subst hs; simp [Segment.Single])
    (vs := [two]) (fun e => nomatch e) (fun v hv => by
      simp only [List.mem_singleton] at hv; subst hv
      exact ⟨⟨_, .arr (.cons (.obj (.cons is_b (den_digit (by decide)) .nil) (by decide)) (.cons (den_digit (by decide)) .nil))⟩, by decide⟩)
  simpa [keep, two, children, nodes, Rfc9535.segNodes, selsNodes, selNodes, nameNodes, is_b, num] using this

/-- `$[?$[1]]` on `[{"b":1},1]` writes both items. -/
example : Outcome noLib false (filterQuery (.query true [.mk false [.index 1]])) (streamToks [two]) (streamToks (children two)) (.ok ()) :=
  .of_run 10 (by decide +kernel)

end NonVacuity

end Verif.JPath
