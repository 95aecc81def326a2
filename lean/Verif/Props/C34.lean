import Verif.PathSamples
import Verif.ParseToks
import Verif.Props.C30
import Verif.Props.C31
import Verif.Props.C32

/-!
# C34: the output of transforms and queries is well formed
-/

set_option linter.unusedSimpArgs false

namespace Verif

/-- C34: the depth limit. -/
theorem C34_depth (m : Int) {ts : List Token} (h : WellFormed ts) : WellFormed (maxDepthFilter m ts) := by
  obtain ⟨vs, rfl⟩ := h
  by_cases hm : m < 0
  · exact ⟨[], C30_maxDepth_negative m hm vs⟩
  · obtain ⟨n, rfl⟩ := Int.eq_ofNat_of_zero_le (by omega : 0 ≤ m)
    exact ⟨_, C30_maxDepth n vs⟩

/-- C34: splitting. -/
theorem C34_split {ts : List Token} (h : WellFormed ts) : ∃ out, split ts = some out ∧ WellFormed out := by
  obtain ⟨vs, rfl⟩ := h
  exact ⟨_, C31_split vs, _, rfl⟩

/-- C34: joining. -/
theorem C34_join {ts : List Token} (h : WellFormed ts) : WellFormed (joinStream ts) := by
  obtain ⟨vs, rfl⟩ := h
  exact ⟨_, C31_join vs⟩

/-- C34: the key extractors.  Missing: streams with a key that denotes no string (`C32_violated`). -/
theorem C34_keys_partial (name : Scalar → Bytes) (key : Bytes) (vs : List JVal) (hn : ∀ v ∈ vs, Named name v) :
    (∃ out, runTransform (keyExtractor key) (streamToks vs) = some out ∧ WellFormed out) ∧
    ∃ out, runTransform (deepKeyExtractor key) (streamToks vs) = some out ∧ WellFormed out :=
  ⟨⟨_, C32_key_partial name key vs hn, _, rfl⟩, _, C32_deep_key_partial name key vs hn, _, rfl⟩

namespace JPath
open Rfc9535

/-- C34: queries.  Missing: what is excluded by `Plain`, in particular backward slices. -/
theorem C34_query_partial {lib : Lib} {re : Sem} {S : Bytes → Prop} {q : Query} (strict : Bool) (hc : (compileQuery q).isSome = true)
    {vs : List JVal} (h : ∀ v ∈ vs, Plain lib re S q v) : ∃ out, Outcome lib strict q (streamToks vs) out (.ok ()) ∧ WellFormed out := by
  obtain ⟨m, h1, -⟩ := outcome_stream (strict := strict) hc h
  exact ⟨_, h1, _, rfl⟩

/-- C34: queries of names, wildcards, indices and slices (see C38), in child and descendant segments. -/
theorem C34_basic_partial (lib : Lib) {q : Query} (strict : Bool) (hq : ∀ seg ∈ q.segs, seg.Basic) {vs : List JVal}
    (h : ∀ v ∈ vs, (∃ d, Den v d) ∧ (v.toks.length : Int) ≤ maxInt64) : ∃ out, Outcome lib strict q (streamToks vs) out (.ok ()) ∧ WellFormed out :=
  C34_query_partial (re := ⟨fun _ => none, decimal⟩) (S := fun _ => True) strict (basic_compiles hq) fun v hv => basic_plain hq (h v hv).1 (h v hv).2

/-- `[[1],[2]]` -/
private def pair : JVal := .arr [.arr [num b%"1"] false, .arr [num b%"2"] false] false

/-- C34 is false: `$[::-1]` on `[[1],[2]]` writes the starts of two arrays, without items and ends. -/
theorem C34_violated (strict : Bool) : ∃ out, Outcome noLib strict ⟨true, [.mk false [.slice none none (-1)]]⟩ (streamToks [pair]) out (.ok ()) ∧
    ¬ WellFormed out := by
  refine ⟨[.startArr, .startArr], .of_run 10 (by cases strict <;> decide +kernel), ?_⟩
  rw [wellFormed_iff]
  decide

/-- The next value of the input is taken instead of the items: `$[::-1]` on `[[1]] 5` writes the start of an array, and 5. -/
theorem C34_violated_next (strict : Bool) : ∃ out, Outcome noLib strict ⟨true, [.mk false [.slice none none (-1)]]⟩
    (streamToks [.arr [.arr [num b%"1"] false] false, num b%"5"]) out (.ok ()) ∧ ¬ WellFormed out ∧
      out = [.startArr, .scalar ⟨b%"5", .num, false, false, false⟩] := by
  refine ⟨_, .of_run 10 (by cases strict <;> decide +kernel), ?_, rfl⟩
  rw [wellFormed_iff]
  decide

section NonVacuity

/-- `$..[1]` on `[[1],[2]]` -/
example (strict : Bool) : Outcome noLib strict ⟨true, [.mk true [.index 1]]⟩ (streamToks [pair]) (streamToks [.arr [num b%"2"] false]) (.ok ()) :=
  .of_run 10 (by cases strict <;> decide +kernel)

example (lib : Lib) (strict : Bool) : ∃ out, Outcome lib strict ⟨true, [.mk true [.index 1]]⟩ (streamToks [pair]) out (.ok ()) ∧ WellFormed out :=
  C34_basic_partial lib strict
    (by
      intro seg hs
      simp only [List.mem_singleton] at hs
      subst hs
      intro s hs
      simp only [List.mem_singleton] at hs
      subst hs
      show IJson _; decide)
    fun v hv => by
      simp only [List.mem_singleton] at hv; subst hv
      exact ⟨⟨_, .arr (.cons (.arr (.cons (den_digit (by decide)) .nil)) (.cons (.arr (.cons (den_digit (by decide)) .nil)) .nil))⟩, by decide⟩

end NonVacuity

end JPath

section NonVacuity

example : WellFormed [.startArr, .startArr, .endArr, .endArr] := ⟨[.arr [.arr [] false] false], rfl⟩
example : maxDepthFilter 0 [.startArr, .startArr, .endArr, .endArr] = [.startArr, .elision, .endArr] := by decide
example : ¬ WellFormed [.startArr] := by rw [wellFormed_iff]; decide

end NonVacuity

end Verif
