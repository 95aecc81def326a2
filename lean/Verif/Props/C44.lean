import Verif.PathSamples

/-!
# C44: queries never crash
-/

set_option linter.unusedSimpArgs false

namespace Verif.JPath

open Rfc9535

/-- A query that compiles ends normally on a stream of values for which it is `Plain`.  Missing: what is excluded by `Plain`: rooted queries on scalar
roots, rooted singular queries that select nothing, patterns that the library rejects, numbers out of the range of `float64` in comparisons, backward slices; also (without a known
failure) `value` of collections, lengths of objects and of rooted arrays. -/
theorem C44_plain_partial {lib : Lib} {re : Sem} {S : Bytes → Prop} {q : Query} (strict : Bool) (hc : (compileQuery q).isSome = true)
    {vs : List JVal} (h : ∀ v ∈ vs, Plain lib re S q v) : ∃ out, Outcome lib strict q (streamToks vs) out (.ok ()) := by
  obtain ⟨m, h1, -⟩ := outcome_stream (strict := strict) hc h
  exact ⟨_, h1⟩

/-- Queries of names, wildcards, indices and slices (see C38), in child and descendant segments. -/
theorem C44_basic_partial (lib : Lib) {q : Query} (strict : Bool) (hq : ∀ seg ∈ q.segs, seg.Basic) {vs : List JVal}
    (h : ∀ v ∈ vs, (∃ d, Den v d) ∧ (v.toks.length : Int) ≤ maxInt64) : ∃ out, Outcome lib strict q (streamToks vs) out (.ok ()) :=
  C44_plain_partial (re := ⟨fun _ => none, decimal⟩) (S := fun _ => True) strict (basic_compiles hq) fun v hv => basic_plain hq (h v hv).1 (h v hv).2

/-- `[1]` -/
private def one : JVal := .arr [num b%"1"] false

private theorem den_one : ∃ d, Den one d := ⟨_, .arr (.cons (den_digit (by decide)) .nil)⟩

/-- C44 is false: `$[?@==$.x]` on `[1]` panics, because the rooted singular query selects nothing. -/
theorem C44_violated_missing (strict : Bool) :
    Outcome noLib strict (filterQuery (.cmp (.sing ⟨false, []⟩) .eq (.sing ⟨true, [.name b%"x"]⟩))) (streamToks [one]) [] (.error .panic) :=
  .of_run 10 (by cases strict <;> decide +kernel)

/-- C44 is false: `$[?$.a]` on `1` panics, because the root is a scalar. -/
theorem C44_violated_scalar (strict : Bool) :
    Outcome noLib strict (filterQuery (.query true [.mk false [.name b%"a"]])) (streamToks [num b%"1"]) [] (.error .panic) :=
  .of_run 10 (by cases strict <;> decide +kernel)

/-- `{"a":[[1]],"b":2}` -/
private def nested : JVal := .obj [(str b%"\"a\"", .arr [.arr [num b%"1"] false] false), (str b%"\"b\"", num b%"2")] false

/-- C44 is false: `$.a[::-1]` on `{"a":[[1]],"b":2}` panics.  The item is written after it was discarded, and so takes the rest of the object from the
stream: `["b" 2}` is written. -/
theorem C44_violated_backward (strict : Bool) :
    Outcome noLib strict ⟨true, [.mk false [.name b%"a"], .mk false [.slice none none (-1)]]⟩ (streamToks [nested])
      [.startArr, .scalar (str b%"\"b\""), .scalar ⟨b%"2", .num, false, false, false⟩, .endObj] (.error .panic) :=
  .of_run 20 (by cases strict <;> decide +kernel)

/-- C44 is false: `$[?match(@,"(")]` on `["a","b"]` panics, for a library that rejects the pattern (which Go's does): the first evaluation enters
nil into the cache, the second one uses it. -/
theorem C44_violated_pattern (strict : Bool) :
    Outcome noLib strict (filterQuery (.func b%"match" [.query false [], .lit (.str b%"(")]))
      (streamToks [.arr [.scalar (str b%"\"a\""), .scalar (str b%"\"b\"")] false]) [] (.error .panic) :=
  .of_run 20 (by cases strict <;> decide +kernel)

section NonVacuity

/-- `$..*` -/
example (lib : Lib) (strict : Bool) : ∃ out, Outcome lib strict ⟨true, [.mk true [.wild]]⟩ (streamToks [one]) out (.ok ()) :=
  C44_basic_partial lib strict
    (by
      intro seg hs
      simp only [List.mem_singleton] at hs
      subst hs
      intro s hs
      simp only [List.mem_singleton] at hs
      subst hs
      trivial)
    fun v hv => by simp only [List.mem_singleton] at hv; subst hv; exact ⟨den_one, by decide⟩

/-- The witness of `C44_violated_missing` does not panic when the query selects something: `$[?@==$[0]]` on `[1]`. -/
example (strict : Bool) : Outcome noLib strict (filterQuery (.cmp (.sing ⟨false, []⟩) .eq (.sing ⟨true, [.index 0]⟩))) (streamToks [one])
    (streamToks [num b%"1"]) (.ok ()) := .of_run 10 (by cases strict <;> decide +kernel)

/-- With one string the pattern of `C44_violated_pattern` selects nothing, and there is no panic. -/
example (strict : Bool) : Outcome noLib strict (filterQuery (.func b%"match" [.query false [], .lit (.str b%"(")]))
    (streamToks [.arr [.scalar (str b%"\"a\"")] false]) [] (.ok ()) := .of_run 20 (by cases strict <;> decide +kernel)

end NonVacuity

end Verif.JPath
