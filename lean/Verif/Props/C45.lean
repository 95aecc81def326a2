import Verif.PathSamples
import Verif.PathFaith

/-!
# C45: rooted subqueries are shared soundly
-/

set_option linter.unusedSimpArgs false

namespace Verif.JPath

open Rfc9535

/-- For every query that compiles: the runner stands for the query (`segsFor`) when references are replaced by what the entries are for, and the runner
of each entry stands for the query the entry is for; the entries are different (so equal subqueries share one); the runner of an entry refers to
earlier entries only, and to rooted singular queries that exist (which refer to nothing); the main runner refers to entries that exist. -/
theorem C45_tables {q : Query} {m : MainR} (h : compileQuery q = some m) :
    ∃ tab : Tables, m.sing = tab.sing ∧ m.queries = tab.queries.map (·.2) ∧ segsFor tab q.segs m.main ∧
      (∀ (k : Nat) segs r, tab.queries[k]? = some (segs, r) → segsFor tab segs r ∧ segsUse k tab.sing.length r) ∧
      tab.sing.Nodup ∧ (tab.queries.map (·.1)).Nodup ∧ segsUse tab.queries.length tab.sing.length m.main := by
  simp only [compileQuery, Option.map_eq_some_iff] at h
  obtain ⟨⟨tab, r⟩, h1, rfl⟩ := h
  have i := compileSegs_shares h1
  have j := compileSegs_for h1
  have hs : tab.Sound := i.sound ⟨by simp, by simp, fun k segs r h => by simp at h⟩
  have hf : tab.Faithful := j.1 fun k segs r h => by simp at h
  exact ⟨tab, rfl, rfl, j.2, fun k segs r h => ⟨hf k segs r h, hs.order k segs r h⟩, hs.sing, hs.queries, i.uses⟩

/-- The meaning does not change: what a query with rooted subqueries writes for each value of the stream are the nodes of the specification, in
which a rooted subquery is evaluated afresh each time (`eval`).  Missing: what is excluded by `Plain` (see C38 to C43), in particular rooted
subqueries on scalar roots, rooted singular queries that select nothing, and lengths of rooted arrays. -/
theorem C45_meaning_partial {lib : Lib} {re : Sem} {S : Bytes → Prop} {q : Query} (strict : Bool) (hc : (compileQuery q).isSome = true)
    {vs : List JVal} (h : ∀ v ∈ vs, Plain lib re S q v) :
    ∃ L, Outcome lib strict q (streamToks vs) (streamToks L) (.ok ()) ∧ L.Perm (vs.flatMap (eval re q)) := by
  obtain ⟨m, h1, h2⟩ := outcome_stream (strict := strict) hc h
  exact ⟨_, h1, rel2_perm (rel2_imp h2 fun _ _ h => h.1)⟩

/-- The meaning of filters on the children of the values of the stream: children are written for which the condition holds, in order. -/
theorem C45_filter_partial {lib : Lib} {re : Sem} {S : Bytes → Prop} {c : Logical} (strict : Bool) (hc : (compileCond {} c).isSome = true)
    {vs : List JVal} (h : ∀ v ∈ vs, Plain lib re S (filterQuery c) v) :
    Outcome lib strict (filterQuery c) (streamToks vs) (streamToks (vs.flatMap fun v => keep (holds re v c) (children v))) (.ok ()) :=
  outcome_filter strict hc h

/-- `[[2],[2]]` -/
private def twice : JVal := .arr [.arr [num b%"2"] false, .arr [num b%"2"] false] false

/-- `$[?length($[0])==count($[0].*)]` -/
private def lengths : Query := filterQuery (.cmp (.func b%"length" [.query true [.mk false [.index 0]]]) .eq
  (.func b%"count" [.query true [.mk false [.index 0], .mk false [.wild]]]))

private theorem den_twice : ∃ d, Den twice d := by
  have d2 : Den (num b%"2") _ := den_digit (by decide)
  exact ⟨_, .arr (.cons (.arr (.cons d2 .nil)) (.cons (.arr (.cons d2 .nil)) .nil))⟩

/-- C45 is false: `length` consumes the value of the entry, so that it is 0 the second time: `$[?length($[0])==count($[0].*)]` on `[[2],[2]]`
writes the first item only. -/
theorem C45_violated (re : Sem) (strict : Bool) :
    Outcome noLib strict lengths (streamToks [twice]) (streamToks [.arr [num b%"2"] false]) (.ok ()) ∧ eval re lengths twice = children twice ∧
    ¬ Outcome noLib strict lengths (streamToks [twice]) (streamToks (eval re lengths twice)) (.ok ()) := by
  have h : Outcome noLib strict lengths (streamToks [twice]) (streamToks [.arr [num b%"2"] false]) (.ok ()) :=
    .of_run 10 (by cases strict <;> decide +kernel)
  have e : eval re lengths twice = children twice := by
    have hl : ∀ w, holds re twice (.cmp (.func b%"length" [.query true [.mk false [.index 0]]]) .eq
        (.func b%"count" [.query true [.mk false [.index 0], .mk false [.wild]]])) w := by
      intro w
      have d2 : DenBy re.val (num b%"2") _ := den_digit (by decide)
      have d : DenBy re.val (.arr [num b%"2"] false) _ := .arr (.cons d2 .nil)
      have hex : ∃ n, LengthIs (.arr [.num (re.val b%"2")]) n := ⟨1, rfl⟩
      have hch : hex.choose = 1 := hex.choose_spec.symm
      rw [holds, value, value]
      simp [argsData, argData, nodes, Rfc9535.segNodes, selsNodes, selNodes, twice, indexNodes, children, show index 0 2 = some 0 from by decide,
        Rfc9535.fnValue, ArgData.toValue, d.dataOf, Rfc9535.compare, hex, hch]
    rw [lengths, eval_filter]
    simp [keep, hl]
  refine ⟨h, e, fun h' => ?_⟩
  rw [e] at h'
  exact absurd (h.unique h').1 (by decide)

section NonVacuity

/-- `$[?$[?$.a]]`: there are two entries, and the first one is for the inner query. -/
private def nested : Query := filterQuery (.query true [.mk false [.filter (.query true [.mk false [.name b%"a"]])]])

example : ∃ m, compileQuery nested = some m ∧ m.queries = [[.mk false [.name b%"a"]], [.mk false [.filter (.query (.inner 0))]]] ∧
    m.main = [.mk false [.filter (.query (.inner 1))]] := ⟨_, rfl, rfl, rfl⟩

/-- `$[?$.a&&$.a]`: the entry is shared. -/
example : ∃ m, compileQuery (filterQuery (.and [.query true [.mk false [.name b%"a"]], .query true [.mk false [.name b%"a"]]])) = some m ∧
    m.queries = [[.mk false [.name b%"a"]]] ∧ m.main = [.mk false [.filter (.and [.query (.inner 0), .query (.inner 0)])]] := by
  have e : segmentsBeq [.mk false [.name b%"a"]] [.mk false [.name b%"a"]] = true := segmentsBeq_self _
  simp [compileQuery, filterQuery, compileSegs, compileSeg, compileSels, compileSel, compileCond, compileConds, List.findIdx?, List.findIdx?.go, e]

/-- `$[?$[?$[0]]]` on `[[2],[2]]` -/
example (lib : Lib) (re : Sem) (strict : Bool) :
    let c : Logical := .query true [.mk false [.filter (.query true [.mk false [.index 0]])]]
    Outcome lib strict (filterQuery c) (streamToks [twice]) (streamToks ([twice].flatMap fun v => keep (holds re v c) (children v))) (.ok ()) :=
  C45_filter_partial (S := fun _ => True) strict rfl fun v hv => by
    simp only [List.mem_singleton] at hv; subst hv
    refine ⟨den_twice, fun _ _ _ => trivial, by decide, safe_filter.2 ?_⟩
    have hc : IsColl twice := fun k e => nomatch e
    simp only [safeCond, safeSegs, safeSeg, safeSels, safeSel, if_true, and_true, hc]
    show IJson _
    decide

example (strict : Bool) : Outcome noLib strict nested (streamToks [twice]) [] (.ok ()) := .of_run 10 (by cases strict <;> decide +kernel)

end NonVacuity

end Verif.JPath
