import Verif.PathBack
import Verif.PathTame
import Verif.FmtOk
import Verif.Props.C29

/-!
# C38: child segments
-/

set_option linter.unusedSimpArgs false

namespace Verif.JPath

open Rfc9535

/-- The segment is a child segment. -/
def Segment.Child : Segment → Prop
  | .mk desc _ => desc = false

/-- A query of child segments writes the nodelist of the specification, in its order, in both modes.  Missing: see `Plain` and `safeSegs`; slices
that go backward, slices from a negative index by steps, and what is wrong with filters (C40 to C44). -/
theorem C38_child_partial {lib : Lib} {re : Sem} {S : Bytes → Prop} {q : Query} (strict : Bool) (hc : (compileQuery q).isSome = true)
    (hq : ∀ seg ∈ q.segs, seg.Child) {vs : List JVal} (h : ∀ v ∈ vs, Plain lib re S q v) :
    Outcome lib strict q (streamToks vs) (streamToks (vs.flatMap (eval re q))) (.ok ()) :=
  outcome_exact hc h fun seg hs => by
    have := hq seg hs
    obtain ⟨d, sels⟩ := seg
    exact .inl this

/-- For queries of names, wildcards, indices and slices (forward, and by steps only from an index that is not negative), with integers in range,
nothing is assumed of values, except that their strings, numbers and names of members are valid and that they are not longer than `int64` can count. -/
theorem C38_basic_partial (lib : Lib) (re : Sem) {q : Query} (strict : Bool) (hq : ∀ seg ∈ q.segs, seg.Child ∧ seg.Basic) {vs : List JVal}
    (h : ∀ v ∈ vs, (∃ d, Den v d) ∧ (v.toks.length : Int) ≤ maxInt64) :
    Outcome lib strict q (streamToks vs) (streamToks (vs.flatMap (eval re q))) (.ok ()) :=
  C38_child_partial strict (basic_compiles fun s hs => (hq s hs).2) (fun s hs => (hq s hs).1)
    (S := fun _ => True) fun v hv => basic_plain (fun s hs => (hq s hs).2) (h v hv).1 (h v hv).2

/-- Queries with filters, of a class that is given by their syntax (`tameSegs`): comparisons of literals, relative singular queries and counts; tests of
relative queries with one selector in a segment, and of rooted ones if the values are arrays or objects; `match` and `search` with patterns of `P`, for which the
library is supposed to be right; all these combined by `&&`, `||` and `!`, also inside of each other.  Nothing is assumed of values, except that their literals
are valid, that numbers are in the range of `float64` and that there are less than 2^53 tokens.  Number literals have the values of the nearest
IEEE 754 double.  Missing: other filters (C40 to C44), and what is missing in `C38_child_partial`. -/
theorem C38_filters_partial {lib : Lib} {re : Sem} (hfmt : FmtOk lib.fmt) (hval : Double re.val) {P : Bool → Bytes → Prop}
    (hP : ∀ whole p, P whole p → ∀ s cs, Chars s cs → RegexOk lib re whole s p) {coll : Prop} {q : Query} (strict : Bool)
    (hq : ∀ seg ∈ q.segs, seg.Child) (ht : tameSegs P coll q.segs) {vs : List JVal}
    (h : ∀ v ∈ vs, (∃ d, Den v d) ∧ NumsIn InRange64 v ∧ v.toks.length < 2 ^ 53) (hcoll : coll → ∀ v ∈ vs, IsColl v) :
    Outcome lib strict q (streamToks vs) (streamToks (vs.flatMap (eval re q))) (.ok ()) :=
  C38_child_partial strict (tame_compiles ht) hq fun v hv =>
    tame_plain hfmt hval hP ht (h v hv).1 (h v hv).2.1 (h v hv).2.2 fun hc => hcoll hc v hv

/-- With slices that go backward (by one, or from the end, or from a negative index) in the segments of the query: if the nodes that the
specification selects are scalars, they are written, in its order, when the segments after a slice that goes backward are names and indices.  Missing
(false): nodes that are arrays or objects (`C38_violated`), other segments after the slice (`C38_violated_follow`), other starts (C36); slices that go
backward in the queries of filters. -/
theorem C38_backward_partial {lib : Lib} {re : Sem} {S : Bytes → Prop} {q : Query} (strict : Bool) (hc : (compileQuery q).isSome = true)
    (hq : ∀ seg ∈ q.segs, seg.Child)
    (ho : ∀ before seg after, q.segs = before ++ seg :: after → seg.Onward ∨ ∀ s ∈ after, s.Singular)
    {vs : List JVal} (h : ∀ v ∈ vs, PlainBack lib re S q v) :
    Outcome lib strict q (streamToks vs) (streamToks (vs.flatMap (eval re q))) (.ok ()) := by
  obtain ⟨Ls, h1, h2⟩ := outcome_back (strict := strict) hc h
  have hk : OrderKept strict q.segs := by
    clear h h1 h2 hc
    generalize q.segs = segs at *
    induction segs with
    | nil => trivial
    | cons seg segs ih =>
      refine orderKept_cons ?_ (ih (fun s hs => hq s (List.mem_cons_of_mem _ hs)) fun b s a e => ho (seg :: b) s a (by rw [e]; rfl))
      have := hq seg List.mem_cons_self
      obtain ⟨d, sels⟩ := seg
      exact .inl ⟨this, ho [] _ _ rfl⟩
  rw [rel2_flatMap (f := eval re q) (rel2_imp h2 fun v L h => h.2 hk)] at h1
  exact h1

/-- `[[1],[2]]` -/
private def pair : JVal := .arr [.arr [num b%"1"] false, .arr [num b%"2"] false] false

/-- C38 is false: `$[::-1]` on `[[1],[2]]` writes the start of the items only. -/
theorem C38_violated (re : Sem) (strict : Bool) :
    let q : Query := ⟨true, [.mk false [.slice none none (-1)]]⟩
    Outcome noLib strict q (streamToks [pair]) [.startArr, .startArr] (.ok ()) ∧
    eval re q pair = [.arr [num b%"2"] false, .arr [num b%"1"] false] ∧
    ¬ Outcome noLib strict q (streamToks [pair]) (streamToks (eval re q pair)) (.ok ()) := by
  have h : Outcome noLib strict ⟨true, [.mk false [.slice none none (-1)]]⟩ (streamToks [pair]) [.startArr, .startArr] (.ok ()) :=
    .of_run 10 (by cases strict <;> decide +kernel)
  have e : eval re ⟨true, [.mk false [.slice none none (-1)]]⟩ pair = [.arr [num b%"2"] false, .arr [num b%"1"] false] := by
    simp [eval, nodes, Rfc9535.segNodes, selsNodes, selNodes, pair, sliceNodes, show slice none none (-1) 2 = [1, 0] from by decide]
  refine ⟨h, e, fun h' => ?_⟩
  rw [e] at h'
  exact absurd (h.unique h').1 (by decide)

/-- `[[1,2],[3,4]]` -/
private def square : JVal := .arr [.arr [num b%"1", num b%"2"] false, .arr [num b%"3", num b%"4"] false] false

/-- C38 is false: a slice that goes backward also reverses what the following segments select: `$[::-1].*` on `[[1,2],[3,4]]` writes 4, 3, 2, 1
instead of 3, 4, 1, 2. -/
theorem C38_violated_follow (re : Sem) (strict : Bool) :
    let q : Query := ⟨true, [.mk false [.slice none none (-1)], .mk false [.wild]]⟩
    Outcome noLib strict q (streamToks [square]) (streamToks [num b%"4", num b%"3", num b%"2", num b%"1"]) (.ok ()) ∧
    eval re q square = [num b%"3", num b%"4", num b%"1", num b%"2"] := by
  refine ⟨.of_run 10 (by cases strict <;> decide +kernel), ?_⟩
  simp [eval, nodes, Rfc9535.segNodes, selsNodes, selNodes, square, sliceNodes, show slice none none (-1) 2 = [1, 0] from by decide, children]

section NonVacuity

/-- `[1,[2],3]` -/
private def mixed : JVal := .arr [num b%"1", .arr [num b%"2"] false, num b%"3"] false

private theorem den_mixed : ∃ d, Den mixed d := by
  have d1 : Den (num b%"1") _ := .num rfl ⟨[], b%"1", [], [], .inl rfl, .inr ⟨0x31, [], by decide, by decide, by simp, rfl⟩, .inl rfl, .inl rfl, rfl⟩
  have d2 : Den (num b%"2") _ := .num rfl ⟨[], b%"2", [], [], .inl rfl, .inr ⟨0x32, [], by decide, by decide, by simp, rfl⟩, .inl rfl, .inl rfl, rfl⟩
  have d3 : Den (num b%"3") _ := .num rfl ⟨[], b%"3", [], [], .inl rfl, .inr ⟨0x33, [], by decide, by decide, by simp, rfl⟩, .inl rfl, .inl rfl, rfl⟩
  exact ⟨_, .arr (.cons d1 (.cons (.arr (.cons d2 .nil)) (.cons d3 .nil)))⟩

/-- `$[-1,0,*]` on `[1,[2],3]` writes 3, 1, 1, [2], 3. -/
example (lib : Lib) (re : Sem) (strict : Bool) :
    Outcome lib strict ⟨true, [.mk false [.index (-1), .index 0, .wild]]⟩ (streamToks [mixed])
      (streamToks [num b%"3", num b%"1", num b%"1", .arr [num b%"2"] false, num b%"3"]) (.ok ()) := by
  have := C38_basic_partial lib re (q := ⟨true, [.mk false [.index (-1), .index 0, .wild]]⟩) strict
    (by
      intro seg hs
      simp only [List.mem_singleton] at hs
      subst hs
      refine ⟨rfl, ?_⟩
      intro s hs
      simp only [List.mem_cons, List.not_mem_nil, or_false] at hs
      rcases hs with rfl | rfl | rfl
      · show IJson _; decide
      · show IJson _; decide
      · trivial)
    (vs := [mixed]) (by
      intro v hv
      simp only [List.mem_singleton] at hv
      subst hv
      exact ⟨den_mixed, by decide⟩)
  simpa [eval, nodes, Rfc9535.segNodes, selsNodes, selNodes, mixed, indexNodes, children, show index (-1) 3 = some 2 from by decide,
    show index 0 3 = some 0 from by decide] using this

/-- `[1,2,3]` -/
private def flat : JVal := .arr [num b%"1", num b%"2", num b%"3"] false

private theorem den_flat : ∃ d, Den flat d := by
  have d1 : Den (num b%"1") _ := .num rfl ⟨[], b%"1", [], [], .inl rfl, .inr ⟨0x31, [], by decide, by decide, by simp, rfl⟩, .inl rfl, .inl rfl, rfl⟩
  have d2 : Den (num b%"2") _ := .num rfl ⟨[], b%"2", [], [], .inl rfl, .inr ⟨0x32, [], by decide, by decide, by simp, rfl⟩, .inl rfl, .inl rfl, rfl⟩
  have d3 : Den (num b%"3") _ := .num rfl ⟨[], b%"3", [], [], .inl rfl, .inr ⟨0x33, [], by decide, by decide, by simp, rfl⟩, .inl rfl, .inl rfl, rfl⟩
  exact ⟨_, .arr (.cons d1 (.cons d2 (.cons d3 .nil)))⟩

/-- `$[::-2,0]` on `[1,2,3]` writes 3, 1, 1. -/
example (lib : Lib) (re : Sem) (strict : Bool) :
    Outcome lib strict ⟨true, [.mk false [.slice none none (-2), .index 0]]⟩ (streamToks [flat])
      (streamToks [num b%"3", num b%"1", num b%"1"]) (.ok ()) := by
  have e : eval re ⟨true, [.mk false [.slice none none (-2), .index 0]]⟩ flat = [num b%"3", num b%"1", num b%"1"] := by
    simp [eval, nodes, Rfc9535.segNodes, selsNodes, selNodes, flat, sliceNodes, indexNodes, show slice none none (-2) 3 = [2, 0] from by decide,
      show index 0 3 = some 0 from by decide]
  have := C38_backward_partial (lib := lib) (re := re) (S := fun _ => True) (q := ⟨true, [.mk false [.slice none none (-2), .index 0]]⟩) strict rfl
    (fun seg hs => by simp only [List.mem_singleton] at hs; subst hs; rfl)
    (fun b s a e => by
      cases b with
      | nil => simp only [List.nil_append, List.cons.injEq] at e; rw [← e.2]; exact .inr (fun s hs => by cases hs)
      | cons x b => have := congrArg List.length e; simp at this)
    (vs := [flat]) (fun v hv => by
      simp only [List.mem_singleton] at hv
      subst hv
      refine ⟨den_flat, fun _ _ _ => trivial, by decide, ?_, ?_⟩
      · intro seg hs
        simp only [List.mem_singleton] at hs
        subst hs
        intro s hs
        simp only [List.mem_cons, List.not_mem_nil, or_false] at hs
        rcases hs with rfl | rfl
        · exact .inr ⟨(fun _ h => nomatch h), (fun _ h => nomatch h), by decide, by decide, .inr fun _ h => nomatch h⟩
        · exact .inl (by rw [safeSel]; show IJson _; decide)
      · intro w hw
        have hw : w ∈ eval re ⟨true, [.mk false [.slice none none (-2), .index 0]]⟩ flat := hw
        rw [e] at hw
        simp only [List.mem_cons, List.not_mem_nil, or_false] at hw
        rcases hw with rfl | rfl | rfl <;> exact ⟨_, rfl⟩)
  simpa [e] using this

end NonVacuity

attribute [local irreducible] F64.round nearest64 fmtExact

/-- `$[?@[0]<2||count(@[*])==0]` on `[[1],[],[3]]`. -/
example (strict : Bool) : Outcome ⟨fmtExact, fun _ => none⟩ strict
    ⟨true, [.mk false [.filter (.or [.cmp (.sing ⟨false, [.index 0]⟩) .lt (.lit (.num 2)), .cmp (.func b%"count" [.query false [.mk false [.wild]]]) .eq (.lit (.num 0))])]]⟩
    (streamToks [.arr [.arr [num b%"1"] false, .arr [] false, .arr [num b%"3"] false] false])
    (streamToks (eval ⟨fun _ => none, nearest64⟩
      ⟨true, [.mk false [.filter (.or [.cmp (.sing ⟨false, [.index 0]⟩) .lt (.lit (.num 2)), .cmp (.func b%"count" [.query false [.mk false [.wild]]]) .eq (.lit (.num 0))])]]⟩
      (.arr [.arr [num b%"1"] false, .arr [] false, .arr [num b%"3"] false] false))) (.ok ()) := by
  have n1 : ∀ d : Byte, 0x31 ≤ d ∧ d ≤ 0x39 → Rfc8259.Number [d] := fun d hd => ⟨[], [d], [], [], .inl rfl, .inr ⟨d, [], hd.1, hd.2, by simp, rfl⟩, .inl rfl, .inl rfl, by simp⟩
  have h := C38_filters_partial (lib := ⟨fmtExact, fun _ => none⟩) (re := ⟨fun _ => none, nearest64⟩) fmtExact_ok double_nearest (P := fun _ _ => False)
    (fun _ _ h => h.elim) (coll := False)
    (q := ⟨true, [.mk false [.filter (.or [.cmp (.sing ⟨false, [.index 0]⟩) .lt (.lit (.num 2)), .cmp (.func b%"count" [.query false [.mk false [.wild]]]) .eq (.lit (.num 0))])]]⟩)
    strict (by simp [Segment.Child]) (by
      simp [tameSegs, tameSeg, tameSels, tameSel, tameCond, tameConds, tameComp, tameArgs, tameArg, LitTame, Segment.Few, IJson]
      exact ⟨⟨2, 0, by decide +kernel⟩, ⟨0, 0, by decide +kernel⟩⟩)
    (vs := [.arr [.arr [num b%"1"] false, .arr [] false, .arr [num b%"3"] false] false]) (by
      intro v hv
      simp only [List.mem_singleton] at hv
      subst hv
      refine ⟨⟨_, .arr (.cons (.arr (.cons (.num rfl (n1 _ (by decide))) .nil)) (.cons (.arr .nil) (.cons (.arr (.cons (.num rfl (n1 _ (by decide))) .nil)) .nil)))⟩, ?_, by decide⟩
      intro k hk _
      simp [num, JVal.toks, JVal.toks.itemToks, elisionToks] at hk
      rcases hk with rfl | rfl
      · exact (F64.round_within _).1 ⟨_, (by decide +kernel : F64.round (decimal b%"1") = some 1)⟩
      · exact (F64.round_within _).1 ⟨_, (by decide +kernel : F64.round (decimal b%"3") = some 3)⟩) (fun h => h.elim)
  simpa using h

end Verif.JPath
