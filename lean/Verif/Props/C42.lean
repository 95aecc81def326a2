import Verif.PathSamples

/-!
# C42: function extensions
-/

set_option linter.unusedSimpArgs false

namespace Verif.JPath

open Rfc9535

/-- `$[?f(args) op b]`, for `length`, `count` and `value`, writes exactly the children for which the comparison holds of the value of the function
(`fnValue`), which is evaluated for each child.  (Functions in other places of a query: C38, C39.)  Missing: what `FnSafe` excludes: lengths of
objects, lengths of rooted arrays, `value` of collections, `value` of a relative query that has a segment with several selectors and selects more
than one node; numbers that rounding makes equal or that are out of range; what is excluded by `Plain` otherwise. -/
theorem C42_values_partial {lib : Lib} {re : Sem} {S : Bytes → Prop} {n : Bytes} {args : List Arg} {b : Comparable} {o : CmpOp} (strict : Bool)
    (hc : (compileCond {} (.cmp (.func n args) o b)).isSome = true) {vs : List JVal}
    (h : ∀ v ∈ vs, Plain lib re S (filterQuery (.cmp (.func n args) o b)) v) :
    Outcome lib strict (filterQuery (.cmp (.func n args) o b)) (streamToks vs)
      (streamToks (vs.flatMap fun v => keep (fun w => Rfc9535.compare o (Rfc9535.fnValue re.val n (argsData re v args w)) (value re v b w)) (children v))) (.ok ()) := by
  have := outcome_filter strict hc h
  rw [show holds re = fun v c w => holds re v c w from rfl] at this
  simpa only [holds, value] using this

/-- `$[?f(args)]`, for `match` and `search`, writes exactly the children for which the test holds (`fnHolds`).  Missing: patterns for which the regular
expression library does not find what the specification says (`RegexOk`, within `Plain`; see C70), and what is excluded by `Plain` otherwise. -/
theorem C42_tests_partial {lib : Lib} {re : Sem} {S : Bytes → Prop} {n : Bytes} {args : List Arg} (strict : Bool)
    (hc : (compileCond {} (.func n args)).isSome = true) {vs : List JVal} (h : ∀ v ∈ vs, Plain lib re S (filterQuery (.func n args)) v) :
    Outcome lib strict (filterQuery (.func n args)) (streamToks vs)
      (streamToks (vs.flatMap fun v => keep (fun w => fnHolds re n (argsData re v args w)) (children v))) (.ok ()) := by
  have := outcome_filter strict hc h
  rw [show holds re = fun v c w => holds re v c w from rfl] at this
  simpa only [holds] using this

/-- `$[?count(@ segs) op @ b]` writes the children for which the comparison holds of the number of selected nodes.  Here the conditions are those of C38 on
selectors and integers, that numbers are integers of at most 15 digits, and that fewer than 10^15 nodes are selected. -/
theorem C42_count_partial (lib : Lib) (re : Sem) (hval : ExactShort re.val) {segs : List Segment} {b : List SingSeg} (o : CmpOp) (strict : Bool) (hq : ∀ seg ∈ segs, seg.Basic)
    (hb : ∀ i, .index i ∈ b → IJson i) {vs : List JVal} (h : ∀ v ∈ vs, (∃ d, Den v d) ∧ NumsIn ShortInt v ∧ (v.toks.length : Int) ≤ maxInt64)
    (hn : ∀ v ∈ vs, ∀ w ∈ descendants v, (nodes re v segs w).length < 10 ^ 15) :
    Outcome lib strict (filterQuery (.cmp (.func b%"count" [.query false segs]) o (.sing ⟨false, b⟩))) (streamToks vs)
      (streamToks (vs.flatMap fun v => keep (fun w => Rfc9535.compare o (some (.num ((nodes re v segs w).length : Nat)))
        ((ArgData.nodes (singNodes b w)).toValue re.val)) (children v))) (.ok ()) := by
  have := C42_values_partial (lib := lib) (re := re) (S := ShortInt) (n := b%"count") (args := [.query false segs]) (b := .sing ⟨false, b⟩) (o := o) strict
    (by
      obtain ⟨r, e⟩ := basic_compileSegs {} hq
      have hf : checkFn b%"count" 1 .value = some .count := by decide
      simp [compileCond, compileComparable, hf, Fn.inputs, compileArgs, compileArg, e, compileSing])
    (vs := vs) fun v hv => ⟨(h v hv).1, (h v hv).2.1, (h v hv).2.2, safe_filter.2 (by
      rw [safeCond, safeComp, safeComp]
      refine ⟨ordered_short hval, fun f hf => ?_, hb, fun e => nomatch e⟩
      have : f = .count := by
        have h2 : Fn.ofName b%"count" = some .count := by decide
        rw [h2] at hf; exact (Option.some.inj hf).symm
      subst this
      refine ⟨?_, fun w hw l hl => ?_⟩
      · rw [Fn.inputs, safeArgs, safeArg, safeArgs]
        · exact ⟨⟨basic_safeSegs hq, fun e => nomatch e⟩, trivial⟩
        · intro _ _ _ _ e; cases e
      · simp only [argsData, argData, Bool.false_eq_true, if_false, List.cons.injEq, ArgData.nodes.injEq, and_true] at hl
        rw [← hl]
        have := short_itoa _ (hn v hv w hw)
        exact ⟨this, by rw [hval _ this, decimal_itoa]⟩)⟩
  simpa only [argsData, argData, Bool.false_eq_true, if_false, value,
    Rfc9535.fnValue, show ¬ (b%"count" = b%"length") from by decide, if_true] using this

/-- `[{"a":1}]` -/
private def obj : JVal := .arr [.obj [(str b%"\"a\"", num b%"1")] false] false

/-- `$[?length(@)==count(@.*)]` -/
private def lengthQ : Query := filterQuery (.cmp (.func b%"length" [.query false []]) .eq (.func b%"count" [.query false [.mk false [.wild]]]))

/-- C42 is false: the length of an object is 0: `$[?length(@)==count(@.*)]` on `[{"a":1}]` writes nothing. -/
theorem C42_violated_length (re : Sem) (strict : Bool) :
    Outcome noLib strict lengthQ (streamToks [obj]) [] (.ok ()) ∧ eval re lengthQ obj = children obj := by
  refine ⟨.of_run 10 (by cases strict <;> decide +kernel), ?_⟩
  rw [lengthQ, eval_filter]
  show keep _ [_] = [_]
  rw [keep_pos, keep_nil]
  have d : DenBy re.val (.obj [(str b%"\"a\"", num b%"1")] false) _ := .obj (.cons is_a (den_digit (by decide)) .nil) (by simp)
  have hl : ∀ n, LengthIs (.obj (assoc [(b%"a", .num (re.val b%"1"))])) n ↔ n = 1 := by
    intro n
    constructor
    · rintro ⟨keys, h1, h2, rfl⟩
      have : ∀ k, k ∈ keys ↔ k = b%"a" := by
        intro k
        rw [h2]
        by_cases hk : b%"a" = k
        · simp [assoc, hk]
        · have : ¬ k = b%"a" := fun e => hk e.symm
          simp [assoc, hk, this]
      match keys, h1, this with
      | [], _, h => exact absurd ((h b%"a").2 rfl) (by simp)
      | [_], _, _ => rfl
      | x :: y :: l, h1, h =>
        have e1 := (h x).1 (by simp)
        have e2 := (h y).1 (by simp)
        rw [e1, e2] at h1
        simp at h1
    · rintro rfl
      refine ⟨[b%"a"], by simp, fun k => ?_, rfl⟩
      by_cases hk : b%"a" = k
      · simp [assoc, hk]
      · have : ¬ k = b%"a" := fun e => hk e.symm
        simp [assoc, hk, this]
  have hex : ∃ n, LengthIs (.obj (assoc [(b%"a", .num (re.val b%"1"))])) n := ⟨1, (hl 1).2 rfl⟩
  have hch : hex.choose = 1 := (hl _).1 hex.choose_spec
  rw [holds, value, value]
  simp [argsData, argData, nodes, Rfc9535.segNodes, selsNodes, selNodes, children, Rfc9535.fnValue, ArgData.toValue, d.dataOf, Rfc9535.compare, hex, hch]

/-- `[[[3]]]` -/
private def deep : JVal := .arr [.arr [.arr [num b%"3"] false] false] false

/-- `$[?value(@[0])==@[0]]` -/
private def valueQ : Query := filterQuery (.cmp (.func b%"value" [.query false [.mk false [.index 0]]]) .eq (.sing ⟨false, [.index 0]⟩))

/-- C42 is false: `value` of a collection is lost: `$[?value(@[0])==@[0]]` on `[[[3]]]` writes nothing. -/
theorem C42_violated_value (re : Sem) (strict : Bool) :
    Outcome noLib strict valueQ (streamToks [deep]) [] (.ok ()) ∧ eval re valueQ deep = children deep := by
  refine ⟨.of_run 10 (by cases strict <;> decide +kernel), ?_⟩
  rw [valueQ, eval_filter]
  show keep _ [_] = [_]
  rw [keep_pos, keep_nil]
  have d : DenBy re.val (.arr [num b%"3"] false) _ := .arr (.cons (den_digit (by decide)) .nil)
  rw [holds, value, value]
  simp [argsData, argData, nodes, Rfc9535.segNodes, selsNodes, selNodes, singNodes, indexNodes, children, Rfc9535.fnValue, ArgData.toValue, d.dataOf,
    Rfc9535.compare, show index 0 1 = some 0 from by decide]

/-- `{"a":1}` -/
private def member : JVal := .obj [(str b%"\"a\"", num b%"1")] false

/-- `[[{"a":1},{"a":1},{"a":1}]]` -/
private def three : JVal := .arr [.arr [member, member, member] false] false

/-- `$[?value(@.*["b","a"])==@[0].a]` -/
private def manyQ : Query := filterQuery (.cmp (.func b%"value" [.query false [.mk false [.wild], .mk false [.name b%"b", .name b%"a"]]]) .eq
  (.sing ⟨false, [.index 0, .name b%"a"]⟩))

/-- C42 is false: `value` of three nodes can be the third: `$[?value(@.*["b","a"])==@[0].a]` on `[[{"a":1},{"a":1},{"a":1}]]` writes the item. -/
theorem C42_violated_many (re : Sem) (strict : Bool) :
    Outcome noLib strict manyQ (streamToks [three]) (streamToks (children three)) (.ok ()) ∧ eval re manyQ three = [] := by
  refine ⟨.of_run 10 (by cases strict <;> decide +kernel), ?_⟩
  rw [manyQ, eval_filter]
  show keep _ [_] = []
  rw [keep_neg, keep_nil]
  have d : DenBy re.val (num b%"1") _ := den_digit (by decide)
  have hb : ¬ StrIs (str b%"\"a\"") b%"b" := fun h => absurd (strIs_unique is_a h) (by decide)
  rw [holds, value, value]
  simp [argsData, argData, nodes, Rfc9535.segNodes, selsNodes, selNodes, singNodes, indexNodes, nameNodes, member, is_a, hb, children, Rfc9535.fnValue,
    ArgData.toValue, d.dataOf, Rfc9535.compare, show index 0 3 = some 0 from by decide]

/-- `["ab"]` -/
private def word : JVal := .arr [.scalar (str b%"\"ab\"")] false

/-- A library that finds leftmost-first matches, as that of Go does, for the pattern `a|ab` and the string `ab`. -/
private def leftmostFirst : Lib := ⟨noLib.fmt, fun p => if p = b%"a|ab" then some fun s => if s = b%"ab" then some (0, 1) else none else none⟩

/-- C42 is false: when the leftmost-first match is not the whole string, `match` fails, even if another match is the whole string: `$[?match(@,"a|ab")]` on
`["ab"]` writes nothing. -/
theorem C42_violated_match (re : Sem) (hre : ∃ L, re.lang b%"a|ab" = some L ∧ L b%"ab") (strict : Bool) :
    let q := filterQuery (.func b%"match" [.query false [], .lit (.str b%"a|ab")])
    Outcome leftmostFirst strict q (streamToks [word]) [] (.ok ()) ∧ eval re q word = children word := by
  refine ⟨.of_run 10 (by cases strict <;> decide +kernel), ?_⟩
  rw [eval_filter]
  show keep _ [_] = [_]
  rw [keep_pos, keep_nil]
  obtain ⟨L, h1, h2⟩ := hre
  rw [holds]
  exact ⟨_, _, b%"ab", b%"a|ab", L, by simp only [argsData, argData, nodes]; rfl, by simpa [ArgData.toValue] using (DenBy.dataOf (val := re.val) (.str is_ab)), rfl, h1, .inl ⟨rfl, h2⟩⟩

section NonVacuity

/-- `[[1],[1,2]]` -/
private def sample : JVal := .arr [.arr [num b%"1"] false, .arr [num b%"1", num b%"2"] false] false

private theorem den_sample : ∃ d, Den sample d := by
  have d1 : Den (num b%"1") _ := den_digit (by decide)
  have d2 : Den (num b%"2") _ := den_digit (by decide)
  exact ⟨_, .arr (.cons (.arr (.cons d1 .nil)) (.cons (.arr (.cons d1 (.cons d2 .nil))) .nil))⟩

example (lib : Lib) (re : Sem) (hval : ExactShort re.val) (o : CmpOp) (strict : Bool) :
    Outcome lib strict (filterQuery (.cmp (.func b%"count" [.query false [.mk false [.wild]]]) o (.sing ⟨false, [.index 0]⟩))) (streamToks [sample])
      (streamToks ([sample].flatMap fun v => keep (fun w => Rfc9535.compare o (some (.num ((nodes re v [.mk false [.wild]] w).length : Nat)))
        ((ArgData.nodes (singNodes [.index 0] w)).toValue re.val)) (children v))) (.ok ()) :=
  C42_count_partial lib re hval o strict
    (by
      intro seg hs
      simp only [List.mem_singleton] at hs
      subst hs
      intro s hs
      simp only [List.mem_singleton] at hs
      subst hs
      trivial)
    (fun i h => by simp at h; subst h; decide)
    (fun v hv => by
      simp only [List.mem_singleton] at hv; subst hv
      exact ⟨den_sample, nums_digits (by decide), by decide⟩)
    fun v hv w hw => by
      simp only [List.mem_singleton] at hv; subst hv
      simp [descendants, descendantsL, sample, num] at hw
      rcases hw with rfl | rfl | rfl | rfl | rfl | rfl <;> simp [nodes, Rfc9535.segNodes, selsNodes, selNodes, children]

/-- `$[?count(@.*)==@[0]]` on `[[1],[1,2]]` writes `[1]`. -/
example (strict : Bool) : Outcome noLib strict (filterQuery (.cmp (.func b%"count" [.query false [.mk false [.wild]]]) .eq (.sing ⟨false, [.index 0]⟩)))
    (streamToks [sample]) (streamToks [.arr [num b%"1"] false]) (.ok ()) := .of_run 20 (by cases strict <;> decide +kernel)

/-- `["ab","b"]` -/
private def strs : JVal := .arr [.scalar (str b%"\"ab\""), .scalar (str b%"\"b\"")] false

/-- A library that knows the pattern `a` only. -/
private def libA : Lib := ⟨noLib.fmt, fun p => if p = b%"a" then some fun s => match s with | 0x61 :: _ => some (0, 1) | _ => none else none⟩

/-- `$[?search(@,"a")]` on `["ab","b"]` writes `"ab"`. -/
example (strict : Bool) : Outcome libA strict (filterQuery (.func b%"search" [.query false [], .lit (.str b%"a")])) (streamToks [strs])
    (streamToks [.scalar (str b%"\"ab\"")]) (.ok ()) := .of_run 20 (by cases strict <;> decide +kernel)

end NonVacuity

end Verif.JPath
