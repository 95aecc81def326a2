import Verif.PathSamples

/-!
# C41: comparisons
-/

set_option linter.unusedSimpArgs false

namespace Verif.JPath

open Rfc9535

/-- `$[?a op b]` writes exactly the children for which the comparison holds, by the table of the specification (`compare`, on data that may be
missing).  (Comparisons in other places of a query: C38, C39.)  Missing: numbers that rounding makes equal or that are out of range (`Ordered re.val S`);
rooted singular queries that select nothing, and what is excluded by `Plain` otherwise. -/
theorem C41_comparison_partial {lib : Lib} {re : Sem} {S : Bytes → Prop} {a b : Comparable} {o : CmpOp} (strict : Bool)
    (hc : (compileCond {} (.cmp a o b)).isSome = true) {vs : List JVal} (h : ∀ v ∈ vs, Plain lib re S (filterQuery (.cmp a o b)) v) :
    Outcome lib strict (filterQuery (.cmp a o b)) (streamToks vs)
      (streamToks (vs.flatMap fun v => keep (fun w => Rfc9535.compare o (value re v a w) (value re v b w)) (children v))) (.ok ()) := by
  have := outcome_filter strict hc h
  rw [show holds re = fun v c w => holds re v c w from rfl] at this
  simpa only [holds] using this

/-- The operands are relative singular queries: all that is assumed is that numbers are compared properly after rounding, that integers of the query
are in range, and that values have a meaning and are not longer than `int64` can count. -/
theorem C41_relative_partial (lib : Lib) (re : Sem) {S : Bytes → Prop} (hS : Ordered re.val S) {a b : List SingSeg} (o : CmpOp) (strict : Bool)
    (ha : ∀ i, .index i ∈ a → IJson i) (hb : ∀ i, .index i ∈ b → IJson i) {vs : List JVal}
    (h : ∀ v ∈ vs, (∃ d, Den v d) ∧ NumsIn S v ∧ (v.toks.length : Int) ≤ maxInt64) :
    Outcome lib strict (filterQuery (.cmp (.sing ⟨false, a⟩) o (.sing ⟨false, b⟩))) (streamToks vs)
      (streamToks (vs.flatMap fun v => keep (fun w =>
        Rfc9535.compare o ((ArgData.nodes (singNodes a w)).toValue re.val) ((ArgData.nodes (singNodes b w)).toValue re.val)) (children v))) (.ok ()) := by
  have := C41_comparison_partial (lib := lib) (re := re) (S := S) (a := .sing ⟨false, a⟩) (b := .sing ⟨false, b⟩) (o := o) strict
    (by simp [compileCond, compileComparable]) (vs := vs) fun v hv => ⟨(h v hv).1, (h v hv).2.1, (h v hv).2.2, safe_filter.2 (by
      rw [safeCond, safeComp, safeComp]
      exact ⟨hS, ⟨ha, fun e => nomatch e⟩, hb, fun e => nomatch e⟩)⟩
  simpa only [value, Bool.false_eq_true, if_false] using this

attribute [local irreducible] F64.round

/-- What is assumed of operands: they are not functions; singular queries have integers in range; literals are formatted as numbers that are rounded
to them. -/
def Operand (lib : Lib) : Comparable → Prop
  | .lit (.num q) => Rfc8259.Number (lib.fmt q) ∧ InRange64 (lib.fmt q) ∧ F64.Nearest64 (decimal (lib.fmt q)) q
  | .lit (.str s) => ∃ cs, Chars s cs
  | .lit _ => True
  | .sing q => ∀ i, .index i ∈ q.segs → IJson i
  | .func _ _ => False

/-- The operands are literals and singular queries, and all numbers are in the range of `float64`: the comparison is that of the specification when numbers have
the precision of `float64` (`Double`: IEEE 754 double precision).  Missing: numbers out of this range; functions (`C41_comparison_partial`,
C42); rooted singular queries that select nothing or are applied to a scalar. -/
theorem C41_rounded_partial (lib : Lib) (re : Sem) (hre : Double re.val) {a b : Comparable} (o : CmpOp) (strict : Bool) (ha : Operand lib a)
    (hb : Operand lib b) {vs : List JVal} (h : ∀ v ∈ vs, (∃ d, Den v d) ∧ NumsIn InRange64 v ∧ (v.toks.length : Int) ≤ maxInt64)
    (hr : ∀ v ∈ vs, ∀ q, a = .sing q ∨ b = .sing q → q.root = true → IsColl v ∧ singNodes q.segs v ≠ []) :
    Outcome lib strict (filterQuery (.cmp a o b)) (streamToks vs)
      (streamToks (vs.flatMap fun v => keep (fun w =>
        Rfc9535.compare o (value re v a w) (value re v b w)) (children v))) (.ok ()) := by
  have comp : ∀ (tab : Tables) (c : Comparable), Operand lib c → (compileComparable tab c).isSome = true := by
    intro tab c hc
    cases c with
    | lit l => simp [compileComparable]
    | sing q => simp [compileComparable]
    | func n args => exact hc.elim
  have safe : ∀ v ∈ vs, ∀ c : Comparable, Operand lib c → (∀ q, c = .sing q → q.root = true → IsColl v ∧ singNodes q.segs v ≠ []) →
      safeComp lib re InRange64 v c := by
    intro v hv c hc hq
    cases c with
    | lit l =>
      rw [safeComp]
      cases l with
      | num q => exact ⟨hc.1, F64.nearest_unique (hre _ hc.2.1) hc.2.2, hc.2.1⟩
      | str s => exact hc
      | bool _ => trivial
      | null => trivial
    | sing q => rw [safeComp]; exact ⟨hc, hq q rfl⟩
    | func n args => exact hc.elim
  refine C41_comparison_partial (S := InRange64) strict ?_ fun v hv => ⟨(h v hv).1, (h v hv).2.1, (h v hv).2.2, safe_filter.2 ?_⟩
  · obtain ⟨r, e⟩ := Option.isSome_iff_exists.1 (comp {} a ha)
    obtain ⟨r', e'⟩ := Option.isSome_iff_exists.1 (comp r.1 b hb)
    simp [compileCond, e, e']
  · rw [safeCond]
    exact ⟨ordered_double hre, safe v hv a ha fun q e => hr v hv q (.inl e), safe v hv b hb fun q e => hr v hv q (.inr e)⟩

/-- `[[9007199254740992,9007199254740993]]` -/
private def close : JVal := .arr [.arr [num b%"9007199254740992", num b%"9007199254740993"] false] false

private theorem den_close {b : Bytes} (h : b = b%"9007199254740992" ∨ b = b%"9007199254740993") : Den (num b) (.num (decimal b)) := by
  rcases h with rfl | rfl
  · exact .num rfl ⟨[], _, [], [], .inl rfl, .inr ⟨0x39, b%"007199254740992", by decide, by decide, by simp [Rfc8259.Digit], rfl⟩, .inl rfl, .inl rfl, by simp⟩
  · exact .num rfl ⟨[], _, [], [], .inl rfl, .inr ⟨0x39, b%"007199254740993", by decide, by decide, by simp [Rfc8259.Digit], rfl⟩, .inl rfl, .inl rfl, by simp⟩

/-- C41 is false: numbers that are rounded to the same `float64` are equal. -/
theorem C41_violated (re : Sem) (hre : re.val = decimal) (strict : Bool) :
    let q := filterQuery (.cmp (.sing ⟨false, [.index 0]⟩) .eq (.sing ⟨false, [.index 1]⟩))
    Outcome noLib strict q (streamToks [close]) (streamToks (children close)) (.ok ()) ∧ eval re q close = [] ∧
    ¬ Outcome noLib strict q (streamToks [close]) (streamToks (eval re q close)) (.ok ()) := by
  have h : Outcome noLib strict (filterQuery (.cmp (.sing ⟨false, [.index 0]⟩) .eq (.sing ⟨false, [.index 1]⟩))) (streamToks [close])
      (streamToks (children close)) (.ok ()) := .of_run 10 (by cases strict <;> decide +kernel)
  have e : eval re (filterQuery (.cmp (.sing ⟨false, [.index 0]⟩) .eq (.sing ⟨false, [.index 1]⟩))) close = [] := by
    rw [eval_filter]
    show keep _ [_] = []
    rw [keep_neg, keep_nil]
    rw [holds, value, value]
    simp only [singNodes, indexNodes, Bool.false_eq_true, if_false, List.length_cons, List.length_nil, show index 0 2 = some 0 from by decide,
      show index 1 2 = some 1 from by decide, Option.bind_some, List.getElem?_cons_zero, List.getElem?_cons_succ, Option.toList_some, List.flatMap_cons,
      List.flatMap_nil, List.append_nil, ArgData.toValue, hre, (den_close (.inl rfl)).dataOf, (den_close (.inr rfl)).dataOf, Rfc9535.compare, Option.some.injEq,
      Data.num.injEq]
    decide +kernel
  refine ⟨h, e, fun h' => ?_⟩
  rw [e] at h'
  exact absurd (h.unique h').1 (by decide)

/-- `[[1e999,1e1000]]` -/
private def huge : JVal := .arr [.arr [num b%"1e999", num b%"1e1000"] false] false

/-- C41 is false: comparing numbers that are out of the range of `float64` panics. -/
theorem C41_violated_range (strict : Bool) :
    Outcome noLib strict (filterQuery (.cmp (.sing ⟨false, [.index 0]⟩) .lt (.sing ⟨false, [.index 1]⟩))) (streamToks [huge]) [] (.error .panic) :=
  .of_run 10 (by cases strict <;> decide +kernel)

section NonVacuity

/-- `[[1,2],[2,1],[1],[]]` -/
private def sample : JVal := .arr [.arr [num b%"1", num b%"2"] false, .arr [num b%"2", num b%"1"] false, .arr [num b%"1"] false, .arr [] false] false

private theorem den_sample : ∃ d, Den sample d := by
  have d1 : Den (num b%"1") _ := den_digit (by decide)
  have d2 : Den (num b%"2") _ := den_digit (by decide)
  exact ⟨_, .arr (.cons (.arr (.cons d1 (.cons d2 .nil))) (.cons (.arr (.cons d2 (.cons d1 .nil))) (.cons (.arr (.cons d1 .nil)) (.cons (.arr .nil) .nil))))⟩

example (lib : Lib) (re : Sem) (hv : ExactShort re.val) (strict : Bool) (o : CmpOp) :
    Outcome lib strict (filterQuery (.cmp (.sing ⟨false, [.index 0]⟩) o (.sing ⟨false, [.index 1]⟩))) (streamToks [sample])
      (streamToks ([sample].flatMap fun v => keep (fun w =>
        Rfc9535.compare o ((ArgData.nodes (singNodes [.index 0] w)).toValue re.val) ((ArgData.nodes (singNodes [.index 1] w)).toValue re.val)) (children v))) (.ok ()) :=
  C41_relative_partial lib re (ordered_short hv) o strict (fun i h => by simp at h; subst h; decide) (fun i h => by simp at h; subst h; decide)
    fun v hv => by
      simp only [List.mem_singleton] at hv; subst hv
      exact ⟨den_sample, nums_digits (by decide), by decide⟩

/-- A library that formats one number. -/
private def tenth : Lib := { noLib with fmt := fun _ => b%"0.1" }

/-- `[[0.1000000000000000000001],[0.2]]` -/
private def close' : JVal := .arr [.arr [num b%"0.1000000000000000000001"] false, .arr [num b%"0.2"] false] false

private theorem number_tenth {ds : Bytes} (h0 : ds ≠ []) (h : ∀ b ∈ ds, 0x30 ≤ b ∧ b ≤ 0x39) : Rfc8259.Number (b%"0." ++ ds) :=
  ⟨[], b%"0", 0x2E :: ds, [], .inl rfl, .inl rfl, .inr ⟨ds, h0, h, rfl⟩, .inl rfl, by simp⟩

/-- `$[?@[0]==0.1]` on `[[0.1000000000000000000001],[0.2]]`: the literal has the value of the nearest `float64`, and so does the item. -/
example (re : Sem) (hre : Double re.val) (strict : Bool) :
    Outcome tenth strict (filterQuery (.cmp (.sing ⟨false, [.index 0]⟩) .eq (.lit (.num (3602879701896397 / 36028797018963968))))) (streamToks [close'])
      (streamToks ([close'].flatMap fun v => keep (fun w => Rfc9535.compare .eq (value re v (.sing ⟨false, [.index 0]⟩) w)
        (value re v (.lit (.num (3602879701896397 / 36028797018963968))) w)) (children v))) (.ok ()) :=
  C41_rounded_partial (a := .sing ⟨false, [.index 0]⟩) (b := .lit (.num (3602879701896397 / 36028797018963968))) tenth re hre .eq strict
    (fun i h => by simp at h; subst h; decide) ⟨number_tenth (ds := b%"1") (by simp) (by simp), F64.round_iff.1 (by decide +kernel)⟩
    (fun v hv => by
      simp only [List.mem_singleton] at hv; subst hv
      have d1 : Den (num b%"0.1000000000000000000001") _ := .num rfl (number_tenth (ds := b%"1000000000000000000001") (by simp) (by simp))
      have d2 : Den (num b%"0.2") _ := .num rfl (number_tenth (ds := b%"2") (by simp) (by simp))
      refine ⟨⟨_, .arr (.cons (.arr (.cons d1 .nil)) (.cons (.arr (.cons d2 .nil)) .nil))⟩, ?_, by decide⟩
      intro k hk _
      simp [close', num, JVal.toks, JVal.toks.itemToks, elisionToks] at hk
      rcases hk with rfl | rfl
      · exact (F64.round_within _).1 ⟨_, (by decide +kernel : F64.round (decimal b%"0.1000000000000000000001") = some (3602879701896397 / 36028797018963968))⟩
      · exact (F64.round_within _).1 ⟨_, (by decide +kernel : F64.round (decimal b%"0.2") = some (3602879701896397 / 18014398509481984))⟩)
    fun v hv q hq hroot => by
      rcases hq with hq | hq
      · cases hq; cases hroot
      · cases hq

example (strict : Bool) : Outcome tenth strict (filterQuery (.cmp (.sing ⟨false, [.index 0]⟩) .eq (.lit (.num (3602879701896397 / 36028797018963968)))))
    (streamToks [close']) (streamToks [.arr [num b%"0.1000000000000000000001"] false]) (.ok ()) := .of_run 20 (by cases strict <;> decide +kernel)

/-- `$[?@[0]<@[1]]` on `[[1,2],[2,1],[1],[]]` -/
example (strict : Bool) : Outcome noLib strict (filterQuery (.cmp (.sing ⟨false, [.index 0]⟩) .lt (.sing ⟨false, [.index 1]⟩))) (streamToks [sample])
    (streamToks [.arr [num b%"1", num b%"2"] false]) (.ok ()) := .of_run 20 (by cases strict <;> decide +kernel)

/-- `$[?@[0]==@[1]]` on `[[1,2],[2,1],[1],[]]`: nothing is equal to nothing. -/
example (strict : Bool) : Outcome noLib strict (filterQuery (.cmp (.sing ⟨false, [.index 0]⟩) .eq (.sing ⟨false, [.index 1]⟩))) (streamToks [sample])
    (streamToks [.arr [] false]) (.ok ()) := .of_run 20 (by cases strict <;> decide +kernel)

end NonVacuity

end Verif.JPath
