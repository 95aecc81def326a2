import Verif.PathSamples

/-!
# C43: singular queries
-/

set_option linter.unusedSimpArgs false

namespace Verif.JPath

open Rfc9535

/-- The value of a singular query: that of the node it selects, if there is one; `val` are the values of number literals. -/
noncomputable def singData (val : Bytes → Rat) (q : SingQuery) (root v : JVal) : Option Data :=
  match singNodes q.segs (if q.root then root else v) with
  | [w] => dataOf val w
  | _ => none

/-- A filter that compares singular queries writes exactly the children for which the comparison holds of the values of the nodes the singular
queries select: rooted queries are evaluated once and the same for all children, and the child that is written is complete.  Missing: rooted
singular queries that select nothing or are applied to a scalar; numbers that rounding makes equal or that are out of range (`Ordered`). -/
theorem C43_comparison_partial (lib : Lib) (re : Sem) {S : Bytes → Prop} (hS : Ordered re.val S) {a b : SingQuery} (o : CmpOp) (strict : Bool)
    (ha : ∀ i, .index i ∈ a.segs → IJson i) (hb : ∀ i, .index i ∈ b.segs → IJson i) {vs : List JVal}
    (h : ∀ v ∈ vs, (∃ d, Den v d) ∧ NumsIn S v ∧ (v.toks.length : Int) ≤ maxInt64)
    (hr : ∀ v ∈ vs, ∀ q ∈ [a, b], q.root = true → IsColl v ∧ singNodes q.segs v ≠ []) :
    Outcome lib strict (filterQuery (.cmp (.sing a) o (.sing b))) (streamToks vs)
      (streamToks (vs.flatMap fun v => keep (fun w => Rfc9535.compare o (singData re.val a v w) (singData re.val b v w)) (children v))) (.ok ()) := by
  have := outcome_filter (lib := lib) (re := re) (S := S) (c := .cmp (.sing a) o (.sing b)) strict (by simp [compileCond, compileComparable]) (vs := vs)
    fun v hv => ⟨(h v hv).1, (h v hv).2.1, (h v hv).2.2, safe_filter.2 (by
      rw [safeCond, safeComp, safeComp]
      exact ⟨hS, ⟨ha, hr v hv a (by simp)⟩, hb, hr v hv b (by simp)⟩)⟩
  have e : ∀ q root w, value re root (.sing q) w = singData re.val q root w := by
    intro q root w
    rw [value, singData]
    cases singNodes q.segs (if q.root then root else w) with
    | nil => rfl
    | cons x l => cases l <;> rfl
  rw [show holds re = fun v c w => holds re v c w from rfl] at this
  simpa only [holds, e] using this

/-- A singular query selects at most one node of a value whose members have different names. -/
theorem C43_unique {segs : List SingSeg} (hs : ∀ i, .index i ∈ segs → IJson i) {v : JVal} {d : Data} (hd : Den v d)
    (hm : (v.toks.length : Int) ≤ maxInt64) : (singNodes segs v).length ≤ 1 := by
  rw [singNodes_spec hs hd hm]
  cases singVal segs v <;> simp

/-- `[1]` -/
private def one : JVal := .arr [num b%"1"] false

/-- C43 is false: `$[?@==$.x]` on `[1]` panics instead of comparing with nothing. -/
theorem C43_violated (re : Sem) (strict : Bool) :
    let q := filterQuery (.cmp (.sing ⟨false, []⟩) .eq (.sing ⟨true, [.name b%"x"]⟩))
    Outcome noLib strict q (streamToks [one]) [] (.error .panic) ∧ eval re q one = [] ∧
    ¬ Outcome noLib strict q (streamToks [one]) (streamToks (eval re q one)) (.ok ()) := by
  have h : Outcome noLib strict (filterQuery (.cmp (.sing ⟨false, []⟩) .eq (.sing ⟨true, [.name b%"x"]⟩))) (streamToks [one]) [] (.error .panic) :=
    .of_run 10 (by cases strict <;> decide +kernel)
  have e : eval re (filterQuery (.cmp (.sing ⟨false, []⟩) .eq (.sing ⟨true, [.name b%"x"]⟩))) one = [] := by
    rw [eval_filter]
    show keep _ [_] = []
    rw [keep_neg, keep_nil]
    have d : DenBy re.val (num b%"1") _ := den_digit (by decide)
    rw [holds, value, value]
    simp [singNodes, one, nameNodes, ArgData.toValue, Rfc9535.compare, d.dataOf]
  exact ⟨h, e, fun h' => nomatch (h.unique h').2⟩

section NonVacuity

/-- `[[1],1,[2]]` -/
private def sample : JVal := .arr [.arr [num b%"1"] false, num b%"1", .arr [num b%"2"] false] false

private theorem den_sample : ∃ d, Den sample d := by
  have d1 : Den (num b%"1") _ := den_digit (by decide)
  have d2 : Den (num b%"2") _ := den_digit (by decide)
  exact ⟨_, .arr (.cons (.arr (.cons d1 .nil)) (.cons d1 (.cons (.arr (.cons d2 .nil)) .nil)))⟩

/-- `$[?@[0]==$[0][0]]` on `[[1],1,[2]]`, twice -/
example (lib : Lib) (re : Sem) (hv : ExactShort re.val) (strict : Bool) :
    Outcome lib strict (filterQuery (.cmp (.sing ⟨false, [.index 0]⟩) .eq (.sing ⟨true, [.index 0, .index 0]⟩))) (streamToks [sample, sample])
      (streamToks ([sample, sample].flatMap fun v => keep (fun w => Rfc9535.compare .eq (singData re.val ⟨false, [.index 0]⟩ v w)
        (singData re.val ⟨true, [.index 0, .index 0]⟩ v w)) (children v))) (.ok ()) :=
  C43_comparison_partial lib re (ordered_short hv) .eq strict (fun i h => by simp at h; subst h; decide) (fun i h => by simp at h; subst h; decide)
    (fun v hv => by
      simp only [List.mem_cons, List.not_mem_nil, or_false, or_self] at hv; subst hv
      exact ⟨den_sample, nums_digits (by decide), by decide⟩)
    fun v hv q hq hr => by
      simp only [List.mem_cons, List.not_mem_nil, or_false, or_self] at hv hq; subst hv
      rcases hq with rfl | rfl
      · cases hr
      · exact ⟨(fun k e => nomatch e), by simp [singNodes, indexNodes, sample, show index 0 3 = some 0 from by decide, show index 0 1 = some 0 from by decide]⟩

example (strict : Bool) : Outcome noLib strict (filterQuery (.cmp (.sing ⟨false, [.index 0]⟩) .eq (.sing ⟨true, [.index 0, .index 0]⟩)))
    (streamToks [sample, sample]) (streamToks [.arr [num b%"1"] false, .arr [num b%"1"] false]) (.ok ()) :=
  .of_run 20 (by cases strict <;> decide +kernel)

end NonVacuity

end Verif.JPath
