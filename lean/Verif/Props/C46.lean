import Verif.PathNamed

/-!
# C46: integer literals
-/

namespace Verif

open JPath Rfc9535

/-- An integer is read iff it is in the range of I-JSON, and then its value is used. -/
theorem C46_int {s : Bytes} {v : Int} (h : IntLit s v) : parseInt s = if IJson v then some v else none := parseInt_lit h

example : IntLit b%"-12" (-12) := .neg (d := 0x31) (ds := [0x32]) (by unfold Dig; decide) (by decide) (by simp [Dig])
example : ∀ v, ¬ IntLit b%"012" v := by
  intro v h
  cases h with
  | pos _ h _ => exact h rfl

/-- If all integers of a query are in range (and its strings and numbers have values), then its syntax tree is made, with the values of these
integers, in order; a missing step is 1. -/
theorem C46_accepted {segs : List PSegment} (h : ∀ s ∈ segmentInts true segs, ∃ v, IntLit s v ∧ IJson v)
    (hf : segmentsFine segs = true) :
    ∃ q, compileTree segs = some q ∧ Rel2 IntLit (segmentInts true segs) (segmentsInts q.segs) := by
  obtain ⟨c, e, h⟩ := segments_ok segs h hf
  exact ⟨⟨true, c⟩, by simp [compileTree, e], h⟩

/-- A query that is accepted (by the parser and the compiler) has only integers in range, in all places but one.  Missing: those in brackets
after two dots. -/
theorem C46_rejected_partial {segs : List PSegment} {q : Query} {r : MainR} (h : compileTree segs = some q) (hr : compileQuery q = some r) :
    ∀ s ∈ segmentInts false segs, ∀ v, IntLit s v → IJson v := by
  intro s hs v hv
  simp only [compileTree, Option.map_eq_some_iff] at h
  obtain ⟨c, h, rfl⟩ := h
  simp only [compileQuery, Option.map_eq_some_iff] at hr
  obtain ⟨⟨t, x⟩, hr, -⟩ := hr
  have hn := (compileSegs_named c (tab := {}) (fun e he => by cases he) hr).1
  have := segments_read segs h hn s hs
  rw [parseInt_lit hv] at this
  apply Classical.byContradiction
  intro hc
  rw [if_neg hc] at this
  cases this

/-- `$[?@[-3] == 1, 2:5][?length(@[7]) > 0]`. -/
def queryWithInts : List PSegment :=
  [.bracketed (.filter (.cmp (.sing ⟨false, [.index b%"-3"]⟩) .eq (.lit (.num true b%"1")))) [.slice (some b%"2") (some b%"5") none],
   .bracketed (.filter (.cmp (.func b%"length(" [.query false [.bracketed (.index b%"7") []]]) .gt (.lit (.num true b%"0")))) []]

example : segmentInts false queryWithInts = [b%"-3", b%"2", b%"5", b%"1", b%"7"] ∧ segmentsFine queryWithInts = true ∧
    ((compileTree queryWithInts).bind compileQuery).isSome = true := by decide +kernel

/-- `$[?length(@[9007199254740992]) > 0]` is rejected: the error in the argument is dropped, but then the function has no name. -/
example : ((compileTree [.bracketed (.filter (.cmp (.func b%"length(" [.query false [.bracketed (.index b%"9007199254740992") []]]) .gt
    (.lit (.num true b%"0")))) []]).bind compileQuery).isSome = false := by decide +kernel

/-- The code violates the property: `$..[9007199254740992]` is accepted. -/
theorem C46_violated : ∃ (segs : List PSegment) (q : Query) (r : MainR), compileTree segs = some q ∧ compileQuery q = some r ∧
    ∃ s ∈ segmentInts true segs, ∃ v, IntLit s v ∧ ¬ IJson v := by
  refine ⟨[.descBracketed (.index b%"9007199254740992") []], ⟨true, [.mk false []]⟩, ⟨[.mk false []], [], []⟩, by
      have : parseInt b%"9007199254740992" = none := by decide +kernel
      simp [compileTree, compileSegments, PSegment.compile, PSelector.compile, this], rfl, b%"9007199254740992",
    by simp [segmentInts, PSegment.ints, PSelector.ints], 9007199254740992, ?_, by decide⟩
  exact .pos (d := 0x39) (ds := b%"007199254740992") (by unfold Dig; decide) (by decide) (by simp [Dig])

end Verif
