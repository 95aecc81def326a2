import Verif.PathSlices

/-!
# C37: the look-ahead is sufficient
-/

namespace Verif

open JPath Rfc9535

/-- Deciding with the negative index that the window of a segment provides is deciding with the exact negative index, for every selector
of the segment and every item. -/
theorem C37_window {C : Type} (sels : List (Sel C)) (h : ∀ s ∈ sels, Compiled s) (n i : Nat) (hi : i < n)
    (hn : (n : Int) ≤ maxInt64) :
    ∀ s ∈ sels, s.fromIndex i (negIndexAt (segLookahead sels) n i).1 = s.fromIndex i ((i : Int) - n) := by
  intro s hs
  exact fromIndex_window s (h s hs) _ (segLookahead_nonneg sels) (segLookahead_fits sels) (segLookahead_le sels s hs) n i hi hn

/-- Once a selector announces that there is nothing more, it selects none of the following items. -/
theorem C37_no_more {C : Type} (sels : List (Sel C)) (h : ∀ s ∈ sels, Compiled s) (n i j : Nat) (hij : i < j) (hj : j < n)
    (hn : (n : Int) ≤ maxInt64) :
    ∀ s ∈ sels, (s.fromIndex i (negIndexAt (segLookahead sels) n i).1).more = false →
      (s.fromIndex j (negIndexAt (segLookahead sels) n j).1).yes = false := by
  intro s hs hm
  rw [C37_window sels h n _ (by omega) hn s hs] at hm ⊢
  exact more_final s (h s hs) n i j hij hj hn hm

/-- So every selector of a segment selects exactly the items which it selects when asked with the exact negative index. -/
theorem C37_selection {C : Type} (sels : List (Sel C)) (h : ∀ s ∈ sels, Compiled s) (n : Nat) (hn : (n : Int) ≤ maxInt64) :
    ∀ s ∈ sels, scan s (segLookahead sels) n 0 n = (List.range n).filter fun j : Nat => (s.fromIndex j ((j : Int) - n)).yes := by
  intro s hs
  exact scan_range s (h s hs) _ (segLookahead_nonneg sels) (segLookahead_fits sels) (segLookahead_le sels s hs) n hn

/-- The window truncates: the negative index is not the exact one, and not the same for all items. -/
example : (negIndexAt 2 10 0).1 = -3 ∧ (negIndexAt 2 10 7).1 = -3 ∧ (negIndexAt 2 10 8).1 = -2 ∧ (negIndexAt 2 10 9).1 = -1 := by decide
example : segLookahead [(Sel.index (-2) : Sel Unit), compileSlice (some (-4)) none 2, .index 7] = 4 := by decide
example : ∀ s ∈ [(Sel.index (-2) : Sel Unit), compileSlice (some (-4)) none 2, .index 7], Compiled s := by
  intro s hs
  simp only [List.mem_cons, List.not_mem_nil, or_false] at hs
  rcases hs with rfl | rfl | rfl
  · exact .index _ (by decide)
  · exact .slice _ _ _ (by rintro _ ⟨⟩; decide) (by rintro _ ⟨⟩) (by decide)
  · exact .index _ (by decide)
example : (List.range 10).filter (fun j : Nat => ((compileSlice (some (-4)) none 2 : Sel Unit).fromIndex j ((j : Int) - 10)).yes) = [6, 8] := by decide

end Verif
