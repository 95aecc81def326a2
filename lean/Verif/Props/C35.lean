import Verif.PathSlices

/-!
# C35: index selectors
-/

namespace Verif

open JPath Rfc9535

/-- The selector `[i]` selects the item that RFC 9535 says, if any, and nothing else, whatever the other selectors of the segment. -/
theorem C35_index {C : Type} (i : Int) (hi : IJson i) (sels : List (Sel C)) (h : ∀ s ∈ sels, Compiled s) (hmem : Sel.index i ∈ sels)
    (n : Nat) (hn : (n : Int) ≤ maxInt64) :
    selected (Sel.index i : Sel C) (segLookahead sels) n = (Rfc9535.index i n).toList := by
  show scan _ _ _ _ _ = _
  rw [scan_range (C := C) (.index i) (h _ hmem) _ (segLookahead_nonneg sels) (segLookahead_fits sels) (segLookahead_le sels _ hmem) n hn]
  have hj1 : minInt64 ≤ i := by unfold IJson minInt64 at *; omega
  have hj2 : i ≤ maxInt64 := by unfold IJson maxInt64 at *; omega
  have hyes : ∀ x, x < n → (((Sel.index i : Sel C).fromIndex x ((x : Int) - n)).yes = true ↔ (x : Int) = normalize i n) := by
    intro x hx
    simp only [Sel.fromIndex, offset_normal i hj1 hj2 n x hx hn]
    constructor
    · intro h
      by_cases c1 : (x : Int) - normalize i n > 0
      · rw [if_pos c1] at h; cases h
      · rw [if_neg c1] at h
        by_cases c2 : (x : Int) - normalize i n = 0
        · omega
        · rw [if_neg c2] at h; cases h
    · intro h
      rw [if_neg (by omega), if_pos (by omega)]
  refine sorted_ext (filter_sorted _ _) ?_ fun x => ?_
  · cases Rfc9535.index i n <;> simp
  · rw [List.mem_filter, List.mem_range]
    unfold Rfc9535.index
    constructor
    · rintro ⟨h1, h2⟩
      have h3 := (hyes x h1).1 h2
      unfold normalize at h3
      by_cases c : 0 ≤ i
      · rw [if_pos c] at h3; rw [if_pos (by omega)]; simp; omega
      · rw [if_neg c] at h3; rw [if_neg (by omega), if_pos (by omega)]; simp; omega
    · intro hx
      have : x < n ∧ (x : Int) = normalize i n := by
        unfold normalize
        by_cases c : 0 ≤ i ∧ i < n
        · rw [if_pos c] at hx; simp only [Option.mem_toList, Option.some.injEq] at hx; rw [if_pos c.1]; omega
        · rw [if_neg c] at hx
          by_cases c2 : i < 0 ∧ -i ≤ n
          · rw [if_pos c2] at hx; simp only [Option.mem_toList, Option.some.injEq] at hx; rw [if_neg (by omega)]; omega
          · rw [if_neg c2] at hx; simp at hx
      exact ⟨this.1, (hyes x this.1).2 this.2⟩

example : selected (Sel.index (-2) : Sel Unit) 2 5 = [3] := by decide
example : selected (Sel.index (-6) : Sel Unit) 6 5 = [] := by decide
example : selected (Sel.index 1 : Sel Unit) 7 5 = [1] ∧ selected (Sel.index 5 : Sel Unit) 0 5 = [] := by decide

end Verif
