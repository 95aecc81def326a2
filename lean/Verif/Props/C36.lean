import Verif.PathSlices

/-!
# C36: slice selectors

Violated: the code steps from the start as it is written, RFC 9535 from the start clamped to the array.
-/

namespace Verif

open JPath Rfc9535

/-- The code and RFC 9535 select the same items in the same order exactly if no clamping moves the start to a place that the steps do
not reach, or nothing is selected at all. -/
theorem C36_exactly_when {C : Type} (start stop : Option Int) (step : Int) (hs : ∀ x, start = some x → IJson x) (he : ∀ x, stop = some x → IJson x)
    (hst : IJson step) (sels : List (Sel C)) (hmem : compileSlice start stop step ∈ sels) (n : Nat)
    (hn : (n : Int) ≤ maxInt64) :
    selected (compileSlice start stop step : Sel C) (segLookahead sels) n = Rfc9535.slice start stop step n ↔
      (0 < step → 0 ≤ normalize (startOf start step n) n ∨ step ∣ normalize (startOf start step n) n ∨
        normalize (endOf stop step n) n ≤ 0 ∨ n = 0) ∧
      (step < 0 → normalize (startOf start step n) n ≤ n - 1 ∨ step ∣ normalize (startOf start step n) n - (n - 1) ∨
        n - 1 ≤ normalize (endOf stop step n) n ∨ n = 0) := by
  have hL0 := (segLookahead_nonneg sels)
  have hL := segLookahead_le sels _ hmem
  rcases Int.lt_trichotomy step 0 with h | h | h
  · exact selected_down start stop step hs he hst h _ hL0 (segLookahead_fits sels) hL n hn
  · subst h
    refine ⟨fun _ => ⟨fun h => by omega, fun h => by omega⟩, fun _ => ?_⟩
    have : (compileSlice start stop 0 : Sel C) = .default := rfl
    rw [this]
    show scan _ _ _ _ _ = _
    rw [scan_range _ .default _ hL0 (segLookahead_fits sels) (by simpa [Sel.lookahead] using hL0) n hn]
    rw [List.filter_eq_nil_iff.2 (by intro a _; simp [Sel.fromIndex])]
    simp [Rfc9535.slice]
  · exact selected_up start stop step hs he hst h _ hL0 (segLookahead_fits sels) hL n hn

/-- Slices without a start, slices with step 1 or -1 (or 0) and slices whose start is in the array always select what RFC 9535 says.
Missing (false): slices with other steps whose start is outside the array. -/
theorem C36_slices_partial {C : Type} (start stop : Option Int) (step : Int) (hs : ∀ x, start = some x → IJson x)
    (he : ∀ x, stop = some x → IJson x) (hst : IJson step) (sels : List (Sel C)) (hmem : compileSlice start stop step ∈ sels)
    (n : Nat) (hn : (n : Int) ≤ maxInt64)
    (hok : start = none ∨ (-1 ≤ step ∧ step ≤ 1) ∨ ∃ s, start = some s ∧ -n ≤ s ∧ s < n) :
    selected (compileSlice start stop step : Sel C) (segLookahead sels) n = Rfc9535.slice start stop step n := by
  rw [C36_exactly_when start stop step hs he hst sels hmem n hn]
  rcases hok with rfl | h | ⟨s, rfl, h1, h2⟩
  · constructor
    · intro h
      left
      rw [show startOf none step n = 0 by unfold startOf; rw [if_pos (by omega)]; rfl]
      unfold normalize; simp
    · intro h
      left
      rw [show startOf none step n = n - 1 by unfold startOf; rw [if_neg (by omega)]; rfl]
      unfold normalize
      split <;> omega
  · constructor
    · intro h'; rw [show step = 1 by omega]; exact .inr (.inl (Int.one_dvd _))
    · intro h'; rw [show step = -1 by omega]; exact .inr (.inl (Int.neg_dvd.2 (Int.one_dvd _)))
  · have hb : 0 ≤ normalize s n ∧ normalize s n ≤ n - 1 := by unfold normalize; split <;> omega
    exact ⟨fun _ => .inl hb.1, fun _ => .inl hb.2⟩

/-- `$[-5::3]` on three items: RFC 9535 selects the first item, the code the second one. -/
theorem C36_violated_start : selected (compileSlice (some (-5)) none 3 : Sel Unit) (segLookahead [(compileSlice (some (-5)) none 3 : Sel Unit)]) 3 = [1] ∧
    Rfc9535.slice (some (-5)) none 3 3 = [0] := by decide

/-- `$[9::-2]` on three items: RFC 9535 selects the last item and the first one, the code the second one. -/
theorem C36_violated_reverse : selected (compileSlice (some 9) none (-2) : Sel Unit) (segLookahead [(compileSlice (some 9) none (-2) : Sel Unit)]) 3 = [1] ∧
    Rfc9535.slice (some 9) none (-2) 3 = [2, 0] := by decide

example : selected (compileSlice (some 5) (some (-9)) (-2) : Sel Unit) 9 7 = [5, 3, 1] := by decide
example : selected (compileSlice (some (-2)) none (-2) : Sel Unit) maxInt64 5 = [3, 1] := by decide
example : selected (compileSlice none (some (-1)) 2 : Sel Unit) 1 6 = [0, 2, 4] := by decide

end Verif
