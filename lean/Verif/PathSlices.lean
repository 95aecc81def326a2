import Verif.PathWindow

/-!
# What index and slice selectors select

Helper lemmas: the items selected by the code, and those selected by the loops of RFC 9535, as sets of indices in increasing order.
-/

namespace Verif.JPath

open Rfc9535 (IJson)

/-- Once a selector announces that there is nothing more, it selects none of the following items. -/
theorem more_final {C : Type} (sel : Sel C) (hc : Compiled sel) (n i j : Nat) (hij : i < j) (hj : j < n) (hn : (n : Int) ≤ maxInt64)
    (h : (sel.fromIndex i ((i : Int) - n)).more = false) : (sel.fromIndex j ((j : Int) - n)).yes = false := by
  have ei1 : minInt64 ≤ (i : Int) - n := by unfold minInt64 maxInt64 at *; omega
  have ei2 : (i : Int) - n < 0 := by omega
  have ej1 : minInt64 ≤ (j : Int) - n := by unfold minInt64 maxInt64 at *; omega
  have ej2 : (j : Int) - n < 0 := by omega
  have hi0 : (0 : Int) ≤ i := by omega
  have hi1 : (i : Int) ≤ maxInt64 := by omega
  have hj0 : (0 : Int) ≤ j := by omega
  have hj1 : (j : Int) ≤ maxInt64 := by omega
  cases hc with
  | default => rfl
  | name => rfl
  | wild => cases h
  | filter => cases h
  | index k hk =>
    have hk1 : minInt64 ≤ k := by unfold IJson minInt64 at *; omega
    have hk2 : k ≤ maxInt64 := by unfold IJson maxInt64 at *; omega
    simp only [Sel.fromIndex, offset_eq k i _ hk1 hk2 hi0 hi1 ei2 ei1, offset_eq k j _ hk1 hk2 hj0 hj1 ej2 ej1] at h ⊢
    have : (if k < 0 then (i : Int) - n - k else (i : Int) - k) < (if k < 0 then (j : Int) - n - k else (j : Int) - k) := by
      split <;> omega
    generalize (if k < 0 then (i : Int) - n - k else (i : Int) - k) = a at *
    generalize (if k < 0 then (j : Int) - n - k else (j : Int) - k) = b at *
    by_cases ha : a ≥ 0
    · rw [if_pos (by omega)]
    · rw [if_neg (by omega), if_neg (by omega)] at h; cases h
  | slice start stop step hs he hst =>
    rcases compileSlice_cases (C := C) start stop step hs he with hh | ⟨s, e, hh, h0, hs, he, -, -, hne⟩ | ⟨s, e, hh, h0, hs, he, -, -, hne⟩
    · rw [hh]; rfl
    · rw [hh] at h ⊢
      have he1 : minInt64 ≤ e := by unfold IJson minInt64 maxInt64 at *; omega
      have he2 : e ≤ maxInt64 := by unfold IJson maxInt64 at *; omega
      simp only [Sel.fromIndex, offset_eq e i _ he1 he2 hi0 hi1 ei2 ei1, offset_eq e j _ he1 he2 hj0 hj1 ej2 ej1] at h ⊢
      have : (if e < 0 then (i : Int) - n - e else (i : Int) - e) < (if e < 0 then (j : Int) - n - e else (j : Int) - e) := by
        split <;> omega
      generalize (if e < 0 then (i : Int) - n - e else (i : Int) - e) = a at *
      generalize (if e < 0 then (j : Int) - n - e else (j : Int) - e) = b at *
      by_cases ha : a ≥ 0
      · rw [if_pos (by omega)]
      · rw [if_neg ha] at h; split at h <;> cases h
    · rw [hh] at h ⊢
      have hs1 : minInt64 ≤ s := by unfold IJson minInt64 at *; omega
      have hs2 : s ≤ maxInt64 := by unfold IJson maxInt64 at *; omega
      simp only [Sel.fromIndex, offset_eq s i _ hs1 hs2 hi0 hi1 ei2 ei1, offset_eq s j _ hs1 hs2 hj0 hj1 ej2 ej1] at h ⊢
      have : (if s < 0 then (i : Int) - n - s else (i : Int) - s) < (if s < 0 then (j : Int) - n - s else (j : Int) - s) := by
        split <;> omega
      generalize (if s < 0 then (i : Int) - n - s else (i : Int) - s) = a at *
      generalize (if s < 0 then (j : Int) - n - s else (j : Int) - s) = b at *
      by_cases ha : a > 0
      · rw [if_pos (by omega)]
      · rw [if_neg ha] at h; split at h <;> cases h

/-- What one selector selects: every item that it selects with the exact negative index, in increasing order. -/
theorem scan_eq {C : Type} (sel : Sel C) (hc : Compiled sel) (L : Int) (hL0 : 0 ≤ L) (hL1 : L ≤ maxInt64) (hL : sel.lookahead ≤ L)
    (n : Nat) (hn : (n : Int) ≤ maxInt64) (k : Nat) : ∀ i, i + k = n →
    scan sel L n i k = (List.range' i k).filter fun j : Nat => (sel.fromIndex j ((j : Int) - n)).yes := by
  induction k with
  | zero => intro i _; rfl
  | succ k ih =>
    intro i hi
    rw [scan, fromIndex_window sel hc L hL0 hL1 hL n i (by omega) hn, List.range'_succ, List.filter_cons]
    have hrest : (if (sel.fromIndex i ((i : Int) - n)).more = true then scan sel L n (i + 1) k else []) =
        (List.range' (i + 1) k).filter fun j : Nat => (sel.fromIndex j ((j : Int) - n)).yes := by
      split
      · exact ih (i + 1) (by omega)
      · rename_i hm
        refine (List.filter_eq_nil_iff.2 ?_).symm
        intro j hj
        rw [List.mem_range'_1] at hj
        rw [more_final sel hc n i j (by omega) (by omega) hn (by simpa using hm)]
        simp
    simp only [hrest]
    split <;> simp

theorem scan_range {C : Type} (sel : Sel C) (hc : Compiled sel) (L : Int) (hL0 : 0 ≤ L) (hL1 : L ≤ maxInt64) (hL : sel.lookahead ≤ L)
    (n : Nat) (hn : (n : Int) ≤ maxInt64) :
    scan sel L n 0 n = (List.range n).filter fun j : Nat => (sel.fromIndex j ((j : Int) - n)).yes := by
  rw [scan_eq sel hc L hL0 hL1 hL n hn n 0 (by omega), List.range_eq_range']

/-- Two increasing lists with the same members are equal. -/
theorem sorted_ext : ∀ {l l' : List Nat}, l.Pairwise (· < ·) → l'.Pairwise (· < ·) → (∀ x, x ∈ l ↔ x ∈ l') → l = l'
  | [], [], _, _, _ => rfl
  | [], b :: _, _, _, h => absurd ((h b).2 (by simp)) (by simp)
  | a :: _, [], _, _, h => absurd ((h a).1 (by simp)) (by simp)
  | a :: l, b :: l', h1, h2, h => by
    rw [List.pairwise_cons] at h1 h2
    have hab : a = b := by
      rcases List.mem_cons.1 ((h a).1 (by simp)) with h' | h'
      · exact h'
      · rcases List.mem_cons.1 ((h b).2 (by simp)) with h'' | h''
        · exact h''.symm
        · have := h1.1 b h''; have := h2.1 a h'; omega
    subst hab
    congr 1
    refine sorted_ext h1.2 h2.2 fun x => ⟨fun hx => ?_, fun hx => ?_⟩
    · rcases List.mem_cons.1 ((h x).1 (List.mem_cons_of_mem _ hx)) with rfl | h'
      · have := h1.1 _ hx; omega
      · exact h'
    · rcases List.mem_cons.1 ((h x).2 (List.mem_cons_of_mem _ hx)) with rfl | h'
      · have := h2.1 _ hx; omega
      · exact h'

theorem filter_sorted (n : Nat) (p : Nat → Bool) : ((List.range n).filter p).Pairwise (· < ·) :=
  List.Pairwise.filter _ List.pairwise_lt_range

/-- The members of the upward loop. -/
theorem mem_upward (step upper : Int) (hs : 0 < step) : ∀ (f : Nat) (i : Int), 0 ≤ i → upper ≤ i + f → ∀ x : Nat,
    (x ∈ Rfc9535.upward step upper f i ↔ i ≤ x ∧ (x : Int) < upper ∧ step ∣ (x : Int) - i) := by
  intro f
  induction f with
  | zero => intro i hi hu x; simp only [Rfc9535.upward, List.not_mem_nil, false_iff]; omega
  | succ f ih =>
    intro i hi hu x
    rw [Rfc9535.upward]
    split
    · rename_i hlt
      rw [List.mem_cons, ih (i + step) (by omega) (by omega)]
      constructor
      · rintro (rfl | ⟨h1, h2, h3⟩)
        · refine ⟨by omega, by omega, ?_⟩
          rw [show ((i.toNat : Nat) : Int) - i = 0 by omega]; exact Int.dvd_zero _
        · refine ⟨by omega, h2, ?_⟩
          have := Int.dvd_add h3 (Int.dvd_refl step)
          rwa [show (x : Int) - (i + step) + step = x - i by omega] at this
      · rintro ⟨h1, h2, h3⟩
        by_cases hx : (x : Int) = i
        · left; omega
        · right
          have hle : step ≤ (x : Int) - i := Int.le_of_dvd (by omega) h3
          refine ⟨by omega, h2, ?_⟩
          have := Int.dvd_sub h3 (Int.dvd_refl step)
          rwa [show (x : Int) - i - step = x - (i + step) by omega] at this
    · simp only [List.not_mem_nil, false_iff]; omega

theorem upward_sorted (step upper : Int) (hs : 0 < step) : ∀ (f : Nat) (i : Int), 0 ≤ i → upper ≤ i + f →
    (Rfc9535.upward step upper f i).Pairwise (· < ·) := by
  intro f
  induction f with
  | zero => intro i _ _; exact .nil
  | succ f ih =>
    intro i hi hu
    rw [Rfc9535.upward]
    split
    · rw [List.pairwise_cons]
      refine ⟨fun x hx => ?_, ih _ (by omega) (by omega)⟩
      have := (mem_upward step upper hs f (i + step) (by omega) (by omega) x).1 hx
      omega
    · exact .nil

/-- The members of the downward loop. -/
theorem mem_downward (step lower : Int) (hs : step < 0) (hl : -1 ≤ lower) : ∀ (f : Nat) (i : Int), i - lower ≤ f → ∀ x : Nat,
    (x ∈ Rfc9535.downward step lower f i ↔ (x : Int) ≤ i ∧ lower < x ∧ step ∣ (x : Int) - i) := by
  intro f
  induction f with
  | zero => intro i hu x; simp only [Rfc9535.downward, List.not_mem_nil, false_iff]; omega
  | succ f ih =>
    intro i hu x
    rw [Rfc9535.downward]
    split
    · rename_i hlt
      rw [List.mem_cons, ih (i + step) (by omega)]
      constructor
      · rintro (rfl | ⟨h1, h2, h3⟩)
        · refine ⟨by omega, by omega, ?_⟩
          rw [show ((i.toNat : Nat) : Int) - i = 0 by omega]; exact Int.dvd_zero _
        · refine ⟨by omega, h2, ?_⟩
          have := Int.dvd_add h3 (Int.dvd_refl step)
          rwa [show (x : Int) - (i + step) + step = x - i by omega] at this
      · rintro ⟨h1, h2, h3⟩
        by_cases hx : (x : Int) = i
        · left; omega
        · right
          have h3' : -step ∣ i - (x : Int) := by
            have := Int.neg_dvd.2 (Int.dvd_neg.2 h3)
            rwa [show -((x : Int) - i) = i - x by omega] at this
          have hle : -step ≤ i - (x : Int) := Int.le_of_dvd (by omega) h3'
          refine ⟨by omega, h2, ?_⟩
          have := Int.dvd_sub h3 (Int.dvd_refl step)
          rwa [show (x : Int) - i - step = x - (i + step) by omega] at this
    · simp only [List.not_mem_nil, false_iff]; omega

theorem downward_sorted (step lower : Int) (hs : step < 0) (hl : -1 ≤ lower) : ∀ (f : Nat) (i : Int), i - lower ≤ f →
    (Rfc9535.downward step lower f i).reverse.Pairwise (· < ·) := by
  intro f
  induction f with
  | zero => intro i _; exact .nil
  | succ f ih =>
    intro i hu
    rw [Rfc9535.downward]
    split
    · rw [List.reverse_cons, List.pairwise_append]
      refine ⟨ih _ (by omega), by simp, fun x hx y hy => ?_⟩
      simp only [List.mem_singleton] at hy
      have := (mem_downward step lower hs hl f (i + step) (by omega) x).1 (List.mem_reverse.1 hx)
      omega
    · exact .nil

end Verif.JPath

namespace Verif.JPath

open Rfc9535 (IJson normalize startOf endOf)

theorem tmod_zero (a b : Int) : a.tmod b = 0 ↔ b ∣ a := ⟨Int.dvd_of_tmod_eq_zero, Int.tmod_eq_zero_of_dvd⟩

/-- The offset from a bound, with the exact negative index, is the distance from the normalised bound. -/
theorem offset_normal (b : Int) (hb : minInt64 ≤ b) (hb2 : b ≤ maxInt64) (n i : Nat) (hi : i < n) (hn : (n : Int) ≤ maxInt64) :
    Sel.offset b i ((i : Int) - n) = i - normalize b n := by
  rw [offset_eq b i _ hb hb2 (by omega) (by omega) (by omega) (by unfold minInt64 maxInt64 at *; omega)]
  unfold normalize
  by_cases h : b < 0
  · rw [if_pos h, if_neg (by omega)]; omega
  · rw [if_neg h, if_pos (by omega)]

/-- What slices with positive steps select. -/
theorem slice_up {C : Type} (start stop : Option Int) (step : Int) (hs : ∀ x, start = some x → IJson x) (he : ∀ x, stop = some x → IJson x)
    (hpos : 0 < step) (n : Nat) (hn : (n : Int) ≤ maxInt64) (x : Nat) (hx : x < n) :
    ((compileSlice start stop step : Sel C).fromIndex x ((x : Int) - n)).yes = true ↔
      normalize (startOf start step n) n ≤ x ∧ (x : Int) < normalize (endOf stop step n) n ∧ step ∣ (x : Int) - normalize (startOf start step n) n := by
  have hS : startOf start step n = start.getD 0 := by unfold startOf; rw [if_pos (by omega)]
  have hE : stop.getD maxInt64 = maxInt64 ∧ normalize (endOf stop step n) n = n ∨ stop.getD maxInt64 = endOf stop step n := by
    unfold endOf; rw [if_pos (by omega)]
    cases stop with
    | none => left; refine ⟨rfl, ?_⟩; simp only [Option.getD_none, normalize]; rw [if_pos (by omega)]
    | some e => right; rfl
  rw [hS]
  by_cases hd : 0 ≤ stop.getD maxInt64 ∧ stop.getD maxInt64 ≤ start.getD 0 ∨ start.getD 0 < 0 ∧ start.getD 0 ≥ stop.getD maxInt64
  · have : (compileSlice start stop step : Sel C) = .default := by
      unfold compileSlice; rw [if_neg (by omega), if_neg (by omega)]; simp only []; rw [if_pos hd]
    rw [this]
    have hs' : start.getD 0 < maxInt64 := by
      cases start with
      | none => decide
      | some s => have := hs s rfl; unfold IJson at this; show s < maxInt64; unfold maxInt64; omega
    constructor
    · intro h; cases h
    · rintro ⟨h1, h2, -⟩
      rcases hE with ⟨hm, -⟩ | hm
      · rw [hm] at hd; unfold maxInt64 at *; omega
      · rw [hm] at hd
        unfold normalize at h1 h2
        split at h1 <;> split at h2 <;> omega
  · rcases compileSlice_cases (C := C) start stop step hs he with hh | ⟨s, e, hh, -, hsj, hej, rfl, rfl, hne⟩ | ⟨s, e, hh, h0, -⟩
    · unfold compileSlice at hh
      rw [if_neg (by omega), if_neg (by omega)] at hh
      simp only [] at hh
      rw [if_neg hd] at hh
      cases hh
    · rw [hh]
      simp only [Sel.fromIndex]
      rw [offset_normal _ (by unfold IJson minInt64 maxInt64 at *; omega) (by unfold IJson maxInt64 at *; omega) n x hx hn,
        offset_normal _ (by unfold IJson minInt64 at *; omega) (by unfold IJson maxInt64 at *; omega) n x hx hn]
      simp only [tmod_zero]
      have hE' : (x : Int) < normalize (stop.getD maxInt64) n ↔ (x : Int) < normalize (endOf stop step n) n := by
        rcases hE with ⟨hm, hm2⟩ | hm
        · rw [hm, hm2]
          have : normalize maxInt64 n = maxInt64 := by unfold normalize; rw [if_pos (by decide)]
          rw [this]; omega
        · rw [hm]
      rw [← hE']
      by_cases c1 : (x : Int) - normalize (stop.getD maxInt64) n ≥ 0
      · rw [if_pos c1]; constructor
        · intro h; cases h
        · intro h; omega
      · rw [if_neg c1]
        by_cases c2 : (x : Int) - normalize (start.getD 0) n ≥ 0 ∧ step ∣ (x : Int) - normalize (start.getD 0) n
        · rw [if_pos c2]
          exact ⟨fun _ => ⟨by omega, by omega, c2.2⟩, fun _ => rfl⟩
        · rw [if_neg c2]
          exact ⟨fun h => (by cases h), fun h => absurd ⟨by omega, h.2.2⟩ c2⟩
    · omega

/-- What slices with negative steps select. -/
theorem slice_down {C : Type} (start stop : Option Int) (step : Int) (hs : ∀ x, start = some x → IJson x) (he : ∀ x, stop = some x → IJson x)
    (hneg : step < 0) (n : Nat) (hn : (n : Int) ≤ maxInt64) (x : Nat) (hx : x < n) :
    ((compileSlice start stop step : Sel C).fromIndex x ((x : Int) - n)).yes = true ↔
      (x : Int) ≤ normalize (startOf start step n) n ∧ normalize (endOf stop step n) n < x ∧ step ∣ (x : Int) - normalize (startOf start step n) n := by
  have hS : normalize (startOf start step n) n = normalize (start.getD (-1)) n := by
    unfold startOf; rw [if_neg (by omega)]
    cases start with
    | none => simp only [Option.getD_none, normalize]; split <;> omega
    | some s => rfl
  have hE : stop.getD minInt64 = minInt64 ∧ normalize (endOf stop step n) n = -1 ∨ stop.getD minInt64 = endOf stop step n := by
    unfold endOf; rw [if_neg (by omega)]
    cases stop with
    | none => left; refine ⟨rfl, ?_⟩; simp only [Option.getD_none, normalize]; split <;> omega
    | some e => right; rfl
  have hs' : minInt64 < start.getD (-1) := by
    cases start with
    | none => decide
    | some s => have := hs s rfl; unfold IJson at this; show minInt64 < s; unfold minInt64; omega
  have hmin : minInt64 < 0 := by decide
  rw [hS]
  by_cases hd : 0 ≤ start.getD (-1) ∧ stop.getD minInt64 ≥ start.getD (-1) ∨ stop.getD minInt64 < 0 ∧ start.getD (-1) ≤ stop.getD minInt64
  · have : (compileSlice start stop step : Sel C) = .default := by
      unfold compileSlice; rw [if_neg (by omega), if_pos (by omega)]; simp only []; rw [if_pos hd]
    rw [this]
    constructor
    · intro h; cases h
    · rintro ⟨h1, h2, -⟩
      rcases hE with ⟨hm, -⟩ | hm
      · rw [hm] at hd; omega
      · rw [hm] at hd
        unfold normalize at h1 h2
        split at h1 <;> split at h2 <;> omega
  · rcases compileSlice_cases (C := C) start stop step hs he with hh | ⟨s, e, hh, h0, -⟩ | ⟨s, e, hh, -, hsj, hej, rfl, rfl, hne⟩
    · unfold compileSlice at hh
      rw [if_neg (by omega), if_pos (by omega)] at hh
      simp only [] at hh
      rw [if_neg hd] at hh
      cases hh
    · omega
    · rw [hh]
      simp only [Sel.fromIndex]
      rw [offset_normal _ (by unfold IJson minInt64 at *; omega) (by unfold IJson maxInt64 at *; omega) n x hx hn,
        offset_normal _ (by unfold IJson minInt64 at *; omega) (by unfold IJson maxInt64 minInt64 at *; omega) n x hx hn]
      simp only [tmod_zero]
      have hE' : normalize (stop.getD minInt64) n < (x : Int) ↔ normalize (endOf stop step n) n < (x : Int) := by
        rcases hE with ⟨hm, hm2⟩ | hm
        · rw [hm, hm2]
          have : normalize minInt64 n = n + minInt64 := by unfold normalize; rw [if_neg (by decide)]
          rw [this]; unfold minInt64 maxInt64 at *; omega
        · rw [hm]
      rw [← hE']
      by_cases c1 : (x : Int) - normalize (start.getD (-1)) n > 0
      · rw [if_pos c1]; constructor
        · intro h; cases h
        · intro h; omega
      · rw [if_neg c1]
        by_cases c2 : (x : Int) - normalize (stop.getD minInt64) n > 0 ∧ step ∣ (x : Int) - normalize (start.getD (-1)) n
        · rw [if_pos c2]
          exact ⟨fun _ => ⟨by omega, by omega, c2.2⟩, fun _ => rfl⟩
        · rw [if_neg c2]
          exact ⟨fun h => (by cases h), fun h => absurd ⟨by omega, h.2.2⟩ c2⟩

/-- When the code and RFC 9535 select the same items: no bound has to be clamped to a place that the steps do not reach. -/
def Agrees (start stop : Option Int) (step : Int) (n : Nat) : Prop :=
  let s := normalize (startOf start step n) n
  let e := normalize (endOf stop step n) n
  (0 < step → 0 ≤ s ∨ step ∣ s ∨ e ≤ 0 ∨ n = 0) ∧ (step < 0 → s ≤ n - 1 ∨ step ∣ s - (n - 1) ∨ n - 1 ≤ e ∨ n = 0)

theorem compileSlice_reverses {C : Type} (start stop : Option Int) (step : Int) (h : 0 ≤ step) :
    (compileSlice start stop step : Sel C).reverses = false := by
  unfold compileSlice
  split
  · rfl
  · rw [if_neg (by omega)]; simp only []; split <;> rfl

theorem selected_up {C : Type} (start stop : Option Int) (step : Int) (hs : ∀ x, start = some x → IJson x) (he : ∀ x, stop = some x → IJson x)
    (hst : IJson step) (hpos : 0 < step) (L : Int) (hL0 : 0 ≤ L) (hL1 : L ≤ maxInt64)
    (hL : (compileSlice start stop step : Sel C).lookahead ≤ L) (n : Nat) (hn : (n : Int) ≤ maxInt64) :
    selected (compileSlice start stop step : Sel C) L n = Rfc9535.slice start stop step n ↔ Agrees start stop step n := by
  have hsc := scan_range (compileSlice start stop step : Sel C) (.slice start stop step hs he hst) L hL0 hL1 hL n hn
  have hmem : ∀ x, x ∈ scan (compileSlice start stop step : Sel C) L n 0 n ↔ x < n ∧ normalize (startOf start step n) n ≤ x ∧
      (x : Int) < normalize (endOf stop step n) n ∧ step ∣ (x : Int) - normalize (startOf start step n) n := by
    intro x
    rw [hsc, List.mem_filter, List.mem_range]
    constructor
    · rintro ⟨h1, h2⟩; exact ⟨h1, (slice_up start stop step hs he hpos n hn x h1).1 h2⟩
    · rintro ⟨h1, h2⟩; exact ⟨h1, (slice_up start stop step hs he hpos n hn x h1).2 h2⟩
  have hrev := compileSlice_reverses (C := C) start stop step (by omega)
  rw [show selected (compileSlice start stop step : Sel C) L n = scan (compileSlice start stop step : Sel C) L n 0 n by
    unfold selected; rw [hrev]; rfl]
  unfold Agrees
  generalize hS : normalize (startOf start step n) n = S at *
  generalize hE : normalize (endOf stop step n) n = E at *
  have hsl : Rfc9535.slice start stop step n = Rfc9535.upward step (min (max E 0) n) n (min (max S 0) n) := by
    simp only [Rfc9535.slice, Rfc9535.bounds, hS, hE]
    rw [if_pos (show step ≥ 0 by omega)]
    simp only []
    rw [if_pos hpos]
  rw [hsl]
  have hup : ∀ x : Nat, x ∈ Rfc9535.upward step (min (max E 0) n) n (min (max S 0) n) ↔ _ :=
    fun x => mem_upward step (min (max E 0) n) hpos n (min (max S 0) n) (by omega) (by omega) x
  constructor
  · intro heq
    refine ⟨fun _ => ?_, fun h => by omega⟩
    by_cases h1 : 0 ≤ S ∨ E ≤ 0 ∨ n = 0
    · omega
    · have h0 := (hup 0).2 ⟨by omega, by omega, by rw [show ((0 : Nat) : Int) - min (max S 0) n = 0 by omega]; exact Int.dvd_zero _⟩
      rw [← heq, hmem] at h0
      have := h0.2.2.2
      rw [show ((0 : Nat) : Int) - S = -S by omega, Int.dvd_neg] at this
      exact .inr (.inl this)
  · rintro ⟨hA, -⟩
    refine sorted_ext (by rw [hsc]; exact filter_sorted _ _) (upward_sorted _ _ hpos _ _ (by omega) (by omega)) fun x => ?_
    rw [hmem, hup]
    by_cases h1 : 0 ≤ S
    · by_cases h2 : S ≤ n
      · rw [show min (max S 0) (n : Int) = S by omega]
        constructor
        · rintro ⟨a, b, c, d⟩; exact ⟨b, by omega, d⟩
        · rintro ⟨a, b, c⟩; exact ⟨by omega, a, by omega, c⟩
      · constructor
        · rintro ⟨a, b, c, d⟩; omega
        · rintro ⟨a, b, c⟩; omega
    · rw [show min (max S 0) (n : Int) = 0 by omega, Int.sub_zero]
      rcases hA hpos with h | h | h | h
      · omega
      · constructor
        · rintro ⟨a, b, c, d⟩
          refine ⟨by omega, by omega, ?_⟩
          have := Int.dvd_add d h
          rwa [show (x : Int) - S + S = x by omega] at this
        · rintro ⟨a, b, c⟩
          exact ⟨by omega, by omega, by omega, Int.dvd_sub c h⟩
      · constructor
        · rintro ⟨a, b, c, d⟩; omega
        · rintro ⟨a, b, c⟩; omega
      · constructor
        · rintro ⟨a, b, c, d⟩; omega
        · rintro ⟨a, b, c⟩; omega

theorem selected_down {C : Type} (start stop : Option Int) (step : Int) (hs : ∀ x, start = some x → IJson x) (he : ∀ x, stop = some x → IJson x)
    (hst : IJson step) (hneg : step < 0) (L : Int) (hL0 : 0 ≤ L) (hL1 : L ≤ maxInt64)
    (hL : (compileSlice start stop step : Sel C).lookahead ≤ L) (n : Nat) (hn : (n : Int) ≤ maxInt64) :
    selected (compileSlice start stop step : Sel C) L n = Rfc9535.slice start stop step n ↔ Agrees start stop step n := by
  have hsc := scan_range (compileSlice start stop step : Sel C) (.slice start stop step hs he hst) L hL0 hL1 hL n hn
  have hmem : ∀ x, x ∈ scan (compileSlice start stop step : Sel C) L n 0 n ↔ x < n ∧ (x : Int) ≤ normalize (startOf start step n) n ∧
      normalize (endOf stop step n) n < x ∧ step ∣ (x : Int) - normalize (startOf start step n) n := by
    intro x
    rw [hsc, List.mem_filter, List.mem_range]
    constructor
    · rintro ⟨h1, h2⟩; exact ⟨h1, (slice_down start stop step hs he hneg n hn x h1).1 h2⟩
    · rintro ⟨h1, h2⟩; exact ⟨h1, (slice_down start stop step hs he hneg n hn x h1).2 h2⟩
  have hsel : selected (compileSlice start stop step : Sel C) L n = (scan (compileSlice start stop step : Sel C) L n 0 n).reverse := by
    rcases compileSlice_cases (C := C) start stop step hs he with h | ⟨s, e, h, h0, -⟩ | ⟨s, e, h, -⟩
    · have : scan (compileSlice start stop step : Sel C) L n 0 n = [] := by
        rw [hsc, h]; exact List.filter_eq_nil_iff.2 (by intro a _; simp [Sel.fromIndex])
      unfold selected; rw [this]; split <;> rfl
    · omega
    · unfold selected; rw [if_pos (by rw [h]; rfl)]
  rw [hsel]
  unfold Agrees
  generalize hS : normalize (startOf start step n) n = S at *
  generalize hE : normalize (endOf stop step n) n = E at *
  have hsl : Rfc9535.slice start stop step n = Rfc9535.downward step (min (max E (-1)) (n - 1)) n (min (max S (-1)) (n - 1)) := by
    simp only [Rfc9535.slice, Rfc9535.bounds, hS, hE]
    rw [if_neg (show ¬ step ≥ 0 by omega)]
    simp only []
    rw [if_neg (show ¬ step > 0 by omega), if_pos hneg]
  rw [hsl]
  have hdn : ∀ x : Nat, x ∈ Rfc9535.downward step (min (max E (-1)) (n - 1)) n (min (max S (-1)) (n - 1)) ↔ _ :=
    fun x => mem_downward step (min (max E (-1)) (n - 1)) hneg (by omega) n (min (max S (-1)) (n - 1)) (by omega) x
  constructor
  · intro heq
    refine ⟨fun h => by omega, fun _ => ?_⟩
    by_cases h1 : S ≤ n - 1 ∨ n - 1 ≤ E ∨ n = 0
    · omega
    · have h0 := (hdn (n - 1)).2 ⟨by omega, by omega, by
        rw [show ((n - 1 : Nat) : Int) - min (max S (-1)) (n - 1) = 0 by omega]; exact Int.dvd_zero _⟩
      rw [← heq, List.mem_reverse, hmem] at h0
      have := h0.2.2.2
      rw [show ((n - 1 : Nat) : Int) - S = -(S - (n - 1)) by omega, Int.dvd_neg] at this
      exact .inr (.inl this)
  · rintro ⟨-, hA⟩
    have key : scan (compileSlice start stop step : Sel C) L n 0 n =
        (Rfc9535.downward step (min (max E (-1)) (n - 1)) n (min (max S (-1)) (n - 1))).reverse := by
      refine sorted_ext (by rw [hsc]; exact filter_sorted _ _) (downward_sorted _ _ hneg (by omega) _ _ (by omega)) fun x => ?_
      rw [hmem, List.mem_reverse, hdn]
      by_cases h1 : S ≤ n - 1
      · by_cases h2 : -1 ≤ S
        · rw [show min (max S (-1)) ((n : Int) - 1) = S by omega]
          constructor
          · rintro ⟨a, b, c, d⟩; exact ⟨b, by omega, d⟩
          · rintro ⟨a, b, c⟩; exact ⟨by omega, a, by omega, c⟩
        · constructor
          · rintro ⟨a, b, c, d⟩; omega
          · rintro ⟨a, b, c⟩; omega
      · rw [show min (max S (-1)) ((n : Int) - 1) = n - 1 by omega]
        rcases hA hneg with h | h | h | h
        · omega
        · constructor
          · rintro ⟨a, b, c, d⟩
            refine ⟨by omega, by omega, ?_⟩
            have := Int.dvd_add d h
            rwa [show (x : Int) - S + (S - (n - 1)) = x - (n - 1) by omega] at this
          · rintro ⟨a, b, c⟩
            refine ⟨by omega, by omega, by omega, ?_⟩
            have := Int.dvd_sub c h
            rwa [show (x : Int) - (n - 1) - (S - (n - 1)) = x - S by omega] at this
        · constructor
          · rintro ⟨a, b, c, d⟩; omega
          · rintro ⟨a, b, c⟩; omega
        · constructor
          · rintro ⟨a, b, c, d⟩; omega
          · rintro ⟨a, b, c⟩; omega
    rw [key, List.reverse_reverse]

end Verif.JPath
