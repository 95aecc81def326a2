import Verif.PathSelectors
import Verif.PathSpec

/-!
# The look-ahead window

Helper lemmas: the negative index that the window provides, and the decisions taken with it.
-/

namespace Verif.JPath

open Rfc9535 (IJson)

theorem windowStart_eq (L : Int) (hL : 0 < L) (n : Nat) : ∀ (a : Int), a ≤ 0 → -(L + 1) ≤ a →
    windowStart L a n = (max (-(L + 1)) (a - n), (n - (L + 1 + a)).toNat) := by
  induction n with
  | zero =>
    intro a h0 h1
    rw [windowStart]
    congr 1 <;> omega
  | succ n ih =>
    intro a h0 h1
    rw [windowStart]
    split
    · rw [ih (a - 1) (by omega) (by omega)]
      congr 1 <;> omega
    · congr 1 <;> omega

/-- The negative index that the window provides. -/
theorem negIndexAt_eq (L : Int) (hL : 0 < L) (n : Nat) : ∀ i : Nat, i ≤ n →
    negIndexAt L n i = (max (-(L + 1)) ((i : Int) - n), some (((n : Int) - i - (L + 1)).toNat)) := by
  intro i
  induction i with
  | zero =>
    intro _
    rw [negIndexAt, windowInit, if_pos hL, windowStart_eq L hL n 0 (by omega) (by omega)]
    simp only [Prod.mk.injEq, Option.some.injEq]
    constructor <;> omega
  | succ i ih =>
    intro h
    rw [negIndexAt, ih (by omega)]
    rcases hr : ((n : Int) - i - (L + 1)).toNat with _ | r
    · rw [show windowNext (max (-(L + 1)) ((i : Int) - n)) (some 0) = (max (-(L + 1)) ((i : Int) - n) + 1, some 0) from rfl]
      congr 1
      · omega
      · congr 1
        omega
    · rw [show windowNext (max (-(L + 1)) ((i : Int) - n)) (some (r + 1)) = (max (-(L + 1)) ((i : Int) - n), some r) from rfl]
      congr 1
      · omega
      · congr 1
        omega

theorem negIndexAt_none (n i : Nat) : negIndexAt 0 n i = (minInt64 + 1, none) := by
  induction i with
  | zero => rfl
  | succ i ih => rw [negIndexAt, ih]; rfl

/-- What is known about the negative index. -/
theorem negIndexAt_cases (L : Int) (h0 : 0 ≤ L) (n i : Nat) (hi : i < n) :
    (negIndexAt L n i).1 = (i : Int) - n ∨
    ((i : Int) - n < (negIndexAt L n i).1 ∧ (negIndexAt L n i).1 = -(L + 1) ∧ 0 < L) ∨
    ((negIndexAt L n i).1 = minInt64 + 1 ∧ L = 0) := by
  by_cases hL : 0 < L
  · rw [negIndexAt_eq L hL n i (by omega)]
    simp only []
    omega
  · have hz : L = 0 := by omega
    subst hz
    rw [negIndexAt_none]
    exact .inr (.inr ⟨rfl, rfl⟩)

/-- The selectors that the compiler makes from the integers of I-JSON, `/repo/transform/jsonpath/compiler.go:144-165`. -/
inductive Compiled {C : Type} : Sel C → Prop
  | default : Compiled .default
  | name (n : Bytes) : Compiled (.name n)
  | wild : Compiled .wild
  | index (i : Int) (h : IJson i) : Compiled (.index i)
  | slice (start stop : Option Int) (step : Int) (hs : ∀ x, start = some x → IJson x) (he : ∀ x, stop = some x → IJson x)
      (h : IJson step) : Compiled (compileSlice start stop step)
  | filter (c : C) : Compiled (.filter c)

theorem segLookahead_ge {C : Type} (sels : List (Sel C)) : ∀ l : Int,
    l ≤ sels.foldl (fun l s => if s.lookahead > l then s.lookahead else l) l ∧
    ∀ s ∈ sels, s.lookahead ≤ sels.foldl (fun l s => if s.lookahead > l then s.lookahead else l) l := by
  induction sels with
  | nil => intro l; exact ⟨Int.le_refl _, by simp⟩
  | cons x tl ih =>
    intro l
    have hh := ih (if x.lookahead > l then x.lookahead else l)
    rw [List.foldl_cons]
    refine ⟨Int.le_trans ?_ hh.1, ?_⟩
    · split <;> omega
    · intro s hs
      rcases List.mem_cons.1 hs with rfl | hs
      · refine Int.le_trans ?_ hh.1
        split <;> omega
      · exact hh.2 s hs

theorem segLookahead_nonneg {C : Type} (sels : List (Sel C)) : 0 ≤ segLookahead sels := (segLookahead_ge sels 0).1

theorem segLookahead_le {C : Type} (sels : List (Sel C)) : ∀ s ∈ sels, s.lookahead ≤ segLookahead sels := (segLookahead_ge sels 0).2

/-- The window of a segment always fits in an `int64`. -/
theorem segLookahead_fits {C : Type} (sels : List (Sel C)) : segLookahead sels ≤ maxInt64 := by
  have hi : ∀ x : Int, i64 x ≤ maxInt64 := by intro x; unfold i64 maxInt64; omega
  have h0 : (0 : Int) ≤ maxInt64 := by decide
  have hl : ∀ s : Sel C, s.lookahead ≤ maxInt64 := by
    intro s
    cases s with
    | index j => simp only [Sel.lookahead]; split <;> first | exact hi _ | exact h0
    | slice a b c => simp only [Sel.lookahead]; split <;> (try split) <;> first | exact hi _ | exact h0
    | rslice a b c =>
      simp only [Sel.lookahead]; split <;> (try split) <;> (try split) <;> first | exact hi _ | exact h0 | exact Int.le_refl _
    | _ => exact h0
  have : ∀ (l : Int), l ≤ maxInt64 → sels.foldl (fun l s => if s.lookahead > l then s.lookahead else l) l ≤ maxInt64 := by
    induction sels with
    | nil => intro l h; exact h
    | cons s tl ih => intro l h; refine ih _ ?_; simp only []; split <;> first | exact hl s | exact h
  exact this 0 h0

theorem i64_id (x : Int) (h1 : minInt64 ≤ x) (h2 : x ≤ maxInt64) : i64 x = x := by
  unfold i64 minInt64 maxInt64 at *
  omega

/-- No offset overflows. -/
theorem offset_eq (b i m : Int) (hb : minInt64 ≤ b) (hb2 : b ≤ maxInt64) (hi : 0 ≤ i) (hi2 : i ≤ maxInt64) (hm : m < 0) (hm2 : minInt64 ≤ m) :
    Sel.offset b i m = if b < 0 then m - b else i - b := by
  unfold Sel.offset
  split <;> rw [i64_id] <;> unfold minInt64 maxInt64 at * <;> omega

/-- The bounds of compiled slices. -/
theorem compileSlice_cases {C : Type} (start stop : Option Int) (step : Int) (hs : ∀ x, start = some x → IJson x)
    (he : ∀ x, stop = some x → IJson x) :
    (compileSlice start stop step : Sel C) = .default ∨
    (∃ s e, (compileSlice start stop step : Sel C) = .slice s e step ∧ 0 < step ∧ IJson s ∧ (IJson e ∨ e = maxInt64) ∧
      s = start.getD 0 ∧ e = stop.getD maxInt64 ∧ ¬ (0 ≤ e ∧ e ≤ s ∨ s < 0 ∧ s ≥ e)) ∨
    (∃ s e, (compileSlice start stop step : Sel C) = .rslice s e step ∧ step < 0 ∧ IJson s ∧ (IJson e ∨ e = minInt64) ∧
      s = start.getD (-1) ∧ e = stop.getD minInt64 ∧ ¬ (0 ≤ s ∧ e ≥ s ∨ e < 0 ∧ s ≤ e)) := by
  have hstart : ∀ d, IJson d → IJson (start.getD d) := by
    intro d hd
    cases start with
    | none => exact hd
    | some x => exact hs x rfl
  have hstop : ∀ d, IJson (stop.getD d) ∨ stop.getD d = d := by
    intro d
    cases stop with
    | none => exact .inr rfl
    | some x => exact .inl (he x rfl)
  unfold compileSlice
  by_cases h0 : step = 0
  · rw [if_pos h0]; exact .inl rfl
  rw [if_neg h0]
  by_cases h1 : step < 0
  · rw [if_pos h1]
    simp only []
    split
    · exact .inl rfl
    · rename_i hn
      exact .inr (.inr ⟨_, _, rfl, h1, hstart _ (by unfold IJson; omega), hstop _, rfl, rfl, hn⟩)
  · rw [if_neg h1]
    simp only []
    split
    · exact .inl rfl
    · rename_i hn
      exact .inr (.inl ⟨_, _, rfl, by omega, hstart _ (by unfold IJson; omega), hstop _, rfl, rfl, hn⟩)

theorem lookahead_slice {C : Type} (s e step : Int) (hs : IJson s) (he : IJson e ∨ e = maxInt64) :
    (Sel.slice s e step : Sel C).lookahead = max (max (-s) (-e)) 0 := by
  simp only [Sel.lookahead]
  rw [i64_id (-s) (by unfold IJson minInt64 at *; omega) (by unfold IJson maxInt64 at *; omega),
    i64_id (-e) (by unfold IJson minInt64 maxInt64 at *; omega) (by unfold IJson maxInt64 at *; omega)]
  split <;> split <;> omega

theorem lookahead_rslice {C : Type} (s e step : Int) (hs : IJson s) (he : IJson e ∨ e = minInt64) :
    (Sel.rslice s e step : Sel C).lookahead =
      if s < 0 ∧ (0 ≤ e ∨ e = minInt64) ∧ step < -1 then maxInt64 else max (max (-s) (if e = minInt64 then 0 else -e)) 0 := by
  simp only [Sel.lookahead]
  rw [i64_id (-s) (by unfold IJson minInt64 at *; omega) (by unfold IJson maxInt64 at *; omega)]
  have : i64 (-e) = if e = minInt64 then minInt64 else -e := by
    split
    · rename_i h; subst h; decide
    · rename_i h
      exact i64_id _ (by unfold IJson minInt64 at *; omega) (by unfold IJson minInt64 maxInt64 at *; omega)
  rw [this]
  have hmin : minInt64 < 0 := by decide
  have hmax : 0 < maxInt64 := by decide
  have hms : minInt64 < -s := by unfold IJson minInt64 at *; omega
  by_cases h : e = minInt64
  · subst h
    simp only [if_true, or_true, true_and]
    by_cases hc : s < 0 ∧ step < -1
    · rw [if_pos (c := s < 0 ∧ minInt64 ≤ 0 ∧ step < -1) ⟨hc.1, by omega, hc.2⟩, if_pos hc, if_pos hmax]
    · rw [if_neg (c := s < 0 ∧ minInt64 ≤ 0 ∧ step < -1) (by omega), if_neg hc, if_neg (c := minInt64 > -s) (by omega)]
      split <;> omega
  · simp only [if_neg h]
    by_cases hc : s < 0 ∧ (0 ≤ e ∨ e = minInt64) ∧ step < -1
    · rw [if_pos (c := s < 0 ∧ -e ≤ 0 ∧ step < -1) (by omega), if_pos hc, if_pos hmax]
    · rw [if_neg (c := s < 0 ∧ -e ≤ 0 ∧ step < -1) (by omega), if_neg hc]
      split <;> split <;> omega

/-- Comparing with the window is comparing with the exact negative index, for bounds within the window. -/
theorem window_cmp (L : Int) (hL0 : 0 ≤ L) (hL1 : L ≤ maxInt64) (n i : Nat) (hi : i < n) (hn : (n : Int) ≤ maxInt64) :
    minInt64 ≤ (negIndexAt L n i).1 ∧ (negIndexAt L n i).1 < 0 ∧
    (∀ b : Int, b < 0 → -L ≤ b → ((negIndexAt L n i).1 < b ↔ (i : Int) - n < b) ∧ ((negIndexAt L n i).1 = b ↔ (i : Int) - n = b)) ∧
    (∀ b : Int, b < 0 → -L ≤ b → b ≤ (negIndexAt L n i).1 → (negIndexAt L n i).1 = (i : Int) - n) ∧
    (L = maxInt64 → (negIndexAt L n i).1 = (i : Int) - n) ∧
    minInt64 < (negIndexAt L n i).1 := by
  rcases negIndexAt_cases L hL0 n i hi with h | ⟨h1, h2, h3⟩ | ⟨h1, h2⟩
  · rw [h]; unfold minInt64 maxInt64 at *
    refine ⟨by omega, by omega, fun b hb _ => ⟨Iff.rfl, Iff.rfl⟩, fun _ _ _ _ => rfl, fun _ => rfl, by omega⟩
  · rw [h2] at h1 ⊢; unfold minInt64 maxInt64 at *
    refine ⟨by omega, by omega, fun b hb _ => ⟨by omega, by omega⟩, fun _ _ _ _ => by omega, fun _ => by omega, by omega⟩
  · rw [h1]; unfold minInt64 maxInt64 at *
    refine ⟨by omega, by omega, fun b hb _ => ⟨by omega, by omega⟩, fun _ _ _ _ => by omega, fun _ => by omega, by omega⟩

/-- The decision taken with the window is the one taken with the exact negative index. -/
theorem fromIndex_window {C : Type} (sel : Sel C) (hc : Compiled sel) (L : Int) (hL0 : 0 ≤ L) (hL1 : L ≤ maxInt64)
    (hL : sel.lookahead ≤ L) (n i : Nat) (hi : i < n) (hn : (n : Int) ≤ maxInt64) :
    sel.fromIndex i (negIndexAt L n i).1 = sel.fromIndex i ((i : Int) - n) := by
  obtain ⟨m1, m2, m3, m4, m5, m6⟩ := window_cmp L hL0 hL1 n i hi hn
  generalize hm : (negIndexAt L n i).1 = m at *
  have e1 : minInt64 ≤ (i : Int) - n := by unfold minInt64 maxInt64 at *; omega
  have e2 : (i : Int) - n < 0 := by omega
  have hi0 : (0 : Int) ≤ i := by omega
  have hi1 : (i : Int) ≤ maxInt64 := by omega
  have hmin : minInt64 < 0 := by decide
  have hmax : 0 < maxInt64 := by decide
  cases hc with
  | default => rfl
  | name => rfl
  | wild => rfl
  | filter => rfl
  | index j hj =>
    have hj1 : minInt64 ≤ j := by unfold IJson minInt64 at *; omega
    have hj2 : j ≤ maxInt64 := by unfold IJson maxInt64 at *; omega
    simp only [Sel.fromIndex, offset_eq j i m hj1 hj2 hi0 hi1 m2 m1, offset_eq j i _ hj1 hj2 hi0 hi1 e2 e1]
    by_cases hneg : j < 0
    · simp only [if_pos hneg]
      have hl : -j ≤ L := by
        simp only [Sel.lookahead, if_pos hneg] at hL
        rwa [i64_id (-j) (by omega) (by unfold IJson maxInt64 at *; omega)] at hL
      obtain ⟨a, b⟩ := m3 j hneg (by omega)
      have c1 : (m - j > 0) = ((i : Int) - n - j > 0) := propext (by omega)
      have c2 : (m - j = 0) = ((i : Int) - n - j = 0) := propext (by omega)
      simp only [c1, c2]
    · simp only [if_neg hneg]
  | slice start stop step hs he hst =>
    rcases compileSlice_cases (C := C) start stop step hs he with h | ⟨s, e, h, h0, hs, he, -, -, hne⟩ | ⟨s, e, h, h0, hs, he, -, -, hne⟩
    · rw [h]; rfl
    · rw [h] at hL ⊢
      rw [lookahead_slice s e step hs he] at hL
      have hs1 : minInt64 ≤ s := by unfold IJson minInt64 at *; omega
      have hs2 : s ≤ maxInt64 := by unfold IJson maxInt64 at *; omega
      have he1 : minInt64 ≤ e := by unfold IJson minInt64 maxInt64 at *; omega
      have he2 : e ≤ maxInt64 := by unfold IJson maxInt64 at *; omega
      simp only [Sel.fromIndex, offset_eq s i m hs1 hs2 hi0 hi1 m2 m1, offset_eq s i _ hs1 hs2 hi0 hi1 e2 e1,
        offset_eq e i m he1 he2 hi0 hi1 m2 m1, offset_eq e i _ he1 he2 hi0 hi1 e2 e1]
      have k1 : ((if e < 0 then m - e else (i : Int) - e) ≥ 0) = ((if e < 0 then (i : Int) - n - e else (i : Int) - e) ≥ 0) := by
        by_cases hneg : e < 0
        · simp only [if_pos hneg]
          obtain ⟨a, b⟩ := m3 e hneg (by omega)
          exact propext (by omega)
        · simp only [if_neg hneg]
      have k2 : ((if s < 0 then m - s else (i : Int) - s) ≥ 0 ∧ (if s < 0 then m - s else (i : Int) - s).tmod step = 0) =
          ((if s < 0 then (i : Int) - n - s else (i : Int) - s) ≥ 0 ∧ (if s < 0 then (i : Int) - n - s else (i : Int) - s).tmod step = 0) := by
        by_cases hneg : s < 0
        · simp only [if_pos hneg]
          obtain ⟨a, b⟩ := m3 s hneg (by omega)
          by_cases hge : s ≤ m
          · rw [m4 s hneg (by omega) hge]
          · exact propext ⟨fun h => by omega, fun h => by omega⟩
        · simp only [if_neg hneg]
      simp only [k1, k2]
    · rw [h] at hL ⊢
      rw [lookahead_rslice s e step hs he] at hL
      have hs1 : minInt64 ≤ s := by unfold IJson minInt64 at *; omega
      have hs2 : s ≤ maxInt64 := by unfold IJson maxInt64 at *; omega
      have he1 : minInt64 ≤ e := by unfold IJson minInt64 at *; omega
      have he2 : e ≤ maxInt64 := by unfold IJson minInt64 maxInt64 at *; omega
      simp only [Sel.fromIndex, offset_eq s i m hs1 hs2 hi0 hi1 m2 m1, offset_eq s i _ hs1 hs2 hi0 hi1 e2 e1,
        offset_eq e i m he1 he2 hi0 hi1 m2 m1, offset_eq e i _ he1 he2 hi0 hi1 e2 e1]
      by_cases hbig : s < 0 ∧ (0 ≤ e ∨ e = minInt64) ∧ step < -1
      · rw [if_pos hbig] at hL
        rw [m5 (by omega)]
      rw [if_neg hbig] at hL
      have k1 : ((if s < 0 then m - s else (i : Int) - s) > 0) = ((if s < 0 then (i : Int) - n - s else (i : Int) - s) > 0) := by
        by_cases hneg : s < 0
        · simp only [if_pos hneg]
          obtain ⟨a, b⟩ := m3 s hneg (by omega)
          exact propext (by omega)
        · simp only [if_neg hneg]
      have k2 : ((if e < 0 then m - e else (i : Int) - e) > 0) = ((if e < 0 then (i : Int) - n - e else (i : Int) - e) > 0) := by
        by_cases hneg : e < 0
        · simp only [if_pos hneg]
          by_cases hd : e = minInt64
          · subst hd
            exact propext ⟨fun _ => by unfold minInt64 maxInt64 at *; omega, fun _ => by omega⟩
          · rw [if_neg hd] at hL
            obtain ⟨a, b⟩ := m3 e hneg (by omega)
            exact propext (by omega)
        · simp only [if_neg hneg]
      have k3 : ((if e < 0 then (i : Int) - n - e else (i : Int) - e) > 0 ∧ (if s < 0 then m - s else (i : Int) - s).tmod step = 0) =
          ((if e < 0 then (i : Int) - n - e else (i : Int) - e) > 0 ∧ (if s < 0 then (i : Int) - n - s else (i : Int) - s).tmod step = 0) := by
        by_cases hneg : s < 0
        · by_cases h1 : step = -1
          · subst h1
            simp only [Int.tmod_neg, Int.tmod_one]
          · -- the end is explicit and negative
            have hd : e ≠ minInt64 := by omega
            rw [if_neg hd] at hL
            have hen : e < 0 := by omega
            simp only [if_pos hneg, if_pos hen]
            obtain ⟨a, b⟩ := m3 e hen (by omega)
            by_cases hge : e ≤ m
            · rw [m4 e hen (by omega) hge]
            · exact propext ⟨fun h => by omega, fun h => by omega⟩
        · simp only [if_neg hneg]
      simp only [k1, k2, k3]

end Verif.JPath
