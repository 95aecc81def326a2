import Verif.JsonRun

/-!
# The fuel of the JSON decoder does not matter (helper lemmas)
-/

namespace Verif.Pure

theorem then_congr {x : PRes} {f g : Bytes → PRes} (h : ∀ r, x.2 = some (.ok r) → f r = g r) : x.then f = x.then g := by
  obtain ⟨ts, x⟩ := x
  match x with
  | none => rfl
  | some (.error e) => rfl
  | some (.ok r) => simp only [PRes.then, h r rfl]

theorem lift_congr {α : Type} {x : Except PErr α} {f g : α → PRes} (h : ∀ y, x = .ok y → f y = g y) : lift x f = lift x g := by
  cases x with
  | error e => rfl
  | ok y => exact h y rfl

theorem mono (fin : RErr) (n : Nat) :
    (∀ r m, 2 * r.length + 1 ≤ n → n ≤ m → value fin m r = value fin n r) ∧
    (∀ r m, 2 * r.length + 2 ≤ n → n ≤ m → items fin m r = items fin n r) ∧
    (∀ r m, 2 * r.length + 2 ≤ n → n ≤ m → members fin m r = members fin n r) := by
  induction n with
  | zero => refine ⟨?_, ?_, ?_⟩ <;> (intro r m h; omega)
  | succ n ih =>
    obtain ⟨ihv, ihi, ihm⟩ := ih
    refine ⟨?_, ?_, ?_⟩ <;> (intro r m h hm; obtain ⟨m, rfl⟩ : ∃ k, m = k + 1 := ⟨m - 1, by omega⟩)
    · rw [value, value]
      refine lift_congr fun x hx => ?_
      obtain ⟨hw, _⟩ := chk_ok hx
      have hl := ws_le r
      rw [hw, List.length_cons] at hl
      have hl2 := ws_le x.2
      have hi := ihi (ws x.2) m (by omega) (by omega)
      have hmm := ihm (ws x.2) m (by omega) (by omega)
      simp only [arr, obj, hi, hmm]
    · rw [items, items]
      rw [ihv r m (by omega) (by omega)]
      refine then_congr fun r1 hr1 => ?_
      have hf := (fits fin n).1 r (by omega)
      simp only [Fits, hr1] at hf
      refine lift_congr fun x hx => ?_
      obtain ⟨hw, _⟩ := chk_ok hx
      have hl := ws_le r1
      rw [hw, List.length_cons] at hl
      rw [ihi x.2 m (by omega) (by omega)]
    · rw [members, members]
      refine lift_congr fun k hk => ?_
      have hks := congrArg List.length (string_split hk).1
      have h0 := List.length_pos_iff.2 (string_split hk).2
      simp only [List.length_append] at hks
      refine congrArg (put _) (lift_congr fun x hx => ?_)
      obtain ⟨hw, _⟩ := chk_ok hx
      have hl := ws_le k.2
      rw [hw, List.length_cons] at hl
      rw [ihv x.2 m (by omega) (by omega)]
      split
      · rfl
      refine then_congr fun r1 hr1 => ?_
      have hf := (fits fin n).1 x.2 (by omega)
      simp only [Fits, hr1] at hf
      refine lift_congr fun y hy => ?_
      obtain ⟨hw2, _⟩ := chk_ok hy
      have hl2 := ws_le r1
      rw [hw2, List.length_cons] at hl2
      have hl3 := ws_le y.2
      rw [ihm (ws y.2) m (by omega) (by omega)]

theorem produce_mono (fin : RErr) (n : Nat) : ∀ (r : Bytes) (v v' m : Nat), 2 * r.length + 1 ≤ v → v ≤ v' →
    r.length + 1 ≤ n → n ≤ m → produce fin v' m r = produce fin v n r := by
  induction n with
  | zero => intro r v v' m _ _ h; omega
  | succ n ih =>
    intro r v v' m hv hv' hn hm
    obtain ⟨m, rfl⟩ : ∃ k, m = k + 1 := ⟨m - 1, by omega⟩
    rw [produce, produce]
    have hl := ws_le r
    cases hw : ws r with
    | nil => rfl
    | cons b r' =>
      rw [hw, List.length_cons] at hl
      simp only
      rw [(mono fin v).1 _ v' (by simp only [List.length_cons]; omega) hv']
      split
      · rfl
      · refine then_congr fun r1 hr1 => ?_
        have hf := (fits fin v).1 (b :: r') (by simp only [List.length_cons]; omega)
        simp only [Fits, hr1, List.length_cons] at hf
        exact ih r1 v v' m (by omega) hv' (by omega) (by omega)

/-- Decoding of a whole input. -/
def decode (fin : RErr) (D : Bytes) : PRes := produce fin (Json.fuelFor D.length) (Json.fuelFor D.length) D

theorem decode_eq (fin : RErr) (D : Bytes) {v n : Nat} (hv : Json.fuelFor D.length ≤ v) (hn : Json.fuelFor D.length ≤ n) :
    produce fin v n D = decode fin D := by
  unfold decode
  exact produce_mono fin _ D _ _ _ (by unfold Json.fuelFor; omega) hv (by unfold Json.fuelFor; omega) hn

theorem decode_fits (fin : RErr) (D : Bytes) : Fits (decode fin D) D.length :=
  fits_produce fin _ D _ (by unfold Json.fuelFor; omega) (by unfold Json.fuelFor; omega)

end Verif.Pure

namespace Verif

/-- A run of the decoder on the buffered scanner. -/
theorem decodeFrom_decode (r : Reader) (size : Nat) (hs : 2 ≤ size) :
    ∃ D fin, Delivers r D fin ∧ Json.decodeFrom r size = outOf D fin (Pure.decode fin D) := by
  obtain ⟨D, fin, hd, hx⟩ := decodeFrom_eq r size hs
  refine ⟨D, fin, hd, ?_⟩
  have hl := hd.le
  rw [hx, Pure.decode_eq] <;> (unfold Json.fuelFor; omega)

/-- For a reader that makes progress. -/
theorem decodeFrom_fair (r : Reader) (size : Nat) (hs : 2 ≤ size) (hf : Fair r.sched) :
    Json.decodeFrom r size = outOf r.rest r.fin (Pure.decode r.fin r.rest) := by
  obtain ⟨D, fin, hd, hx⟩ := decodeFrom_decode r size hs
  rcases hd with ⟨rfl, rfl⟩ | ⟨h, _⟩
  · exact hx
  · exact absurd hf h

end Verif
